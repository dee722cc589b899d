import Verif.Lemmas.RescoredTotal
import Mathlib.Data.Finset.Card
import Mathlib.Data.Finset.Range
import Mathlib.Logic.Relation
import Verif.Props.Decoder
/-!
# Properties of rescored lattices (C35, C36, C73, C74)
-/
namespace TheanoLM

variable {S St : Type} [Field S] [LinearOrder S] {D : Decoder S St} {L : Lattice S} {idToWord : Nat → Option Str}

set_option linter.unusedSectionVars false

/-- Lattices that can be rescored: there is only one way from a node to a following word, and sentence start and end
words are not on links. -/
structure Rescorable (D : Decoder S St) (L : Lattice S) (idToWord : Nat → Option Str) : Prop where
  wf : L.WF
  determinized : Determinized L
  vocabulary : VocabInverse D.vocab idToWord
  boundary : ∃ sos eos : Str, idToWord D.vocab.sos = some sos ∧ idToWord D.vocab.eos = some eos ∧
    ∀ k ∈ L.links, k.word ≠ some sos ∧ k.word ≠ some eos

theorem tokenFor_of (hr : Rescorable D L idToWord) {t : Token S St} {ls : List (Link S)} {n : Nat}
    (hp : L.Path L.initial ls n) (hf : L.Final n) (hd : DescribesPath D ls t) : TokenFor L idToWord t ls := by
  obtain ⟨⟨ws, h1, h2⟩, h3, h4⟩ := hd
  obtain ⟨sos, eos, _, g2, g3⟩ := hr.boundary
  refine ⟨n, eos, hp, hf, ?_, fun k hk => (g3 k hk).2, h3, h4⟩
  rw [h1, List.cons_append, List.tail_cons]
  exact historyWords_append _ _ _ (historyWords_of _ _ hr.vocabulary h2) (by simp [historyWords, g2])

theorem recombFor_of (hr : Rescorable D L idToWord) {finals : List (Token S St)} {recombs : List (Recomb S St)}
    (h : decode D L = .ok (finals, recombs)) : ∀ e ∈ recombs, RecombFor L idToWord e := by
  intro e he
  obtain ⟨sos, eos, g1, g2, g3⟩ := hr.boundary
  have hs : historyWords idToWord [.inl D.vocab.sos] = .ok [sos] := by simp [historyWords, g1]
  have hsl : ∀ k ∈ L.links, k.word ≠ some sos := fun k hk => (g3 k hk).1
  rcases C29_recombined hr.wf finals recombs h e he with
    ⟨ls, ls', n, ws, ws', h1, h2, h3, h4, _, _, h5, h6, _⟩ | ⟨ls, n, h1, h2, ⟨⟨ws, h3, h4⟩, _⟩, k, hk, h5, _⟩
  · exact ⟨_, _, ws, ws', sos, sos, h3, h5, hs, hs, hsl, hsl, Or.inr ⟨ls, ls', n, h1, h2,
      historyWords_of _ _ hr.vocabulary h4, historyWords_of _ _ hr.vocabulary h6⟩⟩
  · obtain ⟨ls', n', _, _, ⟨⟨ws', h6, h7⟩, _⟩⟩ := C29_tokens hr.wf finals recombs h k hk
    refine ⟨.inl D.vocab.sos, .inl D.vocab.sos, ws ++ [.inl D.vocab.eos], ws' ++ [.inl D.vocab.eos], sos, sos, by rw [h3]; rfl,
      by rw [h5, h6]; rfl, hs, hs, hsl, hsl, Or.inl ⟨eos, .inl D.vocab.eos, by simp, by simp [historyWords, g2],
      fun k hk => (g3 k hk).2⟩⟩

theorem rescored_ok {depth : Nat} {finals : List (Token S St)} {recombs : List (Recomb S St)} {N : Lattice S}
    (h : rescoredLattice L depth idToWord finals recombs = .ok N) :
    ∃ R : RLat S, buildRescored L depth idToWord finals recombs = .ok R ∧ N = R.toLattice L.utteranceId := by
  unfold rescoredLattice at h
  split at h
  · cases h
  · rename_i R hR; cases h; exact ⟨R, hR, rfl⟩

theorem final_toLattice {R : RLat S} {u : Option Str} {n : Nat} : (R.toLattice u).Final n ↔ n = R.nodes.length := by
  unfold Lattice.Final RLat.toLattice
  simp only [List.getElem?_append, List.length_map]
  constructor
  · rintro ⟨node, h1, h2⟩
    split at h1
    · rw [List.getElem?_map] at h1
      obtain ⟨x, _, rfl⟩ := Option.map_eq_some_iff.mp h1
      cases h2
    · rename_i hge
      have := (List.getElem?_eq_some_iff.mp h1).1
      simp at this
      omega
  · rintro rfl
    exact ⟨⟨[], [], none, true⟩, by simp, rfl⟩

section
variable {depth : Nat} {finals : List (Token S St)} {recombs : List (Recomb S St)} {N : Lattice S}

/-- The steps of constructing a rescored lattice. -/
theorem rescored_inv (hr : Rescorable D L idToWord) (hdec : decode D L = .ok (finals, recombs))
    (h : rescoredLattice L depth idToWord finals recombs = .ok N) : ∃ (maps : List (List (Str × Nat))) (R1 R : RLat S)
    (info : List (Nat × List Str)), wordMaps L depth (List.range L.nodes.length) = .ok maps ∧
    RInv L True True (FinalFor L idToWord finals) info R1 ∧
    (∀ t ∈ finals, ∀ ls, TokenFor L idToWord t ls → HasFinal R1 (pathText ls)) ∧
    addAll (addRecomb L maps depth idToWord) recombs.reverse R1 = .ok R ∧ N = R.toLattice L.utteranceId := by
  obtain ⟨R, hb, rfl⟩ := rescored_ok h
  obtain ⟨maps, R1, hm, h1, h2⟩ := build_ok hb
  obtain ⟨info, g1, _, g3⟩ := addFinals_inv hr.wf hr.determinized hm idToWord finals finals (fun t ht => ht)
    (fun t ht => by
      obtain ⟨ls, n, a1, a2, a3⟩ := C29_tokens hr.wf finals recombs hdec t ht
      exact ⟨ls, tokenFor_of hr a1 a2 a3⟩) (rinv_init hr.wf.initial) h1
  exact ⟨maps, R1, R, info, hm, g1, g3, h2, rfl⟩

/-- C35: for every token that was returned by the decoder, there is a path from the initial node to a final node with
the words of the token. -/
theorem C35_contains_partial (hr : Rescorable D L idToWord) (hdec : decode D L = .ok (finals, recombs))
    (h : rescoredLattice L depth idToWord finals recombs = .ok N) :
    ∀ t ∈ finals, ∃ (rs : List (Link S)) (n : Nat) (ws : List HistWord), N.Path N.initial rs n ∧ N.Final n ∧
      t.history = .inl D.vocab.sos :: ws ++ [.inl D.vocab.eos] ∧ List.Forall₂ (HistIs D.vocab) (pathText rs) ws := by
  intro t ht
  obtain ⟨maps, R1, R, info, hm, g1, g2, g3, rfl⟩ := rescored_inv hr hdec h
  obtain ⟨ls, n, a1, a2, a3⟩ := C29_tokens hr.wf finals recombs hdec t ht
  have hf := (g2 t ht ls (tokenFor_of hr a1 a2 a3)).mono (addRecombs_links _ g3)
  obtain ⟨rs, b1, b2⟩ := hasFinal_path (u := L.utteranceId) hf
  obtain ⟨⟨ws, c1, c2⟩, _⟩ := a3
  exact ⟨rs, R.nodes.length, ws, b1, final_toLattice.mpr rfl, c1, by rw [b2]; exact c2⟩

/-- C35: the words of every complete path are the words of a complete path of the original lattice, if it does not
contain null links or no tokens were recombined. -/
theorem C35_sound_partial (hr : Rescorable D L idToWord) (hn : recombs = [] ∨ NoNulls L)
    (hdec : decode D L = .ok (finals, recombs)) (h : rescoredLattice L depth idToWord finals recombs = .ok N)
    (rs : List (Link S)) (n : Nat) (hp : N.Path N.initial rs n) (hf : N.Final n) :
    ∃ (ls : List (Link S)) (m : Nat), L.Path L.initial ls m ∧ L.Final m ∧ pathText ls = pathText rs := by
  obtain ⟨maps, R1, R, info, hm, g1, g2, g3, rfl⟩ := rescored_inv hr hdec h
  obtain ⟨info', hI⟩ : ∃ info', RInv L False False (FinalFor L idToWord finals) info' R := by
    have g1' := g1.mono False False.elim False False.elim _ (fun _ _ _ h => h)
    rcases hn with rfl | hn
    · cases g3; exact ⟨info, g1'⟩
    · exact addRecombs_inv hr.wf hr.determinized hn False.elim hm idToWord _
        (fun e he => recombFor_of hr hdec e (List.mem_reverse.mp he)) g1' g3
  rw [final_toLattice] at hf
  rcases path_inv hI hp with ⟨b, ws, segs, h1, _⟩ | ⟨_, rs', k, b, ws, segs, e1, e2, e3, e4, _, _, e5, e6, e7, e8, _⟩
  · have := (List.getElem?_eq_some_iff.mp h1).1
    rw [← hI.len] at this; omega
  · obtain ⟨t, ht, ls, m, nulls, segs', a1, a2, rfl, a4, a5, a6, a7, a8⟩ := e6
    obtain ⟨p1, p2⟩ := wordPath_path e8
    refine ⟨segs.flatten ++ nulls, m, path_append p1 a7, a8, ?_⟩
    rw [pathText_append, p2, pathText_nulls a5, List.append_nil, e5]

/-- C35: if no tokens were recombined, the complete paths are those of the tokens. -/
theorem C35_exact_partial (hr : Rescorable D L idToWord) (hdec : decode D L = .ok (finals, []))
    (h : rescoredLattice L depth idToWord finals [] = .ok N)
    (rs : List (Link S)) (n : Nat) (hp : N.Path N.initial rs n) (hf : N.Final n) :
    ∃ t ∈ finals, ∃ (ws : List HistWord), t.history = .inl D.vocab.sos :: ws ++ [.inl D.vocab.eos] ∧
      List.Forall₂ (HistIs D.vocab) (pathText rs) ws := by
  obtain ⟨maps, R1, R, info, hm, hI, g2, g3, rfl⟩ := rescored_inv hr hdec h
  cases g3
  rw [final_toLattice] at hf
  rcases path_inv hI hp with ⟨b, ws, segs, h1, _⟩ | ⟨_, rs', k, b, ws, segs, e1, e2, e3, e4, _, _, e5, e6, e7, e8, e9⟩
  · have := (List.getElem?_eq_some_iff.mp h1).1
    rw [← hI.len] at this; omega
  · obtain ⟨t, ht, ls, m, nulls, segs', a1, a2, a3, a4, a5, a6, a7, a8⟩ := e6
    obtain ⟨ls', n', _, _, ⟨ws', c1, c2⟩, _⟩ := C29_tokens hr.wf finals [] hdec t ht
    obtain ⟨_, eos, _, _, d1, _⟩ := a2
    refine ⟨t, ht, ws', c1, ?_⟩
    rw [c1, List.cons_append, List.tail_cons] at d1
    obtain ⟨x, y, f1, f2, f3⟩ := historyWords_snoc_inv _ _ _ d1
    obtain ⟨rfl, _⟩ := List.append_inj' f1 rfl
    rw [historyWords_of _ _ hr.vocabulary c2] at f2
    injection f2 with f2
    rw [e5, ← (e9 trivial).1, a3, ← f2]
    exact c2

/-- C36: the transitions of a link are those of the original path in the same order, if null links do not have
transitions and no tokens were recombined. -/
theorem C36_partial (hr : Rescorable D L idToWord) (hn : ∀ k ∈ L.links, k.word = none → k.transitions = [])
    (hdec : decode D L = .ok (finals, [])) (h : rescoredLattice L depth idToWord finals [] = .ok N)
    (rs : List (Link S)) (v : Nat) (hp : N.Path N.initial rs v) (hf : ¬ N.Final v) :
    ∃ (segs : List (List (Link S))) (m : Nat), L.Path L.initial segs.flatten m ∧
      List.Forall₂ (fun (r : Link S) (seg : List (Link S)) => pathText seg = r.word.toList ∧
        r.transitions = (seg.map Link.transitions).flatten) rs segs := by
  obtain ⟨maps, R1, R, info, hm, hI, g2, g3, rfl⟩ := rescored_inv hr hdec h
  cases g3
  rw [final_toLattice] at hf
  rcases path_inv hI hp with ⟨b, ws, segs, h1, h2, h3⟩ | ⟨h1, _⟩
  · have hw : ∀ seg ∈ segs, ∃ a w c, WordStep L a w seg c := by
      clear h3 h1 hp hf
      generalize pathText rs = tx at h2
      generalize L.initial = q at h2
      induction h2 with
      | nil => simp
      | cons a b c w ws seg segs h1 _ ih =>
        intro seg' hs
        rcases List.mem_cons.mp hs with rfl | hs
        · exact ⟨a, w, c, h1⟩
        · exact ih seg' hs
    refine ⟨segs, b, (wordPath_path h2).1, ?_⟩
    have h4 := (h3 trivial).2
    clear h3 h1 hp hf h2
    induction h4 with
    | nil => exact .nil
    | @cons r seg rs segs h5 _ ih =>
      refine .cons ⟨h5.1, ?_⟩ (ih (fun s hs => hw s (List.mem_cons_of_mem _ hs)))
      obtain ⟨a, w, c, ns, k, rfl, e1, e2, e3⟩ := hw seg (by simp)
      have hnull : (ns.map Link.transitions).flatten = [] := by
        rw [List.flatten_eq_nil_iff]
        intro x hx
        obtain ⟨y, hy, rfl⟩ := List.mem_map.mp hx
        obtain ⟨q, h6, _⟩ := path_append_inv e3
        refine hn y ?_ (e1 y hy)
        obtain ⟨l1, l2, rfl⟩ := List.append_of_mem hy
        obtain ⟨_, _, h7⟩ := path_append_inv h6
        exact (path_cons_inv h7).1
      have hnull' : (ns.reverse.map Link.transitions).flatten = [] := by
        rw [List.flatten_eq_nil_iff] at hnull ⊢
        intro x hx
        exact hnull x (by simpa using hx)
      rw [h5.2.2.2, List.reverse_append, List.map_append, List.map_append, List.flatten_append, List.flatten_append,
        hnull, hnull']
      simp
  · exact absurd h1 hf

theorem sum_sameScores {rs : List (Link S)} {segs : List (List (Link S))} (h : List.Forall₂ SameScores rs segs) :
    acOf rs = acOf segs.flatten ∧ lmOf rs = lmOf segs.flatten := by
  induction h with
  | nil => exact ⟨rfl, rfl⟩
  | @cons r seg rs segs h1 _ ih =>
    obtain ⟨_, h2, h3, _⟩ := h1
    constructor
    · rw [show acOf (r :: rs) = r.ac.getD 0 + acOf rs by simp [acOf], h2, ih.1]
      simp [acOf]
    · rw [show lmOf (r :: rs) = r.lm.getD 0 + lmOf rs by simp [lmOf], h3, ih.2]
      simp [lmOf]

/-- C73: the scores of every complete path are those of the token with the same words: the acoustic score is equal, and
the language model score is the sum of the original score and the score of the neural network.  What is missing are the
scores of the null links after the last word. -/
theorem C73_partial (hr : Rescorable D L idToWord) (hdec : decode D L = .ok (finals, []))
    (h : rescoredLattice L depth idToWord finals [] = .ok N)
    (rs : List (Link S)) (n : Nat) (hp : N.Path N.initial rs n) (hf : N.Final n) :
    ∃ t ∈ finals, ∃ (ls : List (Link S)) (m : Nat) (before nulls : List (Link S)), L.Path L.initial ls m ∧ L.Final m ∧
      (∃ ws : List HistWord, t.history = .inl D.vocab.sos :: ws ++ [.inl D.vocab.eos] ∧
        List.Forall₂ (HistIs D.vocab) (pathText rs) ws) ∧
      pathText ls = pathText rs ∧ t.ac = acOf ls ∧ t.latLm = lmOf ls ∧ ls = before ++ nulls ∧
      (∀ k ∈ nulls, k.word = none) ∧ acOf rs = acOf before ∧ lmOf rs = lmOf before + t.nnLm := by
  obtain ⟨maps, R1, R, info, hm, hI, g2, g3, rfl⟩ := rescored_inv hr hdec h
  cases g3
  rw [final_toLattice] at hf
  rcases path_inv hI hp with ⟨b, ws, segs, h1, _⟩ |
    ⟨_, rs', k, b, ws, segs, e1, e2, e3, e4, hac, _, e5, e6, e7, e8, e9⟩
  · have := (List.getElem?_eq_some_iff.mp h1).1
    rw [← hI.len] at this; omega
  · obtain ⟨t, ht, ls, m, nulls, segs', a1, a2, a3, a4, a5, a6, a7, a8⟩ := e6
    obtain ⟨n', eos, b1, b2, b3, b4, b5, b6⟩ := a2
    have hsegs : segs = segs' := by
      have hw := (e9 trivial).1
      rw [← hw] at e8
      clear e9 e7 a3 a4 hw a7
      revert e8
      generalize L.initial = q at a6 ⊢
      clear b1 hp
      induction a6 generalizing segs with
      | nil => intro e8; cases e8; rfl
      | cons a b c w ws seg segs0 h1 _ ih =>
        intro e8
        cases e8 with
        | cons _ _ c' _ _ seg' segs1 h2 h3 =>
          obtain ⟨rfl, rfl⟩ := hr.determinized _ _ _ _ _ _ h1 h2
          rw [ih (segs := segs1) h3]
    subst hsegs
    obtain ⟨s1, s2⟩ := sum_sameScores (e9 trivial).2
    refine ⟨t, ht, ls, n', segs.flatten, nulls, b1, b2, ?_, ?_, b5, b6, a4, a5, ?_, ?_⟩
    · obtain ⟨_, _, _, _, ⟨ws', c1, c2⟩, _⟩ := C29_tokens hr.wf finals [] hdec t ht
      refine ⟨ws', c1, ?_⟩
      rw [c1, List.cons_append, List.tail_cons] at b3
      obtain ⟨x, y, f1, f2, f3⟩ := historyWords_snoc_inv _ _ _ b3
      obtain ⟨rfl, _⟩ := List.append_inj' f1 rfl
      rw [historyWords_of _ _ hr.vocabulary c2] at f2
      injection f2 with f2
      rw [e5, ← (e9 trivial).1, a3, ← f2]
      exact c2
    · rw [← a3, e5]; exact (e9 trivial).1
    · rw [← s1, e1]; simp [acOf, RLink.toLink, hac]
    · rw [← s2, e1]; simp [lmOf, RLink.toLink, a1]

/-- C73: scores are kept when null links do not have scores. -/
theorem C73_no_null_scores (hr : Rescorable D L idToWord)
    (hz : ∀ k ∈ L.links, k.word = none → k.ac.getD 0 = 0 ∧ k.lm.getD 0 = 0) (hdec : decode D L = .ok (finals, []))
    (h : rescoredLattice L depth idToWord finals [] = .ok N)
    (rs : List (Link S)) (n : Nat) (hp : N.Path N.initial rs n) (hf : N.Final n) :
    ∃ t ∈ finals, ∃ ws : List HistWord, t.history = .inl D.vocab.sos :: ws ++ [.inl D.vocab.eos] ∧
      List.Forall₂ (HistIs D.vocab) (pathText rs) ws ∧ acOf rs = t.ac ∧ lmOf rs = t.latLm + t.nnLm := by
  obtain ⟨t, ht, ls, m, before, nulls, h1, h2, ⟨ws, c1, c2⟩, h3, h4, h5, rfl, h6, h7, h8⟩ := C73_partial hr hdec h rs n hp hf
  refine ⟨t, ht, ws, c1, c2, ?_, ?_⟩
  · rw [h7, h4]
    have : ∀ k ∈ nulls, k.ac.getD 0 = 0 := fun k hk => by
      obtain ⟨_, _, h9⟩ := path_append_inv h1
      obtain ⟨l1, l2, rfl⟩ := List.append_of_mem hk
      obtain ⟨_, _, h10⟩ := path_append_inv h9
      exact (hz k (path_cons_inv h10).1 (h6 k hk)).1
    unfold acOf
    rw [List.map_append, List.sum_append, List.sum_eq_zero (l := nulls.map _), add_zero]
    intro x hx
    obtain ⟨k, hk, rfl⟩ := List.mem_map.mp hx
    exact this k hk
  · rw [h8, h5]
    have : ∀ k ∈ nulls, k.lm.getD 0 = 0 := fun k hk => by
      obtain ⟨_, _, h9⟩ := path_append_inv h1
      obtain ⟨l1, l2, rfl⟩ := List.append_of_mem hk
      obtain ⟨_, _, h10⟩ := path_append_inv h9
      exact (hz k (path_cons_inv h10).1 (h6 k hk)).2
    unfold lmOf
    rw [List.map_append, List.sum_append, List.sum_eq_zero (l := nulls.map _), add_zero]
    intro x hx
    obtain ⟨k, hk, rfl⟩ := List.mem_map.mp hx
    exact this k hk

end

/-- There is a null link from `a` to `b`. -/
def Lattice.NullEdge (L : Lattice S) (a b : Nat) : Prop :=
  ∃ k : Link S, k ∈ L.links ∧ k.word = none ∧ k.startNode = a ∧ k.endNode = b

theorem null_rank (hw : L.WF) (hc : ∀ n, ¬ Relation.TransGen L.NullEdge n n) : ∃ r : Nat → Nat,
    (∀ k ∈ L.links, k.word = none → r k.endNode < r k.startNode) ∧ ∀ n, r n < L.nodes.length + 1 := by
  classical
  refine ⟨fun n => ((Finset.range L.nodes.length).filter (fun m => Relation.TransGen L.NullEdge n m)).card, ?_, ?_⟩
  · intro k hk hkw
    have he : L.NullEdge k.startNode k.endNode := ⟨k, hk, hkw, rfl, rfl⟩
    apply Finset.card_lt_card
    rw [Finset.ssubset_iff_of_subset]
    · refine ⟨k.endNode, ?_, ?_⟩
      · simp only [Finset.mem_filter, Finset.mem_range]
        exact ⟨(hw.ends k hk).2, .single he⟩
      · simp only [Finset.mem_filter, Finset.mem_range, not_and]
        exact fun _ => hc _
    · intro m hm
      simp only [Finset.mem_filter, Finset.mem_range] at hm ⊢
      exact ⟨hm.1, .head he hm.2⟩
  · intro n
    have := Finset.card_filter_le (Finset.range L.nodes.length) (fun m => Relation.TransGen L.NullEdge n m)
    rw [Finset.card_range] at this
    exact Nat.lt_succ_of_le this

theorem sameRecent_last {order : Option Nat} {h h' : List HistWord} (hs : SameRecent order h h') :
    h.getLast? = h'.getLast? := by
  cases order with
  | none => rw [show h = h' from hs]
  | some n =>
    cases n with
    | zero => rw [show h = h' from hs]
    | succ n =>
      have hs : h.reverse.take (n + 1) = h'.reverse.take (n + 1) := hs
      have := congrArg List.head? hs
      simpa [List.head?_take] using this

theorem sameRecent_symm_words {f : Nat → Option Str} {x : HistWord} {xs : List HistWord} {ws : List Str} {y : Str}
    (h1 : historyWords f [x] = .ok [y]) (h2 : historyWords f xs = .ok ws) :
    ∃ (a : HistWord) (z : Str), (x :: xs).getLast? = some a ∧ historyWords f [a] = .ok [z] ∧
      ∃ ws', historyWords f (x :: xs).dropLast.tail = .ok ws' := by
  cases xs using List.reverseRecOn with
  | nil => exact ⟨x, y, rfl, h1, [], rfl⟩
  | append_singleton xs a =>
    obtain ⟨t, z, _, h3, h4⟩ := historyWords_snoc_inv f _ _ h2
    refine ⟨a, z, ?_, h4, t, ?_⟩
    · rw [← List.cons_append, List.getLast?_append]; rfl
    · rw [← List.cons_append, List.dropLast_concat]; exact h3

/-- C74: every result of decoding can be converted to a lattice, if there is no cycle of null links.  The lattice does
not have to be determinized. -/
theorem C74_succeeds {depth : Nat} {finals : List (Token S St)} {recombs : List (Recomb S St)} (hw : L.WF)
    (hv : VocabInverse D.vocab idToWord) (hs : idToWord D.vocab.sos ≠ none) (he : idToWord D.vocab.eos ≠ none)
    (hc : ∀ n, ¬ Relation.TransGen L.NullEdge n n) (hd : L.nodes.length < depth)
    (hdec : decode D L = .ok (finals, recombs)) :
    ∃ N : Lattice S, rescoredLattice L depth idToWord finals recombs = .ok N := by
  obtain ⟨r, hr, hrb⟩ := null_rank hw hc
  have hrd : ∀ n, r n < depth := fun n => by have := hrb n; omega
  obtain ⟨sos, hsos⟩ := Option.ne_none_iff_exists'.mp hs
  obtain ⟨eos, heos⟩ := Option.ne_none_iff_exists'.mp he
  have hsw : historyWords idToWord [.inl D.vocab.sos] = .ok [sos] := by simp [historyWords, hsos]
  have hew : historyWords idToWord [.inl D.vocab.eos] = .ok [eos] := by simp [historyWords, heos]
  obtain ⟨maps, hm⟩ := wordMaps_total hw r hr depth hrd (List.range L.nodes.length)
  have hfin : ∀ t ∈ finals, ∃ ws hw', t.history = .inl D.vocab.sos :: hw' ∧ historyWords idToWord hw' = .ok ws := by
    intro t ht
    obtain ⟨ls, n, a1, a2, ⟨ws, b1, b2⟩, _⟩ := C29_tokens hw finals recombs hdec t ht
    exact ⟨_, ws ++ [.inl D.vocab.eos], by rw [b1]; rfl, historyWords_append _ _ _ (historyWords_of _ _ hv b2) hew⟩
  obtain ⟨R1, h1, h2⟩ := addFinals_total hw r hr hrd hm idToWord finals ⟨[⟨[], []⟩], []⟩
    (by intro nd hnd p hp; simp only [List.mem_singleton] at hnd; subst hnd; cases hp)
    (fun t ht => by obtain ⟨ws, hw', e1, e2⟩ := hfin t ht; rw [e1]; exact ⟨ws, e2⟩)
  obtain ⟨R2, h3⟩ := addRecombs_total hw r hr hrd hm idToWord recombs.reverse R1 h2 (by
    intro e hem
    have hem := List.mem_reverse.mp hem
    have key : ∃ hw1 hw2 ws1 ws2, e.1.history = .inl D.vocab.sos :: hw1 ∧ e.2.1 = .inl D.vocab.sos :: hw2 ∧
        historyWords idToWord hw1 = .ok ws1 ∧ historyWords idToWord hw2 = .ok ws2 ∧
        e.1.history.getLast? = e.2.1.getLast? := by
      rcases C29_recombined hw finals recombs hdec e hem with
        ⟨ls, ls', n, ws, ws', a1, a2, a3, a4, _, _, a5, a6, a7⟩ | ⟨ls, n, a1, a2, ⟨⟨ws, a3, a4⟩, _⟩, k, hk, a5, _, _, a6⟩
      · exact ⟨_, _, _, _, a3, a5, historyWords_of _ _ hv a4, historyWords_of _ _ hv a6, sameRecent_last a7⟩
      · obtain ⟨ws2, hw2, e1, e2⟩ := hfin k hk
        exact ⟨ws ++ [.inl D.vocab.eos], _, _, _, by rw [a3]; rfl, by rw [a5, e1], historyWords_append _ _ _ (historyWords_of _ _ hv a4) hew, e2,
          by rw [a5]; exact sameRecent_last a6⟩
    obtain ⟨hw1, hw2, ws1, ws2, b1, b2, b3, b4, b5⟩ := key
    rw [b1, b2] at b5 ⊢
    obtain ⟨a, z, c1, c2, c3⟩ := sameRecent_symm_words hsw b3
    obtain ⟨a', z', d1, d2, d3⟩ := sameRecent_symm_words hsw b4
    rw [c1, d1] at b5
    cases b5
    exact ⟨a, z, c1, d1, c2, c3, d3⟩)
  refine ⟨R2.toLattice L.utteranceId, ?_⟩
  unfold rescoredLattice buildRescored
  rw [hm]
  simp only [h1, h3]

/-! ## Concrete cases -/

theorem det_of_check {S : Type} {L : Lattice S} (h : ∀ k ∈ L.links, ∀ k' ∈ L.links, k.startNode = k'.startNode →
    (k.word = none ∨ k.word = k'.word) → k = k') : Determinized L := by
  intro a w seg
  induction seg generalizing a with
  | nil =>
    intro seg' b b' h1
    obtain ⟨k, _, _, h2 | ⟨_, s, h2, _⟩⟩ := wordStep_inv h1
    · cases h2.2.1
    · cases h2
  | cons k0 seg ih =>
    intro seg' b b' h1 h2
    obtain ⟨k, hk, hks, c1⟩ := wordStep_inv h1
    obtain ⟨k', hk', hks', c2⟩ := wordStep_inv h2
    rcases c1 with ⟨c1, d1, rfl⟩ | ⟨c1, s, d1, e1⟩
    · rcases c2 with ⟨c2, d2, rfl⟩ | ⟨c2, s', d2, e2⟩
      · have := h k hk k' hk' (by rw [hks, hks']) (Or.inr (by rw [c1, c2]))
        subst this
        exact ⟨by rw [d1, d2], rfl⟩
      · have := h k' hk' k hk (by rw [hks, hks']) (Or.inl c2)
        subst this
        rw [c1] at c2; cases c2
    · have := h k hk k' hk' (by rw [hks, hks']) (Or.inl c1)
      subst this
      rcases c2 with ⟨c2, _⟩ | ⟨c2, s', d2, e2⟩
      · rw [c1] at c2; cases c2
      · cases d1
        obtain ⟨rfl, rfl⟩ := ih _ _ _ _ e1 e2
        exact ⟨by rw [d2], rfl⟩

/-- The words of the example vocabulary. -/
def exVocabWord (i : Nat) : Option Str :=
  (["<s>", "</s>", "<unk>", "a", "b"].map String.toList)[i]?

theorem exVocab_inverse : VocabInverse exVocab exVocabWord := by
  intro w i h
  simp only [exVocab] at h
  split at h
  · rename_i hw; cases h; subst hw; decide
  · split at h
    · rename_i hw; cases h; subst hw; decide
    · cases h

/-- Paths "a b", "a a", "c b" and "c a" without null links at the end. -/
def exRescLattice : Lattice ℚ := exWordLattice 4
  [(0, 1, some "a".toList, -2, -3), (0, 1, some "c".toList, -1, -1), (1, 3, some "b".toList, -4, -1),
   (1, 2, some "a".toList, -1, -1), (2, 3, some "d".toList, -1, 0)]

theorem exRescLattice_ok : Rescorable exDecoder exRescLattice exVocabWord where
  wf := wf_of_check _ (by decide +kernel)
  determinized := det_of_check (by decide +kernel)
  vocabulary := exVocab_inverse
  boundary := ⟨"<s>".toList, "</s>".toList, by decide +kernel, by decide +kernel, by decide +kernel⟩

/-- Concrete case for C35, C36 and C73: the lattice can be decoded and rescored, and there are four tokens. -/
example : ∃ r, decode exDecoder exRescLattice = .ok r ∧ r.2 = [] ∧ r.1.length = 4 ∧
    ∃ N, rescoredLattice exRescLattice 100 exVocabWord r.1 r.2 = .ok N ∧ N.nodes.length = 10 ∧ N.links.length = 12 := by
  decide +kernel

theorem exRescLattice_noNulls : NoNulls exRescLattice := by unfold NoNulls; decide +kernel

/-- Concrete case for C35 with recombination. -/
example : ∃ r, decode { exDecoder with recombinationOrder := some 2 } exRescLattice = .ok r ∧ r.2.length = 2 ∧
    r.1.length = 2 ∧ ∃ N, rescoredLattice exRescLattice 100 exVocabWord r.1 r.2 = .ok N ∧ N.nodes.length = 8 ∧
      N.links.length = 9 := by
  decide +kernel

/-- Paths "a b" and "a c", with different links for "a". -/
def exTwo : Lattice ℚ := exWordLattice 4
  [(0, 1, some "a".toList, -1, -1), (0, 2, some "a".toList, -1, -1), (1, 3, some "b".toList, -1, -1),
   (2, 3, some "c".toList, -1, -1)]

theorem exTwo_rescored : ∃ r, decode exDecoder exTwo = .ok r ∧ r.2 = [] ∧
    (∃ t ∈ r.1, t.history = [.inl 0, .inl 3, .inl 4, .inl 1]) ∧
    ∃ N, rescoredLattice exTwo 100 exVocabWord r.1 r.2 = .ok N ∧ N.initial = 0 ∧ N.nodes[3]? = some ⟨[], [], none, true⟩ ∧
      N.links = [⟨0, 1, some "a".toList, some (-1), some (-1), []⟩, ⟨1, 2, some "c".toList, some (-1), some (-1), []⟩,
        ⟨2, 3, none, some 0, some (-10), []⟩, ⟨1, 3, none, some 0, some (-10), []⟩] := by
  decide +kernel

/-- The words of a path are on links. -/
theorem mem_pathText {S : Type} {L : Lattice S} {a b : Nat} {ls : List (Link S)} (h : L.Path a ls b) {w : Str}
    (hw : w ∈ pathText ls) : ∃ k ∈ L.links, k.word = some w := by
  obtain ⟨k, hk, hkw⟩ := List.mem_filterMap.mp hw
  obtain ⟨l1, l2, rfl⟩ := List.append_of_mem hk
  obtain ⟨_, _, h2⟩ := path_append_inv h
  exact ⟨k, (path_cons_inv h2).1, hkw⟩

/-- C35 does not hold for lattices that are not determinized: the token "a b" is not in the new lattice, and "a" is,
although it is not in the original lattice. -/
theorem C35_violated : ∃ (D : Decoder ℚ (List Nat)) (L N : Lattice ℚ) (f : Nat → Option Str)
    (finals : List (Token ℚ (List Nat))), L.WF ∧ VocabInverse D.vocab f ∧ decode D L = .ok (finals, []) ∧
    rescoredLattice L 100 f finals [] = .ok N ∧
    (∃ t ∈ finals, t.history = [.inl D.vocab.sos, .inl 3, .inl 4, .inl D.vocab.eos] ∧
      HistIs D.vocab "a".toList (.inl 3) ∧ HistIs D.vocab "b".toList (.inl 4) ∧
      ¬ ∃ rs n, N.Path N.initial rs n ∧ N.Final n ∧ pathText rs = ["a".toList, "b".toList]) ∧
    (∃ rs n, N.Path N.initial rs n ∧ N.Final n ∧ pathText rs = ["a".toList]) ∧
    ¬ ∃ ls m, L.Path L.initial ls m ∧ L.Final m ∧ pathText ls = ["a".toList] := by
  obtain ⟨⟨finals, recombs⟩, h1, h2, ⟨t, ht, hth⟩, N, h3, h4, h5, h6⟩ := exTwo_rescored
  cases h2
  refine ⟨exDecoder, exTwo, N, exVocabWord, finals, wf_of_check _ (by decide +kernel), exVocab_inverse, h1, h3,
    ⟨t, ht, hth, ⟨fun i hi => ?_, fun hi => ?_⟩, ⟨fun i hi => ?_, fun hi => ?_⟩, ?_⟩, ?_, ?_⟩
  · have : i = 3 := by simpa [exDecoder, exVocab] using hi.symm
    rw [this]
  · simp [exDecoder, exVocab] at hi
  · have : i = 4 := by simpa [exDecoder, exVocab] using hi.symm
    rw [this]
  · simp [exDecoder, exVocab] at hi
  · rintro ⟨rs, n, hp, _, ht⟩
    obtain ⟨k, hk, hkw⟩ := mem_pathText hp (w := "b".toList) (by rw [ht]; simp)
    rw [h6] at hk
    revert k
    decide
  · refine ⟨[⟨0, 1, some "a".toList, some (-1), some (-1), []⟩, ⟨1, 3, none, some 0, some (-10), []⟩], 3, ?_,
      ⟨_, h5, rfl⟩, rfl⟩
    rw [h4]
    exact .snoc [_] _ (.snoc [] _ .nil (by rw [h6]; simp)) (by rw [h6]; simp)
  · rintro ⟨ls, m, hp, ⟨node, hn, hfin⟩, ht⟩
    have hm : m = 3 := by
      have hlt : m < 4 := by
        have := (List.getElem?_eq_some_iff.mp hn).1
        rwa [show exTwo.nodes.length = 4 by decide +kernel] at this
      have key : ∀ m, m < 4 → ∀ node ∈ (exTwo.nodes[m]?).toList, node.final = true → m = 3 := by decide +kernel
      exact key m hlt node (by rw [hn]; simp) hfin
    subst hm
    cases ls using List.reverseRecOn with
    | nil => have := path_nil_inv hp; revert this; decide +kernel
    | append_singleton ls k =>
      obtain ⟨_, hk, he⟩ := path_snoc_inv hp
      have key : ∀ k ∈ exTwo.links, 3 = k.endNode → k.word = some "b".toList ∨ k.word = some "c".toList := by
        decide +kernel
      rw [pathText_append] at ht
      rcases key k hk he with hkw | hkw
      all_goals
        rw [show pathText [k] = [_] by simp [pathText, hkw]; rfl] at ht
        have h9 := List.append_inj_right' (s₂ := []) ht rfl
        revert h9
        decide

/-- The words that are possible after taking a link, when those after each node are given. -/
def labels {S : Type} (W : Nat → List Str) (k : Link S) : List Str := match k.word with
  | some w => [w]
  | none => W k.endNode

theorem det_of_sets {S : Type} {L : Lattice S} (W : Nat → List Str)
    (hW : ∀ k ∈ L.links, ∀ w ∈ labels W k, w ∈ W k.startNode)
    (h : ∀ k ∈ L.links, ∀ k' ∈ L.links, k.startNode = k'.startNode → (∃ w ∈ labels W k, w ∈ labels W k') → k = k') :
    Determinized L := by
  have key : ∀ (seg : List (Link S)) (a : Nat) (w : Str) (b : Nat), WordStep L a w seg b → w ∈ W a := by
    intro seg
    induction seg with
    | nil =>
      intro a w b h1
      obtain ⟨k, _, _, h2 | ⟨_, s, h2, _⟩⟩ := wordStep_inv h1
      · cases h2.2.1
      · cases h2
    | cons k0 seg ih =>
      intro a w b h1
      obtain ⟨k, hk, rfl, ⟨c1, _⟩ | ⟨c1, s, d1, e1⟩⟩ := wordStep_inv h1
      · exact hW k hk w (by simp [labels, c1])
      · cases d1
        exact hW _ hk w (by simp only [labels, c1]; exact ih _ _ _ e1)
  have lab : ∀ (k : Link S) (w : Str) (seg : List (Link S)) (b : Nat), ((k.word = some w ∧ seg = [k] ∧ b = k.endNode) ∨
      (k.word = none ∧ ∃ seg', seg = k :: seg' ∧ WordStep L k.endNode w seg' b)) → w ∈ labels W k := by
    rintro k w seg b (⟨c1, _⟩ | ⟨c1, s, d1, e1⟩)
    · simp [labels, c1]
    · simp only [labels, c1]; exact key _ _ _ _ e1
  intro a w seg
  induction seg generalizing a with
  | nil =>
    intro seg' b b' h1
    obtain ⟨k, _, _, h2 | ⟨_, s, h2, _⟩⟩ := wordStep_inv h1
    · cases h2.2.1
    · cases h2
  | cons k0 seg ih =>
    intro seg' b b' h1 h2
    obtain ⟨k, hk, hks, c1⟩ := wordStep_inv h1
    obtain ⟨k', hk', hks', c2⟩ := wordStep_inv h2
    have := h k hk k' hk' (by rw [hks, hks']) ⟨w, lab k w _ _ c1, lab k' w _ _ c2⟩
    subst this
    rcases c1 with ⟨c1, d1, rfl⟩ | ⟨c1, s, d1, e1⟩
    · rcases c2 with ⟨c2, d2, rfl⟩ | ⟨c2, s', d2, e2⟩
      · exact ⟨by rw [d1, d2], rfl⟩
      · rw [c1] at c2; cases c2
    · rcases c2 with ⟨c2, _⟩ | ⟨c2, s', d2, e2⟩
      · rw [c1] at c2; cases c2
      · cases d1
        obtain ⟨rfl, rfl⟩ := ih _ _ _ _ e1 e2
        exact ⟨by rw [d2], rfl⟩

/-- Paths "x z a b", "y z a b" and "y z a c", with a null link. -/
def exMerge : Lattice ℚ := exWordLattice 8
  [(0, 1, some "x".toList, -5, -1), (0, 2, some "y".toList, -1, -1), (1, 3, some "z".toList, -1, -1),
   (2, 4, some "z".toList, -1, -1), (3, 5, some "a".toList, -1, -1), (4, 6, some "a".toList, -1, -1),
   (6, 5, none, 0, 0), (5, 7, some "b".toList, -1, -1), (6, 7, some "c".toList, -1, -1)]

def exMergeWords : Nat → List Str
  | 0 => ["x".toList, "y".toList]
  | 1 => ["z".toList]
  | 2 => ["z".toList]
  | 3 => ["a".toList]
  | 4 => ["a".toList]
  | 5 => ["b".toList]
  | 6 => ["b".toList, "c".toList]
  | _ => []

/-- The decoder with a limit on the history. -/
def exDecoderTwo : Decoder ℚ (List Nat) := { exDecoder with recombinationOrder := some 2 }

theorem exMerge_ok : Rescorable exDecoderTwo exMerge exVocabWord where
  wf := wf_of_check _ (by decide +kernel)
  determinized := det_of_sets exMergeWords (by decide +kernel) (by decide +kernel)
  vocabulary := exVocab_inverse
  boundary := ⟨"<s>".toList, "</s>".toList, by decide +kernel, by decide +kernel, by decide +kernel⟩

theorem exMerge_rescored : ∃ r, decode exDecoderTwo exMerge = .ok r ∧ r.2.length = 1 ∧
    ∃ N, rescoredLattice exMerge 100 exVocabWord r.1 r.2 = .ok N ∧ N.initial = 0 ∧ N.nodes[8]? = some ⟨[], [], none, true⟩ ∧
      N.links = [⟨0, 1, some "y".toList, some (-1), some (-1), []⟩, ⟨1, 2, some "z".toList, some (-1), some (-1), []⟩,
        ⟨2, 3, some "a".toList, some (-1), some (-1), []⟩, ⟨3, 4, some "c".toList, some (-1), some (-1), []⟩,
        ⟨4, 8, none, some 0, some (-21), []⟩, ⟨3, 5, some "b".toList, some (-1), some (-1), []⟩,
        ⟨5, 8, none, some 0, some (-21), []⟩, ⟨0, 6, some "x".toList, some (-5), some (-1), []⟩,
        ⟨6, 7, some "z".toList, some (-1), some (-1), []⟩, ⟨7, 3, some "a".toList, some (-1), some (-1), []⟩] := by
  decide +kernel

/-- The nodes where a path can be after the given words. -/
theorem path_invariant {S : Type} {L : Lattice S} {a : Nat} (P : List Str → Nat → Prop) (h0 : P [] a)
    (h : ∀ k ∈ L.links, ∀ ws, P ws k.startNode → P (ws ++ k.word.toList) k.endNode) {ls : List (Link S)} {b : Nat}
    (hp : L.Path a ls b) : P (pathText ls) b := by
  induction hp with
  | nil => exact h0
  | snoc ls k _ hk ih =>
    rw [pathText_append]
    have := h k hk _ ih
    cases hw : k.word with
    | none => simpa [pathText, hw] using this
    | some w => simpa [pathText, hw] using this

/-- The words "x" and "c" are never on the same path of `exMerge`. -/
def exMergeInv (ws : List Str) (n : Nat) : Prop := ("c".toList ∈ ws → n = 7) ∧
  ("x".toList ∈ ws → "c".toList ∉ ws ∧ n ≠ 0 ∧ n ≠ 2 ∧ n ≠ 4 ∧ n ≠ 6)

/-- C35 does not hold for lattices with null links when tokens are recombined: a path of the new lattice is not in the
original lattice. -/
theorem C35_violated_null : ∃ (D : Decoder ℚ (List Nat)) (L N : Lattice ℚ) (f : Nat → Option Str)
    (finals : List (Token ℚ (List Nat))) (recombs : List (Recomb ℚ (List Nat))), Rescorable D L f ∧
    decode D L = .ok (finals, recombs) ∧ rescoredLattice L 100 f finals recombs = .ok N ∧
    ∃ rs n, N.Path N.initial rs n ∧ N.Final n ∧
      ¬ ∃ ls m, L.Path L.initial ls m ∧ L.Final m ∧ pathText ls = pathText rs := by
  obtain ⟨⟨finals, recombs⟩, h1, h2, N, h3, h4, h5, h6⟩ := exMerge_rescored
  refine ⟨exDecoderTwo, exMerge, N, exVocabWord, finals, recombs, exMerge_ok, h1, h3,
    [⟨0, 6, some "x".toList, some (-5), some (-1), []⟩, ⟨6, 7, some "z".toList, some (-1), some (-1), []⟩,
      ⟨7, 3, some "a".toList, some (-1), some (-1), []⟩, ⟨3, 4, some "c".toList, some (-1), some (-1), []⟩,
      ⟨4, 8, none, some 0, some (-21), []⟩], 8, ?_, ⟨_, h5, rfl⟩, ?_⟩
  · rw [h4]
    exact .snoc [_, _, _, _] _ (.snoc [_, _, _] _ (.snoc [_, _] _ (.snoc [_] _ (.snoc [] _ .nil (by rw [h6]; simp))
      (by rw [h6]; simp)) (by rw [h6]; simp)) (by rw [h6]; simp)) (by rw [h6]; simp)
  · rintro ⟨ls, m, hp, _, ht⟩
    have hinv : exMergeInv (pathText ls) m := by
      refine path_invariant exMergeInv ⟨(fun h => by cases h), (fun h => by cases h)⟩ (fun k hk ws hws => ?_) hp
      have key : ∀ k ∈ exMerge.links, k.startNode ≠ 7 ∧ (k.word.toList = ["c".toList] → k.endNode = 7) ∧
          ("c".toList ∈ k.word.toList → k.startNode = 6 ∧ k.endNode = 7 ∧ "x".toList ∉ k.word.toList) ∧
          ("x".toList ∈ k.word.toList → k.endNode = 1) ∧
          (k.startNode = 0 ∨ k.startNode = 2 ∨ k.startNode = 4 ∨ k.startNode = 6 ∨
            (k.endNode ≠ 0 ∧ k.endNode ≠ 2 ∧ k.endNode ≠ 4 ∧ k.endNode ≠ 6)) := by decide +kernel
      obtain ⟨h1, h2, h3, h4, h5⟩ := key k hk
      obtain ⟨g1, g2⟩ := hws
      unfold exMergeInv
      simp only [List.mem_append, not_or]
      constructor
      · rintro (h | h)
        · exact absurd (g1 h) h1
        · exact (h3 h).2.1
      · rintro (h | h)
        · obtain ⟨e1, e2, e3, e4, e5⟩ := g2 h
          refine ⟨⟨e1, fun h' => e5 (h3 h').1⟩, ?_⟩
          rcases h5 with h5 | h5 | h5 | h5 | h5
          · exact absurd h5 e2
          · exact absurd h5 e3
          · exact absurd h5 e4
          · exact absurd h5 e5
          · exact h5
        · refine ⟨⟨fun h' => h1 (g1 h'), fun h' => (h3 h').2.2 h⟩, ?_⟩
          rw [h4 h]; decide
    rw [ht] at hinv
    exact (hinv.2 (by decide)).1 (by decide)

/-- The path "a" with null links, which have transitions. -/
def exTransitions : Lattice ℚ :=
  { exWordLattice 4 [(0, 1, none, -1, -1), (1, 2, some "a".toList, -1, -1), (2, 3, none, -2, -3)] with
    links := [⟨0, 1, none, some (-1), some (-1), "1".toList⟩, ⟨1, 2, some "a".toList, some (-1), some (-1), "2".toList⟩,
      ⟨2, 3, none, some (-2), some (-3), "3".toList⟩] }

theorem exTransitions_ok : Rescorable exDecoder exTransitions exVocabWord where
  wf := wf_of_check _ (by decide +kernel)
  determinized := det_of_check (by decide +kernel)
  vocabulary := exVocab_inverse
  boundary := ⟨"<s>".toList, "</s>".toList, by decide +kernel, by decide +kernel, by decide +kernel⟩

theorem exTransitions_rescored : ∃ r, decode exDecoder exTransitions = .ok r ∧ r.2 = [] ∧
    r.1.map Token.ac = [-4] ∧ r.1.map Token.latLm = [-5] ∧
    ∃ N, rescoredLattice exTransitions 100 exVocabWord r.1 r.2 = .ok N ∧ N.initial = 0 ∧
      N.nodes[2]? = some ⟨[], [], none, true⟩ ∧
      N.links = [⟨0, 1, some "a".toList, some (-2), some (-2), "21".toList⟩, ⟨1, 2, none, some 0, some (-6), []⟩] := by
  decide +kernel

/-- C36 does not hold for lattices with null links: the transitions of a null link are placed after those of the word
that follows it, and those of null links after the last word are missing. -/
theorem C36_violated : ∃ (D : Decoder ℚ (List Nat)) (L N : Lattice ℚ) (f : Nat → Option Str)
    (finals : List (Token ℚ (List Nat))) (rs : List (Link ℚ)), Rescorable D L f ∧ decode D L = .ok (finals, []) ∧
    rescoredLattice L 100 f finals [] = .ok N ∧ L.Path L.initial L.links 3 ∧ L.Final 3 ∧
    N.Path N.initial rs 2 ∧ N.Final 2 ∧ pathText L.links = pathText rs ∧
    (L.links.map Link.transitions).flatten = "123".toList ∧ (rs.map Link.transitions).flatten = "21".toList := by
  obtain ⟨⟨finals, recombs⟩, h1, h2, _, _, N, h3, h4, h5, h6⟩ := exTransitions_rescored
  cases h2
  refine ⟨exDecoder, exTransitions, N, exVocabWord, finals, N.links, exTransitions_ok, h1, h3, ?_, ⟨_, rfl, rfl⟩, ?_,
    ⟨_, h5, rfl⟩, by rw [h6]; rfl, by decide +kernel, by rw [h6]; decide⟩
  · exact .snoc [_, _] _ (.snoc [_] _ (.snoc [] _ .nil (by simp [exTransitions])) (by simp [exTransitions]))
      (by simp [exTransitions])
  · rw [h4, h6]
    exact .snoc [_] _ (.snoc [] _ .nil (by rw [h6]; simp)) (by rw [h6]; simp)

/-- C73 does not hold for lattices with null links after the last word: their scores are missing from the new
lattice.  When a Kaldi lattice is read, the scores of final states are on such links. -/
theorem C73_violated : ∃ (D : Decoder ℚ (List Nat)) (L N : Lattice ℚ) (f : Nat → Option Str) (t : Token ℚ (List Nat))
    (rs : List (Link ℚ)), Rescorable D L f ∧ decode D L = .ok ([t], []) ∧
    rescoredLattice L 100 f [t] [] = .ok N ∧ N.Path N.initial rs 2 ∧ N.Final 2 ∧ t.ac = -4 ∧ acOf rs = -2 ∧
    t.latLm + t.nnLm = -11 ∧ lmOf rs = -8 := by
  obtain ⟨⟨finals, recombs⟩, h1, h2, ha, hl, N, h3, h4, h5, h6⟩ := exTransitions_rescored
  cases h2
  obtain ⟨t, rfl⟩ : ∃ t, finals = [t] := by
    have : finals.length = 1 := by have := congrArg List.length ha; simpa using this
    exact List.length_eq_one_iff.mp this
  simp only [List.map_cons, List.map_nil, List.cons.injEq, and_true] at ha hl
  refine ⟨exDecoder, exTransitions, N, exVocabWord, t, N.links, exTransitions_ok, h1, h3, ?_, ⟨_, h5, rfl⟩, ha, ?_, ?_, ?_⟩
  · rw [h4, h6]
    exact .snoc [_] _ (.snoc [] _ .nil (by rw [h6]; simp)) (by rw [h6]; simp)
  · rw [h6]; decide +kernel
  · have : ∃ r, decode exDecoder exTransitions = .ok r ∧ r.1.map (fun t => t.latLm + t.nnLm) = [-11] := by
      decide +kernel
    obtain ⟨r, hr, he⟩ := this
    rw [h1] at hr
    cases hr
    simpa using he
  · rw [h6]; decide +kernel

/-- Concrete case for C73_no_null_scores. -/
example : (∀ k ∈ exRescLattice.links, k.word = none → k.ac.getD 0 = 0 ∧ k.lm.getD 0 = 0) ∧
    ∀ k ∈ exRescLattice.links, k.word = none → k.transitions = [] := by decide +kernel

/-- Concrete case for C74: null links of the lattice do not form a cycle, and it can be decoded. -/
example : (∀ n, ¬ Relation.TransGen exMerge.NullEdge n n) ∧ (exVocabWord exDecoderTwo.vocab.sos ≠ none) ∧
    (exVocabWord exDecoderTwo.vocab.eos ≠ none) := by
  refine ⟨fun n h => ?_, by decide +kernel, by decide +kernel⟩
  have key : ∀ a b, Relation.TransGen exMerge.NullEdge a b → a = 6 ∧ b = 5 := by
    intro a b h
    have one : ∀ a b, exMerge.NullEdge a b → a = 6 ∧ b = 5 := by
      rintro a b ⟨k, hk, h1, rfl, rfl⟩
      revert k
      decide +kernel
    induction h with
    | single h => exact one _ _ h
    | tail _ h ih => exact ⟨ih.1, (one _ _ h).2⟩
  obtain ⟨h1, h2⟩ := key n n h
  omega

end TheanoLM
