import Verif.Props.RescoredLattice
/-!
# Properties of rescored lattices when tokens were recombined (C100)
-/
namespace TheanoLM

variable {S St : Type} [Field S] [LinearOrder S] {D : Decoder S St} {L : Lattice S} {idToWord : Nat → Option Str}

set_option linter.unusedSectionVars false

/-- A path that does not go to the final node is not affected by adding nodes and links. -/
theorem path_transport {sc sa : Prop} {F : Nat → List Str → S → Prop} {info : List (Nat × List Str)} {R1 R : RLat S}
    (hI : RInv L sc sa F info R1) (hsub : ∀ k ∈ R1.links, k ∈ R.links) {u : Option Str} {rs : List (Link S)} {v : Nat}
    (h : (R1.toLattice u).Path 0 rs v) (hv : v < R1.nodes.length) : (R.toLattice u).Path 0 rs v := by
  induction h with
  | nil => exact .nil
  | snoc rs l _ hl ih =>
    obtain ⟨k, hk, rfl⟩ := mem_toLattice.mp hl
    cases hke : k.endNode with
    | none => simp [RLink.toLink, hke] at hv
    | some e =>
      have he : k.toLink R1.nodes.length = k.toLink R.nodes.length := by simp [RLink.toLink, hke]
      rw [he]
      exact .snoc rs _ (by rw [← he]; exact ih (hI.start_lt hk)) (mem_toLattice.mpr ⟨k, hsub k hk, rfl⟩)

/-- Different tokens that are returned by the decoder have different words. -/
theorem finals_unique (hw : L.WF) {finals : List (Token S St)} {recombs : List (Recomb S St)}
    (hdec : decode D L = .ok (finals, recombs)) {t t' : Token S St} (ht : t ∈ finals) (ht' : t' ∈ finals)
    (hh : t.history = t'.history) : t = t' := by
  obtain ⟨hfin, _⟩ := decode_inv hw (path_keeps D L) hdec
  have hash : ∀ t ∈ finals, t.hash = limitedHistory D.recombinationOrder t.history := by
    intro t ht
    obtain ⟨ls, n, _, _, rfl⟩ := hfin t ht
    exact (computed_end (D := D) (L := L) ls).hash
  obtain ⟨sorted, st, _, _, _, rfl, _⟩ := decode_ok hdec
  exact List.inj_on_of_nodup_map (sortedRecombined_spec st.finals).nodup ht ht' (by rw [hash t ht, hash t' ht', hh])

theorem wordPath_unique (hd : Determinized L) {a b b' : Nat} {ws : List Str} {segs segs' : List (List (Link S))}
    (h : WordPath L a ws segs b) (h' : WordPath L a ws segs' b') : segs = segs' ∧ b = b' := by
  induction h generalizing segs' with
  | nil a => cases h'; exact ⟨rfl, rfl⟩
  | cons a b c w ws seg segs h1 _ ih =>
    cases h' with
    | cons _ _ c' _ _ seg' segs1 h2 h3 =>
      obtain ⟨rfl, rfl⟩ := hd _ _ _ _ _ _ h1 h2
      obtain ⟨rfl, rfl⟩ := ih h3
      exact ⟨rfl, rfl⟩

theorem wordPath_steps {a b : Nat} {ws : List Str} {segs : List (List (Link S))} (h : WordPath L a ws segs b) :
    ∀ seg ∈ segs, ∃ a w c, WordStep L a w seg c := by
  induction h with
  | nil => simp
  | cons a b c w ws seg segs h1 _ ih =>
    intro seg' hs
    rcases List.mem_cons.mp hs with rfl | hs
    · exact ⟨a, w, c, h1⟩
    · exact ih seg' hs

/-- If null links do not have transitions, the transitions of a step to a word are those of the link with the word. -/
theorem wordStep_transitions (hn : ∀ k ∈ L.links, k.word = none → k.transitions = []) {a b : Nat} {w : Str}
    {seg : List (Link S)} (h : WordStep L a w seg b) :
    (seg.reverse.map Link.transitions).flatten = (seg.map Link.transitions).flatten := by
  obtain ⟨ns, k, rfl, e1, e2, e3⟩ := h
  have hnull : (ns.map Link.transitions).flatten = [] := by
    rw [List.flatten_eq_nil_iff]
    intro x hx
    obtain ⟨y, hy, rfl⟩ := List.mem_map.mp hx
    obtain ⟨q, h6, _⟩ := path_append_inv e3
    refine hn y ?_ (e1 y hy)
    obtain ⟨l1, l2, rfl⟩ := List.append_of_mem hy
    obtain ⟨_, _, h7⟩ := path_append_inv h6
    exact (path_cons_inv h7).1
  have hnull' : (ns.reverse.map Link.transitions).flatten = [] := by
    rw [List.flatten_eq_nil_iff] at hnull ⊢
    intro x hx
    exact hnull x (by simpa using hx)
  rw [List.reverse_append, List.map_append, List.map_append, List.flatten_append, List.flatten_append, hnull, hnull']
  simp

theorem transitions_same (hn : ∀ k ∈ L.links, k.word = none → k.transitions = []) {rs : List (Link S)}
    {segs : List (List (Link S))} (h : List.Forall₂ (fun (r : Link S) (seg : List (Link S)) =>
      r.transitions = (seg.reverse.map Link.transitions).flatten) rs segs)
    (hst : ∀ seg ∈ segs, ∃ a w c, WordStep L a w seg c) :
    (rs.map Link.transitions).flatten = (segs.flatten.map Link.transitions).flatten := by
  induction h with
  | nil => rfl
  | @cons r seg rs segs h5 _ ih =>
    obtain ⟨a, w, c, hstep⟩ := hst seg (by simp)
    rw [List.map_cons, List.flatten_cons, List.flatten_cons, List.map_append, List.flatten_append,
      ih (fun s hs => hst s (List.mem_cons_of_mem _ hs)), h5, wordStep_transitions hn hstep]

theorem ac_same {rs : List (Link S)} {segs : List (List (Link S))}
    (h : List.Forall₂ (fun (r : Link S) (seg : List (Link S)) => r.ac = some (acOf seg)) rs segs) :
    acOf rs = acOf segs.flatten := by
  induction h with
  | nil => rfl
  | @cons r seg rs segs h5 _ ih =>
    rw [show acOf (r :: rs) = r.ac.getD 0 + acOf rs by simp [acOf], h5, ih]
    simp [acOf]

theorem histories_unique {ws : List Str} {hs hs' : List HistWord} (h : List.Forall₂ (HistIs D.vocab) ws hs)
    (h' : List.Forall₂ (HistIs D.vocab) ws hs') : hs = hs' := by
  induction h generalizing hs' with
  | nil => cases h'; rfl
  | cons p1 _ ih =>
    cases h' with
    | cons q1 q2 => rw [← histIs_eq p1, ← histIs_eq q1, ih q2]

theorem path_mem {a b : Nat} {ls : List (Link S)} (h : L.Path a ls b) : ∀ k ∈ ls, k ∈ L.links := by
  induction h with
  | nil => simp
  | snoc ls k _ hk ih =>
    intro k' hk'
    rcases List.mem_append.mp hk' with h | h
    · exact ih k' h
    · simp only [List.mem_singleton] at h; rw [h]; exact hk

section
variable {depth : Nat} {finals : List (Token S St)} {recombs : List (Recomb S St)} {N : Lattice S}

/-- C100: for every token that decoding returned, also when other tokens were recombined, there is a complete path with
the words of the token, whose scores are those of the path of the token: the acoustic score is equal, and the language
model score is the sum of the original score and the score of the neural network.  What is missing are the scores of the
null links after the last word. -/
theorem C100_contains_partial (hr : Rescorable D L idToWord) (hdec : decode D L = .ok (finals, recombs))
    (h : rescoredLattice L depth idToWord finals recombs = .ok N) :
    ∀ t ∈ finals, ∃ (rs ls : List (Link S)) (n m : Nat) (before nulls : List (Link S)), N.Path N.initial rs n ∧
      N.Final n ∧ L.Path L.initial ls m ∧ L.Final m ∧ DescribesPath D ls t ∧ pathText rs = pathText ls ∧
      ls = before ++ nulls ∧ (∀ k ∈ nulls, k.word = none) ∧ acOf rs = acOf before ∧ lmOf rs = lmOf before + t.nnLm ∧
      ((∀ k ∈ L.links, k.word = none → k.transitions = []) →
        (rs.map Link.transitions).flatten = (before.map Link.transitions).flatten) := by
  intro t ht
  obtain ⟨maps, R1, R, info, hm, hI, g2, g3, rfl⟩ := rescored_inv hr hdec h
  obtain ⟨ls0, n0, a1, a2, a3⟩ := C29_tokens hr.wf finals recombs hdec t ht
  obtain ⟨rs1, b1, b2⟩ := hasFinal_path (u := L.utteranceId) (g2 t ht ls0 (tokenFor_of hr a1 a2 a3))
  rcases path_inv hI b1 with ⟨b, ws, segs, h1, _⟩ |
    ⟨_, rs', k, b, ws, segs, e1, e2, e3, e4, hac, htr, e5, e6, e7, e8, e9⟩
  · have := (List.getElem?_eq_some_iff.mp h1).1
    rw [← hI.len] at this; omega
  · obtain ⟨t', ht', ls, m, nulls, segs', c1, c2, c3, c4, c5, c6, c7, c8⟩ := e6
    obtain ⟨n', eos, d1, d2, d3, d4, d5, d6⟩ := c2
    obtain ⟨hw, hs⟩ := e9 trivial
    -- the token of the link has the same words
    have htx : pathText ls = pathText ls0 := by rw [← b2, e5, ← hw, c3]
    obtain ⟨lsx, nx, x1, x2, x3⟩ := C29_tokens hr.wf finals recombs hdec t' ht'
    have hrun : DescribesPath D ls t' := by
      obtain ⟨⟨wx, y1, y2⟩, _⟩ := x3
      refine ⟨⟨wx, y1, ?_⟩, d5, d6⟩
      rw [y1, List.cons_append, List.tail_cons] at d3
      obtain ⟨x, y, f1, f2, f3⟩ := historyWords_snoc_inv _ _ _ d3
      obtain ⟨rfl, _⟩ := List.append_inj' f1 rfl
      rw [historyWords_of _ _ hr.vocabulary y2] at f2
      injection f2 with f2
      rw [← f2]; exact y2
    have heq : t = t' := by
      apply finals_unique hr.wf hdec ht ht'
      obtain ⟨⟨w1, y1, y2⟩, _⟩ := a3
      obtain ⟨⟨w2, z1, z2⟩, _⟩ := hrun
      rw [htx] at z2
      rw [y1, z1, histories_unique y2 z2]
    subst heq
    subst hw
    obtain ⟨hseg, _⟩ := wordPath_unique hr.determinized e8 c6
    subst hseg
    obtain ⟨s1, s2⟩ := sum_sameScores hs
    have hsub := addRecombs_links _ g3
    have hp' : (R1.toLattice L.utteranceId).Path 0 rs' k.startNode := by
      rw [e1] at b1
      exact (path_snoc_inv b1).1
    have hp := path_transport hI hsub hp' (hI.start_lt e2)
    refine ⟨rs' ++ [k.toLink R.nodes.length], ls, R.nodes.length, n', segs.flatten, nulls, ?_, final_toLattice.mpr rfl,
      d1, d2, hrun, ?_, c4, c5, ?_, ?_, fun hn => ?_⟩
    · have := Lattice.Path.snoc rs' (k.toLink R.nodes.length) hp (mem_toLattice.mpr ⟨k, hsub k e2, rfl⟩)
      rw [show (k.toLink R.nodes.length).endNode = R.nodes.length by simp [RLink.toLink, e3]] at this
      exact this
    · rw [htx, ← b2, e5, pathText_append]
      simp [pathText, RLink.toLink, e4]
    · rw [← s1]; simp [acOf, RLink.toLink, hac]
    · rw [← s2]; simp [lmOf, RLink.toLink, c1]
    · rw [List.map_append, List.flatten_append]
      simp only [List.map_cons, List.map_nil, RLink.toLink, htr, List.flatten_cons, List.flatten_nil, List.append_nil]
      exact transitions_same hn (hs.imp (fun r seg h => h.2.2.2)) (wordPath_steps e8)

/-- C100: when null links do not have scores and transitions, the lattice has for every token that decoding returned a
complete path with the words, scores and transitions of the token. -/
theorem C100_contains (hr : Rescorable D L idToWord)
    (hz : ∀ k ∈ L.links, k.word = none → k.ac.getD 0 = 0 ∧ k.lm.getD 0 = 0 ∧ k.transitions = [])
    (hdec : decode D L = .ok (finals, recombs)) (h : rescoredLattice L depth idToWord finals recombs = .ok N) :
    ∀ t ∈ finals, ∃ (rs ls : List (Link S)) (n m : Nat), N.Path N.initial rs n ∧ N.Final n ∧ L.Path L.initial ls m ∧
      L.Final m ∧ DescribesPath D ls t ∧ pathText rs = pathText ls ∧ acOf rs = t.ac ∧ lmOf rs = t.latLm + t.nnLm ∧
      (rs.map Link.transitions).flatten = (ls.map Link.transitions).flatten := by
  intro t ht
  obtain ⟨rs, ls, n, m, before, nulls, h1, h2, h3, h4, h5, h6, rfl, h8, h9, h10, h11⟩ :=
    C100_contains_partial hr hdec h t ht
  have hnull : ∀ k ∈ nulls, k.ac.getD 0 = 0 ∧ k.lm.getD 0 = 0 ∧ k.transitions = [] := fun k hk =>
    hz k (path_mem h3 k (List.mem_append_right _ hk)) (h8 k hk)
  have hac : acOf nulls = 0 := List.sum_eq_zero (by
    intro x hx
    obtain ⟨k, hk, rfl⟩ := List.mem_map.mp hx
    exact (hnull k hk).1)
  have hlm : lmOf nulls = 0 := List.sum_eq_zero (by
    intro x hx
    obtain ⟨k, hk, rfl⟩ := List.mem_map.mp hx
    exact (hnull k hk).2.1)
  have htr : (nulls.map Link.transitions).flatten = [] := by
    rw [List.flatten_eq_nil_iff]
    intro x hx
    obtain ⟨k, hk, rfl⟩ := List.mem_map.mp hx
    exact (hnull k hk).2.2
  have h5' := h5
  obtain ⟨_, d1, d2⟩ := h5'
  refine ⟨rs, before ++ nulls, n, m, h1, h2, h3, h4, h5, h6, ?_, ?_, ?_⟩
  · rw [h9, d1]
    unfold acOf at hac ⊢
    rw [List.map_append, List.sum_append, hac, add_zero]
  · rw [h10, d2]
    unfold lmOf at hlm ⊢
    rw [List.map_append, List.sum_append, hlm, add_zero]
  · rw [h11 (fun k hk hw => (hz k hk hw).2.2), List.map_append, List.flatten_append, htr, List.append_nil]

/-- C100: if there are no null links, and links with the same word to the same node have the same acoustic score and
transitions, every complete path has the words, acoustic score and transitions of a complete path of the original
lattice. -/
theorem C100_sound_partial (hr : Rescorable D L idToWord) (hn : NoNulls L) (hp : ParallelSame L)
    (hdec : decode D L = .ok (finals, recombs)) (h : rescoredLattice L depth idToWord finals recombs = .ok N)
    (rs : List (Link S)) (n : Nat) (hpath : N.Path N.initial rs n) (hf : N.Final n) :
    ∃ (ls : List (Link S)) (m : Nat), L.Path L.initial ls m ∧ L.Final m ∧ pathText ls = pathText rs ∧
      acOf rs = acOf ls ∧ (rs.map Link.transitions).flatten = (ls.map Link.transitions).flatten := by
  obtain ⟨maps, R1, R, info, hm, g1, g2, g3, rfl⟩ := rescored_inv hr hdec h
  obtain ⟨info', hI⟩ : ∃ info', RInv L False True (FinalFor L idToWord finals) info' R :=
    addRecombs_inv hr.wf hr.determinized hn (fun _ => hp) hm idToWord _
      (fun e he => recombFor_of hr hdec e (List.mem_reverse.mp he))
      (g1.mono False False.elim True (fun h => h) _ (fun _ _ _ h => h)) g3
  rw [final_toLattice] at hf
  rcases path_keepsScores hI hpath with ⟨b, ws, segs, h1, _⟩ |
    ⟨_, rs', k, b, ws, segs, e1, e2, e3, e4, hac, htr, e5, e6, e7, e8, _, hs⟩
  · have := (List.getElem?_eq_some_iff.mp h1).1
    rw [← hI.len] at this; omega
  · obtain ⟨t, ht, ls, m, nulls, segs', a1, a2, rfl, a4, a5, a6, a7, a8⟩ := e6
    have hnil : nulls = [] := by
      cases nulls with
      | nil => rfl
      | cons x xs => exact absurd (a5 x (by simp)) (hn x (path_mem a7 x (by simp)))
    subst hnil
    obtain rfl := path_nil_inv a7
    obtain ⟨p1, p2⟩ := wordPath_path e8
    have hnt : ∀ k ∈ L.links, k.word = none → k.transitions = [] := fun k hk hw => absurd hw (hn k hk)
    have htrs := transitions_same hnt (hs.imp (fun r seg h => (h.2.2 trivial).2)) (wordPath_steps e8)
    have hsum := ac_same (hs.imp (fun r seg h => (h.2.2 trivial).1))
    refine ⟨segs.flatten, _, p1, a8, by rw [p2, e5], ?_, ?_⟩
    · rw [← hsum, e1]; simp [acOf, RLink.toLink, hac]
    · rw [← htrs, e1]; simp [RLink.toLink, htr]

end

/-- Concrete case for C100_contains and C100_sound_partial: two tokens are recombined. -/
example : Rescorable { exDecoder with recombinationOrder := some 2 } exRescLattice exVocabWord ∧
    (∀ k ∈ exRescLattice.links, k.word = none → k.ac.getD 0 = 0 ∧ k.lm.getD 0 = 0 ∧ k.transitions = []) ∧
    NoNulls exRescLattice ∧ ParallelSame exRescLattice ∧
    ∃ r, decode { exDecoder with recombinationOrder := some 2 } exRescLattice = .ok r ∧ r.2.length = 2 ∧
      ∃ N, rescoredLattice exRescLattice 100 exVocabWord r.1 r.2 = .ok N ∧ N.links.length = 9 :=
  ⟨⟨exRescLattice_ok.wf, exRescLattice_ok.determinized, exRescLattice_ok.vocabulary, exRescLattice_ok.boundary⟩,
    (by decide +kernel), exRescLattice_noNulls, (by unfold ParallelSame; decide +kernel), (by decide +kernel)⟩

/-- Paths "a b" and "c b", with different scores on the links with "b". -/
def exParallel : Lattice ℚ := exWordLattice 4
  [(0, 1, some "a".toList, -1, -1), (0, 2, some "c".toList, -1, -1), (1, 3, some "b".toList, -1, -1),
   (2, 3, some "b".toList, -5, -1)]

theorem exParallel_ok : Rescorable { exDecoder with recombinationOrder := some 1 } exParallel exVocabWord where
  wf := wf_of_check _ (by decide +kernel)
  determinized := det_of_check (by decide +kernel)
  vocabulary := exVocab_inverse
  boundary := ⟨"<s>".toList, "</s>".toList, by decide +kernel, by decide +kernel, by decide +kernel⟩

theorem exParallel_rescored : ∃ r, decode { exDecoder with recombinationOrder := some 1 } exParallel = .ok r ∧
    ∃ N, rescoredLattice exParallel 100 exVocabWord r.1 r.2 = .ok N ∧ N.initial = 0 ∧
      N.nodes[4]? = some ⟨[], [], none, true⟩ ∧
      N.links = [⟨0, 1, some "a".toList, some (-1), some (-1), []⟩, ⟨1, 2, some "b".toList, some (-1), some (-1), []⟩,
        ⟨2, 4, none, some 0, some (-10), []⟩, ⟨0, 3, some "c".toList, some (-1), some (-1), []⟩,
        ⟨3, 2, some "b".toList, some (-1), some 1, []⟩] := by
  decide +kernel

/-- Paths with the same words are the same. -/
theorem noNulls_unique (hd : Determinized L) (hn : NoNulls L) {a n n' : Nat} {ls ls' : List (Link S)}
    (h : L.Path a ls n) (h' : L.Path a ls' n') (ht : pathText ls = pathText ls') : ls = ls' := by
  have key : ∀ {ls : List (Link S)} {n : Nat}, L.Path a ls n → ∃ segs b, WordPath L a (pathText ls) segs b ∧
      ls = segs.flatten := by
    intro ls n h
    obtain ⟨segs, nulls, b, h1, h2, h3, h4⟩ := path_split h
    cases nulls with
    | nil => exact ⟨segs, b, h3, by simpa using h1⟩
    | cons k nulls => exact absurd (h2 k (by simp)) (hn k (path_mem h4 k (by simp)))
  obtain ⟨segs, b, h1, rfl⟩ := key h
  obtain ⟨segs', b', h1', rfl⟩ := key h'
  rw [ht] at h1
  rw [(wordPath_unique hd h1 h1').1]

/-- C100 does not hold for tokens that were recombined: the new link gets the acoustic score (and transitions) of the
last link of the token that was kept, so that the lattice has a path whose acoustic score is not that of any path of the
original lattice with the same words. -/
theorem C100_violated : ∃ (D : Decoder ℚ (List Nat)) (L N : Lattice ℚ) (f : Nat → Option Str)
    (r : List (Token ℚ (List Nat)) × List (Recomb ℚ (List Nat))) (rs : List (Link ℚ)) (n : Nat),
    Rescorable D L f ∧ NoNulls L ∧ decode D L = .ok r ∧ rescoredLattice L 100 f r.1 r.2 = .ok N ∧
    N.Path N.initial rs n ∧ N.Final n ∧
    (∃ (ls : List (Link ℚ)) (m : Nat), L.Path L.initial ls m ∧ L.Final m ∧ pathText ls = pathText rs) ∧
    ∀ (ls : List (Link ℚ)) (m : Nat), L.Path L.initial ls m → L.Final m → pathText ls = pathText rs →
      acOf ls ≠ acOf rs := by
  obtain ⟨r, h1, N, h2, h3, h4, h5⟩ := exParallel_rescored
  have hn : NoNulls exParallel := by unfold NoNulls; decide +kernel
  have hp : exParallel.Path exParallel.initial [⟨0, 2, some "c".toList, some (-1), some (-1), []⟩,
      ⟨2, 3, some "b".toList, some (-5), some (-1), []⟩] 3 :=
    .snoc [_] _ (.snoc [] _ .nil (by decide +kernel)) (by decide +kernel)
  refine ⟨_, exParallel, N, exVocabWord, r, [⟨0, 3, some "c".toList, some (-1), some (-1), []⟩,
    ⟨3, 2, some "b".toList, some (-1), some 1, []⟩, ⟨2, 4, none, some 0, some (-10), []⟩], 4, exParallel_ok, hn, h1, h2, ?_,
    ⟨_, h4, rfl⟩, ⟨_, 3, hp, ⟨_, rfl, rfl⟩, rfl⟩, ?_⟩
  · rw [h3]
    exact .snoc [_, _] _ (.snoc [_] _ (.snoc [] _ .nil (by rw [h5]; simp)) (by rw [h5]; simp)) (by rw [h5]; simp)
  · intro ls m g1 _ g3
    rw [noNulls_unique exParallel_ok.determinized hn g1 hp (g3.trans rfl)]
    decide +kernel

end TheanoLM
