import Verif.Lemmas.DecoderTrace
import Verif.Lemmas.RescoredComplete
import Verif.Props.RescoredRecombined
/-!
# Properties of rescored lattices: completeness with recombination (C101)
-/
namespace TheanoLM

variable {S St : Type} [Field S] [LinearOrder S] {D : Decoder S St} {L : Lattice S} {idToWord : Nat → Option Str}

set_option linter.unusedSectionVars false

theorem histWord_text (hv : VocabInverse D.vocab idToWord) (w : Str) : historyWords idToWord [histWord D.vocab w] = .ok [w] := by
  have := historyWords_of (D.vocab) idToWord hv (forall₂_histIs D.vocab [w])
  exact this

theorem histWord_inj (hv : VocabInverse D.vocab idToWord) {w w' : Str} (h : histWord D.vocab w = histWord D.vocab w') :
    w = w' := by
  have h1 := histWord_text hv w
  rw [h, histWord_text hv w'] at h1
  cases h1
  rfl

theorem run_inj (hr : Rescorable D L idToWord) (hn : NoNulls L) {ls ls' : List (Link S)} {n n' : Nat}
    (h : L.Path L.initial ls n) (h' : L.Path L.initial ls' n')
    (he : (runPath D L ls).history = (runPath D L ls').history) : ls = ls' := by
  rw [(runPath_attrs ls).1, (runPath_attrs ls').1, List.cons.injEq] at he
  refine noNulls_unique hr.determinized hn h h' ?_
  exact List.map_injective_iff.mpr (fun _ _ => histWord_inj hr.vocabulary) he.2

theorem path_end_unique {a n n' : Nat} {ls : List (Link S)} (h : L.Path a ls n) (h' : L.Path a ls n') : n = n' := by
  cases ls using List.reverseRecOn with
  | nil => rw [path_nil_inv h, path_nil_inv h']
  | append_singleton ls k => rw [(path_snoc_inv h).2.2, (path_snoc_inv h').2.2]

theorem limited_last (order : Option Nat) (h : List HistWord) : (limitedHistory order h).getLast? = h.getLast? := by
  unfold limitedHistory
  split
  · rfl
  · rfl
  · rename_i n
    rw [List.getLast?_drop]
    cases h with
    | nil => rfl
    | cons x xs => rw [if_neg (by simp; omega)]

section
variable {drops : Nat → List (Recomb S St)} {st : DecSt S St} {sorted : List Nat}

/-- What is known about the tokens when decoding has finished. -/
structure Traced (D : Decoder S St) (L : Lattice S) (idToWord : Nat → Option Str) (sorted : List Nat)
    (drops : Nat → List (Recomb S St)) (st : DecSt S St) : Prop where
  resc : Rescorable D L idToWord
  nulls : NoNulls L
  acyclic : ∀ n : Nat, ¬ L.OnCycle n
  inv : DInv (PathP D L) (PathQ D L) (PathR D L) L.nodes.length st
  trace : Trace D L sorted drops st
  nodup : sorted.Nodup
  mem : ∀ n, n ∈ sorted ↔ n < L.nodes.length
  topo : ∀ a b : Nat, b ∈ sorted → L.Edge a b → Before sorted a b

/-- The words of the tokens that were not recombined. -/
def KeptText (D : Decoder S St) (L : Lattice S) (st : DecSt S St) (p : List Str) : Prop :=
  ∃ ls a, L.Path L.initial ls a ∧ pathText ls = p ∧ runPath D L ls ∈ st.tokens.getD a []

theorem Traced.token (h : Traced D L idToWord sorted drops st) {n : Nat} {t : Token S St} (ht : t ∈ st.tokens.getD n []) :
    ∃ ls, L.Path L.initial ls n ∧ t = runPath D L ls := by
  rw [List.getD_eq_getElem?_getD] at ht
  cases hn : st.tokens[n]? with
  | none => rw [hn] at ht; cases ht
  | some ts =>
    rw [hn] at ht
    exact h.inv.tok n ts hn t ht

theorem Traced.arrived (h : Traced D L idToWord sorted drops st) {n : Nat} {t : Token S St}
    (ht : Arrived st.tokens drops n t) : ∃ ls, L.Path L.initial ls n ∧ t = runPath D L ls ∧
      (ls = [] ∨ ∃ ls0 k, ls = ls0 ++ [k] ∧ runPath D L ls0 ∈ st.tokens.getD k.startNode []) := by
  rcases h.trace.prev n t ht with ⟨rfl, rfl⟩ | ⟨k, hk, _, rfl, t', ht', rfl⟩
  · exact ⟨[], .nil, rfl, Or.inl rfl⟩
  · obtain ⟨ls, hp, rfl⟩ := h.token ht'
    exact ⟨ls ++ [k], .snoc ls k hp hk, (runPath_snoc ls k).symm, Or.inr ⟨ls, k, rfl, ht'⟩⟩

theorem Traced.prefix (h : Traced D L idToWord sorted drops st) (p : List Str) (w : Str)
    (hk : KeptText D L st (p ++ [w])) : KeptText D L st p := by
  obtain ⟨ls, a, hp, ht, hm⟩ := hk
  obtain ⟨ls', hp', he, hcase⟩ := h.arrived (Or.inl hm)
  obtain rfl := run_inj h.resc h.nulls hp hp' (by rw [he])
  rcases hcase with rfl | ⟨ls0, k, rfl, hm0⟩
  · simp [pathText] at ht
  · obtain ⟨h1, h2, _⟩ := path_snoc_inv hp
    refine ⟨ls0, k.startNode, h1, ?_, hm0⟩
    obtain ⟨w', hw'⟩ := Option.ne_none_iff_exists'.mp (h.nulls k h2)
    rw [pathText_snoc, hw'] at ht
    exact (List.append_inj' ht rfl).1

theorem Traced.initial_ne (h : Traced D L idToWord sorted drops st) {ls : List (Link S)} {k : Link S}
    (hp : L.Path L.initial (ls ++ [k]) L.initial) : False := by
  obtain ⟨h1, h2, h3⟩ := path_snoc_inv hp
  exact h.acyclic L.initial (Relation.TransGen.tail' (path_trans h1) ⟨k, h2, rfl, h3.symm⟩)

/-- A token that was recombined in a node. -/
theorem Traced.event (h : Traced D L idToWord sorted drops st) {n : Nat} {e : Recomb S St} (he : e ∈ drops n) :
    (AbsentEvent L idToWord e ∧ e.1 = runPath D L []) ∨ ∃ ls0 k ls' q w, L.Path L.initial (ls0 ++ [k]) n ∧
      e.1 = runPath D L (ls0 ++ [k]) ∧ k.word = some w ∧ L.Path L.initial ls' n ∧
      runPath D L ls' ∈ st.tokens.getD n [] ∧ pathText ls' = q ++ [w] ∧
      EventFor L idToWord (KeptText D L st) e (pathText ls0) q w ∧
      (runPath D L ls').hash = (runPath D L (ls0 ++ [k])).hash ∧ e.2.2 = (runPath D L ls').nnLm := by
  obtain ⟨ls, hp, he1, hcase⟩ := h.arrived (Or.inr ⟨e, he, rfl⟩)
  obtain ⟨t', ht', hhash, hhist, hnn, _⟩ := h.trace.drop n e he
  obtain ⟨ls', hp', rfl, hcase'⟩ := h.arrived (Or.inl ht')
  obtain ⟨sos, eos, hs, _, hb⟩ := h.resc.boundary
  rcases hcase with rfl | ⟨ls0, k, rfl, hm0⟩
  · left
    refine ⟨⟨.inl D.vocab.sos, sos, ?_, by simp [historyWords, hs], fun k hk => (hb k hk).1⟩, he1⟩
    rw [he1, (runPath_attrs (D := D) (L := L) []).1]
    simp [pathWords, pathText]
  · right
    rcases hcase' with rfl | ⟨ls0', k', rfl, hm0'⟩
    · rw [path_nil_inv hp'] at hp
      exact absurd hp h.initial_ne
    obtain ⟨p1, p2, p3⟩ := path_snoc_inv hp
    obtain ⟨p1', p2', p3'⟩ := path_snoc_inv hp'
    obtain ⟨w, hw⟩ := Option.ne_none_iff_exists'.mp (h.nulls k p2)
    obtain ⟨w', hw'⟩ := Option.ne_none_iff_exists'.mp (h.nulls k' p2')
    have a1 : (runPath D L (ls0 ++ [k])).history =
        .inl D.vocab.sos :: (pathWords D.vocab ls0 ++ [histWord D.vocab w]) := by
      rw [(runPath_attrs _).1]; simp [pathWords, pathText_snoc, hw]
    have a2 : (runPath D L (ls0' ++ [k'])).history =
        .inl D.vocab.sos :: (pathWords D.vocab ls0' ++ [histWord D.vocab w']) := by
      rw [(runPath_attrs _).1]; simp [pathWords, pathText_snoc, hw']
    have hww : w = w' := by
      have hhash' := hhash
      rw [he1, (computed_run _).hash, (computed_run _).hash] at hhash'
      have := congrArg List.getLast? hhash'
      rw [limited_last, limited_last, a1, a2, ← List.cons_append, ← List.cons_append, List.getLast?_concat,
        List.getLast?_concat, Option.some.injEq] at this
      exact (histWord_inj h.resc.vocabulary this).symm
    subst hww
    have hn : n ∈ sorted := by
      by_contra hc
      rw [h.trace.undone n hc] at he
      cases he
    refine ⟨ls0, k, ls0' ++ [k'], pathText ls0', w, hp, he1, hw, hp', ht', by rw [pathText_snoc, hw']; rfl, ?_,
      by rw [← he1]; exact hhash, hnn⟩
    refine ⟨⟨_, _, _, _, histWord D.vocab w, by rw [he1, a1], by rw [hhist, a2], ?_, ?_, histWord_text h.resc.vocabulary w⟩,
      ⟨ls0, _, p1, rfl, hm0⟩, ⟨ls0' ++ [k'], n, hp', by rw [pathText_snoc, hw']; rfl, ht'⟩, ?_, ?_, ?_⟩
    · exact historyWords_of _ _ h.resc.vocabulary (forall₂_histIs _ _)
    · exact historyWords_of _ _ h.resc.vocabulary (forall₂_histIs _ _)
    · rintro ⟨lx, x, hx1, hx2, hx3⟩
      obtain rfl := noNulls_unique h.resc.determinized h.nulls hx1 hp (by rw [hx2, pathText_snoc, hw]; rfl)
      obtain rfl := path_end_unique hx1 hp
      have hsame := List.inj_on_of_nodup_map (h.trace.nodup x hn) hx3 ht' (by rw [hhash, he1])
      have := run_inj h.resc h.nulls hp hp' (by rw [hsame])
      rw [(List.append_inj' this rfl).1]
    · obtain ⟨segs, hs'⟩ := noNulls_wordPath h.nulls p1
      exact ⟨segs, _, hs'⟩
    · obtain ⟨segs, hs'⟩ := noNulls_wordPath h.nulls p1'
      exact ⟨segs, _, hs'⟩

theorem path_starts {a m : Nat} {ls : List (Link S)} (hp : L.Path a ls m) : ∀ k ∈ ls, k.startNode = a ∨
    ∃ k' ∈ ls, k.startNode = k'.endNode := by
  induction hp with
  | nil => simp
  | snoc ls k hp' _ ih =>
    intro k1 hk1
    rcases List.mem_append.mp hk1 with h | h
    · rcases ih k1 h with h | ⟨k', h1, h2⟩
      · exact Or.inl h
      · exact Or.inr ⟨k', List.mem_append_left _ h1, h2⟩
    · rw [List.mem_singleton.mp h]
      cases ls using List.reverseRecOn with
      | nil => exact Or.inl (path_nil_inv hp')
      | append_singleton ls k2 => exact Or.inr ⟨k2, by simp, (path_snoc_inv hp').2.2⟩

theorem Traced.after (h : Traced D L idToWord sorted drops st) {P Q : List Nat} {n : Nat} (hs : sorted = P ++ n :: Q)
    {c m : Nat} {ls : List (Link S)} (hp : L.Path c ls m) (hc : c ∈ n :: Q) (hls : ∀ k ∈ ls, k.endNode ∈ n :: Q) :
    ∀ k ∈ ls, k.endNode ∈ Q := by
  intro k hk
  rcases List.mem_cons.mp (hls k hk) with he | he
  · exfalso
    have hst : k.startNode ∈ n :: Q := by
      rcases path_starts hp k hk with h1 | ⟨k', h1, h2⟩
      · rw [h1]; exact hc
      · rw [h2]; exact hls k' h1
    have hb := before_prefix h.nodup hs (h.topo k.startNode n (by rw [hs]; simp) ⟨k, path_mem hp k hk, rfl, he⟩)
    have hnd := h.nodup
    rw [hs, List.nodup_append] at hnd
    exact hnd.2.2 _ hb _ hst rfl
  · exact he

theorem recombFor_event (h : Traced D L idToWord sorted drops st) {n : Nat} {e : Recomb S St} (he : e ∈ drops n) :
    RecombFor L idToWord e := by
  obtain ⟨ls, hp, he1, _⟩ := h.arrived (Or.inr ⟨e, he, rfl⟩)
  obtain ⟨t', ht', _, hhist, _⟩ := h.trace.drop n e he
  obtain ⟨ls', hp', rfl⟩ := h.token ht'
  obtain ⟨sos, eos, hs, _, hb⟩ := h.resc.boundary
  have hs' : historyWords idToWord [.inl D.vocab.sos] = .ok [sos] := by simp [historyWords, hs]
  exact ⟨_, _, _, _, sos, sos, (congrArg Token.history he1).trans (runPath_attrs ls).1, hhist.trans (runPath_attrs ls').1, hs', hs',
    fun k hk => (hb k hk).1, fun k hk => (hb k hk).1, Or.inr ⟨ls, ls', n, hp, hp',
      historyWords_of _ _ h.resc.vocabulary (forall₂_histIs _ _),
      historyWords_of _ _ h.resc.vocabulary (forall₂_histIs _ _)⟩⟩

/-- Adding the links of the recombined tokens, from the last node towards the first one. -/
theorem Traced.complete (h : Traced D L idToWord sorted drops st) {depth : Nat} {maps : List (List (Str × Nat))}
    (hm : wordMaps L depth (List.range L.nodes.length) = .ok maps) {F : Nat → List Str → S → Prop} {m : Nat} {R1 : RLat S}
    {info1 : List (Nat × List Str)} {names1 : List (List Str)} (hI : RInv L False False F info1 R1)
    (hN : NInv (KeptText D L st) (fun _ _ _ _ => True) names1 R1)
    (hfin : ∀ ls, L.Path L.initial ls m → runPath D L ls ∈ st.tokens.getD m [] →
      ∃ v, lead R1 (pathText ls) 0 = some v ∧ FinalLink R1 v) (Q : List Nat) :
    ∀ (P : List Nat) (R : RLat S), sorted = P ++ Q →
      addAll (addRecomb L maps depth idToWord) (Q.flatMap drops).reverse R1 = .ok R →
      (∃ info names, RInv L False False F info R ∧ NInv (KeptText D L st) (fun _ _ _ _ => True) names R) ∧
      ∀ (ls ls2 : List (Link S)) (a : Nat), L.Path L.initial ls a → runPath D L ls ∈ st.tokens.getD a [] →
        L.Path a ls2 m → (∀ k ∈ ls2, k.endNode ∈ Q) →
        ∃ v u, lead R (pathText ls) 0 = some v ∧ RPath R v (pathText ls2) u ∧ FinalLink R u := by
  induction Q with
  | nil =>
    intro P R hs hadd
    cases hadd
    refine ⟨⟨info1, names1, hI, hN⟩, ?_⟩
    intro ls ls2 a hp hm' hp2 hls2
    cases ls2 with
    | cons k ls2 => exact absurd (hls2 k (by simp)) (by simp)
    | nil =>
      obtain rfl := path_nil_inv hp2
      obtain ⟨v, h1, h2⟩ := hfin ls hp hm'
      exact ⟨v, v, h1, .nil _, h2⟩
  | cons n Q ih =>
    intro P R hs hadd
    rw [List.flatMap_cons, List.reverse_append, addAll_append] at hadd
    obtain ⟨R', hadd', haddn⟩ := hadd
    obtain ⟨⟨info, names, hI', hN'⟩, hR'⟩ := ih (P ++ [n]) R' (by rw [hs]; simp) hadd'
    obtain ⟨info2, names2, hI2, hN2, hkeep, hlinks, hev⟩ := addRecombs_kept h.resc.wf h.resc.determinized h.nulls
      (fun p w => h.prefix p w) (G := fun _ _ _ _ => True) (fun _ _ _ _ _ _ _ _ _ => trivial) hm idToWord (drops n).reverse
      (fun e he => recombFor_event h (List.mem_reverse.mp he))
      (fun e he => by
        rcases h.event (List.mem_reverse.mp he) with ⟨h1, _⟩ | ⟨ls0, k, ls', q, w, _, _, _, _, _, _, h7, _⟩
        · exact Or.inl h1
        · exact Or.inr ⟨_, _, _, h7⟩) (fun _ _ _ _ _ _ _ _ => trivial) hI' hN' haddn
    refine ⟨⟨info2, names2, hI2, hN2⟩, ?_⟩
    intro ls ls2 a hp hm' hp2 hls2
    have hka : KeptText D L st (pathText ls) := ⟨ls, a, hp, rfl, hm'⟩
    -- paths that do not go through the node
    have hold : (∀ k ∈ ls2, k.endNode ∈ Q) →
        ∃ v u, lead R (pathText ls) 0 = some v ∧ RPath R v (pathText ls2) u ∧ FinalLink R u := by
      intro hq
      obtain ⟨v, u, h1, h2, h3⟩ := hR' ls ls2 a hp hm' hp2 hq
      exact ⟨v, u, hkeep _ _ hka h1, h2.mono hlinks, h3.mono hlinks⟩
    cases ls2 with
    | nil => exact hold (by simp)
    | cons k ls3 =>
      obtain ⟨hk1, hk2, hp3⟩ := path_cons_inv hp2
      have hq3 : ∀ k' ∈ ls3, k'.endNode ∈ Q :=
        h.after hs hp3 (hls2 k (by simp)) (fun k' hk' => hls2 k' (List.mem_cons_of_mem _ hk'))
      rcases List.mem_cons.mp (hls2 k (by simp)) with hkn | hkq
      swap
      · refine hold (fun k' hk' => ?_)
        rcases List.mem_cons.mp hk' with rfl | hk'
        · exact hkq
        · exact hq3 k' hk'
      obtain ⟨w, hw⟩ := Option.ne_none_iff_exists'.mp (h.nulls k hk1)
      have htext : pathText (k :: ls3) = w :: pathText ls3 := by simp [pathText, hw]
      have hsnoc : pathText (ls ++ [k]) = pathText ls ++ [w] := by rw [pathText_snoc, hw]; rfl
      have hpk : L.Path L.initial (ls ++ [k]) k.endNode := .snoc ls k (by rw [hk2]; exact hp) hk1
      rw [htext]
      have hsa : k.startNode ∈ sorted := (h.mem _).mpr (h.resc.wf.ends k hk1).1
      have harr := h.trace.next k hk1 hsa (runPath D L ls) (by rw [hk2]; exact hm')
      rw [← runPath_snoc] at harr
      rcases harr with hin | ⟨e, he, he1⟩
      · obtain ⟨v, u, h1, h2, h3⟩ := hR' (ls ++ [k]) ls3 k.endNode hpk hin hp3 hq3
        rw [hsnoc] at h1
        obtain ⟨y, h4, h5⟩ := lead_snoc.mp h1
        obtain ⟨_, k0, hk0, g1, g2, g3⟩ := hN'.link h5
        exact ⟨y, u, hkeep _ _ hka h4, (RPath.cons y u w _ k0 v hk0 g1 g2 g3 h2).mono hlinks, h3.mono hlinks⟩
      · rw [hkn] at he hpk
        rcases h.event he with ⟨_, h1⟩ | ⟨ls0, k', ls', q, w', p1, p2, p3, p4, p5, p6, p7, _⟩
        · have := run_inj h.resc h.nulls hpk .nil (by rw [← he1, h1])
          simp at this
        · have hsame := run_inj h.resc h.nulls hpk p1 (by rw [← he1, p2])
          obtain ⟨rfl, hkk⟩ := List.append_inj' hsame rfl
          simp only [List.cons.injEq, and_true] at hkk
          subst hkk
          rw [hw] at p3
          cases p3
          rw [hkn] at hp3
          obtain ⟨v, u, h1, h2, h3⟩ := hR' ls' ls3 n p4 p5 hp3 hq3
          rw [p6] at h1
          obtain ⟨y, g1, k0, g2, g3, g4, g5⟩ := hev e (List.mem_reverse.mpr he) _ _ _ v p7 h1
          exact ⟨y, u, g1, .cons y u w _ k0 v g2 g3 g4 g5 (h2.mono hlinks), h3.mono hlinks⟩

end

section
variable {depth : Nat} {finals : List (Token S St)} {recombs : List (Recomb S St)} {N : Lattice S}

theorem decode_traced (hr : Rescorable D L idToWord) (hn : NoNulls L) (hac : ∀ n : Nat, ¬ L.OnCycle n)
    (hin : ∀ n : Nat, n < L.nodes.length → n ≠ L.initial → ∃ a : Nat, L.Edge a n) (hb : D.beam = none)
    (hm : D.maxTokens = none) (hdec : decode D L = .ok (finals, recombs)) : ∃ sorted drops st,
    Traced D L idToWord sorted drops st ∧ finals = (sortedRecombined st.finals).1 ∧
      recombs = sorted.flatMap drops ++ (sortedRecombined st.finals).2 := by
  obtain ⟨sorted, hs, hnd, hmem, ht⟩ := sorted_acyclic hr.wf hac hin
  obtain ⟨sorted', st, hs', hst, _, rfl, rfl⟩ := decode_ok hdec
  rw [hs] at hs'
  cases hs'
  obtain ⟨drops, hT⟩ := decodeNodes_trace hr.wf hm hb hnd ht sorted (done := []) (by simp)
    (decInit_inv (path_keeps D L)) (decInit_trace hr.wf) hst
  exact ⟨sorted, drops, st, ⟨hr, hn, hac, decodeNodes_inv hr.wf (path_keeps D L) sorted (decInit_inv (path_keeps D L)) hst,
    hT, hnd, hmem, ht⟩, rfl, by rw [hT.recomb]⟩

/-- C101: when decoding does not prune, whatever the recombination order, the words of every complete path of the
original lattice are the words of a complete path of the rescored lattice.  The final node of the path has to be such
that no hypothesis that ends in it was recombined after the end of the sentence, and there may not be null links. -/
theorem C101_complete_partial (hr : Rescorable D L idToWord) (hn : NoNulls L) (hac : ∀ n : Nat, ¬ L.OnCycle n)
    (hin : ∀ n : Nat, n < L.nodes.length → n ≠ L.initial → ∃ a : Nat, L.Edge a n) (hb : D.beam = none)
    (hm : D.maxTokens = none) (hdec : decode D L = .ok (finals, recombs))
    (h : rescoredLattice L depth idToWord finals recombs = .ok N) (ls : List (Link S)) (m : Nat)
    (hp : L.Path L.initial ls m) (hf : L.Final m)
    (hsafe : ∀ e ∈ recombs, ∀ ls' : List (Link S), L.Path L.initial ls' m → ¬ DescribesPath D ls' e.1) :
    ∃ (rs : List (Link S)) (n : Nat), N.Path N.initial rs n ∧ N.Final n ∧ pathText rs = pathText ls := by
  obtain ⟨sorted, drops, st, hT, rfl, rfl⟩ := decode_traced hr hn hac hin hb hm hdec
  obtain ⟨R, hbuild, rfl⟩ := rescored_ok h
  obtain ⟨maps, R1, hmaps, h1, h2⟩ := build_ok hbuild
  have hsp := sortedRecombined_spec st.finals
  have hms : m ∈ sorted := (hT.mem m).mpr (by
    obtain ⟨nd, hnd, _⟩ := hf
    exact (List.getElem?_eq_some_iff.mp hnd).1)
  -- the final tokens
  have htok : ∀ t ∈ (sortedRecombined st.finals).1, ∃ ls, TokenFor L idToWord t ls ∧ KeptText D L st (pathText ls) := by
    intro t ht
    obtain ⟨n, _, hfn, t', ht', rfl⟩ := hT.trace.ends t (hsp.subset ht)
    obtain ⟨ls, hp', rfl⟩ := hT.token ht'
    exact ⟨ls, tokenFor_of hr hp' hfn (describes_end ls), ls, n, hp', rfl, ht'⟩
  obtain ⟨info1, hI1, _⟩ := addFinals_inv hr.wf hr.determinized hmaps idToWord _ _ (fun t ht => ht)
    (fun t ht => ⟨_, (htok t ht).choose_spec.1⟩) (rinv_init hr.wf.initial) h1
  obtain ⟨names1, hN1, _, _, hlast⟩ := addFinals_kept hr.wf hr.determinized hn (fun p w => hT.prefix p w)
    (G := fun _ _ _ _ => True) (fun _ _ _ _ _ _ _ _ _ => trivial) hmaps idToWord _ _
    (fun t ht => ht) htok (fun _ _ _ _ _ => trivial) (rinv_init hr.wf.initial) ninv_init h1
  have hI1' := hI1.mono False False.elim False False.elim _ (fun _ _ _ h => h)
  -- the tokens that were recombined after the end of the sentence
  rw [List.reverse_append, addAll_append] at h2
  obtain ⟨R1', h2, h3⟩ := h2
  obtain rfl := addRecombs_absent _ hI1' (fun e he => by
    obtain ⟨ls, n, _, _, he1⟩ := hT.inv.fin _ (hsp.recomb_mem (List.mem_reverse.mp he))
    obtain ⟨sos, eos, _, heos, hbd⟩ := hr.boundary
    obtain ⟨⟨ws, hws, _⟩, _⟩ := describes_end (D := D) (L := L) ls
    refine ⟨.inl D.vocab.eos, eos, ?_, by simp [historyWords, heos], fun k hk => (hbd k hk).2⟩
    rw [he1, hws, List.getLast?_concat]) h2
  obtain ⟨_, hcomp⟩ := hT.complete hmaps hI1' hN1 (m := m) (fun ls' hp' hm' => by
    have hend := hT.trace.final m hms hf _ hm'
    rcases List.mem_append.mp ((hsp.perm.mem_iff).mpr hend) with hk | hk
    · exact hlast _ hk ls' (tokenFor_of hr hp' hf (describes_end ls')) ⟨ls', m, hp', rfl, hm'⟩
    · obtain ⟨e, he, he1⟩ := List.mem_map.mp hk
      refine absurd ?_ (hsafe e (List.mem_append_right _ he) ls' hp')
      rw [he1]
      exact describes_end ls') sorted [] R rfl h3
  -- the first token
  have hstart : runPath D L [] ∈ st.tokens.getD L.initial [] := by
    rcases hT.trace.start with h | ⟨e, he, _⟩
    · exact h
    · obtain ⟨t', ht', _⟩ := hT.trace.drop _ e he
      obtain ⟨ls', hp', rfl, hcase⟩ := hT.arrived (Or.inl ht')
      rcases hcase with rfl | ⟨ls0, k, rfl, _⟩
      · exact ht'
      · exact (hT.initial_ne hp').elim
  obtain ⟨v, u, g1, g2, k, g3, g4, g5, g6⟩ := hcomp [] ls L.initial .nil hstart hp (fun k hk =>
    (hT.mem _).mpr (hr.wf.ends k (path_mem hp k hk)).2)
  cases g1
  obtain ⟨rs, b1, b2⟩ := hasFinal_path (u := L.utteranceId) ⟨u, g2, k, g3, g4, g5, g6⟩
  exact ⟨rs, R.nodes.length, b1, final_toLattice.mpr rfl, b2⟩

/-- C101: if no hypotheses were recombined after the end of the sentence, the rescored lattice contains exactly the word
sequences of the original lattice. -/
theorem C101_exact_partial (hr : Rescorable D L idToWord) (hn : NoNulls L) (hac : ∀ n : Nat, ¬ L.OnCycle n)
    (hin : ∀ n : Nat, n < L.nodes.length → n ≠ L.initial → ∃ a : Nat, L.Edge a n) (hb : D.beam = none)
    (hm : D.maxTokens = none) (hdec : decode D L = .ok (finals, recombs))
    (h : rescoredLattice L depth idToWord finals recombs = .ok N)
    (hsafe : ∀ e ∈ recombs, e.1.history.getLast? ≠ some (.inl D.vocab.eos)) (ws : List Str) :
    (∃ (ls : List (Link S)) (m : Nat), L.Path L.initial ls m ∧ L.Final m ∧ pathText ls = ws) ↔
      ∃ (rs : List (Link S)) (n : Nat), N.Path N.initial rs n ∧ N.Final n ∧ pathText rs = ws := by
  constructor
  · rintro ⟨ls, m, h1, h2, rfl⟩
    refine C101_complete_partial hr hn hac hin hb hm hdec h ls m h1 h2 (fun e he ls' _ hd => ?_)
    obtain ⟨⟨ws', h3, _⟩, _⟩ := hd
    exact hsafe e he (by rw [h3, List.getLast?_concat])
  · rintro ⟨rs, n, h1, h2, rfl⟩
    exact C35_sound_partial hr (Or.inr hn) hdec h rs n h1 h2

end

theorem acyclic_of_check {L : Lattice ℚ} (hall : ∀ k ∈ L.links, k.startNode < k.endNode) (n : Nat) : ¬ L.OnCycle n := by
  have htr : ∀ a b : Nat, Relation.TransGen L.Edge a b → a < b := by
    intro a b h
    induction h with
    | single h => obtain ⟨k, hk, rfl, rfl⟩ := h; exact hall k hk
    | tail _ h ih => obtain ⟨k, hk, rfl, rfl⟩ := h; exact lt_trans ih (hall k hk)
  exact fun h => lt_irrefl _ (htr n n h)

theorem incoming_of_check {L : Lattice ℚ} (hall : ∀ n < L.nodes.length, n ≠ L.initial → ∃ k ∈ L.links, k.endNode = n)
    (n : Nat) (hn : n < L.nodes.length) (hi : n ≠ L.initial) : ∃ a : Nat, L.Edge a n := by
  obtain ⟨k, hk, he⟩ := hall n hn hi
  exact ⟨_, k, hk, rfl, he⟩

/-- Concrete case for C101: one of two paths is recombined in the last node, and both are in the rescored lattice. -/
example : Rescorable { exDecoder with recombinationOrder := some 1 } exParallel exVocabWord ∧ NoNulls exParallel ∧
    (∀ n : Nat, ¬ exParallel.OnCycle n) ∧
    (∀ n : Nat, n < exParallel.nodes.length → n ≠ exParallel.initial → ∃ a : Nat, exParallel.Edge a n) ∧
    exDecoder.beam = none ∧ exDecoder.maxTokens = none ∧
    ∃ r, decode { exDecoder with recombinationOrder := some 1 } exParallel = .ok r ∧ r.2.length = 1 ∧ r.1.length = 1 ∧
      (∀ e ∈ r.2, e.1.history.getLast? ≠ some (.inl exDecoder.vocab.eos)) ∧
      ∃ N, rescoredLattice exParallel 100 exVocabWord r.1 r.2 = .ok N ∧ N.links.length = 5 :=
  ⟨exParallel_ok, (by unfold NoNulls; decide +kernel), acyclic_of_check (by decide +kernel),
    incoming_of_check (by decide +kernel), rfl, rfl, (by decide +kernel)⟩

/-- Paths "a" and "c". -/
def exChoice : Lattice ℚ := exWordLattice 2 [(0, 1, some "a".toList, -1, -1), (0, 1, some "c".toList, -5, -1)]

theorem exChoice_ok : Rescorable { exDecoder with recombinationOrder := some 1 } exChoice exVocabWord where
  wf := wf_of_check _ (by decide +kernel)
  determinized := det_of_check (by decide +kernel)
  vocabulary := exVocab_inverse
  boundary := ⟨"<s>".toList, "</s>".toList, by decide +kernel, by decide +kernel, by decide +kernel⟩

theorem exChoice_rescored : ∃ r, decode { exDecoder with recombinationOrder := some 1 } exChoice = .ok r ∧
    ∃ N, rescoredLattice exChoice 100 exVocabWord r.1 r.2 = .ok N ∧ ∀ k ∈ N.links, k.word ≠ some "c".toList := by
  decide +kernel

/-- C101 does not hold for hypotheses that are recombined after the end of the sentence: a word sequence of the original
lattice is missing, although nothing was pruned. -/
theorem C101_violated : ∃ (D : Decoder ℚ (List Nat)) (L N : Lattice ℚ) (f : Nat → Option Str)
    (r : List (Token ℚ (List Nat)) × List (Recomb ℚ (List Nat))) (ls : List (Link ℚ)) (m : Nat),
    Rescorable D L f ∧ NoNulls L ∧ (∀ n : Nat, ¬ L.OnCycle n) ∧
    (∀ n : Nat, n < L.nodes.length → n ≠ L.initial → ∃ a : Nat, L.Edge a n) ∧ D.beam = none ∧ D.maxTokens = none ∧
    decode D L = .ok r ∧ rescoredLattice L 100 f r.1 r.2 = .ok N ∧ L.Path L.initial ls m ∧ L.Final m ∧
    ∀ (rs : List (Link ℚ)) (n : Nat), N.Path N.initial rs n → pathText rs ≠ pathText ls := by
  obtain ⟨r, h1, N, h2, h3⟩ := exChoice_rescored
  refine ⟨_, exChoice, N, exVocabWord, r, [⟨0, 1, some "c".toList, some (-5), some (-1), []⟩], 1, exChoice_ok,
    (by unfold NoNulls; decide +kernel), acyclic_of_check (by decide +kernel), incoming_of_check (by decide +kernel), rfl,
    rfl, h1, h2, .snoc [] _ .nil (by decide +kernel), ⟨_, rfl, rfl⟩, ?_⟩
  intro rs n hp he
  have hc : "c".toList ∈ pathText rs := by rw [he]; decide
  obtain ⟨k, hk, hkw⟩ := List.mem_filterMap.mp hc
  exact h3 k (path_mem hp k hk) hkw

end TheanoLM
