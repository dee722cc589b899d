import Verif.Props.DecoderRecombination
/-!
# C103: the language model scores of rescored lattices
-/
namespace TheanoLM

variable {S St : Type} [Field S] [LinearOrder S] {D : Decoder S St} {L : Lattice S} {idToWord : Nat → Option Str}

set_option linter.unusedSectionVars false

/-- The language model score of a link between the nodes with the given names: the original score of the word, and the difference between
the network scores of the words to the beginning of the link and the link, and the words to the end of the link. -/
def ScoreGood (D : Decoder S St) (L : Lattice S) (nm : List Str) (nm' : Option (List Str)) (w : Option Str) (lm : S) : Prop :=
  match w, nm' with
  | some w, some nm' => ∃ (ls ls' : List (Link S)) (k : Link S), L.Path L.initial (ls ++ [k]) k.endNode ∧ pathText ls = nm ∧
      k.word = some w ∧ L.Path L.initial ls' k.endNode ∧ pathText ls' = nm' ∧
      SameRecent D.recombinationOrder (runPath D L (ls ++ [k])).history (runPath D L ls').history ∧
      lm = k.lm.getD 0 + (runPath D L (ls ++ [k])).nnLm - (runPath D L ls').nnLm
  | none, none => ∃ (ls : List (Link S)) (n : Nat), L.Path L.initial ls n ∧ L.Final n ∧ pathText ls = nm ∧
      lm = (runEnd D L ls).nnLm
  | _, _ => False

theorem linksGood {Kept : List Str → Prop} (hn : NoNulls L) : LinksGood L Kept (ScoreGood D L) := by
  intro pre w segs seg a b _ hp hs
  obtain ⟨h1, h2⟩ := wordPath_path hp
  obtain ⟨ns, k, rfl, e1, e2, e3⟩ := hs
  have hnil : ns = [] := by
    cases ns with
    | nil => rfl
    | cons x xs => exact absurd (e1 x (by simp)) (hn x (path_mem e3 x (by simp)))
  subst hnil
  rw [List.nil_append] at e3 ⊢
  obtain ⟨e4, e5, e6⟩ := path_snoc_inv (ls := []) e3
  have e7 := path_nil_inv e4
  have hpath : L.Path L.initial (segs.flatten ++ [k]) k.endNode := .snoc _ k (by rw [e7]; exact h1) e5
  refine ⟨segs.flatten, segs.flatten ++ [k], k, hpath, h2, e2, hpath, ?_, sameRecent_refl _ _, ?_⟩
  · rw [pathText_snoc, h2, e2]; rfl
  · simp [lmOf]

/-- The word adds the same to the network scores of paths that recombination does not tell apart. -/
theorem same_added (hctx : ContextLimited D) {ls ls' : List (Link S)}
    (h : SameRecent D.recombinationOrder (runPath D L ls').history (runPath D L ls).history) (k : Link S) :
    SameRecent D.recombinationOrder (runPath D L (ls' ++ [k])).history (runPath D L (ls ++ [k])).history ∧
    (runPath D L (ls' ++ [k])).nnLm - (runPath D L ls').nnLm = (runPath D L (ls ++ [k])).nnLm - (runPath D L ls).nnLm := by
  have hs := append_same hctx h
  rw [runPath_snoc, runPath_snoc]
  unfold propagateLink
  cases k.word with
  | none => exact ⟨h, by simp [mkToken]⟩
  | some w => exact ⟨sameRecent_snoc h _, by simp [mkToken, hs]⟩

theorem same_added_end (hctx : ContextLimited D) {ls ls' : List (Link S)}
    (h : SameRecent D.recombinationOrder (runPath D L ls').history (runPath D L ls).history) :
    (runEnd D L ls').nnLm - (runPath D L ls').nnLm = (runEnd D L ls).nnLm - (runPath D L ls).nnLm := by
  have hs := append_same hctx h
  unfold runEnd propagateEnd
  simp [mkToken, hs]

section
variable {Kept : List Str → Prop} {names : List (List Str)} {R : RLat S}

theorem path_exact (hd : Determinized L) (hn : NoNulls L) (hctx : ContextLimited D) (hN : NInv Kept (ScoreGood D L) names R)
    {u : Option Str} {rs : List (Link S)} {v : Nat} (h : (R.toLattice u).Path 0 rs v) : v < R.nodes.length →
    ∃ (ls ls' : List (Link S)) (n : Nat), names[v]? = some (pathText ls') ∧ L.Path L.initial ls n ∧ L.Path L.initial ls' n ∧
      pathText ls = pathText rs ∧
      SameRecent D.recombinationOrder (runPath D L ls).history (runPath D L ls').history ∧
      lmOf rs = lmOf ls + (runPath D L ls).nnLm - (runPath D L ls').nnLm := by
  induction h with
  | nil =>
    intro _
    exact ⟨[], [], L.initial, hN.root, .nil, .nil, rfl, sameRecent_refl _ _, by simp [lmOf]⟩
  | snoc rs l _ hl ih =>
    intro hv
    obtain ⟨k, hk, rfl⟩ := mem_toLattice.mp hl
    obtain ⟨nm, h1, h2⟩ := hN.good k hk
    obtain ⟨ls, ls', n, g1, g2, g3, g4, g5, g6⟩ := ih (by
      rw [← hN.len]; exact (List.getElem?_eq_some_iff.mp h1).1)
    rcases h2 with ⟨e, nm', e1, e2, e3⟩ | ⟨e1, _⟩
    swap
    · simp [RLink.toLink, e1] at hv
    have hend : (k.toLink R.nodes.length).endNode = e := by simp [RLink.toLink, e1]
    have hst : (k.toLink R.nodes.length).startNode = k.startNode := rfl
    rw [hst, h1] at g1
    cases g1
    cases hkw : k.word with
    | none => rw [hkw] at e3; exact e3.elim
    | some w =>
      rw [hkw] at e3
      obtain ⟨lx, lx', kl, p1, p2, p3, p4, rfl, p6, p7⟩ := e3
      obtain ⟨q1, q2, _⟩ := path_snoc_inv p1
      obtain rfl := noNulls_unique hd hn q1 g3 p2
      obtain rfl := path_end_unique q1 g3
      obtain ⟨a1, a2⟩ := same_added hctx g5 kl
      refine ⟨ls ++ [kl], lx', kl.endNode, by rw [hend]; exact e2, .snoc ls kl g2 q2, p4, ?_, sameRecent_trans a1 p6, ?_⟩
      · rw [pathText_snoc, pathText_snoc, g4, p3]; simp [RLink.toLink, hkw]
      · have hlm : lmOf (rs ++ [k.toLink R.nodes.length]) = lmOf rs + k.lm := by simp [lmOf, RLink.toLink]
        have hlm' : lmOf (ls ++ [kl]) = lmOf ls + kl.lm.getD 0 := by simp [lmOf]
        rw [hlm, hlm', g6, p7]
        linear_combination -a2

end

section
variable {depth : Nat} {finals : List (Token S St)} {recombs : List (Recomb S St)} {N : Lattice S}

theorem eventFor_unique {Kept : List Str → Prop} {e : Recomb S St} {p q p' q' : List Str} {w w' : Str}
    (h : EventFor L idToWord Kept e p q w) (h' : EventFor L idToWord Kept e p' q' w') : p = p' ∧ q = q' ∧ w = w' := by
  obtain ⟨a, b, hi, hi', last, e1, e2, t1, t2, t3⟩ := h.histories
  obtain ⟨a', b', gi, gi', last', f1, f2, s1, s2, s3⟩ := h'.histories
  rw [e1, List.cons.injEq] at f1
  rw [e2, List.cons.injEq] at f2
  obtain ⟨rfl, hlast⟩ := List.append_inj' f1.2 rfl
  cases hlast
  obtain ⟨rfl, _⟩ := List.append_inj' f2.2 rfl
  rw [t1] at s1
  rw [t2] at s2
  rw [t3] at s3
  cases s1; cases s2; cases s3
  exact ⟨rfl, rfl, rfl⟩

theorem rescored_exact (hr : Rescorable D L idToWord) (hn : NoNulls L) (hac : ∀ n : Nat, ¬ L.OnCycle n)
    (hin : ∀ n : Nat, n < L.nodes.length → n ≠ L.initial → ∃ a : Nat, L.Edge a n) (hb : D.beam = none)
    (hm : D.maxTokens = none) (hpar : ParallelLm L) (hdec : decode D L = .ok (finals, recombs))
    (h : rescoredLattice L depth idToWord finals recombs = .ok N) :
    ∃ (Kept : List Str → Prop) (names : List (List Str)) (R : RLat S), NInv Kept (ScoreGood D L) names R ∧
      N = R.toLattice L.utteranceId := by
  obtain ⟨sorted, drops, st, hT, rfl, rfl⟩ := decode_traced hr hn hac hin hb hm hdec
  obtain ⟨R, hbuild, rfl⟩ := rescored_ok h
  obtain ⟨maps, R1, hmaps, h1, h2⟩ := build_ok hbuild
  have hsp := sortedRecombined_spec st.finals
  have htok : ∀ t ∈ (sortedRecombined st.finals).1, ∃ ls, TokenFor L idToWord t ls ∧ KeptText D L st (pathText ls) := by
    intro t ht
    obtain ⟨n, _, hfn, t', ht', rfl⟩ := hT.trace.ends t (hsp.subset ht)
    obtain ⟨ls, hp', rfl⟩ := hT.token ht'
    exact ⟨ls, tokenFor_of hr hp' hfn (describes_end ls), ls, n, hp', rfl, ht'⟩
  obtain ⟨info1, hI1, _⟩ := addFinals_inv hr.wf hr.determinized hmaps idToWord _ _ (fun t ht => ht)
    (fun t ht => ⟨_, (htok t ht).choose_spec.1⟩) (rinv_init hr.wf.initial) h1
  obtain ⟨names1, hN1, _⟩ := addFinals_kept hr.wf hr.determinized hn (fun p w => hT.prefix p w)
    (linksGood (D := D) hn) hmaps idToWord _ _ (fun t ht => ht) htok (fun t ht ls htf _ => by
      obtain ⟨n, _, hfn, t', ht', rfl⟩ := hT.trace.ends t (hsp.subset ht)
      obtain ⟨ls', hp', rfl⟩ := hT.token ht'
      obtain ⟨_, eos', _, _, hh', _⟩ := tokenFor_of hr hp' hfn (describes_end (D := D) (L := L) ls')
      obtain ⟨_, eos, _, _, hh, _⟩ := htf
      rw [show propagateEnd D (decLmScale D L) (decWiPenalty D L) (runPath D L ls') = runEnd D L ls' from rfl, hh'] at hh
      injection hh with hh
      exact ⟨ls', n, hp', hfn, (List.append_inj' hh rfl).1, rfl⟩) (rinv_init hr.wf.initial) ninv_init h1
  have hI1' := hI1.mono False False.elim False False.elim _ (fun _ _ _ h => h)
  rw [List.reverse_append, addAll_append] at h2
  obtain ⟨R1', h2, h3⟩ := h2
  obtain rfl := addRecombs_absent _ hI1' (fun e he => by
    obtain ⟨ls, n, _, _, he1⟩ := hT.inv.fin _ (hsp.recomb_mem (List.mem_reverse.mp he))
    obtain ⟨sos, eos, _, heos, hbd⟩ := hr.boundary
    obtain ⟨⟨ws, hws, _⟩, _⟩ := describes_end (D := D) (L := L) ls
    refine ⟨.inl D.vocab.eos, eos, ?_, by simp [historyWords, heos], fun k hk => (hbd k hk).2⟩
    rw [he1, hws, List.getLast?_concat]) h2
  have hmem : ∀ e ∈ (sorted.flatMap drops).reverse, ∃ n, e ∈ drops n := by
    intro e he
    obtain ⟨n, _, h⟩ := List.mem_flatMap.mp (List.mem_reverse.mp he)
    exact ⟨n, h⟩
  obtain ⟨_, names, _, hN, _⟩ := addRecombs_kept hr.wf hr.determinized hn (fun p w => hT.prefix p w)
    (linksGood (D := D) hn) hmaps idToWord _
    (fun e he => by
      obtain ⟨n, he⟩ := hmem e he
      exact recombFor_event hT he)
    (fun e he => by
      obtain ⟨n, he⟩ := hmem e he
      rcases hT.event he with ⟨h1, _⟩ | ⟨ls0, k, ls', q, w, _, _, _, _, _, _, h7, _⟩
      · exact Or.inl h1
      · exact Or.inr ⟨_, _, _, h7⟩)
    (fun e he p q w hev lm hg => by
      obtain ⟨n, he⟩ := hmem e he
      rcases hT.event he with ⟨⟨b, w', b1, b2, b3⟩, _⟩ | ⟨ls0, k, ls', q', w', p1, p2, p3, p4, _, p6, p7, p8, p9⟩
      · -- the last word is on a link
        exfalso
        obtain ⟨a, b', hi, hi', last, e1, e2, t1, t2, t3⟩ := hev.histories
        rw [e1, ← List.cons_append, List.getLast?_concat] at b1
        cases b1
        rw [t3] at b2
        cases b2
        obtain ⟨lx, _, kl, x1, _, x3, _⟩ := hg
        obtain ⟨_, y2, _⟩ := path_snoc_inv x1
        exact b3 _ y2 x3
      · obtain ⟨rfl, rfl, rfl⟩ := eventFor_unique hev p7
        obtain ⟨lx, lx', kl, x1, x2, x3, x4, x5, x6, x7⟩ := hg
        obtain ⟨_, p11, p12⟩ := path_snoc_inv p1
        obtain ⟨_, x11, _⟩ := path_snoc_inv x1
        obtain rfl := noNulls_unique hr.determinized hn x4 p4 (by rw [x5, p6])
        obtain rfl := noNulls_unique hr.determinized hn x1 x4 (by rw [x5, pathText_snoc, x2, x3]; rfl)
        have hend := path_end_unique x4 p4
        refine ⟨ls0, lx ++ [kl], k, by rw [← p12]; exact p1, rfl, p3, by rw [← p12]; exact p4, x5, ?_, ?_⟩
        · rw [(computed_run _).hash, (computed_run _).hash, limited_iff] at p8
          exact sameRecent_symm p8
        · rw [x7, p2, p9, hpar k p11 kl x11 (by rw [← p12, hend]) (by rw [p3, x3])]
          ring) hI1' hN1 h3
  exact ⟨_, names, R, hN, rfl⟩

/-- C103.  When the network predicts the same from all histories that recombination does not tell apart, and nothing is pruned, the
language model score of every complete path of the rescored lattice is the sum of the original score and the network score of a complete
path of the original lattice with the same words.  There may not be null links, and links with the same word to the same node have to have
the same language model score. -/
theorem C103_added_partial (hr : Rescorable D L idToWord) (hn : NoNulls L) (hpar : ParallelLm L) (hac : ∀ n : Nat, ¬ L.OnCycle n)
    (hin : ∀ n : Nat, n < L.nodes.length → n ≠ L.initial → ∃ a : Nat, L.Edge a n) (hctx : ContextLimited D) (hb : D.beam = none)
    (hm : D.maxTokens = none) (hdec : decode D L = .ok (finals, recombs))
    (h : rescoredLattice L depth idToWord finals recombs = .ok N) (rs : List (Link S)) (n : Nat) (hp : N.Path N.initial rs n)
    (hf : N.Final n) : ∃ (ls : List (Link S)) (m : Nat) (z : S), L.Path L.initial ls m ∧ L.Final m ∧ pathText ls = pathText rs ∧
      AddedComplete D ls z ∧ lmOf rs = lmOf ls + z := by
  obtain ⟨Kept, names, R, hN, rfl⟩ := rescored_exact hr hn hac hin hb hm hpar hdec h
  rw [final_toLattice] at hf
  subst hf
  cases rs using List.reverseRecOn with
  | nil =>
    have h0 := path_nil_inv hp
    have h1 := (List.getElem?_eq_some_iff.mp hN.root).1
    rw [hN.len, h0] at h1
    exact absurd h1 (lt_irrefl _)
  | append_singleton rs l =>
    obtain ⟨h1, h2, h3⟩ := path_snoc_inv hp
    obtain ⟨k, hk, rfl⟩ := mem_toLattice.mp h2
    obtain ⟨nm, g1, g2⟩ := hN.good k hk
    rcases g2 with ⟨e, nm', e1, e2, _⟩ | ⟨e1, e2⟩
    · have := (List.getElem?_eq_some_iff.mp e2).1
      rw [hN.len] at this
      simp [RLink.toLink, e1] at h3
      omega
    · obtain ⟨ls, ls', m, a1, a2, a3, a4, a5, a6⟩ := path_exact hr.determinized hn hctx hN h1 (by
        rw [← hN.len]; exact (List.getElem?_eq_some_iff.mp g1).1)
      rw [show (k.toLink R.nodes.length).startNode = k.startNode from rfl, g1] at a1
      cases a1
      cases hkw : k.word with
      | some w => rw [hkw] at e2; exact e2.elim
      | none =>
        rw [hkw] at e2
        obtain ⟨lx, mx, x1, x2, x3, x4⟩ := e2
        obtain rfl := noNulls_unique hr.determinized hn x1 a3 x3
        obtain rfl := path_end_unique x1 a3
        obtain ⟨z, hz⟩ := addedComplete_exists (D := D) ls
        refine ⟨ls, mx, z, a2, x2, ?_, hz, ?_⟩
        · rw [pathText_snoc, a4]; simp [RLink.toLink, hkw]
        · have hlm : lmOf (rs ++ [k.toLink R.nodes.length]) = lmOf rs + k.lm := by simp [lmOf, RLink.toLink]
          rw [hlm, a6, x4, ← addedComplete_run (L := L) hz]
          linear_combination -same_added_end hctx a5

/-- C103, with the scores of the model. -/
theorem C103_scores_partial (hr : Rescorable D L idToWord) (hn : NoNulls L) (hpar : ParallelLm L) (hac : ∀ n : Nat, ¬ L.OnCycle n)
    (hin : ∀ n : Nat, n < L.nodes.length → n ≠ L.initial → ∃ a : Nat, L.Edge a n) (hctx : ContextLimited D) (hb : D.beam = none)
    (hm : D.maxTokens = none) (hc : NoClassEffect D)
    (he : memberScore D.vocab (.inl D.vocab.sos) = memberScore D.vocab (.inl D.vocab.eos)) (hdec : decode D L = .ok (finals, recombs))
    (h : rescoredLattice L depth idToWord finals recombs = .ok N) (rs : List (Link S)) (n : Nat) (hp : N.Path N.initial rs n)
    (hf : N.Final n) : ∃ (ls : List (Link S)) (m : Nat) (z : S), L.Path L.initial ls m ∧ L.Final m ∧ pathText ls = pathText rs ∧
      NNComplete D ls z ∧ lmOf rs = lmOf ls + z := by
  obtain ⟨ls, m, z, h1, h2, h3, h4, h5⟩ := C103_added_partial hr hn hpar hac hin hctx hb hm hdec h rs n hp hf
  obtain ⟨z', hz⟩ := nnComplete_exists (D := D) ls
  refine ⟨ls, m, z', h1, h2, h3, hz, ?_⟩
  rw [h5, ← addedComplete_run (L := L) h4, nnComplete_run hc he hz]

/-- C103.  When also the acoustic scores and transitions of links with the same word to the same node are equal, and no hypotheses were
recombined after the end of the sentence, the rescored lattice has exactly the complete paths of the original lattice, with the same words,
acoustic scores and transitions, and with the scores of the network added to the language model scores. -/
theorem C103_exact_partial (hr : Rescorable D L idToWord) (hn : NoNulls L) (hpar : ParallelLm L) (hsame : ParallelSame L)
    (hac : ∀ n : Nat, ¬ L.OnCycle n) (hin : ∀ n : Nat, n < L.nodes.length → n ≠ L.initial → ∃ a : Nat, L.Edge a n)
    (hctx : ContextLimited D) (hb : D.beam = none) (hm : D.maxTokens = none) (hc : NoClassEffect D)
    (he : memberScore D.vocab (.inl D.vocab.sos) = memberScore D.vocab (.inl D.vocab.eos)) (hdec : decode D L = .ok (finals, recombs))
    (h : rescoredLattice L depth idToWord finals recombs = .ok N)
    (hsafe : ∀ e ∈ recombs, e.1.history.getLast? ≠ some (.inl D.vocab.eos)) :
    (∀ (rs : List (Link S)) (n : Nat), N.Path N.initial rs n → N.Final n → ∃ (ls : List (Link S)) (m : Nat) (z : S),
      L.Path L.initial ls m ∧ L.Final m ∧ NNComplete D ls z ∧ pathText rs = pathText ls ∧ acOf rs = acOf ls ∧
      lmOf rs = lmOf ls + z ∧ (rs.map Link.transitions).flatten = (ls.map Link.transitions).flatten) ∧
    ∀ (ls : List (Link S)) (m : Nat) (z : S), L.Path L.initial ls m → L.Final m → NNComplete D ls z →
      ∃ (rs : List (Link S)) (n : Nat), N.Path N.initial rs n ∧ N.Final n ∧ pathText rs = pathText ls ∧ acOf rs = acOf ls ∧
      lmOf rs = lmOf ls + z ∧ (rs.map Link.transitions).flatten = (ls.map Link.transitions).flatten := by
  have key : ∀ (rs : List (Link S)) (n : Nat), N.Path N.initial rs n → N.Final n → ∃ (ls : List (Link S)) (m : Nat) (z : S),
      L.Path L.initial ls m ∧ L.Final m ∧ NNComplete D ls z ∧ pathText rs = pathText ls ∧ acOf rs = acOf ls ∧
      lmOf rs = lmOf ls + z ∧ (rs.map Link.transitions).flatten = (ls.map Link.transitions).flatten := by
    intro rs n hp hf
    obtain ⟨ls, m, z, h1, h2, h3, h4, h5⟩ := C103_scores_partial hr hn hpar hac hin hctx hb hm hc he hdec h rs n hp hf
    obtain ⟨ls', m', g1, g2, g3, g4, g5⟩ := C100_sound_partial hr hn hsame hdec h rs n hp hf
    obtain rfl := noNulls_unique hr.determinized hn h1 g1 (h3.trans g3.symm)
    exact ⟨ls, m, z, h1, h2, h4, h3.symm, g4, h5, g5⟩
  refine ⟨key, ?_⟩
  intro ls m z hp hf hz
  obtain ⟨rs, n, h1, h2, h3⟩ := (C101_exact_partial hr hn hac hin hb hm hdec h hsafe (pathText ls)).mp ⟨ls, m, hp, hf, rfl⟩
  obtain ⟨ls', m', z', g1, g2, g3, g4, g5, g6, g7⟩ := key rs n h1 h2
  obtain rfl := noNulls_unique hr.determinized hn g1 hp (g4.symm.trans h3)
  obtain ⟨z0, _, hz0⟩ := C33_score_unique (D := D) ls'
  rw [hz0 z' g3, ← hz0 z hz] at g6
  exact ⟨rs, n, h1, h2, g4, g5, g6, g7⟩

end

section
variable {P : Parsers} {v : Vocab} {unkId : Nat} {env : CreateEnv ℝ} {a : Architecture} {layers : List (Created ℝ)} {output : Nat}
  {D : Decoder ℝ (RecState ℝ)} {useShortlist : Bool}

/-- C103, networks without recurrent layers.  Whichever number of words recombination compares, the language model scores of the paths are
the original scores and the scores that the text scorer gives to the words. -/
theorem C103_network_partial {L N : Lattice ℝ} {idToWord : Nat → Option Str} {depth : Nat} {finals : List (Token ℝ (RecState ℝ))}
    {recombs : List (Recomb ℝ (RecState ℝ))} (hv : Constructible P v) (hu : v.wordToId unk = some unkId) (hm : ModelOf env a v layers output)
    (hf : ∀ c ∈ layers, (∀ kind, (∀ b, c.layer ≠ .recurrent kind b) ∧ ∀ f b, c.layer ≠ .bidirectional kind f b) ∧
      ∀ b k i filters, c.layer ≠ .glu b k i filters)
    (hD : D.Uses v unkId layers output useShortlist false)
    (hn : D.unkFromLattice = false ∧ D.unkPenalty = none)
    (hpos : ∀ w i, (w = eos ∨ ∃ k ∈ L.links, k.word = some w) → IdOf v false unkId w i → PositiveWord v useShortlist i)
    (he : ∀ i j, v.wordToId sos = some i → v.wordToId eos = some j → (memberOf v i).2 = (memberOf v j).2)
    (hr : Rescorable D L idToWord) (hnull : NoNulls L) (hpar : ParallelLm L)
    (hac : ∀ n : Nat, ¬ L.OnCycle n) (hin : ∀ n : Nat, n < L.nodes.length → n ≠ L.initial → ∃ a : Nat, L.Edge a n)
    (hbeam : D.beam = none) (hmax : D.maxTokens = none) (hdec : decode D L = .ok (finals, recombs))
    (h : rescoredLattice L depth idToWord finals recombs = .ok N) (rs : List (Link ℝ)) (n : Nat) (hp : N.Path N.initial rs n)
    (hfin : N.Final n) : ∃ (ls : List (Link ℝ)) (m : Nat) (z : ℝ), L.Path L.initial ls m ∧ L.Final m ∧ pathText ls = pathText rs ∧
      TextScore (scorerOf v unkId layers output useShortlist false) (pathText rs) z ∧ lmOf rs = lmOf ls + z := by
  obtain ⟨s, e, hs, hee, hV⟩ := hD.vocab
  have hvs : D.vocab.sos = s := by rw [hV]; rfl
  have hve : D.vocab.eos = e := by rw [hV]; rfl
  obtain ⟨ls, m, z, h1, h2, h3, h4, h5⟩ := C103_scores_partial hr hnull hpar hac hin (stateless_context hD fun c hc => (hf c hc).1) hbeam
    hmax (.inl hn) (by
      rw [(uses_netId hv hu hD _).2.2, (uses_netId hv hu hD _).2.2, hvs, hve]
      show Real.log ((memberOf v s).2 : ℝ) = Real.log ((memberOf v e).2 : ℝ)
      rw [he s e hs hee]) hdec h rs n hp hfin
  refine ⟨ls, m, z, h1, h2, h3, ?_, h5⟩
  rw [← h3]
  refine nnComplete_textScore hv hu hm (fun c hc => ⟨fun kind f b => ((hf c hc).1 kind).2 f b, (hf c hc).2⟩) hD hn ?_ h4
  intro w hw' i hi
  refine hpos w i ?_ hi
  rcases List.mem_append.mp hw' with h | h
  · obtain ⟨k, hk, hkw⟩ := List.mem_filterMap.mp h
    exact .inr ⟨k, path_links h1 k hk, hkw⟩
  · exact .inl (List.mem_singleton.mp h)

end

/-! ## Concrete cases -/

/-- Paths "a b a" and "c b a". -/
def exRecombLattice : Lattice ℚ := exWordLattice 4
  [(0, 1, some "a".toList, -1, -1), (0, 1, some "c".toList, -2, -1), (1, 2, some "b".toList, -1, -1), (2, 3, some "a".toList, -1, -2)]

theorem exRecomb_ok : Rescorable exBigramDecoder exRecombLattice exVocabWord where
  wf := wf_of_check _ (by decide +kernel)
  determinized := det_of_check (by decide +kernel)
  vocabulary := exVocab_inverse
  boundary := ⟨"<s>".toList, "</s>".toList, by decide +kernel, by decide +kernel, by decide +kernel⟩

/-- A case that meets the hypotheses of C103, in which hypotheses are recombined. -/
example : Rescorable exBigramDecoder exRecombLattice exVocabWord ∧ NoNulls exRecombLattice ∧ ParallelLm exRecombLattice ∧
    ParallelSame exRecombLattice ∧ (∀ n : Nat, ¬ exRecombLattice.OnCycle n) ∧
    (∀ n : Nat, n < exRecombLattice.nodes.length → n ≠ exRecombLattice.initial → ∃ a : Nat, exRecombLattice.Edge a n) ∧
    ContextLimited exBigramDecoder ∧ exBigramDecoder.beam = none ∧ exBigramDecoder.maxTokens = none ∧ NoClassEffect exBigramDecoder ∧
    memberScore exBigramDecoder.vocab (.inl exBigramDecoder.vocab.sos) =
      memberScore exBigramDecoder.vocab (.inl exBigramDecoder.vocab.eos) ∧
    ∃ r, decode exBigramDecoder exRecombLattice = .ok r ∧ r.2.length = 1 ∧
      (∀ e ∈ r.2, e.1.history.getLast? ≠ some (.inl exBigramDecoder.vocab.eos)) ∧
      ∃ N, rescoredLattice exRecombLattice 100 exVocabWord r.1 r.2 = .ok N ∧ N.links.length = 6 :=
  ⟨exRecomb_ok, (by unfold NoNulls; decide +kernel), (by unfold ParallelLm; decide +kernel), (by unfold ParallelSame; decide +kernel),
    acyclic_of_check (by decide +kernel), incoming_of_check (by decide +kernel), exBigram_context, rfl, rfl, .inl ⟨rfl, rfl⟩,
    (by decide +kernel), (by decide +kernel)⟩

/-- Paths "a b" and "c b", with different language model scores on the links with "b". -/
def exParallelLm : Lattice ℚ := exWordLattice 4
  [(0, 1, some "a".toList, -1, -1), (0, 2, some "c".toList, -1, -1), (1, 3, some "b".toList, -1, -1),
   (2, 3, some "b".toList, -1, -5)]

theorem exParallelLm_ok : Rescorable exBigramDecoder exParallelLm exVocabWord where
  wf := wf_of_check _ (by decide +kernel)
  determinized := det_of_check (by decide +kernel)
  vocabulary := exVocab_inverse
  boundary := ⟨"<s>".toList, "</s>".toList, by decide +kernel, by decide +kernel, by decide +kernel⟩

/-- C103 does not hold when links with the same word to the same node have different language model scores: the new link gets the language
model score of the last link of the token that was kept. -/
theorem C103_violated : ∃ (D : Decoder ℚ (List Nat)) (L N : Lattice ℚ) (f : Nat → Option Str)
    (r : List (Token ℚ (List Nat)) × List (Recomb ℚ (List Nat))) (rs : List (Link ℚ)) (n : Nat),
    Rescorable D L f ∧ NoNulls L ∧ ContextLimited D ∧ D.beam = none ∧ D.maxTokens = none ∧ decode D L = .ok r ∧
    rescoredLattice L 100 f r.1 r.2 = .ok N ∧ N.Path N.initial rs n ∧ N.Final n ∧
    ∀ (ls : List (Link ℚ)) (m : Nat) (z : ℚ), L.Path L.initial ls m → pathText ls = pathText rs → NNComplete D ls z →
      lmOf rs ≠ lmOf ls + z := by
  obtain ⟨r, h1, N, h2, h3, h4, h5⟩ : ∃ r, decode exBigramDecoder exParallelLm = .ok r ∧
      ∃ N, rescoredLattice exParallelLm 100 exVocabWord r.1 r.2 = .ok N ∧ N.initial = 0 ∧ N.nodes[4]? = some ⟨[], [], none, true⟩ ∧
      N.links = [⟨0, 1, some "a".toList, some (-1), some (-1), []⟩, ⟨1, 2, some "b".toList, some (-1), some (-1), []⟩,
        ⟨2, 4, none, some 0, some (-7), []⟩, ⟨0, 3, some "c".toList, some (-1), some (-1), []⟩,
        ⟨3, 2, some "b".toList, some (-1), some 1, []⟩] := by
    decide +kernel
  have hn : NoNulls exParallelLm := by unfold NoNulls; decide +kernel
  refine ⟨_, exParallelLm, N, exVocabWord, r, [⟨0, 3, some "c".toList, some (-1), some (-1), []⟩,
    ⟨3, 2, some "b".toList, some (-1), some 1, []⟩, ⟨2, 4, none, some 0, some (-7), []⟩], 4, exParallelLm_ok, hn, exBigram_context, rfl,
    rfl, h1, h2, ?_, ⟨_, h4, rfl⟩, ?_⟩
  · rw [h3]
    exact .snoc [_, _] _ (.snoc [_] _ (.snoc [] _ .nil (by rw [h5]; simp)) (by rw [h5]; simp)) (by rw [h5]; simp)
  · intro ls m z g1 g2 g3
    have hp : exParallelLm.Path exParallelLm.initial [⟨0, 2, some "c".toList, some (-1), some (-1), []⟩,
        ⟨2, 3, some "b".toList, some (-1), some (-5), []⟩] 3 :=
      .snoc [_] _ (.snoc [] _ .nil (by decide +kernel)) (by decide +kernel)
    obtain rfl := noNulls_unique exParallelLm_ok.determinized hn g1 hp (g2.trans rfl)
    rw [← nnComplete_run (L := exParallelLm) (.inl ⟨rfl, rfl⟩) (by decide +kernel) g3]
    decide +kernel

theorem exLong_ok : Rescorable exLongDecoder exLongLattice exVocabWord where
  wf := wf_of_check _ (by decide +kernel)
  determinized := det_of_check (by decide +kernel)
  vocabulary := exVocab_inverse
  boundary := ⟨"<s>".toList, "</s>".toList, by decide +kernel, by decide +kernel, by decide +kernel⟩

/-- The condition on the network is necessary: the words after the recombination get the scores of the token that was kept. -/
theorem C103_condition : ∃ (D : Decoder ℚ (List Nat)) (L N : Lattice ℚ) (f : Nat → Option Str)
    (r : List (Token ℚ (List Nat)) × List (Recomb ℚ (List Nat))) (rs : List (Link ℚ)) (n : Nat),
    Rescorable D L f ∧ NoNulls L ∧ ParallelLm L ∧ D.beam = none ∧ D.maxTokens = none ∧ decode D L = .ok r ∧
    rescoredLattice L 100 f r.1 r.2 = .ok N ∧ N.Path N.initial rs n ∧ N.Final n ∧
    ∀ (ls : List (Link ℚ)) (m : Nat) (z : ℚ), L.Path L.initial ls m → pathText ls = pathText rs → NNComplete D ls z →
      lmOf rs ≠ lmOf ls + z := by
  obtain ⟨r, h1, N, h2, h3, h4, h5⟩ : ∃ r, decode exLongDecoder exLongLattice = .ok r ∧
      ∃ N, rescoredLattice exLongLattice 100 exVocabWord r.1 r.2 = .ok N ∧ N.initial = 0 ∧ N.nodes[4]? = some ⟨[], [], none, true⟩ ∧
      N.links = [⟨0, 1, some "a".toList, some (-1), some (-1), []⟩, ⟨1, 2, some "b".toList, some (-1), some (-1), []⟩,
        ⟨2, 4, none, some 0, some (-101), []⟩, ⟨0, 3, some "c".toList, some (-2), some (-1), []⟩,
        ⟨3, 2, some "b".toList, some (-1), some 0, []⟩] := by
    decide +kernel
  have hn : NoNulls exLongLattice := by unfold NoNulls; decide +kernel
  refine ⟨_, exLongLattice, N, exVocabWord, r, [⟨0, 3, some "c".toList, some (-2), some (-1), []⟩,
    ⟨3, 2, some "b".toList, some (-1), some 0, []⟩, ⟨2, 4, none, some 0, some (-101), []⟩], 4, exLong_ok, hn,
    (by unfold ParallelLm; decide +kernel), rfl, rfl, h1, h2, ?_, ⟨_, h4, rfl⟩, ?_⟩
  · rw [h3]
    exact .snoc [_, _] _ (.snoc [_] _ (.snoc [] _ .nil (by rw [h5]; simp)) (by rw [h5]; simp)) (by rw [h5]; simp)
  · intro ls m z g1 g2 g3
    have hp : exLongLattice.Path exLongLattice.initial [⟨0, 1, some "c".toList, some (-2), some (-1), []⟩,
        ⟨1, 2, some "b".toList, some (-1), some (-1), []⟩] 2 :=
      .snoc [_] _ (.snoc [] _ .nil (by decide +kernel)) (by decide +kernel)
    obtain rfl := noNulls_unique exLong_ok.determinized hn g1 hp (g2.trans rfl)
    rw [← nnComplete_run (L := exLongLattice) (.inl ⟨rfl, rfl⟩) (by decide +kernel) g3]
    decide +kernel

end TheanoLM
