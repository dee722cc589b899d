import Verif.Lemmas.DecoderComplete
/-!
# Lemmas about the lattice decoder: what becomes of each token when nothing is pruned
-/
namespace TheanoLM

variable {S St : Type}

set_option linter.unusedSectionVars false

section
variable [Field S] [LinearOrder S] {D : Decoder S St} {L : Lattice S}

/-- The token has come to the node: it is there, or it was recombined. -/
def Arrived (tokens : List (List (Token S St))) (drops : Nat → List (Recomb S St)) (n : Nat) (t : Token S St) : Prop :=
  t ∈ tokens.getD n [] ∨ ∃ e ∈ drops n, e.1 = t

/-- The state of decoding when the nodes `done` have been processed; `drops` tells the tokens that were recombined in
each node. -/
structure Trace (D : Decoder S St) (L : Lattice S) (done : List Nat) (drops : Nat → List (Recomb S St))
    (st : DecSt S St) : Prop where
  recomb : st.recomb = done.flatMap drops
  undone : ∀ n : Nat, n ∉ done → drops n = []
  drop : ∀ n : Nat, ∀ e ∈ drops n, ∃ k ∈ st.tokens.getD n [], k.hash = e.1.hash ∧ e.2.1 = k.history ∧ e.2.2 = k.nnLm ∧
    e.1.total ≤ k.total
  nodup : ∀ n ∈ done, ((st.tokens.getD n []).map Token.hash).Nodup
  start : Arrived st.tokens drops L.initial (runPath D L [])
  next : ∀ k ∈ L.links, k.startNode ∈ done → ∀ t ∈ st.tokens.getD k.startNode [],
    Arrived st.tokens drops k.endNode (propagateLink D (decLmScale D L) (decWiPenalty D L) k t)
  prev : ∀ (n : Nat) (t : Token S St), Arrived st.tokens drops n t → (n = L.initial ∧ t = runPath D L []) ∨
    ∃ k ∈ L.links, k.startNode ∈ done ∧ k.endNode = n ∧ ∃ t' ∈ st.tokens.getD k.startNode [],
      t = propagateLink D (decLmScale D L) (decWiPenalty D L) k t'
  final : ∀ n ∈ done, L.Final n → ∀ t ∈ st.tokens.getD n [],
    propagateEnd D (decLmScale D L) (decWiPenalty D L) t ∈ st.finals
  ends : ∀ t ∈ st.finals, ∃ n ∈ done, L.Final n ∧ ∃ t' ∈ st.tokens.getD n [],
    t = propagateEnd D (decLmScale D L) (decWiPenalty D L) t'

theorem decodeLinks_exact (hm : D.maxTokens = none) {sorted : List Nat} {lm wi : S} {nodeTokens : List (Token S St)}
    (ls : List Nat) : ∀ {st st' : DecSt S St},
    (∀ l ∈ ls, ∀ k, L.links[l]? = some k → k.endNode < st.tokens.length) →
    decodeLinks D L lm wi sorted nodeTokens ls st = .ok st' →
    st'.recomb = st.recomb ∧ st'.finals = st.finals ∧
      (∀ (n : Nat) (t : Token S St), t ∈ st'.tokens.getD n [] ↔ t ∈ st.tokens.getD n [] ∨
        ∃ l ∈ ls, ∃ k, L.links[l]? = some k ∧ k.endNode = n ∧ ∃ t' ∈ nodeTokens, t = propagateLink D lm wi k t') ∧
      ∀ n : Nat, (∀ l ∈ ls, ∀ k, L.links[l]? = some k → k.endNode ≠ n) → st'.tokens.getD n [] = st.tokens.getD n [] := by
  induction ls with
  | nil => intro st st' _ h; cases h; exact ⟨rfl, rfl, by simp, fun _ _ => rfl⟩
  | cons l ls ih =>
    intro st st' hl h
    unfold decodeLinks at h
    split at h
    · cases h
    · rename_i st1 h1
      obtain ⟨k, hk, st2, hst2, hcase⟩ := decodeLink_spec h1
      rcases hcase with rfl | ⟨hne, _⟩
      swap
      · exact absurd hm hne
      have hlt := hl l (by simp) k hk
      have hget : ∀ n, st1.tokens.getD n [] = if k.endNode = n then
          st.tokens.getD n [] ++ nodeTokens.map (propagateLink D lm wi k) else st.tokens.getD n [] := by
        intro n
        rw [hst2]
        simp only
        rw [getD_modify _ _ _ _ hlt]
      obtain ⟨g1, g2, g3, g4⟩ := ih (st := st1) (fun l' hl' k' hk' => by
        rw [hst2]
        simp only [List.length_modify]
        exact hl l' (List.mem_cons_of_mem _ hl') k' hk') h
      refine ⟨by rw [g1, hst2], by rw [g2, hst2], ?_, ?_⟩
      · intro n t
        rw [g3, hget]
        constructor
        · rintro (h | ⟨l', hl', h⟩)
          · split at h
            · rename_i he
              rcases List.mem_append.mp h with h | h
              · exact Or.inl h
              · obtain ⟨t', ht', rfl⟩ := List.mem_map.mp h
                exact Or.inr ⟨l, by simp, k, hk, he, t', ht', rfl⟩
            · exact Or.inl h
          · exact Or.inr ⟨l', List.mem_cons_of_mem _ hl', h⟩
        · rintro (h | ⟨l', hl', k', hk', he, t', ht', rfl⟩)
          · left
            split
            · exact List.mem_append_left _ h
            · exact h
          · rcases List.mem_cons.mp hl' with rfl | hl'
            · rw [hk] at hk'
              cases hk'
              left
              rw [if_pos he]
              exact List.mem_append_right _ (List.mem_map.mpr ⟨t', ht', rfl⟩)
            · exact Or.inr ⟨l', hl', k', hk', he, t', ht', rfl⟩
      · intro n hn
        rw [g4 n (fun l' hl' => hn l' (List.mem_cons_of_mem _ hl')), hget, if_neg (hn l (by simp) k hk)]

theorem setTokens_getD (ts : List (List (Token S St))) (m : Nat) (r : List (Token S St)) (hm : ts.getD m [] ≠ []) (n : Nat) :
    (ts.set m r).getD n [] = if m = n then r else ts.getD n [] := by
  have hmlt : m < ts.length := by
    by_contra hge
    apply hm
    rw [List.getD_eq_getElem?_getD, List.getElem?_eq_none (by omega)]
    rfl
  rw [List.getD_eq_getElem?_getD]
  by_cases h : m = n
  · subst h
    rw [if_pos rfl, List.getElem?_set_self hmlt, Option.getD_some]
  · rw [if_neg h, List.getElem?_set_ne h, ← List.getD_eq_getElem?_getD]

/-- One node. -/
theorem decodeNode_trace (hw : L.WF) (hm : D.maxTokens = none) (hb : D.beam = none) {sorted done rest : List Nat} {m : Nat}
    (hs : sorted = done ++ m :: rest) (hnd : sorted.Nodup)
    (ht : ∀ a b : Nat, b ∈ sorted → L.Edge a b → Before sorted a b) {drops : Nat → List (Recomb S St)}
    {st st' : DecSt S St} (hlen : st.tokens.length = L.nodes.length) (hT : Trace D L done drops st)
    (h : decodeNode D L (decLmScale D L) (decWiPenalty D L) sorted m st = .ok st') :
    ∃ drops', Trace D L (done ++ [m]) drops' st' := by
  obtain ⟨st1, st2, h1, hne, h2, h3, h4⟩ := decodeNode_spec h
  obtain ⟨hne0, divider, best, _, _, hst1⟩ := prune_spec h1
  have hpt : pruneTokens D divider best (st.tokens.getD m []) = sortedRecombined (st.tokens.getD m []) := by
    rw [pruneTokens_eq]
    unfold limitTokens beamTokens
    rw [hm, hb]
  rw [hpt] at hst1
  have hsp := sortedRecombined_spec (st.tokens.getD m [])
  generalize hr : sortedRecombined (st.tokens.getD m []) = r at *
  have hmd : m ∉ done := by
    rw [hs, List.nodup_append] at hnd
    exact fun hd => hnd.2.2 m hd m (by simp) rfl
  have hget1 : ∀ n, st1.tokens.getD n [] = if m = n then r.1 else st.tokens.getD n [] := by
    intro n
    rw [hst1]
    exact setTokens_getD _ _ _ hne0 n
  have hlen1 : st1.tokens.length = L.nodes.length := by rw [hst1]; simp [hlen]
  have h2tok : st2.tokens = st1.tokens ∧ st2.recomb = st1.recomb := by
    cases hf : (L.nodes.getD m Node.new).final with
    | false => rw [h3 hf]; exact ⟨rfl, rfl⟩
    | true => rw [h2 hf]; exact ⟨rfl, rfl⟩
  have hafter : ∀ k ∈ L.links, k.startNode = m → k.endNode ∉ done ++ [m] := by
    intro k hk hks hd
    have hbf := ht m k.endNode (by rw [hs]; rcases List.mem_append.mp hd with h | h <;> simp at h ⊢ <;> tauto)
      ⟨k, hk, hks, rfl⟩
    rcases List.mem_append.mp hd with hd | hd
    · obtain ⟨P, Q, hPQ⟩ := List.append_of_mem hd
      have := before_prefix hnd (P := P) (Q := Q ++ m :: rest) (by rw [hs, hPQ]; simp) hbf
      exact hmd (by rw [hPQ]; exact List.mem_append_left _ this)
    · rw [List.mem_singleton.mp hd] at hbf
      exact hmd (before_prefix hnd hs hbf)
  obtain ⟨e1, e2, e3, e4⟩ := decodeLinks_exact (L := L) hm (L.outLinks m) (st := st2) (by
    intro l hl k hk
    rw [h2tok.1, hlen1]
    exact (hw.ends k (List.mem_of_getElem? hk)).2) h4
  have hkeep : ∀ n ∈ done ++ [m], st'.tokens.getD n [] = if m = n then r.1 else st.tokens.getD n [] := by
    intro n hn
    rw [e4 n, h2tok.1, hget1]
    intro l hl k hk he
    exact hafter k (List.mem_of_getElem? hk) (outLinks_start hw m l hl k hk) (by rw [he]; exact hn)
  have hsub : ∀ n t, t ∈ st1.tokens.getD n [] → t ∈ st'.tokens.getD n [] := by
    intro n t htn
    rw [e3, h2tok.1]
    exact Or.inl htn
  have hlinks : ∀ k ∈ L.links, k.startNode = m → ∃ l ∈ L.outLinks m, L.links[l]? = some k := by
    intro k hk hks
    obtain ⟨l, hl⟩ := List.mem_iff_getElem?.mp hk
    have hml : m < L.nodes.length := by rw [← hks]; exact (hw.ends k hk).1
    refine ⟨l, ?_, hl⟩
    unfold Lattice.outLinks
    rw [List.getD_eq_getElem?_getD, List.getElem?_eq_getElem hml, Option.getD_some]
    exact (hw.out_iff m _ (List.getElem?_eq_getElem hml) l).mpr ⟨k, hl, hks⟩
  -- what has come to the nodes
  have harr : ∀ n t, Arrived st.tokens drops n t ↔ Arrived st1.tokens (fun n => if n = m then r.2 else drops n) n t := by
    intro n t
    unfold Arrived
    rw [hget1]
    beta_reduce
    by_cases hmn : m = n
    · subst hmn
      rw [if_pos rfl, if_pos rfl, hT.undone m hmd]
      have hp := (hsp.perm.mem_iff (a := t)).symm
      rw [hp, List.mem_append, List.mem_map]
      simp
    · rw [if_neg hmn, if_neg (Ne.symm hmn)]
  have harr' : ∀ n t, Arrived st.tokens drops n t → Arrived st'.tokens (fun n => if n = m then r.2 else drops n) n t := by
    intro n t ha
    rcases (harr n t).mp ha with h | h
    · exact Or.inl (hsub n t h)
    · exact Or.inr h
  have hdone : ∀ n ∈ done, st'.tokens.getD n [] = st.tokens.getD n [] := by
    intro n hn
    rw [hkeep n (List.mem_append_left _ hn), if_neg (fun h => hmd (by rw [h]; exact hn))]
  have hm' : st'.tokens.getD m [] = r.1 := by rw [hkeep m (by simp), if_pos rfl]
  refine ⟨fun n => if n = m then r.2 else drops n, ?_, ?_, ?_, ?_, ?_, ?_, ?_, ?_, ?_⟩
  · rw [e1, h2tok.2, hst1, List.flatMap_append]
    simp only [List.flatMap_cons, List.flatMap_nil, if_true, List.append_nil]
    rw [hT.recomb]
    congr 1
    rw [List.flatMap_def, List.flatMap_def]
    congr 1
    apply List.map_congr_left
    intro n hn
    rw [if_neg (fun h => hmd (by rw [← h]; exact hn))]
  · intro n hn
    have h1 : n ∉ done := fun h => hn (List.mem_append_left _ h)
    have h2 : n ≠ m := fun h => hn (by rw [h]; simp)
    rw [if_neg h2]
    exact hT.undone n h1
  · intro n e he
    beta_reduce at he
    split at he
    · rename_i hnm
      subst hnm
      obtain ⟨k, hk, g1, g2, g3, g4⟩ := hsp.recs e he
      exact ⟨k, by rw [hm']; exact hk, g1, g2, g3, g4⟩
    · rename_i hnm
      obtain ⟨k, hk, g⟩ := hT.drop n e he
      refine ⟨k, hsub n k ?_, g⟩
      rw [hget1, if_neg (fun h => hnm h.symm)]
      exact hk
  · intro n hn
    rcases List.mem_append.mp hn with hn | hn
    · rw [hdone n hn]; exact hT.nodup n hn
    · rw [List.mem_singleton.mp hn, hm']; exact hsp.nodup
  · exact harr' _ _ hT.start
  · intro k hk hks t htk
    rcases List.mem_append.mp hks with hd | hd
    · rw [hdone _ hd] at htk
      exact harr' _ _ (hT.next k hk hd t htk)
    · have hkm := List.mem_singleton.mp hd
      rw [hkm, hm'] at htk
      obtain ⟨l, hl, hlk⟩ := hlinks k hk hkm
      left
      rw [e3]
      refine Or.inr ⟨l, hl, k, hlk, rfl, t, ?_, rfl⟩
      rw [hget1, if_pos rfl]
      exact htk
  · intro n t ha
    have hcase : Arrived st.tokens drops n t ∨ ∃ k ∈ L.links, k.startNode = m ∧ k.endNode = n ∧ ∃ t' ∈ r.1,
        t = propagateLink D (decLmScale D L) (decWiPenalty D L) k t' := by
      rcases ha with ha | ha
      · rw [e3, h2tok.1] at ha
        rcases ha with ha | ⟨l, hl, k, hk, hke, t', ht', rfl⟩
        · exact Or.inl ((harr n t).mpr (Or.inl ha))
        · rw [hget1, if_pos rfl] at ht'
          exact Or.inr ⟨k, List.mem_of_getElem? hk, outLinks_start hw m l hl k hk, hke, t', ht', rfl⟩
      · exact Or.inl ((harr n t).mpr (Or.inr ha))
    rcases hcase with ha | ⟨k, hk, hks, hke, t', ht', rfl⟩
    · rcases hT.prev n t ha with h | ⟨k, hk, hks, hke, t', ht', rfl⟩
      · exact Or.inl h
      · exact Or.inr ⟨k, hk, List.mem_append_left _ hks, hke, t', by rw [hdone _ hks]; exact ht', rfl⟩
    · exact Or.inr ⟨k, hk, by rw [hks]; simp, hke, t', by rw [hks, hm']; exact ht', rfl⟩
  · intro n hn hf t htn
    rw [e2]
    rcases List.mem_append.mp hn with hn | hn
    · rw [hdone n hn] at htn
      have := hT.final n hn hf t htn
      cases hfm : (L.nodes.getD m Node.new).final with
      | false => rw [h3 hfm, hst1]; exact this
      | true => rw [h2 hfm, hst1]; exact List.mem_append_left _ this
    · have hnm := List.mem_singleton.mp hn
      subst hnm
      rw [hm'] at htn
      obtain ⟨nd, hnd1, hnd2⟩ := hf
      have hfinal : (L.nodes.getD n Node.new).final = true := by
        rw [List.getD_eq_getElem?_getD, hnd1]; exact hnd2
      rw [h2 hfinal]
      refine List.mem_append_right _ (List.mem_map.mpr ⟨t, ?_, rfl⟩)
      rw [hget1, if_pos rfl]
      exact htn
  · intro t ht
    rw [e2] at ht
    have hprev : t ∈ st.finals → ∃ n ∈ done ++ [m], L.Final n ∧ ∃ t' ∈ st'.tokens.getD n [],
        t = propagateEnd D (decLmScale D L) (decWiPenalty D L) t' := by
      intro h
      obtain ⟨n, hn, hf, t', ht', he⟩ := hT.ends t h
      exact ⟨n, List.mem_append_left _ hn, hf, t', by rw [hdone n hn]; exact ht', he⟩
    cases hfm : (L.nodes.getD m Node.new).final with
    | false => rw [h3 hfm, hst1] at ht; exact hprev ht
    | true =>
      rw [h2 hfm, hst1] at ht
      rcases List.mem_append.mp ht with ht | ht
      · exact hprev ht
      · obtain ⟨t', ht', rfl⟩ := List.mem_map.mp ht
        rw [← hst1, hget1, if_pos rfl] at ht'
        refine ⟨m, by simp, ?_, t', by rw [hm']; exact ht', rfl⟩
        rw [List.getD_eq_getElem?_getD] at hfm
        cases hnm : L.nodes[m]? with
        | none => rw [hnm] at hfm; cases hfm
        | some nd => rw [hnm] at hfm; exact ⟨nd, hnm, hfm⟩

theorem decodeNodes_trace (hw : L.WF) (hm : D.maxTokens = none) (hb : D.beam = none) {sorted : List Nat} (hnd : sorted.Nodup)
    (ht : ∀ a b : Nat, b ∈ sorted → L.Edge a b → Before sorted a b) (ns : List Nat) : ∀ {done : List Nat}
    {drops : Nat → List (Recomb S St)} {st st' : DecSt S St}, sorted = done ++ ns →
    DInv (PathP D L) (PathQ D L) (PathR D L) L.nodes.length st → Trace D L done drops st →
    decodeNodes D L (decLmScale D L) (decWiPenalty D L) sorted ns st = .ok st' → ∃ drops', Trace D L sorted drops' st' := by
  induction ns with
  | nil =>
    intro done drops st st' hs _ hT h
    cases h
    rw [List.append_nil] at hs
    exact ⟨drops, by rw [hs]; exact hT⟩
  | cons m ns ih =>
    intro done drops st st' hs hi hT h
    unfold decodeNodes at h
    split at h
    · cases h
    · rename_i st1 h1
      obtain ⟨drops1, hT1⟩ := decodeNode_trace hw hm hb hs hnd ht hi.len hT h1
      exact ih (done := done ++ [m]) (by rw [hs]; simp) (decodeNode_inv hw (path_keeps D L) hi h1) hT1 h

theorem decInit_getD (hw : L.WF) (n : Nat) :
    (decInit D L).tokens.getD n [] = if L.initial = n then [runPath D L []] else [] := by
  simp only [decInit]
  rw [getD_modify _ _ _ _ (by simpa using hw.initial)]
  have : (L.nodes.map (fun _ => ([] : List (Token S St)))).getD n [] = [] := by
    rw [List.getD_eq_getElem?_getD, List.getElem?_map]
    cases L.nodes[n]? <;> rfl
  rw [this]
  rfl

theorem decInit_trace (hw : L.WF) : Trace D L [] (fun _ => []) (decInit D L) where
  recomb := rfl
  undone := fun _ _ => rfl
  drop := fun _ _ h => by cases h
  nodup := fun _ h => by cases h
  start := Or.inl (by rw [decInit_getD hw, if_pos rfl]; simp)
  next := fun _ _ h => by cases h
  prev := fun n t h => by
    rcases h with h | ⟨_, h, _⟩
    · rw [decInit_getD hw] at h
      split at h
      · rename_i he
        exact Or.inl ⟨he.symm, by simpa using h⟩
      · cases h
    · cases h
  final := fun _ h => by cases h
  ends := fun _ h => by cases h

end
end TheanoLM
