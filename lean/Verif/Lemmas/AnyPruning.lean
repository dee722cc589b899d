import Verif.Lemmas.BeamPruning
import Verif.Lemmas.TokenLimit
import Verif.Props.AnyPruningSpec
/-!
# Lemmas about the lattice decoder with any combination of the pruning options (C135)
-/
namespace TheanoLM

variable {S St : Type}

set_option linter.unusedSectionVars false

section
variable [Field S] [LinearOrder S] [IsStrictOrderedRing S] {D : Decoder S St} {L : Lattice S}

theorem limitDivider_factor (h : D.pruneExtraLimit ≠ some 0) (n : Nat) : limitDivider D n = .ok (pruneFactor D n) := by
  unfold limitDivider pruneFactor
  cases hr : D.pruneExtraLimit with
  | none => rfl
  | some r =>
    cases r with
    | zero => exact absurd hr h
    | succ r => simp only; rw [max_eq_right (Nat.le_add_left 1 _)]

/-- The best log probability is found for a node that has tokens. -/
theorem bestLogprob_ok {sorted : List Nat} {st : DecSt S St} (hb : BestInv D L st) {m : Nat} (hm : m ∈ sorted)
    (hne : st.tokens.getD m [] ≠ []) : ∃ b, bestLogprob D L sorted st.best m = .ok b := by
  obtain ⟨v, hv⟩ := hb.has m hne
  have key : ∃ i, timeBegin L sorted m = .ok i ∧ m ∈ sorted.drop i := by
    unfold timeBegin
    cases hx : L.time m with
    | none =>
      simp only
      cases hi : sorted.findIdx? (fun n => n == m) with
      | none =>
        rw [List.findIdx?_eq_none_iff] at hi
        exact absurd (hi m hm) (by simp)
      | some i => exact ⟨i, rfl, mem_drop_of_findIdx hi hm (by simp)⟩
    | some x =>
      simp only
      cases hi : sorted.findIdx? (fun n => match L.time n with
          | none => false
          | some y => decide (x ≤ y)) with
      | none =>
        rw [List.findIdx?_eq_none_iff] at hi
        have := hi m hm
        rw [hx] at this
        simp at this
      | some i => exact ⟨i, rfl, mem_drop_of_findIdx hi hm (by rw [hx]; simp)⟩
  obtain ⟨i, hi, hmi⟩ := key
  obtain ⟨b, hbm⟩ := maxBest_some ((sorted.drop i).map (fun n => st.best.getD n none)) (x := v)
    (List.mem_map.mpr ⟨m, hmi, hv⟩)
  unfold bestLogprob
  cases D.beam with
  | none => exact ⟨_, rfl⟩
  | some beam =>
    simp only
    rw [hi]
    simp only
    rw [hbm]
    exact ⟨_, rfl⟩

theorem getD_set_tokens {l : List (List (Token S St))} {m : Nat} (h : m < l.length) (ts : List (Token S St)) (n : Nat) :
    (l.set m ts).getD n [] = if m = n then ts else l.getD n [] := by
  rw [List.getD_eq_getElem?_getD]
  by_cases hn : m = n
  · subst hn
    rw [if_pos rfl, List.getElem?_set_self h, Option.getD_some]
  · rw [if_neg hn, List.getElem?_set_ne hn, ← List.getD_eq_getElem?_getD]

theorem lt_of_getD_ne {l : List (List (Token S St))} {m : Nat} (h : l.getD m [] ≠ []) : m < l.length := by
  by_contra hge
  apply h
  rw [List.getD_eq_getElem?_getD, List.getElem?_eq_none (by omega)]
  rfl

/-- `prune` in terms of the factor. -/
theorem prune_factor (hx : D.pruneExtraLimit ≠ some 0) {sorted : List Nat} (hlen : sorted.length = L.nodes.length)
    {st : DecSt S St} (hb : BestInv D L st) {m : Nat} (hm : m ∈ sorted) (hne : st.tokens.getD m [] ≠ []) :
    ∃ b, bestLogprob D L sorted st.best m = .ok b ∧ prune D L sorted m st = .ok { st with
      tokens := st.tokens.set m (pruneTokens D (pruneFactor D L.nodes.length) b (st.tokens.getD m [])).1
      recomb := st.recomb ++ (pruneTokens D (pruneFactor D L.nodes.length) b (st.tokens.getD m [])).2 } := by
  obtain ⟨b, hbl⟩ := bestLogprob_ok hb hm hne
  refine ⟨b, hbl, ?_⟩
  unfold prune
  simp only
  rw [if_neg hne, hlen, limitDivider_factor hx]
  simp only
  rw [hbl]

theorem pruneTokens_ne (hl : PruningLeaves D L) (b : S) {ts : List (Token S St)} (hne : ts ≠ []) :
    (pruneTokens D (pruneFactor D L.nodes.length) b ts).1 ≠ [] := by
  rw [pruneTokens_eq]
  simp only
  have hb := beamTokens_ne_nil D (pruneFactor D L.nodes.length) b ((sortedRecombined_spec ts).ne_nil hne)
  unfold limitTokens
  cases hm : D.maxTokens with
  | none => exact hb
  | some m =>
    simp only
    have := hl.2 m hm
    unfold tokenLimit at this
    intro e
    rw [List.take_eq_nil_iff] at e
    rcases e with e | e
    · omega
    · exact hb e

/-- The state after pruning a node. -/
structure Pruned (st st' : DecSt S St) (m : Nat) : Prop where
  finals : st'.finals = st.finals
  best : st'.best = st.best
  len : st'.tokens.length = st.tokens.length
  other : ∀ n : Nat, m ≠ n → st'.tokens.getD n [] = st.tokens.getD n []
  ne : st'.tokens.getD m [] ≠ []

theorem prune_any (hl : PruningLeaves D L) {sorted : List Nat} (hlen : sorted.length = L.nodes.length)
    {st : DecSt S St} (hb : BestInv D L st) {m : Nat} (hm : m ∈ sorted) (hne : st.tokens.getD m [] ≠ []) :
    ∃ st', prune D L sorted m st = .ok st' ∧ Pruned st st' m := by
  obtain ⟨b, _, hp⟩ := prune_factor hl.1 hlen hb hm hne
  refine ⟨_, hp, rfl, rfl, by rw [List.length_set], fun n hn => ?_, ?_⟩
  · simp only
    rw [getD_set_tokens (lt_of_getD_ne hne), if_neg hn]
  · simp only
    rw [getD_set_tokens (lt_of_getD_ne hne), if_pos rfl]
    exact pruneTokens_ne hl b hne

theorem Pruned.bestInv {st st' : DecSt S St} {m : Nat} (hp : Pruned st st' m) (hne : st.tokens.getD m [] ≠ [])
    (hb : BestInv D L st) : BestInv D L st' := by
  refine ⟨by rw [hp.best]; exact hb.len, fun n hn => ?_, by rw [hp.best]; exact hb.path⟩
  rw [hp.best]
  apply hb.has
  by_cases h : m = n
  · subst h; exact hne
  · rw [hp.other n h] at hn; exact hn

theorem Pruned.mono {st st' : DecSt S St} {m : Nat} (hp : Pruned st st' m) {n : Nat} (h : st.tokens.getD n [] ≠ []) :
    st'.tokens.getD n [] ≠ [] := by
  by_cases he : m = n
  · subst he; exact hp.ne
  · rw [hp.other n he]; exact h

/-- Pruning keeps representatives of the paths in `W`. -/
def PruneKeeps (D : Decoder S St) (L : Lattice S) (sorted : List Nat) (W : List (Link S) → Prop) : Prop :=
  ∀ (m : Nat) (st st' : DecSt S St), m ∈ sorted → DInv (PathP D L) (PathQ D L) (PathR D L) L.nodes.length st →
    BestInv D L st → prune D L sorted m st = .ok st' → ∀ ls : List (Link S), L.Path L.initial ls m → W ls →
    Rep D L (st.tokens.getD m []) ls → Rep D L (st'.tokens.getD m []) ls

/-- The tokens of the paths in `W` can be replaced by better tokens with the same recent words. -/
def ExtendsIn (D : Decoder S St) (L : Lattice S) (W : List (Link S) → Prop) : Prop :=
  ∀ (ls ls' : List (Link S)), W ls → Dom D (runPath D L ls) (runPath D L ls') →
    (∀ k : Link S, Dom D (propagateLink D (decLmScale D L) (decWiPenalty D L) k (runPath D L ls))
      (propagateLink D (decLmScale D L) (decWiPenalty D L) k (runPath D L ls'))) ∧
    Dom D (propagateEnd D (decLmScale D L) (decWiPenalty D L) (runPath D L ls))
      (propagateEnd D (decLmScale D L) (decWiPenalty D L) (runPath D L ls'))

theorem modify_best (hw : L.WF) {m : Nat} {nodeTokens : List (Token S St)}
    (hP : ∀ t ∈ nodeTokens, PathP D L m t) {st : DecSt S St} (hlen : st.tokens.length = L.nodes.length)
    (hb : BestInv D L st) {k : Link S} (hkm : k ∈ L.links) (hks : k.startNode = m) :
    BestInv D L { st with
      tokens := st.tokens.modify k.endNode (fun ts => ts ++ nodeTokens.map (propagateLink D (decLmScale D L) (decWiPenalty D L) k))
      best := st.best.modify k.endNode (fun b => updateBest b (nodeTokens.map (propagateLink D (decLmScale D L) (decWiPenalty D L) k))) } := by
  have hend := (hw.ends k hkm).2
  refine ⟨by rw [List.length_modify]; exact hb.len, ?_, ?_⟩
  · intro n hn
    simp only at hn ⊢
    rw [getD_modify _ _ _ _ (by rw [hlen]; exact hend)] at hn
    rw [getD_modify_best _ _ _ _ (by rw [hb.len]; exact hend)]
    by_cases he : k.endNode = n
    · rw [if_pos he] at hn ⊢
      obtain ⟨u1, u2, u3⟩ := updateBest_spec (nodeTokens.map (propagateLink D (decLmScale D L) (decWiPenalty D L) k))
        (st.best.getD n none)
      by_cases h0 : st.tokens.getD n [] = []
      · rw [h0, List.nil_append] at hn
        obtain ⟨t, ht⟩ := List.exists_mem_of_ne_nil _ hn
        obtain ⟨x, hx, _⟩ := u1 t ht
        exact ⟨x, hx⟩
      · obtain ⟨y, hy⟩ := hb.has n h0
        obtain ⟨x, hx, _⟩ := u2 y hy
        exact ⟨x, hx⟩
    · rw [if_neg he] at hn ⊢
      exact hb.has n hn
  · intro n x hx
    simp only at hx
    rw [getD_modify_best _ _ _ _ (by rw [hb.len]; exact hend)] at hx
    by_cases he : k.endNode = n
    · rw [if_pos he] at hx
      obtain ⟨u1, u2, u3⟩ := updateBest_spec (nodeTokens.map (propagateLink D (decLmScale D L) (decWiPenalty D L) k))
        (st.best.getD n none)
      rcases u3 x hx with h1 | ⟨t, ht, h1⟩
      · exact hb.path n x h1
      · obtain ⟨t0, ht0, rfl⟩ := List.mem_map.mp ht
        obtain ⟨ls, hp, rfl⟩ := hP t0 ht0
        refine ⟨ls ++ [k], ?_, by rw [runPath_snoc]; exact h1⟩
        rw [← he]
        exact .snoc ls k (by rw [hks]; exact hp) hkm
    · rw [if_neg he] at hx
      exact hb.path n x hx

theorem modify_inv {m : Nat} {nodeTokens : List (Token S St)}
    (hP : ∀ t ∈ nodeTokens, PathP D L m t) {st : DecSt S St}
    (hi : DInv (PathP D L) (PathQ D L) (PathR D L) L.nodes.length st) {k : Link S} (hkm : k ∈ L.links) (hks : k.startNode = m)
    (best : List (Option S)) : DInv (PathP D L) (PathQ D L) (PathR D L) L.nodes.length { st with
      tokens := st.tokens.modify k.endNode (fun ts => ts ++ nodeTokens.map (propagateLink D (decLmScale D L) (decWiPenalty D L) k))
      best := best } := by
  refine ⟨by rw [List.length_modify]; exact hi.len, ?_, hi.fin, hi.recs⟩
  intro n ts hts t ht
  simp only at hts
  rw [List.getElem?_modify] at hts
  cases hn : st.tokens[n]? with
  | none => rw [hn] at hts; cases hts
  | some ts0 =>
    rw [hn] at hts
    simp only [Option.map_eq_map, Option.map_some, Option.some.injEq] at hts
    by_cases he : k.endNode = n
    · rw [if_pos he] at hts
      subst hts
      rcases List.mem_append.mp ht with h | h
      · exact hi.tok n ts0 hn t h
      · obtain ⟨t0, h0, rfl⟩ := List.mem_map.mp h
        have := (path_keeps D L).link k t0 hkm (by rw [hks]; exact hP t0 h0)
        rw [he] at this
        exact this
    · rw [if_neg he] at hts
      subst hts
      exact hi.tok n ts0 hn t ht

/-- What propagating tokens from a node does. -/
structure Passed (D : Decoder S St) (L : Lattice S) (W : List (Link S) → Prop) (st st' : DecSt S St) : Prop where
  inv : DInv (PathP D L) (PathQ D L) (PathR D L) L.nodes.length st'
  best : BestInv D L st'
  finals : st'.finals = st.finals
  ne : ∀ n : Nat, st.tokens.getD n [] ≠ [] → st'.tokens.getD n [] ≠ []
  rep : ∀ (ls : List (Link S)) (n : Nat), L.Path L.initial ls n → W ls → Rep D L (st.tokens.getD n []) ls →
    Rep D L (st'.tokens.getD n []) ls

theorem decodeLink_any (hw : L.WF) (hl : PruningLeaves D L) {W : List (Link S) → Prop} {sorted : List Nat}
    (hlen : sorted.length = L.nodes.length) (hmem : ∀ n, n ∈ sorted ↔ n < L.nodes.length) (hkeep : PruneKeeps D L sorted W)
    {m : Nat} {nodeTokens : List (Token S St)} (hnt : ∀ t ∈ nodeTokens, PathP D L m t) (hntn : nodeTokens ≠ [])
    {st : DecSt S St} {l : Nat} {k : Link S} (hk : L.links[l]? = some k) (hks : k.startNode = m)
    (hi : DInv (PathP D L) (PathQ D L) (PathR D L) L.nodes.length st) (hb : BestInv D L st) :
    ∃ st', decodeLink D L (decLmScale D L) (decWiPenalty D L) sorted nodeTokens st l = .ok st' ∧ Passed D L W st st' ∧
      st'.tokens.getD k.endNode [] ≠ [] ∧
      ∀ ls : List (Link S), L.Path L.initial (ls ++ [k]) k.endNode → W (ls ++ [k]) →
        Rep D L (nodeTokens.map (propagateLink D (decLmScale D L) (decWiPenalty D L) k)) (ls ++ [k]) →
        Rep D L (st'.tokens.getD k.endNode []) (ls ++ [k]) := by
  have hkm := List.mem_of_getElem? hk
  have hend := (hw.ends k hkm).2
  let st1 : DecSt S St := { st with
    tokens := st.tokens.modify k.endNode (fun ts => ts ++ nodeTokens.map (propagateLink D (decLmScale D L) (decWiPenalty D L) k))
    best := st.best.modify k.endNode (fun b => updateBest b (nodeTokens.map (propagateLink D (decLmScale D L) (decWiPenalty D L) k))) }
  have hget : ∀ n, st1.tokens.getD n [] = if k.endNode = n then
      st.tokens.getD n [] ++ nodeTokens.map (propagateLink D (decLmScale D L) (decWiPenalty D L) k) else st.tokens.getD n [] :=
    fun n => getD_modify _ _ _ _ (by rw [hi.len]; exact hend)
  have hsub : ∀ n, st.tokens.getD n [] ⊆ st1.tokens.getD n [] := by
    intro n
    rw [hget]
    split
    · exact List.subset_append_left _ _
    · exact List.Subset.refl _
  have hi1 : DInv (PathP D L) (PathQ D L) (PathR D L) L.nodes.length st1 := modify_inv hnt hi hkm hks _
  have hb1 : BestInv D L st1 := modify_best hw hnt hi.len hb hkm hks
  have hne1 : st1.tokens.getD k.endNode [] ≠ [] := by
    rw [hget, if_pos rfl]
    intro e
    rw [List.append_eq_nil_iff, List.map_eq_nil_iff] at e
    exact hntn e.2
  have hnew : ∀ ls : List (Link S), Rep D L (nodeTokens.map (propagateLink D (decLmScale D L) (decWiPenalty D L) k)) ls →
      Rep D L (st1.tokens.getD k.endNode []) ls := by
    rintro ls ⟨t, ht, h⟩
    refine ⟨t, ?_, h⟩
    rw [hget, if_pos rfl]
    exact List.mem_append_right _ ht
  have hpass : Passed D L W st st1 := ⟨hi1, hb1, rfl, fun n hn e => by
    have := hsub n
    rw [e] at this
    exact hn (List.subset_nil.mp this), fun ls n _ _ ⟨t, ht, h⟩ => ⟨t, hsub n ht, h⟩⟩
  unfold decodeLink
  rw [hk]
  simp only
  cases hm : D.maxTokens with
  | none => exact ⟨st1, rfl, hpass, hne1, fun ls _ _ h => hnew _ h⟩
  | some mt =>
    simp only
    split
    · obtain ⟨st', h1, h2⟩ := prune_any hl hlen hb1 ((hmem _).mpr hend) hne1
      refine ⟨st', h1, ⟨prune_inv (path_keeps D L) hi1 h1, h2.bestInv hne1 hb1, h2.finals, fun n hn => h2.mono (hpass.ne n hn), ?_⟩,
        h2.ne, ?_⟩
      · intro ls n hp hW hr
        have hr1 := hpass.rep ls n hp hW hr
        by_cases he : k.endNode = n
        · subst he
          exact hkeep _ st1 st' ((hmem _).mpr hend) hi1 hb1 h1 ls hp hW hr1
        · rw [h2.other n he]; exact hr1
      · intro ls hp hW hr
        exact hkeep _ st1 st' ((hmem _).mpr hend) hi1 hb1 h1 _ hp hW (hnew _ hr)
    · exact ⟨st1, rfl, hpass, hne1, fun ls _ _ h => hnew _ h⟩

theorem Passed.trans {W : List (Link S) → Prop} {a b c : DecSt S St} (h : Passed D L W a b) (g : Passed D L W b c) :
    Passed D L W a c :=
  ⟨g.inv, g.best, g.finals.trans h.finals, fun n hn => g.ne n (h.ne n hn), fun ls n hp hW hr => g.rep ls n hp hW (h.rep ls n hp hW hr)⟩

theorem decodeLinks_any (hw : L.WF) (hl : PruningLeaves D L) {W : List (Link S) → Prop} {sorted : List Nat}
    (hlen : sorted.length = L.nodes.length) (hmem : ∀ n, n ∈ sorted ↔ n < L.nodes.length) (hkeep : PruneKeeps D L sorted W)
    {m : Nat} {nodeTokens : List (Token S St)} (hnt : ∀ t ∈ nodeTokens, PathP D L m t) (hntn : nodeTokens ≠ [])
    (ls : List Nat) : ∀ {st : DecSt S St}, (∀ l ∈ ls, ∃ k, L.links[l]? = some k ∧ k.startNode = m) →
    DInv (PathP D L) (PathQ D L) (PathR D L) L.nodes.length st → BestInv D L st →
    ∃ st', decodeLinks D L (decLmScale D L) (decWiPenalty D L) sorted nodeTokens ls st = .ok st' ∧ Passed D L W st st' ∧
      ∀ l ∈ ls, ∀ k, L.links[l]? = some k → st'.tokens.getD k.endNode [] ≠ [] ∧
        ∀ p : List (Link S), L.Path L.initial (p ++ [k]) k.endNode → W (p ++ [k]) →
          Rep D L (nodeTokens.map (propagateLink D (decLmScale D L) (decWiPenalty D L) k)) (p ++ [k]) →
          Rep D L (st'.tokens.getD k.endNode []) (p ++ [k]) := by
  induction ls with
  | nil =>
    intro st _ hi hb
    exact ⟨st, rfl, ⟨hi, hb, rfl, fun _ h => h, fun _ _ _ _ h => h⟩, by simp⟩
  | cons l ls ih =>
    intro st hls hi hb
    obtain ⟨k, hk, hks⟩ := hls l (by simp)
    obtain ⟨st1, h1, h2, h3, h4⟩ := decodeLink_any hw hl hlen hmem hkeep hnt hntn hk hks hi hb
    obtain ⟨st', g1, g2, g3⟩ := ih (fun l' hl' => hls l' (List.mem_cons_of_mem _ hl')) h2.inv h2.best
    refine ⟨st', ?_, h2.trans g2, ?_⟩
    · unfold decodeLinks
      rw [h1]
      exact g1
    · intro l' hl' k' hk'
      rcases List.mem_cons.mp hl' with rfl | hl'
      · rw [hk] at hk'
        cases hk'
        exact ⟨g2.ne _ h3, fun p hp hW hr => g2.rep _ _ hp hW (h4 p hp hW hr)⟩
      · exact g3 l' hl' k' hk'

/-- What is known when the nodes `done` have been processed: there are tokens for all paths through them, and the paths
in `W` are represented. -/
structure AnyInv (D : Decoder S St) (L : Lattice S) (W : List (Link S) → Prop) (done : List Nat) (st : DecSt S St) : Prop where
  inv : DInv (PathP D L) (PathQ D L) (PathR D L) L.nodes.length st
  best : BestInv D L st
  ne : ∀ (ls : List (Link S)) (n : Nat), L.Path L.initial ls n → (∀ k ∈ ls, k.startNode ∈ done) →
    st.tokens.getD n [] ≠ []
  rep : ∀ (ls : List (Link S)) (n : Nat), L.Path L.initial ls n → (∀ k ∈ ls, k.startNode ∈ done) →
    W ls → Rep D L (st.tokens.getD n []) ls
  fin : ∀ n ∈ done, L.Final n → st.finals ≠ []
  finRep : ∀ (ls : List (Link S)) (n : Nat), L.Path L.initial ls n → L.Final n → n ∈ done → W ls →
    ∃ t ∈ st.finals, SameRecent D.recombinationOrder t.history (runEnd D L ls).history ∧ (runEnd D L ls).total ≤ t.total

theorem decInit_any (hw : L.WF) (W : List (Link S) → Prop) : AnyInv D L W [] (decInit D L) := by
  refine ⟨decInit_inv (path_keeps D L), decInit_best hw, ?_, fun ls n hp hk _ => decInit_cinv hw ls n hp hk, ?_, ?_⟩
  · intro ls n hp hk
    obtain ⟨t, ht, _⟩ := decInit_cinv (D := D) hw ls n hp hk
    exact List.ne_nil_of_mem ht
  · intro n hn; cases hn
  · intro ls n _ _ hn; cases hn

/-- One node. -/
theorem decodeNode_any (hw : L.WF) (hl : PruningLeaves D L) {W : List (Link S) → Prop} {sorted : List Nat}
    (hlen : sorted.length = L.nodes.length) (hmem : ∀ n, n ∈ sorted ↔ n < L.nodes.length) (hkeep : PruneKeeps D L sorted W)
    (hx : ExtendsIn D L W) (hfront : ∀ (ls : List (Link S)) (k : Link S), W (ls ++ [k]) → W ls) {done rest : List Nat} {m : Nat}
    (hs : sorted = done ++ m :: rest) (hnd : sorted.Nodup)
    (ht : ∀ a b : Nat, b ∈ sorted → L.Edge a b → Before sorted a b)
    (hreach : ∃ ls, L.Path L.initial ls m) {st : DecSt S St} (hi : AnyInv D L W done st) :
    ∃ st', decodeNode D L (decLmScale D L) (decWiPenalty D L) sorted m st = .ok st' ∧ AnyInv D L W (done ++ [m]) st' := by
  have hbefore : ∀ {ls : List (Link S)}, L.Path L.initial ls m → ∀ k ∈ ls, k.startNode ∈ done :=
    fun hp => path_before hnd ht hp hs
  have hms : m ∈ sorted := by rw [hs]; simp
  have hne : st.tokens.getD m [] ≠ [] := by
    obtain ⟨ls, hp⟩ := hreach
    exact hi.ne ls m hp (hbefore hp)
  obtain ⟨st1, hpr, hp1⟩ := prune_any hl hlen hi.best hms hne
  have hi1 : DInv (PathP D L) (PathQ D L) (PathR D L) L.nodes.length st1 := prune_inv (path_keeps D L) hi.inv hpr
  have hb1 : BestInv D L st1 := hp1.bestInv hne hi.best
  have hP1 := dinv_at hi1 m
  have hc1 : ∀ (ls : List (Link S)) (n : Nat), L.Path L.initial ls n → (∀ k ∈ ls, k.startNode ∈ done) →
      W ls → Rep D L (st1.tokens.getD n []) ls := by
    intro ls n hp hk hW
    by_cases h : m = n
    · subst h
      exact hkeep _ st st1 hms hi.inv hi.best hpr ls hp hW (hi.rep ls _ hp hk hW)
    · rw [hp1.other n h]; exact hi.rep ls n hp hk hW
  have hrep1 : ∀ {ls : List (Link S)}, L.Path L.initial ls m → W ls → Rep D L (st1.tokens.getD m []) ls :=
    fun hp hW => hc1 _ m hp (hbefore hp) hW
  -- the links
  have houts : ∀ l ∈ L.outLinks m, ∃ k, L.links[l]? = some k ∧ k.startNode = m := by
    intro l hl
    unfold Lattice.outLinks at hl
    rw [List.getD_eq_getElem?_getD] at hl
    cases hnm : L.nodes[m]? with
    | none => rw [hnm] at hl; cases hl
    | some nd =>
      rw [hnm] at hl
      exact (hw.out_iff m nd hnm l).mp hl
  have hlink : ∀ k ∈ L.links, k.startNode = m → ∃ l ∈ L.outLinks m, L.links[l]? = some k := by
    intro k hk hks
    obtain ⟨l, hl⟩ := List.mem_iff_getElem?.mp hk
    have hml : m < L.nodes.length := by rw [← hks]; exact (hw.ends k hk).1
    refine ⟨l, ?_, hl⟩
    unfold Lattice.outLinks
    rw [List.getD_eq_getElem?_getD, List.getElem?_eq_getElem hml, Option.getD_some]
    exact (hw.out_iff m _ (List.getElem?_eq_getElem hml) l).mpr ⟨k, hl, hks⟩
  let st2 : DecSt S St := if (L.nodes.getD m Node.new).final = true then { st1 with
        finals := st1.finals ++ (st1.tokens.getD m []).map (propagateEnd D (decLmScale D L) (decWiPenalty D L)) }
      else st1
  have h2tok : st2.tokens = st1.tokens := by
    simp only [st2]; split <;> rfl
  have h2best : st2.best = st1.best := by
    simp only [st2]; split <;> rfl
  have hi2 : DInv (PathP D L) (PathQ D L) (PathR D L) L.nodes.length st2 := by
    simp only [st2]
    split
    · rename_i hfinal
      refine ⟨hi1.len, hi1.tok, ?_, hi1.recs⟩
      intro t ht
      rcases List.mem_append.mp ht with ht | ht
      · exact hi1.fin t ht
      · obtain ⟨t0, ht0, rfl⟩ := List.mem_map.mp ht
        exact (path_keeps D L).final m t0 (final_of_getD hfinal) (hP1 t0 ht0)
    · exact hi1
  have hb2 : BestInv D L st2 := by
    refine ⟨by rw [h2best]; exact hb1.len, ?_, ?_⟩
    · rw [h2tok, h2best]; exact hb1.has
    · rw [h2best]; exact hb1.path
  obtain ⟨st', hlinks, hpass, hnew⟩ := decodeLinks_any hw hl hlen hmem hkeep hP1 hp1.ne (L.outLinks m) (st := st2) houts hi2 hb2
  have hdn : decodeNode D L (decLmScale D L) (decWiPenalty D L) sorted m st = .ok st' := by
    unfold decodeNode
    rw [hpr]
    simp only
    rw [if_neg hp1.ne]
    exact hlinks
  have hfin1 : ∀ n, L.Final n → n = m →
      st'.finals = st1.finals ++ (st1.tokens.getD m []).map (propagateEnd D (decLmScale D L) (decWiPenalty D L)) := by
    rintro n ⟨nd, hnd1, hnd2⟩ rfl
    have hfinal : (L.nodes.getD n Node.new).final = true := by
      rw [List.getD_eq_getElem?_getD, hnd1]; exact hnd2
    rw [hpass.finals]
    simp only [st2]
    rw [if_pos hfinal]
  have hfin2 : st.finals ⊆ st'.finals := by
    rw [hpass.finals, ← hp1.finals]
    simp only [st2]
    split
    · exact List.subset_append_left _ _
    · exact List.Subset.refl _
  have hearly : ∀ {ls : List (Link S)} {k : Link S}, L.Path L.initial ls k.startNode → k.startNode ∈ done →
      ∀ k' ∈ ls ++ [k], k'.startNode ∈ done := by
    intro ls k hp hks k' hk'
    obtain ⟨p₁, p₂, hd⟩ := List.append_of_mem hks
    have hb : ∀ k' ∈ ls, k'.startNode ∈ p₁ := path_before hnd ht hp (P := p₁) (Q := p₂ ++ m :: rest) (by
      rw [hs, hd]; simp)
    rcases List.mem_append.mp hk' with h | h
    · rw [hd]; exact List.mem_append_left _ (hb k' h)
    · rw [List.mem_singleton.mp h]; exact hks
  have hmono : ∀ n, st.tokens.getD n [] ≠ [] → st'.tokens.getD n [] ≠ [] := by
    intro n h
    refine hpass.ne n ?_
    rw [h2tok]
    exact hp1.mono h
  refine ⟨st', hdn, hpass.inv, hpass.best, ?_, ?_, ?_, ?_⟩
  · intro ls n hp hk
    cases hp with
    | nil => exact hmono _ (hi.ne [] L.initial .nil (by simp))
    | snoc ls k hp hkl =>
      rcases List.mem_append.mp (hk k (by simp)) with hks | hks
      · exact hmono _ (hi.ne (ls ++ [k]) k.endNode (.snoc ls k hp hkl) (hearly hp hks))
      · obtain ⟨l, hl, hlk⟩ := hlink k hkl (List.mem_singleton.mp hks)
        exact (hnew l hl k hlk).1
  · intro ls n hp hk hW
    cases hp with
    | nil => exact hpass.rep _ _ .nil hW (by rw [h2tok]; exact hc1 [] L.initial .nil (by simp) hW)
    | snoc ls k hp hkl =>
      rcases List.mem_append.mp (hk k (by simp)) with hks | hks
      · -- the last link starts from a node that has been processed earlier
        exact hpass.rep _ _ (.snoc ls k hp hkl) hW (by rw [h2tok]; exact hc1 _ _ (.snoc ls k hp hkl) (hearly hp hks) hW)
      · -- it starts from this node
        have hkm := List.mem_singleton.mp hks
        obtain ⟨t, ht', h1, h2⟩ := hrep1 (ls := ls) (by rw [← hkm]; exact hp) (hfront _ _ hW)
        obtain ⟨l, hl, hlk⟩ := hlink k hkl hkm
        obtain ⟨ls', _, rfl⟩ := hP1 t ht'
        have hdom := (hx ls ls' (hfront _ _ hW) ⟨h1, h2⟩).1 k
        refine (hnew l hl k hlk).2 ls (.snoc ls k hp hkl) hW ⟨_, List.mem_map.mpr ⟨_, ht', rfl⟩, ?_, ?_⟩
        · rw [runPath_snoc]; exact hdom.1
        · rw [runPath_snoc]; exact hdom.2
  · intro n hmem hfn
    rcases List.mem_append.mp hmem with hmem | hmem
    · intro e
      rw [e] at hfin2
      exact hi.fin n hmem hfn (List.subset_nil.mp hfin2)
    · rw [hfin1 n hfn (List.mem_singleton.mp hmem)]
      intro e
      rw [List.append_eq_nil_iff, List.map_eq_nil_iff] at e
      exact hp1.ne e.2
  · intro ls n hp hfn hmem hW
    rcases List.mem_append.mp hmem with hmem | hmem
    · obtain ⟨t, ht', h1⟩ := hi.finRep ls n hp hfn hmem hW
      exact ⟨t, hfin2 ht', h1⟩
    · have hnm := List.mem_singleton.mp hmem
      rw [hfin1 n hfn hnm]
      subst hnm
      obtain ⟨t, ht', h1, h2⟩ := hrep1 hp hW
      obtain ⟨ls', _, rfl⟩ := hP1 t ht'
      exact ⟨_, List.mem_append_right _ (List.mem_map.mpr ⟨_, ht', rfl⟩), (hx ls ls' hW ⟨h1, h2⟩).2⟩

theorem decodeNodes_any (hw : L.WF) (hl : PruningLeaves D L) {W : List (Link S) → Prop} {sorted : List Nat}
    (hlen : sorted.length = L.nodes.length) (hmem : ∀ n, n ∈ sorted ↔ n < L.nodes.length) (hkeep : PruneKeeps D L sorted W)
    (hx : ExtendsIn D L W) (hfront : ∀ (ls : List (Link S)) (k : Link S), W (ls ++ [k]) → W ls) (hnd : sorted.Nodup)
    (ht : ∀ a b : Nat, b ∈ sorted → L.Edge a b → Before sorted a b)
    (hin : ∀ n ∈ sorted, n ≠ L.initial → ∃ a : Nat, L.Edge a n) (ns : List Nat) : ∀ {done : List Nat} {st : DecSt S St},
    sorted = done ++ ns → AnyInv D L W done st →
    ∃ st', decodeNodes D L (decLmScale D L) (decWiPenalty D L) sorted ns st = .ok st' ∧ AnyInv D L W sorted st' := by
  induction ns with
  | nil =>
    intro done st hs hi
    rw [List.append_nil] at hs
    exact ⟨st, rfl, by rw [hs]; exact hi⟩
  | cons m ns ih =>
    intro done st hs hi
    obtain ⟨st1, h1, h2⟩ := decodeNode_any hw hl hlen hmem hkeep hx hfront hs hnd ht
      (path_exists hnd (fun a b hb _ => ht a b hb) hin _ done ns m rfl hs) hi
    obtain ⟨st', h4, h5⟩ := ih (done := done ++ [m]) (by rw [hs]; simp) h2
    refine ⟨st', ?_, h5⟩
    unfold decodeNodes
    rw [h1]
    exact h4

/-- Decoding succeeds, and represents the complete paths in `W`. -/
theorem decode_any (hw : L.WF) (hac : ∀ n : Nat, ¬ L.OnCycle n)
    (hin : ∀ n : Nat, n < L.nodes.length → n ≠ L.initial → ∃ a : Nat, L.Edge a n) (hl : PruningLeaves D L)
    (hfinal : ∃ n : Nat, L.Final n) {W : List (Link S) → Prop}
    (hkeep : ∀ sorted : List Nat, sortedNodes L (L.nodes.length + 1) = some (.ok sorted) → PruneKeeps D L sorted W)
    (hx : ExtendsIn D L W) (hfront : ∀ (ls : List (Link S)) (k : Link S), W (ls ++ [k]) → W ls) :
    ∃ (finals : List (Token S St)) (recomb : List (Recomb S St)), decode D L = .ok (finals, recomb) ∧
      ∀ (ls : List (Link S)) (n : Nat), L.Path L.initial ls n → L.Final n → W ls →
        ∃ t ∈ finals, SameRecent D.recombinationOrder t.history (runEnd D L ls).history ∧
          (runEnd D L ls).total ≤ t.total := by
  obtain ⟨sorted, hs, hnd, hmem, ht⟩ := sorted_acyclic hw hac hin
  have hlen : sorted.length = L.nodes.length := by
    have := ((List.perm_ext_iff_of_nodup hnd List.nodup_range).mpr (fun n => by rw [hmem, List.mem_range])).length_eq
    rw [this, List.length_range]
  obtain ⟨st, hst, hi⟩ := decodeNodes_any hw hl hlen hmem (hkeep sorted hs) hx hfront hnd ht
    (fun n hn => hin n ((hmem n).mp hn)) sorted (done := []) (by simp) (decInit_any hw W)
  have hmf : ∀ n, L.Final n → n ∈ sorted := by
    rintro n ⟨nd, h1, _⟩
    rw [hmem]
    exact (List.getElem?_eq_some_iff.mp h1).1
  have hne : st.finals ≠ [] := by
    obtain ⟨n, hfn⟩ := hfinal
    exact hi.fin n (hmf n hfn) hfn
  refine ⟨(sortedRecombined st.finals).1, st.recomb ++ (sortedRecombined st.finals).2, ?_, ?_⟩
  · unfold decode
    rw [hs]
    simp only
    rw [hst]
    simp only
    rw [if_neg hne]
  · intro ls n hp hfn hr
    obtain ⟨t, ht', h1, h2⟩ := hi.finRep ls n hp hfn (hmf n hfn) hr
    obtain ⟨k, hk, h3, h4⟩ := (sortedRecombined_spec st.finals).kept ht'
    refine ⟨k, hk, ?_, le_trans h2 h4⟩
    obtain ⟨l1, n1, _, _, rfl⟩ := hi.inv.fin t ht'
    obtain ⟨l2, n2, _, _, rfl⟩ := hi.inv.fin k ((sortedRecombined_spec st.finals).subset hk)
    rw [(computed_end (D := D) (L := L) l1).hash, (computed_end (D := D) (L := L) l2).hash, limited_iff] at h3
    exact sameRecent_trans h3 h1

/-- Pruning keeps the paths within the beam, if the limit on the number of tokens is never exceeded. -/
theorem pruneKeeps_within (hw : L.WF) (hl : PruningLeaves D L) (hf : L.TimesForward)
    (hini : ∀ a b : Nat, ∀ sorted : List Nat, sortedNodes L (L.nodes.length + 1) = some (.ok sorted) → b ∈ sorted → L.Edge a b → Before sorted a b)
    (hfit : ∀ m : Nat, D.maxTokens = some m → ∀ n : Nat, ∃ hs : List (List HistWord), hs.length ≤ tokenLimit D L m ∧
      ∀ ls : List (Link S), L.Path L.initial ls n → ∃ h ∈ hs, SameRecent D.recombinationOrder (runPath D L ls).history h)
    (sorted : List Nat) (hs : sortedNodes L (L.nodes.length + 1) = some (.ok sorted)) (hlen : sorted.length = L.nodes.length) :
    PruneKeeps D L sorted (fun ls => ∀ beam, D.beam = some beam → RunWithin D L (beamWidth D L beam) ls) := by
  intro m st st' hm hi hb hpr ls hp hW hrep
  have hne : st.tokens.getD m [] ≠ [] := by
    obtain ⟨t, ht, _⟩ := hrep
    exact List.ne_nil_of_mem ht
  have hP := dinv_at hi m
  have hh : Hashed D (st.tokens.getD m []) := by
    intro t ht'
    obtain ⟨ls, _, rfl⟩ := hP t ht'
    exact (computed_run ls).hash
  obtain ⟨b, hbl, hpr'⟩ := prune_factor hl.1 hlen hb hm hne
  rw [hpr] at hpr'
  cases hpr'
  simp only
  rw [getD_set_tokens (lt_of_getD_ne hne), if_pos rfl, pruneTokens_eq]
  simp only
  -- the limit is not exceeded
  have hnolim : ∀ ts, ts <+: (sortedRecombined (st.tokens.getD m [])).1 → limitTokens D (pruneFactor D L.nodes.length) ts = ts := by
    intro ts hts
    unfold limitTokens
    cases hmt : D.maxTokens with
    | none => rfl
    | some mt =>
      simp only
      refine List.take_of_length_le (le_trans hts.length_le ?_)
      obtain ⟨hs', hl', hcov⟩ := hfit mt hmt m
      have hspec := sortedRecombined_spec (st.tokens.getD m [])
      have hsub : (sortedRecombined (st.tokens.getD m [])).1.map Token.hash ⊆ hs'.map (limitedHistory D.recombinationOrder) := by
        intro x hx
        obtain ⟨t, ht, rfl⟩ := List.mem_map.mp hx
        obtain ⟨ls, hp, rfl⟩ := hP t (hspec.subset ht)
        obtain ⟨hh, h1, h2⟩ := hcov ls hp
        refine List.mem_map.mpr ⟨hh, h1, ?_⟩
        rw [(computed_run (D := D) (L := L) ls).hash]
        exact ((limited_iff _ _ _).mpr h2).symm
      have := (hspec.nodup.subperm hsub).length_le
      rw [List.length_map, List.length_map] at this
      exact le_trans this hl'
  rw [hnolim _ (beamTokens_prefix _ _ _ _)]
  obtain ⟨t, ht, h1, h2⟩ := hrep
  have hspec := sortedRecombined_spec (st.tokens.getD m [])
  obtain ⟨k, hkm, h3, h4⟩ := hspec.kept ht
  refine ⟨k, ?_, sameRecent_trans ((hash_iff hh (hspec.subset hkm) ht).mp h3) h1, le_trans h2 h4⟩
  unfold beamTokens
  cases hbeam : D.beam with
  | none => exact hkm
  | some beam =>
    simp only
    obtain ⟨b', q, n0, hbl', hq, hnot, hqt⟩ := bestLogprob_path hw hf hs (fun a b => hini a b sorted hs) hbeam hb hm hne
    rw [hbl] at hbl'
    cases hbl'
    have hwin := hW beam hbeam ls q m n0 (List.prefix_refl _) hp hq hnot
    rw [hqt] at hwin
    have hlt : b - beamWidth D L beam < k.total := lt_of_lt_of_le hwin (le_trans h2 h4)
    unfold beamWidth at hlt
    obtain ⟨_, _, q3, _⟩ := keepTokens_spec (sortedRecombined (st.tokens.getD m [])).1
      (b - max (beam / (pruneFactor D L.nodes.length : S)) D.absMinBeam) _ (le_refl _)
    obtain ⟨i, hil, hki⟩ := List.getElem_of_mem hkm
    by_cases hin : i < keepTokens (sortedRecombined (st.tokens.getD m [])).1
        (b - max (beam / (pruneFactor D L.nodes.length : S)) D.absMinBeam) (sortedRecombined (st.tokens.getD m [])).1.length
    · rw [← hki]
      exact List.mem_take_iff_getElem.mpr ⟨i, by rw [lt_min_iff]; exact ⟨hin, hil⟩, rfl⟩
    · have := q3 i k (by omega) hil (by rw [List.getElem?_eq_getElem hil, hki])
      exact absurd hlt (not_lt.mpr this)

end
end TheanoLM
