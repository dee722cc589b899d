import Verif.Props.Decoder
import Verif.Props.BeamPruningSpec
/-!
# Lemmas about beam pruning (C124)
-/
namespace TheanoLM

variable {S St : Type}

set_option linter.unusedSectionVars false

/-- The nodes are listed in the order of their times, if links do not go back in time. -/
theorem sorted_times {L : Lattice S} (hw : L.WF) {fuel : Nat} {r : List Nat} (h : sortedNodes L fuel = some (.ok r))
    (hedge : ∀ a b : Nat, b ∈ r → L.Edge a b → Before r a b)
    (htime : ∀ n : Nat, n < L.nodes.length → ∃ x : ℚ, L.time n = some x)
    (hfwd : ∀ (a b : Nat) (x y : ℚ), L.Edge a b → L.time a = some x → L.time b = some y → x ≤ y)
    (l₁ : List Nat) (b : Nat) : ∀ (m l₂ : List Nat) (c : Nat) (x y : ℚ), r = l₁ ++ b :: m ++ c :: l₂ →
      L.time b = some x → L.time c = some y → x ≤ y := by
  obtain ⟨_, hnd, hlt, _⟩ := C24_partial L hw fuel r h
  intro m
  induction hm : m.length using Nat.strong_induction_on generalizing m with
  | _ len ih =>
    intro l₂ c x y hr hx hy
    by_cases hp : ∀ a : Nat, L.Edge a c → a ∈ l₁
    · have := C66_time_order L hw fuel r h l₁ (m ++ c :: l₂) b c (by rw [hr]; simp) (by simp) hp
      rw [hx, hy] at this
      exact this
    · push Not at hp
      obtain ⟨a, ha, hna⟩ := hp
      have hmem : a ∈ l₁ ++ b :: m := before_prefix hnd (by rw [hr]) (hedge a c (by rw [hr]; simp) ha)
      have halt : a < L.nodes.length := by
        apply hlt
        rw [hr]
        exact List.mem_append_left _ hmem
      obtain ⟨z, hz⟩ := htime a halt
      have hzy := hfwd a c z y ha hz hy
      rcases List.mem_append.mp hmem with h1 | h1
      · exact absurd h1 hna
      · rcases List.mem_cons.mp h1 with rfl | h1
        · rw [hx] at hz; cases hz; exact hzy
        · obtain ⟨m1, m2, rfl⟩ := List.append_of_mem h1
          refine le_trans (ih m1.length (by rw [← hm]; simp) m1 rfl (m2 ++ c :: l₂) a x z ?_ hx hz) hzy
          rw [hr]; simp

section
variable [Field S] [LinearOrder S] [IsStrictOrderedRing S] {D : Decoder S St} {L : Lattice S}

/-- The total score of the token of a path. -/
theorem runPath_total (hl : D.linear = false) {ls : List (Link S)} {h : List HistWord} {x : S}
    (hp : AddedPath D ls h x) : (runPath D L ls).total = partialScore D L ls x := by
  obtain ⟨_, _, _, _, _, h4⟩ := addedPath_run (L := L) hp
  obtain ⟨g1, g2, g3⟩ := runPath_attrs (D := D) (L := L) ls
  rw [computed_total hl (computed_run ls), h4, g1, g2, g3]
  unfold partialScore decLmScale decWiPenalty pathWords
  simp

/-- Facts about the best log probabilities of the nodes. -/
structure BestInv (D : Decoder S St) (L : Lattice S) (st : DecSt S St) : Prop where
  len : st.best.length = L.nodes.length
  has : ∀ n : Nat, st.tokens.getD n [] ≠ [] → ∃ x, st.best.getD n none = some x
  path : ∀ (n : Nat) (x : S), st.best.getD n none = some x →
    ∃ ls, L.Path L.initial ls n ∧ (runPath D L ls).total = x

theorem getD_modify_best {α : Type} (l : List (Option α)) (i j : Nat) (f : Option α → Option α) (hi : i < l.length) :
    (l.modify i f).getD j none = if i = j then f (l.getD j none) else l.getD j none := by
  rw [List.getD_eq_getElem?_getD, List.getElem?_modify, List.getD_eq_getElem?_getD]
  by_cases h : i = j
  · subst h
    rw [if_pos rfl, List.getElem?_eq_getElem hi]
    simp
  · rw [if_neg h]
    cases l[j]? <;> simp [h]

theorem decInit_best (hw : L.WF) : BestInv D L (decInit D L) := by
  constructor
  · simp [decInit]
  · intro n hn
    simp only [decInit] at hn ⊢
    by_cases h : L.initial = n
    · subst h
      rw [List.getD_eq_getElem?_getD, List.getElem?_set_self (by simpa using hw.initial)]
      exact ⟨_, rfl⟩
    · exfalso
      apply hn
      rw [getD_modify _ _ _ _ (by simpa using hw.initial), if_neg h, List.getD_eq_getElem?_getD, List.getElem?_map]
      cases L.nodes[n]? <;> rfl
  · intro n x hx
    simp only [decInit] at hx
    by_cases h : L.initial = n
    · subst h
      rw [List.getD_eq_getElem?_getD, List.getElem?_set_self (by simpa using hw.initial)] at hx
      exact ⟨[], .nil, Option.some.inj hx⟩
    · rw [List.getD_eq_getElem?_getD, List.getElem?_set_ne h, List.getElem?_map] at hx
      cases hz : L.nodes[n]? with
      | none => rw [hz] at hx; cases hx
      | some nd => rw [hz] at hx; cases hx

theorem decodeLink_best (hw : L.WF) (hm : D.maxTokens = none) {sorted : List Nat} {m : Nat} {nodeTokens : List (Token S St)}
    (hP : ∀ t ∈ nodeTokens, PathP D L m t) {st st' : DecSt S St} {l : Nat} (hlen : st.tokens.length = L.nodes.length)
    (hb : BestInv D L st) {k : Link S} (hk : L.links[l]? = some k) (hks : k.startNode = m)
    (h : decodeLink D L (decLmScale D L) (decWiPenalty D L) sorted nodeTokens st l = .ok st') :
    BestInv D L st' ∧ st'.tokens.length = L.nodes.length := by
  rw [decodeLink_all hm hk] at h
  cases h
  have hkm := List.mem_of_getElem? hk
  have hend := (hw.ends k hkm).2
  refine ⟨⟨by rw [List.length_modify]; exact hb.len, ?_, ?_⟩, by rw [List.length_modify]; exact hlen⟩
  · intro n hn
    simp only at hn ⊢
    rw [getD_modify _ _ _ _ (by rw [hlen]; exact hend)] at hn
    rw [getD_modify_best _ _ _ _ (by rw [hb.len]; exact hend)]
    by_cases he : k.endNode = n
    · rw [if_pos he] at hn ⊢
      obtain ⟨u1, u2, u3⟩ := updateBest_spec (nodeTokens.map (propagateLink D (decLmScale D L) (decWiPenalty D L) k))
        (st.best.getD n none)
      by_cases h0 : st.tokens.getD n [] = []
      · rw [h0, List.nil_append] at hn
        obtain ⟨t, ht⟩ := List.exists_mem_of_ne_nil _ hn
        obtain ⟨x, hx, _⟩ := u1 t ht
        exact ⟨x, hx⟩
      · obtain ⟨y, hy⟩ := hb.has n h0
        obtain ⟨x, hx, _⟩ := u2 y hy
        exact ⟨x, hx⟩
    · rw [if_neg he] at hn ⊢
      exact hb.has n hn
  · intro n x hx
    simp only at hx
    rw [getD_modify_best _ _ _ _ (by rw [hb.len]; exact hend)] at hx
    by_cases he : k.endNode = n
    · rw [if_pos he] at hx
      obtain ⟨u1, u2, u3⟩ := updateBest_spec (nodeTokens.map (propagateLink D (decLmScale D L) (decWiPenalty D L) k))
        (st.best.getD n none)
      rcases u3 x hx with h1 | ⟨t, ht, h1⟩
      · exact hb.path n x h1
      · obtain ⟨t0, ht0, rfl⟩ := List.mem_map.mp ht
        obtain ⟨ls, hp, rfl⟩ := hP t0 ht0
        refine ⟨ls ++ [k], ?_, by rw [runPath_snoc]; exact h1⟩
        rw [← he]
        exact .snoc ls k (by rw [hks]; exact hp) hkm
    · rw [if_neg he] at hx
      exact hb.path n x hx

theorem decodeLinks_best (hw : L.WF) (hm : D.maxTokens = none) {sorted : List Nat} {m : Nat}
    {nodeTokens : List (Token S St)} (hP : ∀ t ∈ nodeTokens, PathP D L m t) (ls : List Nat) :
    ∀ {st st' : DecSt S St}, st.tokens.length = L.nodes.length → BestInv D L st →
    (∀ l ∈ ls, ∃ k, L.links[l]? = some k ∧ k.startNode = m) →
    decodeLinks D L (decLmScale D L) (decWiPenalty D L) sorted nodeTokens ls st = .ok st' → BestInv D L st' := by
  induction ls with
  | nil => intro st st' _ hb _ h; cases h; exact hb
  | cons l ls ih =>
    intro st st' hlen hb hl h
    unfold decodeLinks at h
    split at h
    · cases h
    · rename_i st1 h1
      obtain ⟨k, hk, hks⟩ := hl l (by simp)
      obtain ⟨g1, g2⟩ := decodeLink_best hw hm hP hlen hb hk hks h1
      exact ih g2 g1 (fun l' hl' => hl l' (List.mem_cons_of_mem _ hl')) h

theorem maxBest_some (l : List (Option S)) {x : S} (h : some x ∈ l) : ∃ b, maxBest l = some b := by
  induction l with
  | nil => cases h
  | cons o l ih =>
    cases o with
    | none => exact ih (by simpa using h)
    | some v =>
      unfold maxBest
      cases maxBest l with
      | none => exact ⟨_, rfl⟩
      | some w => exact ⟨_, rfl⟩

/-- The best log probability that pruning compares to is the score of a path that does not end earlier. -/
theorem bestLogprob_path (hw : L.WF) (hf : L.TimesForward) {sorted : List Nat}
    (hs : sortedNodes L (L.nodes.length + 1) = some (.ok sorted))
    (ht : ∀ a b : Nat, b ∈ sorted → L.Edge a b → Before sorted a b)
    {beam : S} (hbeam : D.beam = some beam) {st : DecSt S St} (hb : BestInv D L st) {m : Nat} (hm : m ∈ sorted)
    (hne : st.tokens.getD m [] ≠ []) :
    ∃ b q n, bestLogprob D L sorted st.best m = .ok b ∧ L.Path L.initial q n ∧ L.NotEarlier m n ∧
      (runPath D L q).total = b := by
  obtain ⟨_, hnd, hlt, _⟩ := C24_partial L hw _ sorted hs
  obtain ⟨v, hv⟩ := hb.has m hne
  -- the first node that is compared
  have key : ∃ i, timeBegin L sorted m = .ok i ∧ m ∈ sorted.drop i ∧ ∀ n ∈ sorted.drop i, L.NotEarlier m n := by
    unfold timeBegin
    cases hx : L.time m with
    | none =>
      simp only
      cases hi : sorted.findIdx? (fun n => n == m) with
      | none =>
        rw [List.findIdx?_eq_none_iff] at hi
        exact absurd (hi m hm) (by simp)
      | some i =>
        refine ⟨i, rfl, mem_drop_of_findIdx hi hm (by simp), ?_⟩
        intro n hn
        refine ⟨(fun x y h => by rw [hx] at h; cases h), fun _ hr => ?_⟩
        obtain ⟨hil, h1, _⟩ := List.findIdx?_eq_some_iff_getElem.mp hi
        have h1' : sorted[i] = m := by simpa using h1
        have hsplit : sorted = sorted.take i ++ m :: sorted.drop (i + 1) := by
          have := List.take_append_drop i sorted
          rw [List.drop_eq_getElem_cons hil, h1'] at this
          exact this.symm
        -- `n` would come before `m`
        have hbef : ∀ a b, Relation.TransGen L.Edge a b → ∀ P Q, sorted = P ++ b :: Q → a ∈ P := by
          intro a b hab
          induction hab with
          | single he => intro P Q hpq; exact before_prefix hnd hpq (ht _ _ (by rw [hpq]; simp) he)
          | @tail _ c _ he ih =>
            intro P Q hpq
            have hc := before_prefix hnd hpq (ht _ _ (by rw [hpq]; simp) he)
            obtain ⟨p₁, p₂, rfl⟩ := List.append_of_mem hc
            exact List.mem_append_left _ (ih p₁ (p₂ ++ c :: Q) (by rw [hpq]; simp))
        have hnP := hbef n m hr _ _ hsplit
        have hdis := (List.nodup_append.mp (by rw [List.take_append_drop]; exact hnd :
          (sorted.take i ++ sorted.drop i).Nodup)).2.2
        exact hdis n hnP n hn rfl
    | some x =>
      rcases hf with hf | ⟨hf1, hf2⟩
      · rw [hf m (hlt m hm)] at hx; cases hx
      simp only
      cases hi : sorted.findIdx? (fun n => match L.time n with
          | none => false
          | some y => decide (x ≤ y)) with
      | none =>
        rw [List.findIdx?_eq_none_iff] at hi
        have := hi m hm
        rw [hx] at this
        simp at this
      | some i =>
        refine ⟨i, rfl, mem_drop_of_findIdx hi hm (by rw [hx]; simp), ?_⟩
        intro n hn
        refine ⟨?_, fun h => by rw [hx] at h; cases h⟩
        intro x' y hx' hy
        rw [hx] at hx'
        cases hx'
        obtain ⟨hil, h1, _⟩ := List.findIdx?_eq_some_iff_getElem.mp hi
        obtain ⟨z, hz⟩ := hf1 sorted[i] (hlt _ (List.getElem_mem hil))
        rw [hz] at h1
        have hxz : x ≤ z := by simpa using h1
        rw [List.drop_eq_getElem_cons hil] at hn
        rcases List.mem_cons.mp hn with rfl | hn
        · rw [hz] at hy; cases hy; exact hxz
        · obtain ⟨m1, m2, hm12⟩ := List.append_of_mem hn
          refine le_trans hxz (sorted_times hw hs ht hf1 hf2 (sorted.take i) sorted[i] m1 m2 n z y ?_ hz hy)
          have : sorted = sorted.take i ++ sorted[i] :: sorted.drop (i + 1) := by
            rw [← List.drop_eq_getElem_cons hil, List.take_append_drop]
          rw [hm12] at this
          simpa using this
  obtain ⟨i, hi, hmi, hni⟩ := key
  obtain ⟨b, hbm⟩ := maxBest_some ((sorted.drop i).map (fun n => st.best.getD n none)) (x := v)
    (List.mem_map.mpr ⟨m, hmi, hv⟩)
  obtain ⟨h1, _⟩ := maxBest_spec _ _ hbm
  obtain ⟨n, hn, hnb⟩ := List.mem_map.mp h1
  obtain ⟨q, hq, htot⟩ := hb.path n b hnb
  refine ⟨b, q, n, ?_, hq, hni n hn, htot⟩
  unfold bestLogprob
  rw [hbeam]
  simp only
  rw [hi]
  simp only
  rw [hbm]

/-- `WithinBeam` in terms of the tokens of the paths. -/
def RunWithin (D : Decoder S St) (L : Lattice S) (width : S) (ls : List (Link S)) : Prop :=
  ∀ (p q : List (Link S)) (n m : Nat), p <+: ls → L.Path L.initial p n → L.Path L.initial q m → L.NotEarlier n m →
    (runPath D L q).total - width < (runPath D L p).total

theorem runWithin_of (hl : D.linear = false) {width : S} {ls : List (Link S)} (h : WithinBeam D L width ls) :
    RunWithin D L width ls := by
  intro p q n m h1 h2 h3 h4
  obtain ⟨bp, pp, x, hx⟩ := addedPath_exists (D := D) p
  obtain ⟨bq, pq, y, hy⟩ := addedPath_exists (D := D) q
  rw [runPath_total hl hx, runPath_total hl hy]
  exact h p q n m _ _ x y h1 h2 h3 h4 hx hy

theorem RunWithin.front {width : S} {ls : List (Link S)} {k : Link S} (h : RunWithin D L width (ls ++ [k])) :
    RunWithin D L width ls :=
  fun p q n m h1 => h p q n m (h1.trans (List.prefix_append _ _))

/-- What is known when the nodes `done` have been processed: there are tokens for all paths through them, and the paths
that stay within the beam are represented. -/
structure BeamInv (D : Decoder S St) (L : Lattice S) (width : S) (done : List Nat) (st : DecSt S St) : Prop where
  inv : DInv (PathP D L) (PathQ D L) (PathR D L) L.nodes.length st
  best : BestInv D L st
  ne : ∀ (ls : List (Link S)) (n : Nat), L.Path L.initial ls n → (∀ k ∈ ls, k.startNode ∈ done) →
    st.tokens.getD n [] ≠ []
  rep : ∀ (ls : List (Link S)) (n : Nat), L.Path L.initial ls n → (∀ k ∈ ls, k.startNode ∈ done) →
    RunWithin D L width ls → Rep D L (st.tokens.getD n []) ls
  fin : ∀ n ∈ done, L.Final n → st.finals ≠ []
  finRep : ∀ (ls : List (Link S)) (n : Nat), L.Path L.initial ls n → L.Final n → n ∈ done → RunWithin D L width ls →
    ∃ t ∈ st.finals, SameRecent D.recombinationOrder t.history (runEnd D L ls).history ∧ (runEnd D L ls).total ≤ t.total

theorem decInit_beam (hw : L.WF) (width : S) : BeamInv D L width [] (decInit D L) := by
  refine ⟨decInit_inv (path_keeps D L), decInit_best hw, ?_, fun ls n hp hk _ => decInit_cinv hw ls n hp hk, ?_, ?_⟩
  · intro ls n hp hk
    obtain ⟨t, ht, _⟩ := decInit_cinv (D := D) hw ls n hp hk
    exact List.ne_nil_of_mem ht
  · intro n hn; cases hn
  · intro ls n _ _ hn; cases hn

/-- A token within the beam is kept, or recombined with one that is kept. -/
theorem beam_keeps {width : S} (hn : BeamOnly D width) (b : S) {ts : List (Token S St)} (hh : Hashed D ts) {t : Token S St}
    (ht : t ∈ ts) (hlt : b - width < t.total) :
    ∃ k ∈ (pruneTokens D 1 b ts).1, SameRecent D.recombinationOrder k.history t.history ∧ t.total ≤ k.total := by
  have hs := sortedRecombined_spec ts
  obtain ⟨k, hkm, h1, h2⟩ := hs.kept ht
  refine ⟨k, ?_, (hash_iff hh (hs.subset hkm) ht).mp h1, h2⟩
  rw [pruneTokens_eq]
  simp only [beamTokens, limitTokens, hn.beam, hn.maxTokens, Nat.cast_one, div_one, max_eq_left hn.absMin]
  obtain ⟨_, _, q3, _⟩ := keepTokens_spec (sortedRecombined ts).1 (b - width) _ (le_refl _)
  obtain ⟨i, hi, hki⟩ := List.getElem_of_mem hkm
  by_cases hin : i < keepTokens (sortedRecombined ts).1 (b - width) (sortedRecombined ts).1.length
  · rw [List.mem_take_iff_getElem]
    exact ⟨i, by omega, hki⟩
  · have := q3 i k (by omega) hi (by rw [List.getElem?_eq_getElem hi, hki])
    exact absurd (lt_of_lt_of_le hlt h2) (not_lt.mpr this)

/-- One node. -/
theorem decodeNode_beam (hw : L.WF) {width : S} (hn : BeamOnly D width) (hf : L.TimesForward)
    {sorted done rest : List Nat} {m : Nat} (hso : sortedNodes L (L.nodes.length + 1) = some (.ok sorted))
    (hs : sorted = done ++ m :: rest) (hnd : sorted.Nodup)
    (ht : ∀ a b : Nat, b ∈ sorted → L.Edge a b → Before sorted a b)
    (hreach : ∃ ls, L.Path L.initial ls m) {st : DecSt S St} (hi : BeamInv D L width done st) :
    ∃ st', decodeNode D L (decLmScale D L) (decWiPenalty D L) sorted m st = .ok st' ∧
      BeamInv D L width (done ++ [m]) st' := by
  have hbefore : ∀ {ls : List (Link S)}, L.Path L.initial ls m → ∀ k ∈ ls, k.startNode ∈ done :=
    fun hp => path_before hnd ht hp hs
  have hP : ∀ t ∈ st.tokens.getD m [], PathP D L m t := by
    intro t ht'
    obtain ⟨ts, a, b⟩ := getD_tokens ht'
    exact hi.inv.tok m ts a t b
  have hne : st.tokens.getD m [] ≠ [] := by
    obtain ⟨ls, hp⟩ := hreach
    exact hi.ne ls m hp (hbefore hp)
  have hmlt : m < st.tokens.length := by
    by_contra hge
    apply hne
    rw [List.getD_eq_getElem?_getD, List.getElem?_eq_none (by omega)]
    rfl
  obtain ⟨b, q, n0, hbl, hq, hnot, hqt⟩ := bestLogprob_path hw hf hso ht hn.beam hi.best (by rw [hs]; simp) hne
  have hdiv : limitDivider D sorted.length = .ok 1 := by unfold limitDivider; rw [hn.extra]
  -- the pruned state
  let kept := (pruneTokens D 1 b (st.tokens.getD m [])).1
  let st1 : DecSt S St := { st with
        tokens := st.tokens.set m kept
        recomb := st.recomb ++ (pruneTokens D 1 b (st.tokens.getD m [])).2 }
  have hpr : prune D L sorted m st = .ok st1 := by
    unfold prune
    simp only
    rw [if_neg hne, hdiv]
    simp only
    rw [hbl]
  have hget : ∀ n, st1.tokens.getD n [] = if m = n then kept else st.tokens.getD n [] := by
    intro n
    simp only [st1]
    rw [List.getD_eq_getElem?_getD]
    by_cases h : m = n
    · subst h
      rw [if_pos rfl, List.getElem?_set_self hmlt, Option.getD_some]
    · rw [if_neg h, List.getElem?_set_ne h, ← List.getD_eq_getElem?_getD]
  have hkne : kept ≠ [] := by
    have : kept = beamTokens D 1 b (sortedRecombined (st.tokens.getD m [])).1 := by
      simp only [kept]
      rw [pruneTokens_eq]
      unfold limitTokens
      rw [hn.maxTokens]
    rw [this]
    exact beamTokens_ne_nil D 1 b ((sortedRecombined_spec _).ne_nil hne)
  have hne1 : st1.tokens.getD m [] ≠ [] := by rw [hget, if_pos rfl]; exact hkne
  have hi1 : DInv (PathP D L) (PathQ D L) (PathR D L) L.nodes.length st1 := prune_inv (path_keeps D L) hi.inv hpr
  have hP1 : ∀ t ∈ st1.tokens.getD m [], PathP D L m t := by
    intro t ht'
    obtain ⟨ts, a, b⟩ := getD_tokens ht'
    exact hi1.tok m ts a t b
  have hh : Hashed D (st.tokens.getD m []) := by
    intro t ht'
    obtain ⟨ls, _, rfl⟩ := hP t ht'
    exact (computed_run ls).hash
  -- the tokens of the paths within the beam are kept
  have hrep1 : ∀ {ls : List (Link S)}, L.Path L.initial ls m → RunWithin D L width ls →
      Rep D L (st1.tokens.getD m []) ls := by
    intro ls hp hr
    obtain ⟨t, ht', h1, h2⟩ := hi.rep ls m hp (hbefore hp) hr
    have hwin := hr ls q m n0 (List.prefix_refl _) hp hq hnot
    obtain ⟨k, hk, h5, h6⟩ := beam_keeps hn b hh ht' (by rw [← hqt]; exact lt_of_lt_of_le hwin h2)
    refine ⟨k, ?_, sameRecent_trans h5 h1, le_trans h2 h6⟩
    rw [hget, if_pos rfl]
    exact hk
  have hnec : ∀ (ls : List (Link S)) (n : Nat), L.Path L.initial ls n → (∀ k ∈ ls, k.startNode ∈ done) →
      st1.tokens.getD n [] ≠ [] := by
    intro ls n hp hk
    rw [hget]
    split
    · exact hkne
    · exact hi.ne ls n hp hk
  have hc1 : ∀ (ls : List (Link S)) (n : Nat), L.Path L.initial ls n → (∀ k ∈ ls, k.startNode ∈ done) →
      RunWithin D L width ls → Rep D L (st1.tokens.getD n []) ls := by
    intro ls n hp hk hr
    by_cases h : m = n
    · subst h; exact hrep1 hp hr
    · rw [hget, if_neg h]; exact hi.rep ls n hp hk hr
  have hb1 : BestInv D L st1 := by
    refine ⟨hi.best.len, ?_, hi.best.path⟩
    intro n hn'
    refine hi.best.has n ?_
    rw [hget] at hn'
    split at hn'
    · rename_i h; subst h; exact hne
    · exact hn'
  -- the links
  have houts : ∀ l ∈ L.outLinks m, ∃ k, L.links[l]? = some k ∧ k.startNode = m ∧ k.endNode < L.nodes.length := by
    intro l hl
    unfold Lattice.outLinks at hl
    rw [List.getD_eq_getElem?_getD] at hl
    cases hnm : L.nodes[m]? with
    | none => rw [hnm] at hl; cases hl
    | some nd =>
      rw [hnm] at hl
      obtain ⟨k, hk, hks⟩ := (hw.out_iff m nd hnm l).mp hl
      exact ⟨k, hk, hks, (hw.ends k (List.mem_of_getElem? hk)).2⟩
  have hlink : ∀ k ∈ L.links, k.startNode = m → ∃ l ∈ L.outLinks m, L.links[l]? = some k := by
    intro k hk hks
    obtain ⟨l, hl⟩ := List.mem_iff_getElem?.mp hk
    have hml : m < L.nodes.length := by rw [← hks]; exact (hw.ends k hk).1
    refine ⟨l, ?_, hl⟩
    unfold Lattice.outLinks
    rw [List.getD_eq_getElem?_getD, List.getElem?_eq_getElem hml, Option.getD_some]
    exact (hw.out_iff m _ (List.getElem?_eq_getElem hml) l).mpr ⟨k, hl, hks⟩
  let st2 : DecSt S St := if (L.nodes.getD m Node.new).final = true then { st1 with
        finals := st1.finals ++ (st1.tokens.getD m []).map (propagateEnd D (decLmScale D L) (decWiPenalty D L)) }
      else st1
  have h2tok : st2.tokens = st1.tokens := by
    simp only [st2]; split <;> rfl
  have h2best : st2.best = st1.best := by
    simp only [st2]; split <;> rfl
  obtain ⟨st', hlinks, hfin, hlen, hsub, hnew⟩ := decodeLinks_all (L := L) hn.maxTokens (sorted := sorted)
    (lm := decLmScale D L) (wi := decWiPenalty D L) (nodeTokens := st1.tokens.getD m []) (L.outLinks m) (st := st2) (by
      intro l hl
      obtain ⟨k, h1, _, h3⟩ := houts l hl
      refine ⟨k, h1, ?_⟩
      rw [h2tok, hi1.len]
      exact h3)
  have hb2 : BestInv D L st2 := by
    refine ⟨by rw [h2best]; exact hb1.len, ?_, ?_⟩
    · rw [h2tok, h2best]; exact hb1.has
    · rw [h2best]; exact hb1.path
  have hdn : decodeNode D L (decLmScale D L) (decWiPenalty D L) sorted m st = .ok st' := by
    unfold decodeNode
    rw [hpr]
    simp only
    rw [if_neg hne1]
    exact hlinks
  have hfin1 : ∀ n, L.Final n → n = m →
      st'.finals = st1.finals ++ (st1.tokens.getD m []).map (propagateEnd D (decLmScale D L) (decWiPenalty D L)) := by
    rintro n ⟨nd, hnd1, hnd2⟩ rfl
    have hfinal : (L.nodes.getD n Node.new).final = true := by
      rw [List.getD_eq_getElem?_getD, hnd1]; exact hnd2
    rw [hfin]
    simp only [st2]
    rw [if_pos hfinal]
  have hfin2 : st.finals ⊆ st'.finals := by
    rw [hfin]
    simp only [st2]
    split
    · exact List.subset_append_left _ _
    · exact List.Subset.refl _
  have hearly : ∀ {ls : List (Link S)} {k : Link S}, L.Path L.initial ls k.startNode → k.startNode ∈ done →
      ∀ k' ∈ ls ++ [k], k'.startNode ∈ done := by
    intro ls k hp hks k' hk'
    obtain ⟨p₁, p₂, hd⟩ := List.append_of_mem hks
    have hb : ∀ k' ∈ ls, k'.startNode ∈ p₁ := path_before hnd ht hp (P := p₁) (Q := p₂ ++ m :: rest) (by
      rw [hs, hd]; simp)
    rcases List.mem_append.mp hk' with h | h
    · rw [hd]; exact List.mem_append_left _ (hb k' h)
    · rw [List.mem_singleton.mp h]; exact hks
  refine ⟨st', hdn, decodeNode_inv hw (path_keeps D L) hi.inv hdn,
    decodeLinks_best hw hn.maxTokens hP1 _ (by rw [h2tok]; exact hi1.len) hb2 (fun l hl => by
      obtain ⟨k, h1, h2, _⟩ := houts l hl
      exact ⟨k, h1, h2⟩) hlinks, ?_, ?_, ?_, ?_⟩
  · intro ls n hp hk
    have hmono : ∀ n, st1.tokens.getD n [] ≠ [] → st'.tokens.getD n [] ≠ [] := by
      intro n h e
      have := hsub n
      rw [h2tok, e] at this
      exact h (List.subset_nil.mp this)
    cases hp with
    | nil => exact hmono _ (hnec [] L.initial .nil (by simp))
    | snoc ls k hp hkl =>
      rcases List.mem_append.mp (hk k (by simp)) with hks | hks
      · exact hmono _ (hnec (ls ++ [k]) k.endNode (.snoc ls k hp hkl) (hearly hp hks))
      · obtain ⟨l, hl, hlk⟩ := hlink k hkl (List.mem_singleton.mp hks)
        obtain ⟨t, ht'⟩ := List.exists_mem_of_ne_nil _ hne1
        exact List.ne_nil_of_mem (hnew l hl k hlk (List.mem_map.mpr ⟨t, ht', rfl⟩))
  · intro ls n hp hk hr
    cases hp with
    | nil =>
      obtain ⟨t, ht', h1⟩ := hc1 [] L.initial .nil (by simp) hr
      exact ⟨t, hsub _ (by rw [h2tok]; exact ht'), h1⟩
    | snoc ls k hp hkl =>
      rcases List.mem_append.mp (hk k (by simp)) with hks | hks
      · -- the last link starts from a node that has been processed earlier
        obtain ⟨t, ht', h1⟩ := hc1 (ls ++ [k]) k.endNode (.snoc ls k hp hkl) (hearly hp hks) hr
        exact ⟨t, hsub _ (by rw [h2tok]; exact ht'), h1⟩
      · -- it starts from this node
        have hkm := List.mem_singleton.mp hks
        obtain ⟨t, ht', h1, h2⟩ := hrep1 (ls := ls) (by rw [← hkm]; exact hp) hr.front
        obtain ⟨l, hl, hlk⟩ := hlink k hkl hkm
        obtain ⟨ls', _, rfl⟩ := hP1 t ht'
        have hdom := dom_link hn.linear hn.context ⟨h1, h2⟩ k
        refine ⟨_, hnew l hl k hlk (List.mem_map.mpr ⟨_, ht', rfl⟩), ?_, ?_⟩
        · rw [runPath_snoc]; exact hdom.1
        · rw [runPath_snoc]; exact hdom.2
  · intro n hmem hfn
    rcases List.mem_append.mp hmem with hmem | hmem
    · intro e
      rw [e] at hfin2
      exact hi.fin n hmem hfn (List.subset_nil.mp hfin2)
    · rw [hfin1 n hfn (List.mem_singleton.mp hmem)]
      intro e
      rw [List.append_eq_nil_iff, List.map_eq_nil_iff] at e
      exact hne1 e.2
  · intro ls n hp hfn hmem hr
    rcases List.mem_append.mp hmem with hmem | hmem
    · obtain ⟨t, ht', h1⟩ := hi.finRep ls n hp hfn hmem hr
      exact ⟨t, hfin2 ht', h1⟩
    · have hnm := List.mem_singleton.mp hmem
      rw [hfin1 n hfn hnm]
      subst hnm
      obtain ⟨t, ht', h1, h2⟩ := hrep1 hp hr
      obtain ⟨ls', _, rfl⟩ := hP1 t ht'
      exact ⟨_, List.mem_append_right _ (List.mem_map.mpr ⟨_, ht', rfl⟩), dom_end hn.linear hn.context ⟨h1, h2⟩⟩

theorem decodeNodes_beam (hw : L.WF) {width : S} (hn : BeamOnly D width) (hf : L.TimesForward) {sorted : List Nat}
    (hso : sortedNodes L (L.nodes.length + 1) = some (.ok sorted)) (hnd : sorted.Nodup)
    (ht : ∀ a b : Nat, b ∈ sorted → L.Edge a b → Before sorted a b)
    (hin : ∀ n ∈ sorted, n ≠ L.initial → ∃ a : Nat, L.Edge a n) (ns : List Nat) : ∀ {done : List Nat} {st : DecSt S St},
    sorted = done ++ ns → BeamInv D L width done st →
    ∃ st', decodeNodes D L (decLmScale D L) (decWiPenalty D L) sorted ns st = .ok st' ∧ BeamInv D L width sorted st' := by
  induction ns with
  | nil =>
    intro done st hs hi
    rw [List.append_nil] at hs
    exact ⟨st, rfl, by rw [hs]; exact hi⟩
  | cons m ns ih =>
    intro done st hs hi
    obtain ⟨st1, h1, h2⟩ := decodeNode_beam hw hn hf hso hs hnd ht
      (path_exists hnd (fun a b hb _ => ht a b hb) hin _ done ns m rfl hs) hi
    obtain ⟨st', h4, h5⟩ := ih (done := done ++ [m]) (by rw [hs]; simp) h2
    refine ⟨st', ?_, h5⟩
    unfold decodeNodes
    rw [h1]
    exact h4

/-- Decoding with a beam succeeds, and represents the complete paths that stay within the beam. -/
theorem decode_beam (hw : L.WF) (hac : ∀ n : Nat, ¬ L.OnCycle n)
    (hin : ∀ n : Nat, n < L.nodes.length → n ≠ L.initial → ∃ a : Nat, L.Edge a n) (hf : L.TimesForward) {width : S}
    (hn : BeamOnly D width) (hfinal : ∃ n : Nat, L.Final n) :
    ∃ (finals : List (Token S St)) (recomb : List (Recomb S St)), decode D L = .ok (finals, recomb) ∧
      ∀ (ls : List (Link S)) (n : Nat), L.Path L.initial ls n → L.Final n → RunWithin D L width ls →
        ∃ t ∈ finals, SameRecent D.recombinationOrder t.history (runEnd D L ls).history ∧
          (runEnd D L ls).total ≤ t.total := by
  obtain ⟨sorted, hs, hnd, hmem, ht⟩ := sorted_acyclic hw hac hin
  obtain ⟨st, hst, hi⟩ := decodeNodes_beam hw hn hf hs hnd ht (fun n hn => hin n ((hmem n).mp hn)) sorted (done := [])
    (by simp) (decInit_beam hw width)
  have hmf : ∀ n, L.Final n → n ∈ sorted := by
    rintro n ⟨nd, h1, _⟩
    rw [hmem]
    exact (List.getElem?_eq_some_iff.mp h1).1
  have hne : st.finals ≠ [] := by
    obtain ⟨n, hfn⟩ := hfinal
    exact hi.fin n (hmf n hfn) hfn
  refine ⟨(sortedRecombined st.finals).1, st.recomb ++ (sortedRecombined st.finals).2, ?_, ?_⟩
  · unfold decode
    rw [hs]
    simp only
    rw [hst]
    simp only
    rw [if_neg hne]
  · intro ls n hp hfn hr
    obtain ⟨t, ht', h1, h2⟩ := hi.finRep ls n hp hfn (hmf n hfn) hr
    obtain ⟨k, hk, h3, h4⟩ := (sortedRecombined_spec st.finals).kept ht'
    refine ⟨k, hk, ?_, le_trans h2 h4⟩
    obtain ⟨l1, n1, _, _, rfl⟩ := hi.inv.fin t ht'
    obtain ⟨l2, n2, _, _, rfl⟩ := hi.inv.fin k ((sortedRecombined_spec st.finals).subset hk)
    rw [(computed_end (D := D) (L := L) l1).hash, (computed_end (D := D) (L := L) l2).hash, limited_iff] at h3
    exact sameRecent_trans h3 h1

end
end TheanoLM
