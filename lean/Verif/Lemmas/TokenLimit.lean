import Verif.Lemmas.DecoderComplete
import Mathlib.Data.List.Perm.Subperm
/-!
# Lemmas about the lattice decoder: a limit on the number of tokens that is not exceeded
-/
namespace TheanoLM

variable {S St : Type}

set_option linter.unusedSectionVars false

section
variable [Field S] [LinearOrder S] [IsStrictOrderedRing S] {D : Decoder S St} {L : Lattice S}

/-- The only limit is the number of tokens, and recombination leaves at most that many tokens. -/
structure Fits (D : Decoder S St) (L : Lattice S) : Prop where
  beam : D.beam = none
  extra : D.pruneExtraLimit = none
  fit : ∀ m : Nat, D.maxTokens = some m → ∀ n : Nat, ∃ hs : List (List HistWord), hs.length ≤ m ∧
    ∀ ls : List (Link S), L.Path L.initial ls n → ∃ h ∈ hs, SameRecent D.recombinationOrder (runPath D L ls).history h

theorem Fits.length (h : Fits D L) {m : Nat} (hm : D.maxTokens = some m) {n : Nat} {ts : List (Token S St)}
    (hP : ∀ t ∈ ts, PathP D L n t) : (sortedRecombined ts).1.length ≤ m := by
  obtain ⟨hs, hlen, hcov⟩ := h.fit m hm n
  have hspec := sortedRecombined_spec ts
  have hsub : (sortedRecombined ts).1.map Token.hash ⊆ hs.map (limitedHistory D.recombinationOrder) := by
    intro x hx
    obtain ⟨t, ht, rfl⟩ := List.mem_map.mp hx
    obtain ⟨ls, hp, rfl⟩ := hP t (hspec.subset ht)
    obtain ⟨hh, h1, h2⟩ := hcov ls hp
    refine List.mem_map.mpr ⟨hh, h1, ?_⟩
    rw [(computed_run (D := D) (L := L) ls).hash]
    exact ((limited_iff _ _ _).mpr h2).symm
  have := (hspec.nodup.subperm hsub).length_le
  rw [List.length_map, List.length_map] at this
  omega

theorem prune_fits (hn : Fits D L) {sorted : List Nat} {node : Nat} {st : DecSt S St} (h : st.tokens.getD node [] ≠ [])
    (hP : ∀ t ∈ st.tokens.getD node [], PathP D L node t) : prune D L sorted node st = .ok { st with
        tokens := st.tokens.set node (sortedRecombined (st.tokens.getD node [])).1
        recomb := st.recomb ++ (sortedRecombined (st.tokens.getD node [])).2 } := by
  have hp : ∀ best : S, pruneTokens D 1 best (st.tokens.getD node []) = sortedRecombined (st.tokens.getD node []) := by
    intro best
    rw [pruneTokens_eq]
    unfold limitTokens beamTokens
    rw [hn.beam]
    simp only
    cases hm : D.maxTokens with
    | none => rfl
    | some m =>
      simp only
      rw [List.take_of_length_le (le_trans (hn.length hm hP) (by rw [Nat.div_one]; exact le_max_left _ _))]
  unfold prune
  simp only
  rw [if_neg h]
  unfold limitDivider bestLogprob
  simp only [hn.extra, hn.beam, hp]

/-- There is a token that is at least as good. -/
def RepT (D : Decoder S St) (ts : List (Token S St)) (t : Token S St) : Prop :=
  ∃ t' ∈ ts, SameRecent D.recombinationOrder t'.history t.history ∧ t.total ≤ t'.total

theorem repT_sorted {ts : List (Token S St)} {n : Nat} (hP : ∀ t ∈ ts, PathP D L n t)
    {t : Token S St} (h : RepT D ts t) : RepT D (sortedRecombined ts).1 t := by
  obtain ⟨t, ht, h1, h2⟩ := h
  obtain ⟨k, hk, h3, h4⟩ := (sortedRecombined_spec ts).kept ht
  have hk' := (sortedRecombined_spec ts).subset hk
  obtain ⟨l1, _, rfl⟩ := hP t ht
  obtain ⟨l2, _, rfl⟩ := hP k hk'
  refine ⟨_, hk, ?_, le_trans h2 h4⟩
  rw [(computed_run (D := D) (L := L) l1).hash, (computed_run (D := D) (L := L) l2).hash, limited_iff] at h3
  exact sameRecent_trans h3 h1

/-- `prune` keeps a representative of every token. -/
theorem prune_keeps (hn : Fits D L) {sorted : List Nat} {node : Nat} {st : DecSt S St} (h : st.tokens.getD node [] ≠ [])
    (hP : ∀ t ∈ st.tokens.getD node [], PathP D L node t) : ∃ st', prune D L sorted node st = .ok st' ∧ st'.finals = st.finals ∧
      st'.tokens.length = st.tokens.length ∧ ∀ (n : Nat) (t : Token S St), RepT D (st.tokens.getD n []) t → RepT D (st'.tokens.getD n []) t := by
  refine ⟨_, prune_fits hn h hP, rfl, by rw [List.length_set], fun n t ht => ?_⟩
  have hlt : node < st.tokens.length := by
    by_contra hge
    apply h
    rw [List.getD_eq_getElem?_getD, List.getElem?_eq_none (by omega)]
    rfl
  simp only
  rw [List.getD_eq_getElem?_getD]
  by_cases hnn : node = n
  · subst hnn
    rw [List.getElem?_set_self hlt, Option.getD_some]
    exact repT_sorted hP ht
  · rw [List.getElem?_set_ne hnn, ← List.getD_eq_getElem?_getD]
    exact ht

theorem dinv_at {P : Nat → Token S St → Prop} {Q : Token S St → Prop} {R : Recomb S St → Prop} {N : Nat} {st : DecSt S St}
    (hi : DInv P Q R N st) (n : Nat) : ∀ t ∈ st.tokens.getD n [], P n t := by
  intro t ht
  obtain ⟨ts, a, b⟩ := getD_tokens ht
  exact hi.tok n ts a t b

theorem decodeLink_fits (hn : Fits D L) {sorted : List Nat} {node : Nat} {nodeTokens : List (Token S St)}
    (hnt : ∀ t ∈ nodeTokens, PathP D L node t) {st : DecSt S St} {l : Nat} {k : Link S} (hk : L.links[l]? = some k) (hks : k.startNode = node)
    (hlt : k.endNode < st.tokens.length) (hi : DInv (PathP D L) (PathQ D L) (PathR D L) L.nodes.length st) :
    ∃ st', decodeLink D L (decLmScale D L) (decWiPenalty D L) sorted nodeTokens st l = .ok st' ∧ st'.finals = st.finals ∧
      st'.tokens.length = st.tokens.length ∧ (∀ (n : Nat) (t : Token S St), RepT D (st.tokens.getD n []) t → RepT D (st'.tokens.getD n []) t) ∧
      ∀ t ∈ nodeTokens, RepT D (st'.tokens.getD k.endNode []) (propagateLink D (decLmScale D L) (decWiPenalty D L) k t) := by
  let st1 : DecSt S St := { st with
    tokens := st.tokens.modify k.endNode (fun ts => ts ++ nodeTokens.map (propagateLink D (decLmScale D L) (decWiPenalty D L) k))
    best := st.best.modify k.endNode (fun b => updateBest b (nodeTokens.map (propagateLink D (decLmScale D L) (decWiPenalty D L) k))) }
  have hget : ∀ n, st1.tokens.getD n [] = if k.endNode = n then
      st.tokens.getD n [] ++ nodeTokens.map (propagateLink D (decLmScale D L) (decWiPenalty D L) k) else st.tokens.getD n [] :=
    fun n => getD_modify _ _ _ _ hlt
  have hmono : ∀ (n : Nat) (t : Token S St), RepT D (st.tokens.getD n []) t → RepT D (st1.tokens.getD n []) t := by
    rintro n t ⟨t', ht', h⟩
    refine ⟨t', ?_, h⟩
    rw [hget]
    split
    · exact List.mem_append_left _ ht'
    · exact ht'
  have hnew : ∀ t ∈ nodeTokens, RepT D (st1.tokens.getD k.endNode []) (propagateLink D (decLmScale D L) (decWiPenalty D L) k t) := by
    intro t ht
    refine ⟨_, ?_, sameRecent_refl _ _, le_refl _⟩
    rw [hget, if_pos rfl]
    exact List.mem_append_right _ (List.mem_map.mpr ⟨t, ht, rfl⟩)
  have hlen : st1.tokens.length = st.tokens.length := by simp only [st1, List.length_modify]
  have hP1 : ∀ t ∈ st1.tokens.getD k.endNode [], PathP D L k.endNode t := by
    intro t ht
    rw [hget, if_pos rfl] at ht
    rcases List.mem_append.mp ht with h | h
    · exact dinv_at hi _ t h
    · obtain ⟨t0, h0, rfl⟩ := List.mem_map.mp h
      exact (path_keeps D L).link k t0 (List.mem_of_getElem? hk) (by rw [hks]; exact hnt t0 h0)
  unfold decodeLink
  rw [hk]
  simp only
  cases hm : D.maxTokens with
  | none => exact ⟨st1, rfl, rfl, hlen, hmono, hnew⟩
  | some m =>
    simp only
    split
    · rename_i hgt
      have hne : st1.tokens.getD k.endNode [] ≠ [] := by
        intro e
        have : (st1.tokens.getD k.endNode []).length = 0 := by rw [e]; rfl
        simp only [st1] at this
        omega
      obtain ⟨st', h1, h2, h3, h4⟩ := prune_keeps hn (sorted := sorted) hne hP1
      exact ⟨st', h1, h2, by rw [h3, hlen], fun n t h => h4 n t (hmono n t h), fun t ht => h4 _ _ (hnew t ht)⟩
    · exact ⟨st1, rfl, rfl, hlen, hmono, hnew⟩

theorem decodeLinks_fits (hn : Fits D L) {sorted : List Nat} {node : Nat} {nodeTokens : List (Token S St)}
    (hnt : ∀ t ∈ nodeTokens, PathP D L node t) (ls : List Nat) : ∀ {st : DecSt S St},
    (∀ l ∈ ls, ∃ k, L.links[l]? = some k ∧ k.startNode = node ∧ k.endNode < L.nodes.length) →
    DInv (PathP D L) (PathQ D L) (PathR D L) L.nodes.length st →
    ∃ st', decodeLinks D L (decLmScale D L) (decWiPenalty D L) sorted nodeTokens ls st = .ok st' ∧ st'.finals = st.finals ∧
      (∀ (n : Nat) (t : Token S St), RepT D (st.tokens.getD n []) t → RepT D (st'.tokens.getD n []) t) ∧
      ∀ l ∈ ls, ∀ k, L.links[l]? = some k → ∀ t ∈ nodeTokens,
        RepT D (st'.tokens.getD k.endNode []) (propagateLink D (decLmScale D L) (decWiPenalty D L) k t) := by
  induction ls with
  | nil => intro st _ _; exact ⟨st, rfl, rfl, fun _ _ h => h, by simp⟩
  | cons l ls ih =>
    intro st hl hi
    obtain ⟨k, hk, hks, hlt⟩ := hl l (by simp)
    obtain ⟨st1, h1, h2, h3, h4, h5⟩ := decodeLink_fits hn (sorted := sorted) hnt hk hks (by rw [hi.len]; exact hlt) hi
    have hi1 := decodeLink_inv (path_keeps D L) hi hnt (fun k' hk' => by rw [hk] at hk'; cases hk'; exact hks) h1
    obtain ⟨st', g1, g2, g3, g4⟩ := ih (st := st1) (fun l' hl' => hl l' (List.mem_cons_of_mem _ hl')) hi1
    refine ⟨st', ?_, g2.trans h2, fun n t h => g3 n t (h4 n t h), ?_⟩
    · unfold decodeLinks
      rw [h1]
      exact g1
    · intro l' hl' k' hk'
      rcases List.mem_cons.mp hl' with rfl | hl'
      · rw [hk] at hk'
        cases hk'
        exact fun t ht => g3 _ _ (h5 t ht)
      · exact g4 l' hl' k' hk'

/-- One node. -/
theorem decodeNode_fits (hw : L.WF) (hn : Fits D L) (hx : Extends D L) {sorted done rest : List Nat} {m : Nat}
    (hs : sorted = done ++ m :: rest) (hnd : sorted.Nodup)
    (ht : ∀ a b : Nat, b ∈ sorted → L.Edge a b → Before sorted a b)
    (hreach : ∃ ls, L.Path L.initial ls m) {st : DecSt S St}
    (hi : DInv (PathP D L) (PathQ D L) (PathR D L) L.nodes.length st) (hc : PathsInv D L done st) (hf : EndInv D L done st) :
    ∃ st', decodeNode D L (decLmScale D L) (decWiPenalty D L) sorted m st = .ok st' ∧
      PathsInv D L (done ++ [m]) st' ∧ EndInv D L (done ++ [m]) st' := by
  have hbefore : ∀ {ls : List (Link S)}, L.Path L.initial ls m → ∀ k ∈ ls, k.startNode ∈ done :=
    fun hp => path_before hnd ht hp hs
  have hP := dinv_at hi m
  have hrep : ∀ {ls : List (Link S)}, L.Path L.initial ls m → Rep D L (st.tokens.getD m []) ls :=
    fun hp => hc _ m hp (hbefore hp)
  have hne : st.tokens.getD m [] ≠ [] := by
    obtain ⟨ls, hp⟩ := hreach
    obtain ⟨t, ht', _⟩ := hrep hp
    exact List.ne_nil_of_mem ht'
  obtain ⟨st1, hpr, hfin1, hlen1, hkeep1⟩ := prune_keeps hn (sorted := sorted) hne hP
  have hi1 := prune_inv (path_keeps D L) hi hpr
  have hc1 : PathsInv D L done st1 := fun ls n hp hk => hkeep1 n _ (hc ls n hp hk)
  have hrep1 : ∀ {ls : List (Link S)}, L.Path L.initial ls m → Rep D L (st1.tokens.getD m []) ls :=
    fun hp => hc1 _ m hp (hbefore hp)
  have hne1 : st1.tokens.getD m [] ≠ [] := by
    obtain ⟨ls, hp⟩ := hreach
    obtain ⟨t, ht', _⟩ := hrep1 hp
    exact List.ne_nil_of_mem ht'
  have hP1 := dinv_at hi1 m
  -- the links
  have houts : ∀ l ∈ L.outLinks m, ∃ k, L.links[l]? = some k ∧ k.startNode = m ∧ k.endNode < L.nodes.length := by
    intro l hl
    unfold Lattice.outLinks at hl
    rw [List.getD_eq_getElem?_getD] at hl
    cases hnm : L.nodes[m]? with
    | none => rw [hnm] at hl; cases hl
    | some nd =>
      rw [hnm] at hl
      obtain ⟨k, hk, hks⟩ := (hw.out_iff m nd hnm l).mp hl
      exact ⟨k, hk, hks, (hw.ends k (List.mem_of_getElem? hk)).2⟩
  have hlink : ∀ k ∈ L.links, k.startNode = m → ∃ l ∈ L.outLinks m, L.links[l]? = some k := by
    intro k hk hks
    obtain ⟨l, hl⟩ := List.mem_iff_getElem?.mp hk
    have hml : m < L.nodes.length := by rw [← hks]; exact (hw.ends k hk).1
    refine ⟨l, ?_, hl⟩
    unfold Lattice.outLinks
    rw [List.getD_eq_getElem?_getD, List.getElem?_eq_getElem hml, Option.getD_some]
    exact (hw.out_iff m _ (List.getElem?_eq_getElem hml) l).mpr ⟨k, hl, hks⟩
  let st2 : DecSt S St := if (L.nodes.getD m Node.new).final = true then { st1 with
        finals := st1.finals ++ (st1.tokens.getD m []).map (propagateEnd D (decLmScale D L) (decWiPenalty D L)) }
      else st1
  have h2tok : st2.tokens = st1.tokens := by
    simp only [st2]; split <;> rfl
  have hi2 : DInv (PathP D L) (PathQ D L) (PathR D L) L.nodes.length st2 := by
    simp only [st2]
    split
    · rename_i hfinal
      refine ⟨hi1.len, hi1.tok, ?_, hi1.recs⟩
      intro t ht
      rcases List.mem_append.mp ht with ht | ht
      · exact hi1.fin t ht
      · obtain ⟨t0, ht0, rfl⟩ := List.mem_map.mp ht
        exact (path_keeps D L).final m t0 (final_of_getD hfinal) (hP1 t0 ht0)
    · exact hi1
  obtain ⟨st', hlinks, hfin, hsub, hnew⟩ := decodeLinks_fits hn (sorted := sorted) hP1 (L.outLinks m) (st := st2) houts hi2
  refine ⟨st', ?_, ?_, ?_⟩
  · unfold decodeNode
    rw [hpr]
    simp only
    rw [if_neg hne1]
    exact hlinks
  · intro ls n hp hk
    cases hp with
    | nil => exact hsub _ _ (by rw [h2tok]; exact hc1 [] L.initial .nil (by simp))
    | snoc ls k hp hkl =>
      have hks := hk k (by simp)
      rcases List.mem_append.mp hks with hks | hks
      · -- the last link starts from a node that has been processed earlier
        obtain ⟨p₁, p₂, hd⟩ := List.append_of_mem hks
        have hb : ∀ k' ∈ ls, k'.startNode ∈ p₁ := path_before hnd ht hp (P := p₁) (Q := p₂ ++ m :: rest) (by
          rw [hs, hd]; simp)
        have := hc1 (ls ++ [k]) k.endNode (.snoc ls k hp hkl) (by
          intro k' hk'
          rcases List.mem_append.mp hk' with h | h
          · rw [hd]; exact List.mem_append_left _ (hb k' h)
          · rw [List.mem_singleton.mp h]; exact hks)
        exact hsub _ _ (by rw [h2tok]; exact this)
      · -- it starts from this node
        have hkm := List.mem_singleton.mp hks
        obtain ⟨t, ht', h1, h2⟩ := hrep1 (ls := ls) (by rw [← hkm]; exact hp)
        obtain ⟨l, hl, hlk⟩ := hlink k hkl hkm
        obtain ⟨ls', hp', rfl⟩ := hP1 t ht'
        have hdom := (hx ls ls' m (by rw [← hkm]; exact hp) hp' ⟨h1, h2⟩).1 k
        obtain ⟨t', g1, g2, g3⟩ := hnew l hl k hlk _ ht'
        refine ⟨t', g1, ?_, ?_⟩
        · rw [runPath_snoc]; exact sameRecent_trans g2 hdom.1
        · rw [runPath_snoc]; exact le_trans hdom.2 g3
  · intro ls n hp hfn hmem
    rw [hfin]
    rcases List.mem_append.mp hmem with hmem | hmem
    · obtain ⟨t, ht', h1⟩ := hf ls n hp hfn hmem
      refine ⟨t, ?_, h1⟩
      rw [← hfin1] at ht'
      simp only [st2]
      split
      · exact List.mem_append_left _ ht'
      · exact ht'
    · have hnm := List.mem_singleton.mp hmem
      subst hnm
      obtain ⟨t, ht', h1, h2⟩ := hrep1 hp
      obtain ⟨ls', hp', rfl⟩ := hP1 t ht'
      have hdom := (hx ls ls' n hp hp' ⟨h1, h2⟩).2
      obtain ⟨nd, hnd1, hnd2⟩ := hfn
      have hfinal : (L.nodes.getD n Node.new).final = true := by
        rw [List.getD_eq_getElem?_getD, hnd1]; exact hnd2
      refine ⟨_, ?_, hdom⟩
      simp only [st2]
      rw [if_pos hfinal]
      exact List.mem_append_right _ (List.mem_map.mpr ⟨_, ht', rfl⟩)

theorem decodeNodes_fits (hw : L.WF) (hn : Fits D L) (hx : Extends D L) {sorted : List Nat} (hnd : sorted.Nodup)
    (ht : ∀ a b : Nat, b ∈ sorted → L.Edge a b → Before sorted a b)
    (hin : ∀ n ∈ sorted, n ≠ L.initial → ∃ a : Nat, L.Edge a n) (ns : List Nat) : ∀ {done : List Nat} {st : DecSt S St},
    sorted = done ++ ns → DInv (PathP D L) (PathQ D L) (PathR D L) L.nodes.length st → PathsInv D L done st →
    EndInv D L done st →
    ∃ st', decodeNodes D L (decLmScale D L) (decWiPenalty D L) sorted ns st = .ok st' ∧ EndInv D L sorted st' := by
  induction ns with
  | nil =>
    intro done st hs _ _ hf
    rw [List.append_nil] at hs
    exact ⟨st, rfl, by rw [hs]; exact hf⟩
  | cons m ns ih =>
    intro done st hs hi hc hf
    obtain ⟨st1, h1, h2, h3⟩ := decodeNode_fits hw hn hx hs hnd ht (path_exists hnd (fun a b hb _ => ht a b hb) hin _ done ns m rfl hs) hi hc hf
    obtain ⟨st', g1, g2⟩ := ih (done := done ++ [m]) (by rw [hs]; simp) (decodeNode_inv hw (path_keeps D L) hi h1) h2 h3
    refine ⟨st', ?_, g2⟩
    unfold decodeNodes
    rw [h1]
    exact g1

end
end TheanoLM
