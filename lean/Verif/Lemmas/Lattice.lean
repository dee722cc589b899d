import Verif.Props.LatticeSpec
import Mathlib.Data.List.Nodup
import Mathlib.Order.WellFounded
import Mathlib.Data.Fintype.Order
/-!
# Lemmas about sorting the nodes of a lattice
-/
namespace TheanoLM

variable {S : Type}

theorem insertDesc_perm (time : Nat → Option ℚ) (x : Nat) (l : List Nat) : (insertDesc time x l).Perm (x :: l) := by
  induction l with
  | nil => exact List.Perm.refl _
  | cons y ys ih =>
    unfold insertDesc
    split
    · exact List.Perm.refl _
    · exact (List.Perm.cons y ih).trans (List.Perm.swap x y ys)

theorem sortDesc_perm (time : Nat → Option ℚ) (l : List Nat) : (sortDesc time l).Perm l := by
  induction l with
  | nil => exact List.Perm.refl _
  | cons x xs ih => exact (insertDesc_perm time x _).trans (List.Perm.cons x ih)

theorem timeLe_refl (a : Option ℚ) : timeLe a a = true := by cases a <;> simp [timeLe]

theorem timeLe_trans {a b c : Option ℚ} (h : timeLe a b = true) (h' : timeLe b c = true) : timeLe a c = true := by
  cases a <;> cases b <;> cases c <;> simp_all [timeLe]
  exact le_trans h h'

theorem timeLe_total (a b : Option ℚ) : timeLe a b = true ∨ timeLe b a = true := by
  cases a <;> cases b <;> simp [timeLe]
  exact le_total _ _

theorem insertDesc_sorted (time : Nat → Option ℚ) (x : Nat) (l : List Nat)
    (h : l.Pairwise (fun a b => timeLe (time b) (time a) = true)) :
    (insertDesc time x l).Pairwise (fun a b => timeLe (time b) (time a) = true) := by
  induction l with
  | nil => simp [insertDesc]
  | cons y ys ih =>
    rw [List.pairwise_cons] at h
    unfold insertDesc
    split
    · rename_i hxy
      rw [List.pairwise_cons]
      refine ⟨?_, List.pairwise_cons.mpr h⟩
      intro z hz
      rcases List.mem_cons.mp hz with rfl | hz
      · exact hxy
      · exact timeLe_trans (h.1 z hz) hxy
    · rename_i hxy
      rw [List.pairwise_cons]
      refine ⟨?_, ih h.2⟩
      intro z hz
      rcases List.mem_cons.mp ((insertDesc_perm time x ys).mem_iff.mp hz) with rfl | hz
      · rcases timeLe_total (time y) (time z) with h1 | h1
        · exact absurd h1 hxy
        · exact h1
      · exact h.1 z hz

theorem sortDesc_sorted (time : Nat → Option ℚ) (l : List Nat) :
    (sortDesc time l).Pairwise (fun a b => timeLe (time b) (time a) = true) := by
  induction l with
  | nil => simp [sortDesc]
  | cons x xs ih => exact insertDesc_sorted time x _ ih

/-! ## Well-formed lattices -/

theorem Lattice.getD_node {L : Lattice S} {n : Nat} (h : n < L.nodes.length) :
    L.nodes[n]? = some (L.nodes.getD n Node.new) := by
  rw [List.getD_eq_getElem?_getD, List.getElem?_eq_getElem h]; rfl

theorem Lattice.mem_node {L : Lattice S} {n : Nat} (h : n < L.nodes.length) : L.nodes.getD n Node.new ∈ L.nodes :=
  List.mem_of_getElem? (L.getD_node h)

theorem Lattice.WF.out_mem {L : Lattice S} (h : L.WF) {n l : Nat} (hn : n < L.nodes.length) :
    l ∈ L.outLinks n ↔ l < L.links.length ∧ L.startOf l = n := by
  have := h.out_iff n _ (L.getD_node hn) l
  unfold Lattice.outLinks Lattice.startOf
  rw [this]
  constructor
  · rintro ⟨k, hk, rfl⟩
    obtain ⟨hl, _⟩ := List.getElem?_eq_some_iff.mp hk
    exact ⟨hl, by rw [hk]; rfl⟩
  · rintro ⟨hl, he⟩
    rw [List.getElem?_eq_getElem hl] at he ⊢
    exact ⟨_, rfl, he⟩

theorem Lattice.WF.in_mem {L : Lattice S} (h : L.WF) {n l : Nat} (hn : n < L.nodes.length) :
    l ∈ L.inLinks n ↔ l < L.links.length ∧ L.endOf l = n := by
  have := h.in_iff n _ (L.getD_node hn) l
  unfold Lattice.inLinks Lattice.endOf
  rw [this]
  constructor
  · rintro ⟨k, hk, rfl⟩
    obtain ⟨hl, _⟩ := List.getElem?_eq_some_iff.mp hk
    exact ⟨hl, by rw [hk]; rfl⟩
  · rintro ⟨hl, he⟩
    rw [List.getElem?_eq_getElem hl] at he ⊢
    exact ⟨_, rfl, he⟩

theorem Lattice.WF.edge_iff {L : Lattice S} (_h : L.WF) {a b : Nat} :
    L.Edge a b ↔ ∃ l : Nat, l < L.links.length ∧ L.startOf l = a ∧ L.endOf l = b := by
  constructor
  · rintro ⟨k, hk, rfl, rfl⟩
    obtain ⟨l, hl, rfl⟩ := List.getElem_of_mem hk
    refine ⟨l, hl, ?_, ?_⟩ <;> simp [Lattice.startOf, Lattice.endOf, List.getElem?_eq_getElem hl]
  · rintro ⟨l, hl, rfl, rfl⟩
    refine ⟨L.links[l], List.getElem_mem hl, ?_, ?_⟩ <;>
      simp [Lattice.startOf, Lattice.endOf, List.getElem?_eq_getElem hl]

theorem Lattice.WF.edge_lt {L : Lattice S} (h : L.WF) {a b : Nat} (he : L.Edge a b) :
    a < L.nodes.length ∧ b < L.nodes.length := by
  obtain ⟨k, hk, rfl, rfl⟩ := he
  exact h.ends k hk

theorem Lattice.WF.end_lt {L : Lattice S} (h : L.WF) {l : Nat} (hl : l < L.links.length) :
    L.endOf l < L.nodes.length :=
  (h.edge_lt (h.edge_iff.mpr ⟨l, hl, rfl, rfl⟩)).2

theorem Lattice.WF.start_lt {L : Lattice S} (h : L.WF) {l : Nat} (hl : l < L.links.length) :
    L.startOf l < L.nodes.length :=
  (h.edge_lt (h.edge_iff.mpr ⟨l, hl, rfl, rfl⟩)).1

/-! ## The invariant of the loops -/

/-- Number of links in the list that end at `n`. -/
def countEnd (L : Lattice S) (T : List Nat) (n : Nat) : Nat := (T.filter (fun l => decide (L.endOf l = n))).length

theorem countEnd_append (L : Lattice S) (T T' : List Nat) (n : Nat) :
    countEnd L (T ++ T') n = countEnd L T n + countEnd L T' n := by
  simp [countEnd]

theorem countEnd_single (L : Lattice S) (l n : Nat) : countEnd L [l] n = if L.endOf l = n then 1 else 0 := by
  unfold countEnd
  by_cases h : L.endOf l = n <;> simp [h]

/-- Whether all the incoming links (at least one) have been traversed. -/
def Ready (L : Lattice S) (d : Nat → ℤ) (n : Nat) : Prop := d n = 0 ∧ 0 < (L.inLinks n).length

instance (L : Lattice S) (d : Nat → ℤ) (n : Nat) : Decidable (Ready L d n) := by unfold Ready; infer_instance

structure SortInv (L : Lattice S) (q r T : List Nat) (d : Nat → ℤ) : Prop where
  deg : ∀ n, d n = ((L.inLinks n).length : ℤ) - countEnd L T n
  nonneg : ∀ n, 0 ≤ d n
  cnt : ∀ n, (q ++ r).count n = (if n = L.initial then 1 else 0) + (if Ready L d n then 1 else 0)

theorem visitLinks_step {L : Lattice S} {q r T : List Nat} {d : Nat → ℤ} (h : SortInv L q r T d) (l : Nat) :
    let d' : Nat → ℤ := decDegree d (L.endOf l)
    (d' (L.endOf l) = 0 → SortInv L (sortDesc L.time (q ++ [L.endOf l])) r (T ++ [l]) d') ∧
    (0 < d' (L.endOf l) → SortInv L q r (T ++ [l]) d') := by
  intro d'
  have hdeg : ∀ n, d' n = ((L.inLinks n).length : ℤ) - countEnd L (T ++ [l]) n := by
    intro n
    rw [countEnd_append, countEnd_single]
    have := h.deg n
    simp only [d', decDegree]
    by_cases hn : n = L.endOf l
    · subst hn; simp [this]; ring
    · have hn' : ¬ L.endOf l = n := fun e => hn e.symm
      simp [hn, hn', this]
  constructor
  · intro h0
    refine ⟨hdeg, ?_, ?_⟩
    · intro n
      by_cases hn : n = L.endOf l
      · rw [hn, h0]
      · simp only [d', decDegree, hn, if_false]; exact h.nonneg n
    · intro n
      have hp : (sortDesc L.time (q ++ [L.endOf l]) ++ r).Perm (L.endOf l :: (q ++ r)) := by
        refine ((sortDesc_perm L.time _).append_right r).trans ?_
        simp
      rw [hp.count_eq, List.count_cons, h.cnt n]
      by_cases hn : n = L.endOf l
      · subst hn
        have h1 : d (L.endOf l) = 1 := by simp [d', decDegree] at h0; omega
        have hl : 0 < (L.inLinks (L.endOf l)).length := by have := h.deg (L.endOf l); omega
        have h2 : ¬ Ready L d (L.endOf l) := by unfold Ready; omega
        have h3 : Ready L d' (L.endOf l) := ⟨h0, hl⟩
        simp [h2, h3]
      · have : Ready L d' n ↔ Ready L d n := by simp [Ready, d', decDegree, hn]
        have hn' : ¬ L.endOf l = n := fun e => hn e.symm
        simp [this, hn']
  · intro h0
    refine ⟨hdeg, ?_, ?_⟩
    · intro n
      by_cases hn : n = L.endOf l
      · rw [hn]; exact h0.le
      · simp only [d', decDegree, hn, if_false]; exact h.nonneg n
    · intro n
      rw [h.cnt n]
      by_cases hn : n = L.endOf l
      · subst hn
        have h1 : d' (L.endOf l) = d (L.endOf l) - 1 := by simp [d', decDegree]
        have h2 : ¬ Ready L d (L.endOf l) := by unfold Ready; omega
        have h3 : ¬ Ready L d' (L.endOf l) := by unfold Ready; omega
        simp [h2, h3]
      · have : Ready L d' n ↔ Ready L d n := by simp [Ready, d', decDegree, hn]
        simp [this]

theorem visitLinks_ok {L : Lattice S} : ∀ (ls : List Nat) {q r T : List Nat} {d : Nat → ℤ} {q' : List Nat} {d' : Nat → ℤ},
    SortInv L q r T d → visitLinks L ls q d = .ok (q', d') →
    SortInv L q' r (T ++ ls) d' ∧ (∀ n, d' n ≤ d n) ∧
    (∀ n ∈ q', n ∈ q ∨ ∃ l ∈ ls, L.endOf l = n) ∧
    (q.Pairwise (fun a b => timeLe (L.time b) (L.time a) = true) →
      q'.Pairwise (fun a b => timeLe (L.time b) (L.time a) = true)) := by
  intro ls
  induction ls with
  | nil =>
    intro q r T d q' d' h hv
    simp only [visitLinks, Except.ok.injEq, Prod.mk.injEq] at hv
    obtain ⟨rfl, rfl⟩ := hv
    exact ⟨by simpa using h, fun n => le_refl _, fun n hn => Or.inl hn, id⟩
  | cons l ls ih =>
    intro q r T d q' d' h hv
    have hs := visitLinks_step h l
    unfold visitLinks at hv
    simp only at hv hs
    have hle : ∀ n, decDegree d (L.endOf l) n ≤ d n := by intro n; unfold decDegree; split <;> omega
    split at hv
    · rename_i h0
      simp only [h0, forall_const] at hs
      obtain ⟨hi, hm, hq, hso⟩ := ih hs.1 hv
      refine ⟨by simpa using hi, fun n => le_trans (hm n) (hle n), ?_, fun _ => hso (sortDesc_sorted _ _)⟩
      intro n hn
      rcases hq n hn with hn | ⟨l', hl', he⟩
      · rcases List.mem_append.mp ((sortDesc_perm _ _).mem_iff.mp hn) with hn | hn
        · exact Or.inl hn
        · exact Or.inr ⟨l, List.mem_cons_self, (List.mem_singleton.mp hn).symm⟩
      · exact Or.inr ⟨l', List.mem_cons_of_mem _ hl', he⟩
    · split at hv
      · exact absurd hv (by simp)
      · rename_i h0 h1
        obtain ⟨hi, hm, hq, hso⟩ := ih (hs.2 (by omega)) hv
        refine ⟨by simpa using hi, fun n => le_trans (hm n) (hle n), ?_, hso⟩
        intro n hn
        rcases hq n hn with hn | ⟨l', hl', he⟩
        · exact Or.inl hn
        · exact Or.inr ⟨l', List.mem_cons_of_mem _ hl', he⟩

theorem visitLinks_error {L : Lattice S} : ∀ (ls : List Nat) {q r T : List Nat} {d : Nat → ℤ} {e : Err},
    SortInv L q r T d → visitLinks L ls q d = .error e →
    e = .inputError ∧ ∃ ls₁ l ls₂, ls = ls₁ ++ l :: ls₂ ∧
      countEnd L (T ++ ls₁) (L.endOf l) = (L.inLinks (L.endOf l)).length := by
  intro ls
  induction ls with
  | nil => intro q r T d e h hv; simp [visitLinks] at hv
  | cons l ls ih =>
    intro q r T d e h hv
    have hs := visitLinks_step h l
    unfold visitLinks at hv
    simp only at hv hs
    split at hv
    · rename_i h0
      simp only [h0, forall_const] at hs
      obtain ⟨he, ls₁, l', ls₂, hl, hc⟩ := ih hs.1 hv
      exact ⟨he, l :: ls₁, l', ls₂, by simp [hl], by simpa using hc⟩
    · split at hv
      · rename_i h0 h1
        simp only [Except.error.injEq] at hv
        refine ⟨hv.symm, [], l, ls, rfl, ?_⟩
        have := h.deg (L.endOf l)
        have := h.nonneg (L.endOf l)
        simp [decDegree] at h1
        simp
        omega
      · rename_i h0 h1
        obtain ⟨he, ls₁, l', ls₂, hl, hc⟩ := ih (hs.2 (by omega)) hv
        exact ⟨he, l :: ls₁, l', ls₂, by simp [hl], by simpa using hc⟩

/-- The invariant when a new iteration of the main loop starts. -/
structure LoopInv (L : Lattice S) (q r : List Nat) (d : Nat → ℤ) : Prop where
  inv : SortInv L q r (r.flatMap L.outLinks) d
  once : r.count L.initial ≤ 1
  first : (r = [] ∧ q = [L.initial]) ∨ r.head? = some L.initial
  next : (∃ n, Ready L d n) → ∃ l ∈ L.outLinks L.initial, Ready L d (L.endOf l)
  reach : ∀ n ∈ q ++ r, Relation.ReflTransGen L.Edge L.initial n
  topo : ∀ l₁ b l₂, r = l₁ ++ b :: l₂ → b ≠ L.initial → ∀ a, L.Edge a b → a ∈ l₁
  sorted : q.Pairwise (fun a b => timeLe (L.time b) (L.time a) = true)

theorem LoopInv.nodup {L : Lattice S} {q r : List Nat} {d : Nat → ℤ} (h : LoopInv L q r d) : r.Nodup := by
  rw [List.nodup_iff_count_le_one]
  intro n
  by_cases hn : n = L.initial
  · rw [hn]; exact h.once
  · have := h.inv.cnt n
    rw [List.count_append] at this
    simp only [hn, if_false] at this
    split at this <;> omega

theorem reach_lt {L : Lattice S} (hw : L.WF) {n : Nat} (h : Relation.ReflTransGen L.Edge L.initial n) :
    n < L.nodes.length := by
  cases h with
  | refl => exact hw.initial
  | tail _ he => exact (hw.edge_lt he).2

theorem LoopInv.lt {L : Lattice S} (hw : L.WF) {q r : List Nat} {d : Nat → ℤ} (h : LoopInv L q r d) :
    ∀ n ∈ q ++ r, n < L.nodes.length := fun n hn => reach_lt hw (h.reach n hn)

theorem mem_flatMap_out {L : Lattice S} (hw : L.WF) {r : List Nat} (hr : ∀ n ∈ r, n < L.nodes.length) {l : Nat} :
    l ∈ r.flatMap L.outLinks ↔ l < L.links.length ∧ L.startOf l ∈ r := by
  rw [List.mem_flatMap]
  constructor
  · rintro ⟨n, hn, hl⟩
    obtain ⟨h1, rfl⟩ := (hw.out_mem (hr n hn)).mp hl
    exact ⟨h1, hn⟩
  · rintro ⟨h1, h2⟩
    exact ⟨_, h2, (hw.out_mem (hr _ h2)).mpr ⟨h1, rfl⟩⟩

theorem out_nodup {L : Lattice S} (hw : L.WF) {n : Nat} (hn : n < L.nodes.length) : (L.outLinks n).Nodup :=
  hw.out_nodup _ (L.mem_node hn)

theorem in_nodup {L : Lattice S} (hw : L.WF) {n : Nat} (hn : n < L.nodes.length) : (L.inLinks n).Nodup :=
  hw.in_nodup _ (L.mem_node hn)

theorem flatMap_out_nodup {L : Lattice S} (hw : L.WF) {r : List Nat} (hr : ∀ n ∈ r, n < L.nodes.length)
    (hn : r.Nodup) : (r.flatMap L.outLinks).Nodup := by
  rw [List.nodup_flatMap]
  refine ⟨fun n h => out_nodup hw (hr n h), ?_⟩
  refine List.Pairwise.imp_of_mem ?_ hn
  intro a b ha hb hab l hla hlb
  exact hab (((hw.out_mem (hr a ha)).mp hla).2.symm.trans ((hw.out_mem (hr b hb)).mp hlb).2)

/-- A set of distinct links has at most as many links to `n` as there are, and if it has as many, it has them all. -/
theorem countEnd_le {L : Lattice S} (hw : L.WF) {T : List Nat} (hT : T.Nodup) (hl : ∀ l ∈ T, l < L.links.length)
    {n : Nat} (hn : n < L.nodes.length) :
    countEnd L T n ≤ (L.inLinks n).length ∧
    (countEnd L T n = (L.inLinks n).length ↔ ∀ l, l ∈ L.inLinks n → l ∈ T) := by
  have hsub : (T.filter (fun l => decide (L.endOf l = n))) ⊆ L.inLinks n := by
    intro l h
    rw [List.mem_filter] at h
    exact (hw.in_mem hn).mpr ⟨hl l h.1, by simpa using h.2⟩
  have hsp := List.subperm_of_subset (hT.filter (fun l => decide (L.endOf l = n))) hsub
  refine ⟨hsp.length_le, ?_, ?_⟩
  · intro he l hin
    have := (hsp.perm_of_length_le he.ge).mem_iff.mpr hin
    exact (List.mem_filter.mp this).1
  · intro hall
    refine le_antisymm hsp.length_le ?_
    have : (L.inLinks n) ⊆ (T.filter (fun l => decide (L.endOf l = n))) := by
      intro l h
      rw [List.mem_filter]
      exact ⟨hall l h, by simpa using ((hw.in_mem hn).mp h).2⟩
    exact (List.subperm_of_subset (in_nodup hw hn) this).length_le

theorem pop_perm {q : List Nat} {v : Nat} (h : q.getLast? = some v) (r : List Nat) :
    q = q.dropLast ++ [v] ∧ (q.dropLast ++ (r ++ [v])).Perm (q ++ r) := by
  obtain ⟨hne, hv⟩ := List.getLast?_eq_some_iff.mp h
  have hq : q = q.dropLast ++ [v] := by
    rw [hv]; simp
  refine ⟨hq, ?_⟩
  conv_rhs => rw [hq]
  rw [List.append_assoc]
  exact List.Perm.append_left _ List.perm_append_comm

theorem LoopInv.popped {L : Lattice S} {q r : List Nat} {d : Nat → ℤ} (h : LoopInv L q r d) {v : Nat}
    (hv : q.getLast? = some v) : SortInv L q.dropLast (r ++ [v]) (r.flatMap L.outLinks) d := by
  refine ⟨h.inv.deg, h.inv.nonneg, ?_⟩
  intro n
  rw [(pop_perm hv r).2.count_eq, h.inv.cnt n]

theorem mem_of_getLast {q : List Nat} {v : Nat} (h : q.getLast? = some v) : v ∈ q := List.mem_of_getLast? h

/-- A node in the queue other than the initial node is ready. -/
theorem LoopInv.ready_of_mem {L : Lattice S} {q r : List Nat} {d : Nat → ℤ} (h : LoopInv L q r d) {n : Nat}
    (hn : n ∈ q ++ r) (hi : n ≠ L.initial) : Ready L d n := by
  have := h.inv.cnt n
  have hp := List.count_pos_iff.mpr hn
  by_contra hr
  simp [hi, hr] at this
  rw [List.count_append] at hp
  omega

/-- All the incoming links of a ready node start from nodes that have been visited. -/
theorem LoopInv.preds {L : Lattice S} (hw : L.WF) {q r : List Nat} {d : Nat → ℤ} (h : LoopInv L q r d) {n : Nat}
    (hn : n < L.nodes.length) (hd : Ready L d n) : ∀ a, L.Edge a n → a ∈ r := by
  intro a he
  obtain ⟨l, hl, hs, he⟩ := hw.edge_iff.mp he
  have hr : ∀ m ∈ r, m < L.nodes.length := fun m hm => h.lt hw m (List.mem_append_right _ hm)
  have hT := flatMap_out_nodup hw hr h.nodup
  have := (countEnd_le hw hT (fun l hl => ((mem_flatMap_out hw hr).mp hl).1) hn).2.mp
    (by have := h.inv.deg n; have := hd.1; omega) l ((hw.in_mem hn).mpr ⟨hl, he⟩)
  rw [← hs]
  exact ((mem_flatMap_out hw hr).mp this).2

/-- When the initial node is taken from the queue for the second time, a cycle is reported. -/
theorem LoopInv.not_twice {L : Lattice S} {q r : List Nat} {d : Nat → ℤ} (h : LoopInv L q r d)
    (hv : q.getLast? = some L.initial) (hr : L.initial ∈ r) :
    Ready L d L.initial ∧ ∀ q' d', visitLinks L (L.outLinks L.initial) q.dropLast d ≠ .ok (q', d') := by
  have hrd : Ready L d L.initial := by
    have := h.inv.cnt L.initial
    rw [List.count_append] at this
    have h1 := List.count_pos_iff.mpr (mem_of_getLast hv)
    have h2 := List.count_pos_iff.mpr hr
    by_contra hc
    simp [hc] at this
    omega
  refine ⟨hrd, ?_⟩
  intro q' d' hvis
  obtain ⟨l, hl, hld⟩ := h.next ⟨_, hrd⟩
  obtain ⟨hi, _⟩ := visitLinks_ok _ (h.popped hv) hvis
  have h1 := hi.deg (L.endOf l)
  have h2 := hi.nonneg (L.endOf l)
  have h3 := h.inv.deg (L.endOf l)
  rw [countEnd_append] at h1
  have h4 : 0 < countEnd L (L.outLinks L.initial) (L.endOf l) := by
    unfold countEnd
    exact List.length_pos_of_mem (List.mem_filter.mpr ⟨hl, by simp⟩)
  have := hld.1
  omega

theorem LoopInv.step {L : Lattice S} (hw : L.WF) {q r : List Nat} {d : Nat → ℤ} (h : LoopInv L q r d) {v : Nat}
    (hv : q.getLast? = some v) {q' : List Nat} {d' : Nat → ℤ}
    (hvis : visitLinks L (L.outLinks v) q.dropLast d = .ok (q', d')) : LoopInv L q' (r ++ [v]) d' := by
  obtain ⟨hi, hle, hq', hso⟩ := visitLinks_ok _ (h.popped hv) hvis
  have hvq := mem_of_getLast hv
  have hvlt := h.lt hw v (List.mem_append_left _ hvq)
  have hq := (pop_perm hv r).1
  refine ⟨by simpa using hi, ?_, ?_, ?_, ?_, ?_, ?_⟩
  · rw [List.count_append]
    by_cases hvi : v = L.initial
    · subst hvi
      have : L.initial ∉ r := fun hr => (h.not_twice hv hr).2 _ _ hvis
      simp [List.count_eq_zero_of_not_mem this]
    · have := h.once
      have : [v].count L.initial = 0 := List.count_eq_zero_of_not_mem (by simpa using fun e => hvi e.symm)
      omega
  · right
    rcases h.first with ⟨rfl, rfl⟩ | hh
    · simp at hv; simp [hv]
    · rw [List.head?_append, hh]; rfl
  · rintro ⟨n, hn⟩
    have hkeep : ∀ m, Ready L d m → Ready L d' m := by
      intro m hm
      have := hle m
      have := hi.nonneg m
      exact ⟨by have := hm.1; omega, hm.2⟩
    by_cases hold : ∃ m, Ready L d m
    · obtain ⟨l, hl, hr⟩ := h.next hold
      exact ⟨l, hl, hkeep _ hr⟩
    · have hvi : v = L.initial := by
        by_contra hne
        exact hold ⟨v, h.ready_of_mem (List.mem_append_left _ hvq) hne⟩
      subst hvi
      have hcnt : countEnd L (L.outLinks L.initial) n ≠ 0 := by
        intro h0
        have h1 := hi.deg n
        rw [countEnd_append] at h1
        have h2 := h.inv.deg n
        exact hold ⟨n, by have := hn.1; omega, hn.2⟩
      unfold countEnd at hcnt
      obtain ⟨l, hl⟩ := List.exists_mem_of_length_pos (Nat.pos_of_ne_zero hcnt)
      rw [List.mem_filter] at hl
      have he : L.endOf l = n := by simpa using hl.2
      exact ⟨l, hl.1, by rw [he]; exact hn⟩
  · intro n hn
    rcases List.mem_append.mp hn with hn | hn
    · rcases hq' n hn with hn | ⟨l, hl, he⟩
      · exact h.reach n (List.mem_append_left _ (List.mem_of_mem_dropLast hn))
      · obtain ⟨h1, h2⟩ := (hw.out_mem hvlt).mp hl
        exact (h.reach v (List.mem_append_left _ hvq)).tail (hw.edge_iff.mpr ⟨l, h1, h2, he⟩)
    · rcases List.mem_append.mp hn with hn | hn
      · exact h.reach n (List.mem_append_right _ hn)
      · rw [List.mem_singleton.mp hn]; exact h.reach v (List.mem_append_left _ hvq)
  · intro l₁ b l₂ heq hb a he
    rcases List.eq_nil_or_concat l₂ with rfl | ⟨l₂', x, rfl⟩
    · have := List.append_inj' heq rfl
      obtain ⟨rfl, hbv⟩ := this
      simp only [List.cons.injEq, and_true] at hbv
      subst hbv
      exact h.preds hw hvlt (h.ready_of_mem (List.mem_append_left _ hvq) hb) a he
    · have : r ++ [v] = (l₁ ++ b :: l₂') ++ [x] := by simpa using heq
      exact h.topo l₁ b l₂' (List.append_inj' this rfl).1 hb a he
  · have hs := h.sorted
    exact hso (hs.sublist (List.dropLast_sublist q))

theorem LoopInv.error {L : Lattice S} (hw : L.WF) {q r : List Nat} {d : Nat → ℤ} (h : LoopInv L q r d) {v : Nat}
    (hv : q.getLast? = some v) {e : Err}
    (hvis : visitLinks L (L.outLinks v) q.dropLast d = .error e) : e = .inputError ∧ L.OnCycle L.initial := by
  obtain ⟨he, ls₁, l, ls₂, hls, hc⟩ := visitLinks_error _ (h.popped hv) hvis
  refine ⟨he, ?_⟩
  have hvq := mem_of_getLast hv
  have hvlt := h.lt hw v (List.mem_append_left _ hvq)
  have hr : ∀ m ∈ r, m < L.nodes.length := fun m hm => h.lt hw m (List.mem_append_right _ hm)
  have hl : l ∈ L.outLinks v := by rw [hls]; simp
  obtain ⟨hll, hlv⟩ := (hw.out_mem hvlt).mp hl
  have hend := hw.end_lt hll
  have hvr : v ∈ r := by
    by_contra hvr
    -- all the traversed links and `l` are distinct: too many links
    have hnd : (r.flatMap L.outLinks ++ (ls₁ ++ [l])).Nodup := by
      rw [List.nodup_append]
      refine ⟨flatMap_out_nodup hw hr h.nodup, ?_, ?_⟩
      · have := out_nodup hw hvlt
        rw [hls] at this
        exact this.sublist (by simp)
      · intro a ha b hb hab
        subst hab
        have hb' : a ∈ L.outLinks v := by
          rw [hls]
          rcases List.mem_append.mp hb with hb | hb
          · exact List.mem_append_left _ hb
          · rw [List.mem_singleton.mp hb]; simp
        have h1 := ((mem_flatMap_out hw hr).mp ha).2
        rw [((hw.out_mem hvlt).mp hb').2] at h1
        exact hvr h1
    have hlt : ∀ m ∈ r.flatMap L.outLinks ++ (ls₁ ++ [l]), m < L.links.length := by
      intro m hm
      rcases List.mem_append.mp hm with hm | hm
      · exact ((mem_flatMap_out hw hr).mp hm).1
      · have hb' : m ∈ L.outLinks v := by
          rw [hls]
          rcases List.mem_append.mp hm with hb | hb
          · exact List.mem_append_left _ hb
          · rw [List.mem_singleton.mp hb]; simp
        exact ((hw.out_mem hvlt).mp hb').1
    have := (countEnd_le hw hnd hlt hend).1
    rw [← List.append_assoc, countEnd_append, hc, countEnd_single] at this
    simp at this
  have hvi : v = L.initial := by
    by_contra hne
    have := h.inv.cnt v
    rw [List.count_append] at this
    have h1 := List.count_pos_iff.mpr hvq
    have h2 := List.count_pos_iff.mpr hvr
    simp only [hne, if_false] at this
    split at this <;> omega
  subst hvi
  have hrd := (h.not_twice hv hvr).1
  -- a link to the initial node has been traversed
  obtain ⟨l', hl'⟩ := List.exists_mem_of_length_pos hrd.2
  obtain ⟨h1, h2⟩ := (hw.in_mem hw.initial).mp hl'
  have he' : L.Edge (L.startOf l') L.initial := hw.edge_iff.mpr ⟨l', h1, rfl, h2⟩
  have hmem := h.preds hw hw.initial hrd _ he'
  exact Relation.TransGen.tail' (h.reach _ (List.mem_append_right _ hmem)) he'

theorem loopInv_init (L : Lattice S) : LoopInv L [L.initial] [] (fun n => (L.inLinks n).length) := by
  refine ⟨⟨fun n => by simp [countEnd], fun n => by simp, ?_⟩, by simp, Or.inl ⟨rfl, rfl⟩, ?_, ?_, by simp, by simp⟩
  · intro n
    have hr : ¬ Ready L (fun n => ((L.inLinks n).length : ℤ)) n := by rintro ⟨h1, h2⟩; simp only at h1; omega
    rw [if_neg hr]
    by_cases hn : n = L.initial
    · rw [hn]; simp
    · have : ¬ L.initial = n := fun e => hn e.symm
      simp [hn, this]
  · rintro ⟨n, h1, h2⟩
    simp only at h1; omega
  · intro n hn
    simp at hn
    rw [hn]

theorem sortLoop_spec {L : Lattice S} (hw : L.WF) : ∀ (fuel : Nat) {q r : List Nat} {d : Nat → ℤ}, LoopInv L q r d →
    (L.nodes.length + 1 ≤ r.length + fuel → ∃ x, sortLoop L fuel q r d = some x) ∧
    (∀ r', sortLoop L fuel q r d = some (.ok r') → ∃ d', LoopInv L [] r' d') ∧
    (∀ e, sortLoop L fuel q r d = some (.error e) → e = .inputError ∧ L.OnCycle L.initial) := by
  intro fuel
  induction fuel with
  | zero =>
    intro q r d h
    refine ⟨?_, by simp [sortLoop], by simp [sortLoop]⟩
    intro hf
    have hr : ∀ m ∈ r, m < L.nodes.length := fun m hm => h.lt hw m (List.mem_append_right _ hm)
    have : r ⊆ List.range L.nodes.length := fun m hm => List.mem_range.mpr (hr m hm)
    have := (List.subperm_of_subset h.nodup this).length_le
    simp at this
    omega
  | succ fuel ih =>
    intro q r d h
    unfold sortLoop
    cases hq : q.getLast? with
    | none =>
      simp only [List.getLast?_eq_none_iff] at hq
      subst hq
      refine ⟨fun _ => ⟨_, rfl⟩, ?_, by simp⟩
      intro r' hr'
      simp only [Option.some.injEq, Except.ok.injEq] at hr'
      subst hr'
      exact ⟨d, h⟩
    | some v =>
      simp only
      cases hvis : visitLinks L (L.outLinks v) q.dropLast d with
      | error e =>
        refine ⟨fun _ => ⟨_, rfl⟩, by simp, ?_⟩
        intro e' he'
        simp only [Option.some.injEq, Except.error.injEq] at he'
        subst he'
        exact h.error hw hq hvis
      | ok p =>
        obtain ⟨q', d'⟩ := p
        have h' := h.step hw hq hvis
        obtain ⟨h1, h2, h3⟩ := ih h'
        refine ⟨fun hf => h1 ?_, h2, h3⟩
        simp; omega

end TheanoLM
