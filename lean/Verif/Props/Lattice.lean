import Verif.Lemmas.Lattice
import Mathlib.Order.Preorder.Finite
/-!
# C24, C66: the order of lattice nodes
-/
namespace TheanoLM

variable {S : Type}

theorem sortedNodes_ok {L : Lattice S} {fuel : Nat} {r : List Nat}
    (h : sortedNodes L fuel = some (.ok r)) :
    sortLoop L fuel [L.initial] [] (fun n => (L.inLinks n).length) = some (.ok r) := by
  unfold sortedNodes at h
  split at h
  · rename_i r' hr'
    rw [hr']
    split at h
    · exact h
    · split at h
      · simp at h
      · exact h
  · exact h

/-- C24: sorting always ends; the result is an order or the report of a cycle, never another error. -/
theorem C24_terminates (L : Lattice S) (hw : L.WF) (fuel : Nat) (hf : L.nodes.length + 1 ≤ fuel) :
    (∃ r : List Nat, sortedNodes L fuel = some (.ok r)) ∨ sortedNodes L fuel = some (.error .inputError) := by
  obtain ⟨h1, h2, h3⟩ := sortLoop_spec hw fuel (loopInv_init L)
  obtain ⟨x, hx⟩ := h1 (by simpa using hf)
  unfold sortedNodes
  rw [hx]
  cases x with
  | error e => rw [(h3 e hx).1]; exact Or.inr rfl
  | ok r =>
    left
    obtain ⟨d, hi⟩ := h2 r hx
    have : r ⊆ List.range L.nodes.length := fun m hm => List.mem_range.mpr (hi.lt hw m (by simpa using hm))
    have hlen := (List.subperm_of_subset hi.nodup this).length_le
    simp only [List.length_range] at hlen
    refine ⟨r, ?_⟩
    simp only
    split
    · rfl
    · rw [if_neg (by omega)]

/-- C24: a cycle is reported only if there is one, through the initial node. -/
theorem C24_cycle_exists (L : Lattice S) (hw : L.WF) (fuel : Nat)
    (h : sortedNodes L fuel = some (.error .inputError)) : L.OnCycle L.initial := by
  obtain ⟨h1, h2, h3⟩ := sortLoop_spec hw fuel (loopInv_init L)
  unfold sortedNodes at h
  split at h
  · rename_i r' hr'
    split at h
    · simp at h
    · split at h <;> simp at h
  · exact (h3 _ h).2

/-- C24, except that the initial node may have links from nodes that are listed after it (`C24_violated`): the order
starts with the initial node, contains no node twice, lists only existing nodes, and lists every node other than the
initial node after all nodes that have links to it. -/
theorem C24_partial (L : Lattice S) (hw : L.WF) (fuel : Nat) (r : List Nat)
    (h : sortedNodes L fuel = some (.ok r)) :
    r.head? = some L.initial ∧ r.Nodup ∧ (∀ n ∈ r, n < L.nodes.length) ∧
    ∀ a b : Nat, b ∈ r → b ≠ L.initial → L.Edge a b → Before r a b := by
  obtain ⟨d, hi⟩ := (sortLoop_spec hw fuel (loopInv_init L)).2.1 r (sortedNodes_ok h)
  refine ⟨?_, hi.nodup, fun n hn => hi.lt hw n (by simpa using hn), ?_⟩
  · rcases hi.first with ⟨_, h0⟩ | h0
    · simp at h0
    · exact h0
  · intro a b hb hne he
    obtain ⟨l₁, l₂, rfl⟩ := List.append_of_mem hb
    exact ⟨l₁, l₂, rfl, hi.topo l₁ b l₂ rfl hne a he⟩

/-- C24 for lattices whose initial node has no incoming links. -/
theorem C24_topological (L : Lattice S) (hw : L.WF) (hin : ∀ a : Nat, ¬ L.Edge a L.initial) (fuel : Nat) (r : List Nat)
    (h : sortedNodes L fuel = some (.ok r)) :
    ∀ a b : Nat, b ∈ r → L.Edge a b → Before r a b := by
  intro a b hb he
  by_cases hbi : b = L.initial
  · subst hbi; exact absurd he (hin a)
  · exact (C24_partial L hw fuel r h).2.2.2 a b hb hbi he

/-- C24: every node of an acyclic lattice in which only the initial node has no incoming links is listed. -/
theorem C24_complete (L : Lattice S) (hw : L.WF) (hac : ∀ n : Nat, ¬ L.OnCycle n)
    (hin : ∀ n : Nat, n < L.nodes.length → n ≠ L.initial → ∃ a : Nat, L.Edge a n)
    (fuel : Nat) (hf : L.nodes.length + 1 ≤ fuel) :
    ∃ r : List Nat, sortedNodes L fuel = some (.ok r) ∧ r.Perm (List.range L.nodes.length) := by
  rcases C24_terminates L hw fuel hf with ⟨r, hr⟩ | herr
  swap
  · exact absurd (C24_cycle_exists L hw fuel herr) (hac _)
  refine ⟨r, hr, ?_⟩
  obtain ⟨d, hi⟩ := (sortLoop_spec hw fuel (loopInv_init L)).2.1 r (sortedNodes_ok hr)
  have hrl : ∀ m ∈ r, m < L.nodes.length := fun m hm => hi.lt hw m (by simpa using hm)
  have hall : ∀ n, n < L.nodes.length → n ∈ r := by
    by_contra hc
    push Not at hc
    obtain ⟨n₀, hn₀, hn₀r⟩ := hc
    let R : Fin L.nodes.length → Fin L.nodes.length → Prop := fun a b => Relation.TransGen L.Edge a b
    have hwf : WellFounded R := by
      have : IsTrans _ R := ⟨fun a b c h1 h2 => Relation.TransGen.trans h1 h2⟩
      have : Std.Irrefl R := ⟨fun a h => hac _ h⟩
      exact Finite.wellFounded_of_trans_of_irrefl R
    obtain ⟨m, hm, hmin⟩ := hwf.has_min {a : Fin L.nodes.length | a.val ∉ r} ⟨⟨n₀, hn₀⟩, hn₀r⟩
    simp only [Set.mem_ofPred_eq] at hm hmin
    have hpred : ∀ a, L.Edge a m.val → a ∈ r := by
      intro a he
      by_contra ha
      exact hmin ⟨a, (hw.edge_lt he).1⟩ ha (Relation.TransGen.single he)
    have hmi : m.val ≠ L.initial := by
      intro he
      rw [he] at hm
      rcases hi.first with ⟨_, h0⟩ | h0
      · simp at h0
      · exact hm (List.mem_of_head? h0)
    have hT := flatMap_out_nodup hw hrl hi.nodup
    have hcount := (countEnd_le hw hT (fun l hl => ((mem_flatMap_out hw hrl).mp hl).1) m.isLt).2.mpr (by
      intro l hl
      obtain ⟨h1, h2⟩ := (hw.in_mem m.isLt).mp hl
      exact (mem_flatMap_out hw hrl).mpr ⟨h1, hpred _ (hw.edge_iff.mpr ⟨l, h1, rfl, h2⟩)⟩)
    obtain ⟨a, he⟩ := hin m.val m.isLt hmi
    obtain ⟨l, h1, h2, h3⟩ := hw.edge_iff.mp he
    have hpos : 0 < (L.inLinks m.val).length := List.length_pos_of_mem ((hw.in_mem m.isLt).mpr ⟨h1, h3⟩)
    have hready : Ready L d m.val := ⟨by have := hi.inv.deg m.val; omega, hpos⟩
    have := hi.inv.cnt m.val
    simp only [hmi, hready, if_true, if_false, List.nil_append] at this
    exact hm (List.count_pos_iff.mp (by omega))
  rw [List.perm_ext_iff_of_nodup hi.nodup List.nodup_range]
  intro n
  rw [List.mem_range]
  exact ⟨hrl n, hall n⟩

/-- C24: a node on a cycle is never listed, when the initial node has no incoming links. -/
theorem C24_cycle_omitted (L : Lattice S) (hw : L.WF) (hin : ∀ a : Nat, ¬ L.Edge a L.initial) (fuel : Nat)
    (r : List Nat) (h : sortedNodes L fuel = some (.ok r)) (n : Nat) (hc : L.OnCycle n) : n ∉ r := by
  have ht := C24_topological L hw hin fuel r h
  obtain ⟨_, hnd, _⟩ := C24_partial L hw fuel r h
  -- every node before `n` on a path is listed before `n`
  have key : ∀ a b, Relation.TransGen L.Edge a b → b ∈ r → Before r a b := by
    intro a b hab hb
    induction hab using Relation.TransGen.head_induction_on with
    | single he => exact ht _ _ hb he
    | head he _ ih =>
      rename_i x y _
      obtain ⟨l₁, l₂, hr, hy⟩ := ih
      obtain ⟨k₁, k₂, hr', hx⟩ := ht x y (by rw [hr]; exact List.mem_append_left _ hy) he
      refine ⟨l₁, l₂, hr, ?_⟩
      obtain ⟨m₁, m₂, rfl⟩ := List.append_of_mem hy
      have : k₁ = m₁ := by
        have h1 : r = m₁ ++ y :: (m₂ ++ b :: l₂) := by rw [hr]; simp
        have hnd' := hnd
        rw [hr', List.nodup_append, List.nodup_cons] at hnd'
        exact ((List.append_cons_inj_of_notMem (fun hm => hnd'.2.2 y hm y List.mem_cons_self rfl) hnd'.2.1.1).mp
          (hr'.symm.trans h1)).1
      rw [← this]
      exact List.mem_append_left _ hx
  intro hn
  obtain ⟨l₁, l₂, hr, hm⟩ := key n n hc hn
  rw [hr, List.nodup_append] at hnd
  exact hnd.2.2 n hm n List.mem_cons_self rfl

/-! ### C66: time stamps -/

theorem queue_of_ready {L : Lattice S} (hw : L.WF) {q r : List Nat} {d : Nat → ℤ} (h : LoopInv L q r d) {v : Nat}
    {q' : List Nat} {d' : Nat → ℤ} (h' : LoopInv L q' (r ++ [v]) d') {c : Nat}
    (hc : c ∈ q') (hci : c ≠ L.initial) (hp : ∀ a, L.Edge a c → a ∈ r) : c ∈ q := by
  have hclt := h'.lt hw c (List.mem_append_left _ hc)
  have hrd' := h'.ready_of_mem (List.mem_append_left _ hc) hci
  have hrl : ∀ m ∈ r, m < L.nodes.length := fun m hm => h.lt hw m (List.mem_append_right _ hm)
  have hT := flatMap_out_nodup hw hrl h.nodup
  have hcount := (countEnd_le hw hT (fun l hl => ((mem_flatMap_out hw hrl).mp hl).1) hclt).2.mpr (by
    intro l hl
    obtain ⟨h1, h2⟩ := (hw.in_mem hclt).mp hl
    exact (mem_flatMap_out hw hrl).mpr ⟨h1, hp _ (hw.edge_iff.mpr ⟨l, h1, rfl, h2⟩)⟩)
  have hready : Ready L d c := ⟨by have := h.inv.deg c; omega, hrd'.2⟩
  have hcnt := h.inv.cnt c
  have hcnt' := h'.inv.cnt c
  simp only [hci, hready, if_true, if_false] at hcnt
  simp only [hci, hrd', if_true, if_false] at hcnt'
  have hpos := List.count_pos_iff.mpr hc
  rw [List.count_append, List.count_append] at hcnt'
  rw [List.count_append] at hcnt
  exact List.count_pos_iff.mp (by omega)

/-- Among the nodes that can be listed next, one with the lowest time is listed; this is about the nodes listed so far
and the queue. -/
def Timed (L : Lattice S) (q r : List Nat) : Prop :=
  ∀ l₁ b l₂, r = l₁ ++ b :: l₂ → ∀ c, c ∈ l₂ ∨ c ∈ q → c ≠ L.initial → (∀ a, L.Edge a c → a ∈ l₁) →
    timeLe (L.time b) (L.time c) = true

theorem Timed.step {L : Lattice S} (hw : L.WF) {q r : List Nat} {d : Nat → ℤ} (h : LoopInv L q r d)
    (ht : Timed L q r) {v : Nat} (hv : q.getLast? = some v) {q' : List Nat} {d' : Nat → ℤ}
    (h' : LoopInv L q' (r ++ [v]) d') : Timed L q' (r ++ [v]) := by
  intro l₁ b l₂ heq c hc hci hp
  have hq := (pop_perm hv r).1
  rcases List.eq_nil_or_concat l₂ with rfl | ⟨l₂', x, rfl⟩
  · obtain ⟨rfl, hbv⟩ := List.append_inj' heq rfl
    simp only [List.cons.injEq, and_true] at hbv
    subst hbv
    have hcq : c ∈ q := queue_of_ready hw h h' (by simpa using hc) hci hp
    have hs := h.sorted
    rw [hq] at hs hcq
    rw [List.pairwise_append] at hs
    rcases List.mem_append.mp hcq with hcq | hcq
    · exact hs.2.2 c hcq v (List.mem_singleton.mpr rfl)
    · rw [List.mem_singleton.mp hcq]; exact timeLe_refl _
  · have heq' : r ++ [v] = (l₁ ++ b :: l₂') ++ [x] := by simpa using heq
    obtain ⟨hr, hvx⟩ := List.append_inj' heq' rfl
    simp only [List.cons.injEq, and_true] at hvx
    subst hvx
    refine ht l₁ b l₂' hr c ?_ hci hp
    rcases hc with hc | hc
    · rcases List.mem_append.mp (by simpa using hc : c ∈ l₂' ++ [v]) with hc | hc
      · exact Or.inl hc
      · right; rw [List.mem_singleton.mp hc]; exact mem_of_getLast hv
    · right
      exact queue_of_ready hw h h' hc hci
        (fun a he => by rw [hr]; exact List.mem_append_left _ (hp a he))

theorem sortLoop_timed {L : Lattice S} (hw : L.WF) : ∀ (fuel : Nat) {q r : List Nat} {d : Nat → ℤ}, LoopInv L q r d →
    Timed L q r → ∀ r', sortLoop L fuel q r d = some (.ok r') → Timed L [] r' := by
  intro fuel
  induction fuel with
  | zero => intro q r d _ _ r' h; simp [sortLoop] at h
  | succ fuel ih =>
    intro q r d h ht r' hr'
    unfold sortLoop at hr'
    cases hq : q.getLast? with
    | none =>
      rw [hq] at hr'
      simp only [List.getLast?_eq_none_iff] at hq
      subst hq
      simp only [Option.some.injEq, Except.ok.injEq] at hr'
      exact hr' ▸ ht
    | some v =>
      rw [hq] at hr'
      simp only at hr'
      cases hvis : visitLinks L (L.outLinks v) q.dropLast d with
      | error e => rw [hvis] at hr'; simp at hr'
      | ok p =>
        obtain ⟨q', d'⟩ := p
        rw [hvis] at hr'
        have h' := h.step hw hq hvis
        exact ih h' (Timed.step hw h ht hq h') r' hr'

/-- C66: when a node is listed, no other node that could have been listed (all its predecessors have been listed) has a
lower time; nodes without a time come last. -/
theorem C66_time_order (L : Lattice S) (hw : L.WF) (fuel : Nat) (r : List Nat)
    (h : sortedNodes L fuel = some (.ok r)) (l₁ l₂ : List Nat) (b c : Nat) (hr : r = l₁ ++ b :: l₂) (hc : c ∈ l₂)
    (hp : ∀ a : Nat, L.Edge a c → a ∈ l₁) :
    match L.time b, L.time c with
    | some x, some y => x ≤ y
    | none, some _ => False
    | _, none => True := by
  have ht := sortLoop_timed hw fuel (loopInv_init L) (by intro l₁ b l₂ h; simp at h) r (sortedNodes_ok h)
  obtain ⟨hh, hnd, _⟩ := C24_partial L hw fuel r h
  have hci : c ≠ L.initial := by
    rintro rfl
    cases l₁ with
    | nil =>
      rw [hr] at hh hnd
      simp only [List.nil_append, List.head?_cons, Option.some.injEq] at hh
      subst hh
      simp only [List.nil_append, List.nodup_cons] at hnd
      exact hnd.1 hc
    | cons y ys =>
      rw [hr] at hh hnd
      simp only [List.cons_append, List.head?_cons, Option.some.injEq] at hh
      subst hh
      simp only [List.cons_append, List.nodup_cons] at hnd
      exact hnd.1 (List.mem_append_right _ (List.mem_cons_of_mem _ hc))
  have := ht l₁ b l₂ hr c (Or.inl hc) hci hp
  revert this
  generalize L.time b = tb
  generalize L.time c = tc
  cases tb <;> cases tc <;> simp [timeLe]

/-! ### Examples -/

/-- A lattice with the given links, and times of the nodes. -/
def exLattice (times : List (Option ℚ)) (links : List (Nat × Nat)) (initial : Nat) : Lattice ℚ :=
  let built := links.foldl (fun (p : List Node × List (Link ℚ)) (e : Nat × Nat) =>
    addLink p.1 p.2 ⟨e.1, e.2, none, none, none, []⟩) (times.map (fun t => { Node.new with time := t }), [])
  ⟨built.1, built.2, initial, none, none, none⟩

/-- A decidable form of `Lattice.WF`. -/
theorem wf_of_check (L : Lattice S) (h : L.initial < L.nodes.length ∧
    (∀ k ∈ L.links, k.startNode < L.nodes.length ∧ k.endNode < L.nodes.length) ∧
    (∀ node ∈ L.nodes, node.outLinks.Nodup ∧ node.inLinks.Nodup) ∧
    (∀ p ∈ L.nodes.zipIdx, p.1.outLinks =
      (L.links.zipIdx.filter (fun q => decide (q.1.startNode = p.2))).map Prod.snd ∧
      p.1.inLinks = (L.links.zipIdx.filter (fun q => decide (q.1.endNode = p.2))).map Prod.snd)) : L.WF := by
  obtain ⟨h1, h2, h3, h4⟩ := h
  refine ⟨h1, h2, fun n hn => (h3 n hn).1, ?_, fun n hn => (h3 n hn).2, ?_⟩
  · intro n node hn l
    rw [(h4 (node, n) (List.mk_mem_zipIdx_iff_getElem?.mpr hn)).1]
    simp [List.mk_mem_zipIdx_iff_getElem?]
  · intro n node hn l
    rw [(h4 (node, n) (List.mk_mem_zipIdx_iff_getElem?.mpr hn)).2]
    simp [List.mk_mem_zipIdx_iff_getElem?]

/-- Concrete case: two paths; node 3 is earlier than node 2. -/
example : (exLattice [some 0, some 1, some 3, some 2, none] [(0, 1), (1, 2), (1, 3), (3, 4), (2, 4)] 0).WF ∧
    sortedNodes (exLattice [some 0, some 1, some 3, some 2, none] [(0, 1), (1, 2), (1, 3), (3, 4), (2, 4)] 0) 6 =
      some (.ok [0, 1, 3, 2, 4]) :=
  ⟨wf_of_check _ (by decide +kernel), by decide +kernel⟩

/-- Concrete case: a cycle is reported. -/
example : (exLattice [none, none] [(0, 1), (1, 0)] 0).WF ∧
    sortedNodes (exLattice [none, none] [(0, 1), (1, 0)] 0) 6 = some (.error .inputError) :=
  ⟨wf_of_check _ (by decide +kernel), by decide +kernel⟩

/-- Concrete case: nodes on a cycle that does not contain the initial node are omitted. -/
example : (exLattice [none, none, none, none] [(0, 1), (1, 2), (2, 1), (0, 3)] 0).WF ∧
    sortedNodes (exLattice [none, none, none, none] [(0, 1), (1, 2), (2, 1), (0, 3)] 0) 6 = some (.ok [0, 3]) :=
  ⟨wf_of_check _ (by decide +kernel), by decide +kernel⟩

/-- C24 does not hold for all lattices: if the initial node also has a link from an unreachable node, a cycle through the
initial node is not reported, and the order lists node 0 before node 1, which has a link to it. -/
theorem C24_violated : ∃ L : Lattice ℚ, L.WF ∧ sortedNodes L 6 = some (.ok [0, 1]) ∧ L.OnCycle 0 ∧
    L.Edge 1 0 ∧ ¬ Before [0, 1] 1 0 := by
  have he : (exLattice [none, none, none] [(0, 1), (1, 0), (2, 0)] 0).Edge 1 0 :=
    ⟨⟨1, 0, none, none, none, []⟩, by decide +kernel, rfl, rfl⟩
  have he' : (exLattice [none, none, none] [(0, 1), (1, 0), (2, 0)] 0).Edge 0 1 :=
    ⟨⟨0, 1, none, none, none, []⟩, by decide +kernel, rfl, rfl⟩
  refine ⟨exLattice [none, none, none] [(0, 1), (1, 0), (2, 0)] 0, wf_of_check _ (by decide +kernel),
    by decide +kernel, (Relation.TransGen.single he').tail he, he, ?_⟩
  rintro ⟨l₁, l₂, h, hm⟩
  rcases l₁ with _ | ⟨x, _ | ⟨y, l⟩⟩
  · simp at hm
  · simp at h
  · simp at h

end TheanoLM
