import Verif.Lemmas.LayerAt
import Verif.Lemmas.NetworkFuture
/-!
# Lemmas about the equations of recurrent layers
-/
set_option linter.unusedSectionVars false
namespace TheanoLM

section
variable {S : Type} [Add S] [Mul S] [Sub S] [Div S] [Zero S] [One S]

/-- The lengths of the state vectors. -/
def StateLengths (kind : CellKind) (n : Nat) (st : SeqState S) : Prop :=
  st.h.length = n ∧ match kind with
    | .lstm => st.c.length = n
    | .gru => st.c = []

theorem zeroState_zero (kind : CellKind) (n : Nat) : ZeroState kind n (zeroState kind n : SeqState S) := by
  cases kind <;> exact ⟨rfl, rfl⟩

theorem ZeroState.lengths {kind : CellKind} {n : Nat} {st : SeqState S} (h : ZeroState kind n st) : StateLengths kind n st := by
  refine ⟨by rw [h.1]; simp, ?_⟩
  have h2 := h.2
  cases kind with
  | lstm => show st.c.length = n; rw [h2]; simp
  | gru => exact h2

theorem StateLengths.c {kind : CellKind} {n : Nat} {st : SeqState S} (h : StateLengths kind n st) (hk : kind = .lstm) :
    st.c.length = n := by subst hk; exact h.2

theorem CellTransition.lengths {act : Act S} {kind : CellKind} {b : Basic S} {U : List (List S)} {z : Nat → S} {st st' : SeqState S}
    (h : CellTransition act kind b U z st st') : StateLengths kind b.size st' := by
  cases kind with
  | lstm => exact ⟨h.2.1, h.1.1⟩
  | gru => exact ⟨h.1.1, h.2⟩

theorem cellStep_masked {act : Act S} {kind : CellKind} {b : Basic S} {U : List (List S)} {x : List S} {st : SeqState S}
    (h : StateLengths kind b.size st) : cellStep act kind b U false x st = st := by
  cases kind with
  | lstm => rfl
  | gru =>
    obtain ⟨c, hh⟩ := st
    have : c = [] := h.2
    subst this
    rfl

/-- The states of all sequences in all time steps. -/
theorem rowScan_transitions {act : Act S} {kind : CellKind} {b : Basic S} {U : List (List S)} {n : Nat}
    {rows : List (List (Bool × List S))} (hU : U.length = kind.parts * b.size) (hr : Rect n rows)
    (z : Nat → Nat → Nat → S) (hz : ∀ t s x, posAt rows t s = some x → Units (kind.parts * b.size) x.2 (z t s)) :
    ∃ st : Nat → Nat → SeqState S, (∀ s, ZeroState kind b.size (st 0 s)) ∧ ∀ t s x, posAt rows t s = some x →
      posAt (scan (rowStep act kind b U) (List.replicate n (zeroState kind b.size)) rows) t s = some (st (t + 1) s) ∧
      (x.1 = true → CellTransition act kind b U (z t s) (st t s) (st (t + 1) s)) ∧ (x.1 = false → st (t + 1) s = st t s) := by
  obtain ⟨st, h0, hs⟩ := rowScan_states (act := act) (kind := kind) (b := b) (U := U) (init := zeroState kind b.size) hr
  have hlen : ∀ t s x, posAt rows t s = some x → StateLengths kind b.size (st t s) := by
    intro t s
    induction t with
    | zero => intro x _; rw [h0]; exact (zeroState_zero kind b.size).lengths
    | succ t ih =>
      intro x hx
      have hdef := (posAt_isSome hr (t + 1) s).mp (by rw [hx]; rfl)
      obtain ⟨y, hy⟩ := Option.isSome_iff_exists.mp ((posAt_isSome hr t s).mpr ⟨by omega, hdef.2⟩)
      have hl := ih y hy
      rw [(hs t s y hy).1]
      obtain ⟨m, v⟩ := y
      cases m with
      | true => exact (cellStep_units hU (hz t s _ hy) hl.1 hl.c).lengths
      | false => rw [cellStep_masked hl]; exact hl
  refine ⟨st, fun s => by rw [h0]; exact zeroState_zero kind b.size, fun t s x hx => ⟨(hs t s x hx).2, fun hm => ?_, fun hm => ?_⟩⟩
  · have hl := hlen t s x hx
    rw [(hs t s x hx).1, hm]
    exact cellStep_units hU (hz t s x hx) hl.1 hl.c
  · rw [(hs t s x hx).1, hm, cellStep_masked (hlen t s x hx)]

theorem recurrentLayer_cases {act : Act S} {kind : CellKind} {b : Basic S} {rev : Bool} {g : List (List (Pos S))}
    {sts : List (List (SeqState S))} {U : List (List S)} (h : recurrentLayer act kind b rev g = .ok sts)
    (hU : getParam "step_input/W".toList none b.weights = .ok U) :
    ∃ rows, mapE (preactRow b) g = .ok rows ∧
      sts = if rev then (scan (rowStep act kind b U) (List.replicate (numSequences g) (zeroState kind b.size)) (backwardRows rows)).reverse
        else scan (rowStep act kind b U) (List.replicate (numSequences g) (zeroState kind b.size)) rows := by
  unfold recurrentLayer at h
  cases hm : mapE (preactRow b) g with
  | error e => rw [hm] at h; cases h
  | ok rows =>
    rw [hm] at h
    simp only at h
    rw [hU] at h
    simp only at h
    refine ⟨rows, rfl, ?_⟩
    cases rev with
    | true =>
      rw [if_pos rfl] at h
      injection h with h
      rw [if_pos rfl, h]
    | false =>
      rw [if_neg (by simp)] at h
      injection h with h
      rw [if_neg (by simp), h]

theorem preactRows_rect {b : Basic S} {n : Nat} {g : List (List (Pos S))} {rows : List (List (Bool × List S))} (hn : Rect n g)
    (h : mapE (preactRow b) g = .ok rows) : rows.length = g.length ∧ Rect n rows := by
  refine ⟨mapE_length h, fun row hrow => ?_⟩
  obtain ⟨p, hp, hpr⟩ := mapE_mem h hrow
  rw [mapE_length hpr, hn p hp]

theorem recurrentLayer_forward {act : Act S} {kind : CellKind} {b : Basic S} {n : Nat} {g : List (List (Pos S))}
    {sts : List (List (SeqState S))} {W U : List (List S)} {bias : List S} (hp : RecurrentParams kind b W bias U) (hn : Rect n g)
    (h : recurrentLayer act kind b false g = .ok sts) :
    ∃ (X : Nat → Nat → List (List S)) (st : Nat → Nat → SeqState S), InputsAt g X ∧ (∀ s, ZeroState kind b.size (st 0 s)) ∧ ∀ t s p, posAt g t s = some p →
      posAt sts t s = some (st (t + 1) s) ∧
      (p.1.mask = true → CellTransition act kind b U (unitPreact W bias (X t s).flatten) (st t s) (st (t + 1) s)) ∧
      (p.1.mask = false → st (t + 1) s = st t s) := by
  obtain ⟨rows, hm, rfl⟩ := recurrentLayer_cases h hp.step
  obtain ⟨X, hX, hrows⟩ := preactRows_at hp.input hm
  obtain ⟨hl, hr⟩ := preactRows_rect hn hm
  by_cases hg : g = []
  · subst hg
    exact ⟨X, fun _ _ => zeroState kind b.size, hX, fun s => zeroState_zero kind b.size, fun t s p hpos => by simp [posAt] at hpos⟩
  · rw [numSequences_rect hn hg]
    obtain ⟨st, h0, hst⟩ := rowScan_transitions (act := act) (kind := kind) (b := b) hp.stepUnits hr
      (fun t s => unitPreact W bias (X t s).flatten) (by
      intro t s x hx
      have hdef := (posAt_isSome hr t s).mp (by rw [hx]; rfl)
      obtain ⟨p, hpos⟩ := Option.isSome_iff_exists.mp ((posAt_isSome hn t s).mpr ⟨by omega, hdef.2⟩)
      have e := hrows t s p hpos
      rw [hx] at e
      injection e with e
      subst e
      exact preact_units hp.inputUnits hp.biasUnits _)
    refine ⟨X, st, hX, h0, fun t s p hpos => ?_⟩
    have := hst t s _ (hrows t s p hpos)
    rwa [if_neg (by simp)]

/-- The element that the backward layer reads at time step `t`. -/
theorem backwardRows_at {n : Nat} {rows : List (List (Bool × List S))} (hr : Rect n rows) {t s : Nat} {m : Bool} {x : List S}
    (hx : posAt rows t s = some (m, x)) :
    ∃ v, posAt (backwardRows rows) (rows.length - 1 - t) s = some (m, v) ∧
      (∀ y, posAt rows (t + 2) s = some y → v = y.2) ∧
      (rows.length ≤ t + 2 → ∃ y, posAt rows 0 s = some y ∧ v = List.replicate y.2.length 0) := by
  have hdef := (posAt_isSome hr t s).mp (by rw [hx]; rfl)
  obtain ⟨ht, hs⟩ := hdef
  obtain ⟨row, h1, h2⟩ := posAt_some.mp hx
  have hzero : ∃ y, posAt rows 0 s = some y := Option.isSome_iff_exists.mp ((posAt_isSome hr 0 s).mpr ⟨by omega, hs⟩)
  obtain ⟨y0, hy0⟩ := hzero
  obtain ⟨row0, h3, h4⟩ := posAt_some.mp hy0
  have hlen2 : (shiftLeft (rows.map fun row => row.map Prod.snd)).length = rows.length - 2 + 2 := by
    unfold shiftLeft
    simp
  -- the row of pre-activations
  have hrowx : ∃ xr, (shiftLeft (rows.map fun row => row.map Prod.snd)).reverse[rows.length - 1 - t]? = some xr ∧
      (∀ row2, rows[t + 2]? = some row2 → xr = row2.map Prod.snd) ∧
      (rows.length ≤ t + 2 → xr = (row0.map Prod.snd).map fun x => List.replicate x.length 0) := by
    rw [List.getElem?_reverse (by rw [hlen2]; omega), hlen2]
    by_cases hlt : t + 2 < rows.length
    · have e : rows.length - 2 + 2 - 1 - (rows.length - 1 - t) = t := by omega
      rw [e]
      unfold shiftLeft
      rw [List.getElem?_append_left (by rw [List.length_drop, List.length_map]; omega), List.getElem?_drop, List.getElem?_map,
        Nat.add_comm 2 t, List.getElem?_eq_getElem hlt]
      refine ⟨_, rfl, fun row2 h => by injection h with h; rw [h], fun hle => by omega⟩
    · have e : ∃ j, rows.length - 2 + 2 - 1 - (rows.length - 1 - t) = (rows.length - 2) + j ∧ j < 2 := by
        refine ⟨rows.length - 2 + 2 - 1 - (rows.length - 1 - t) - (rows.length - 2), by omega, by omega⟩
      obtain ⟨j, hj, hj2⟩ := e
      rw [hj]
      unfold shiftLeft
      rw [List.getElem?_append_right (by rw [List.length_drop, List.length_map]; omega), List.length_drop, List.length_map,
        Nat.add_sub_cancel_left, List.getElem?_replicate, if_pos hj2]
      refine ⟨_, rfl, fun row2 h => ?_, fun _ => ?_⟩
      · rw [List.getElem?_eq_none (by omega)] at h
        cases h
      · have : (rows.map fun row => row.map Prod.snd).headD [] = row0.map Prod.snd := by
          cases rows with
          | nil => simp at h3
          | cons r rs =>
            simp only [List.getElem?_cons_zero, Option.some.injEq] at h3
            subst h3
            rfl
        rw [this]
  obtain ⟨xr, hxr, hx1, hx2⟩ := hrowx
  have hmask : (rows.map fun row => row.map Prod.fst).reverse[rows.length - 1 - t]? = some (row.map Prod.fst) := by
    rw [List.getElem?_reverse (by rw [List.length_map]; omega), List.length_map,
      show rows.length - 1 - (rows.length - 1 - t) = t by omega, List.getElem?_map, h1]
    rfl
  have hback : (backwardRows rows)[rows.length - 1 - t]? = some ((row.map Prod.fst).zip xr) := by
    unfold backwardRows
    simp only
    rw [List.getElem?_zipWith, hmask, hxr]
  by_cases hlt : t + 2 < rows.length
  · obtain ⟨y, hy⟩ := Option.isSome_iff_exists.mp ((posAt_isSome hr (t + 2) s).mpr ⟨hlt, hs⟩)
    obtain ⟨row2, h5, h6⟩ := posAt_some.mp hy
    refine ⟨y.2, posAt_some.mpr ⟨_, hback, ?_⟩, ?_, fun hle => by omega⟩
    · rw [hx1 row2 h5, List.getElem?_zip_eq_some]
      constructor
      · rw [List.getElem?_map, h2]; rfl
      · rw [List.getElem?_map, h6]; rfl
    · intro y' hy'
      rw [hy] at hy'
      injection hy' with hy'
      rw [hy']
  · refine ⟨List.replicate y0.2.length 0, posAt_some.mpr ⟨_, hback, ?_⟩, ?_, fun _ => ⟨y0, hy0, rfl⟩⟩
    · rw [hx2 (by omega), List.getElem?_zip_eq_some]
      constructor
      · rw [List.getElem?_map, h2]; rfl
      · rw [List.getElem?_map, List.getElem?_map, h4]; rfl
    · intro y hy
      have := (posAt_isSome hr (t + 2) s).mp (by rw [hy]; rfl)
      omega

theorem units_zero (n : Nat) : Units n (List.replicate n (0 : S)) fun _ => 0 := by
  refine ⟨by simp, fun k hk => ?_⟩
  rw [List.getElem?_replicate, if_pos hk]

theorem recurrentLayer_backward {act : Act S} {kind : CellKind} {b : Basic S} {n : Nat} {g : List (List (Pos S))}
    {sts : List (List (SeqState S))} {W U : List (List S)} {bias : List S} (hp : RecurrentParams kind b W bias U) (hn : Rect n g)
    (h : recurrentLayer act kind b true g = .ok sts) :
    ∃ (X : Nat → Nat → List (List S)) (st : Nat → Nat → SeqState S), InputsAt g X ∧ (∀ s, ZeroState kind b.size (st g.length s)) ∧ ∀ t s p, posAt g t s = some p →
      posAt sts t s = some (st t s) ∧
      (p.1.mask = true → CellTransition act kind b U
        (if t + 2 < g.length then unitPreact W bias (X (t + 2) s).flatten else fun _ => 0) (st (t + 1) s) (st t s)) ∧
      (p.1.mask = false → st t s = st (t + 1) s) := by
  obtain ⟨rows, hm, rfl⟩ := recurrentLayer_cases h hp.step
  obtain ⟨X, hX, hrows⟩ := preactRows_at hp.input hm
  obtain ⟨hl, hr⟩ := preactRows_rect hn hm
  by_cases hg : g = []
  · subst hg
    exact ⟨X, fun _ _ => zeroState kind b.size, hX, fun s => zeroState_zero kind b.size, fun t s p hpos => by simp [posAt] at hpos⟩
  · rw [numSequences_rect hn hg, if_pos rfl]
    have hrb : Rect n (backwardRows rows) := backwardRows_mem hr
    have hlb : (backwardRows rows).length = rows.length := backwardRows_length rows
    let zt : Nat → Nat → Nat → S := fun t s => if t + 2 < g.length then unitPreact W bias (X (t + 2) s).flatten else fun _ => 0
    have hpos : ∀ t s p, posAt g t s = some p → ∃ v, posAt (backwardRows rows) (rows.length - 1 - t) s = some (p.1.mask, v) ∧
        Units (kind.parts * b.size) v (zt t s) := by
      intro t s p hpos
      obtain ⟨v, hv, hv1, hv2⟩ := backwardRows_at hr (hrows t s p hpos)
      refine ⟨v, hv, ?_⟩
      have hdef := (posAt_isSome hn t s).mp (by rw [hpos]; rfl)
      by_cases hlt : t + 2 < g.length
      · obtain ⟨p2, hp2⟩ := Option.isSome_iff_exists.mp ((posAt_isSome hn (t + 2) s).mpr ⟨hlt, hdef.2⟩)
        rw [hv1 _ (hrows (t + 2) s p2 hp2)]
        show Units _ _ (if t + 2 < g.length then _ else _)
        rw [if_pos hlt]
        exact preact_units hp.inputUnits hp.biasUnits _
      · obtain ⟨y, hy, rfl⟩ := hv2 (by omega)
        obtain ⟨p0, hp0⟩ := Option.isSome_iff_exists.mp ((posAt_isSome hn 0 s).mpr ⟨by omega, hdef.2⟩)
        have e := hrows 0 s p0 hp0
        rw [hy] at e
        injection e with e
        subst e
        simp only
        rw [(preact_units hp.inputUnits hp.biasUnits _).1]
        show Units _ _ (if t + 2 < g.length then _ else _)
        rw [if_neg hlt]
        exact units_zero _
    obtain ⟨st, h0, hst⟩ := rowScan_transitions (act := act) (kind := kind) (b := b) hp.stepUnits hrb
      (fun u s => zt (rows.length - 1 - u) s) (by
      intro u s x hx
      have hdef := (posAt_isSome hrb u s).mp (by rw [hx]; rfl)
      obtain ⟨p, hps⟩ := Option.isSome_iff_exists.mp ((posAt_isSome hn (rows.length - 1 - u) s).mpr ⟨by omega, hdef.2⟩)
      obtain ⟨v, hv, hu⟩ := hpos _ s p hps
      rw [show rows.length - 1 - (rows.length - 1 - u) = u by omega, hx] at hv
      injection hv with hv
      subst hv
      exact hu)
    refine ⟨X, fun t s => st (rows.length - t) s, hX, fun s => ?_, fun t s p hps => ?_⟩
    · show ZeroState kind b.size (st (rows.length - g.length) s)
      rw [hl, Nat.sub_self]
      exact h0 s
    · have hdef := (posAt_isSome hn t s).mp (by rw [hps]; rfl)
      obtain ⟨v, hv, hu⟩ := hpos t s p hps
      obtain ⟨k1, k2, k3⟩ := hst _ s _ hv
      rw [show rows.length - 1 - t + 1 = rows.length - t by omega] at k1 k2 k3
      rw [show rows.length - 1 - (rows.length - 1 - t) = t by omega] at k2
      have e : rows.length - (t + 1) = rows.length - 1 - t := by omega
      refine ⟨?_, ?_, ?_⟩
      · obtain ⟨row, r1, r2⟩ := posAt_some.mp k1
        refine posAt_some.mpr ⟨row, ?_, r2⟩
        rw [List.getElem?_reverse (by rw [scan_length, hlb]; omega), scan_length, hlb]
        exact r1
      · intro hmask
        have := k2 hmask
        simp only [e]
        exact this
      · intro hmask
        simp only [e]
        exact k3 hmask

end

end TheanoLM
