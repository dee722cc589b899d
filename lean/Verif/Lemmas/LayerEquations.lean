import Verif.Props.LayerSpec
import Verif.Lemmas.NetworkShape
import Verif.Props.Devices
/-!
# Lemmas about the equations of the layers
-/
set_option linter.unusedSectionVars false
namespace TheanoLM

section
variable {S : Type} [Add S] [Mul S] [Sub S] [Div S] [Zero S] [One S]

theorem zipWith_flatMap {α β γ δ : Type} (f : β → γ → δ) (l : List α) (g : α → List β) (h : α → List γ)
    (hl : ∀ a ∈ l, (g a).length = (h a).length) :
    (l.map fun a => List.zipWith f (g a) (h a)).flatten = List.zipWith f (l.flatMap g) (l.flatMap h) := by
  induction l with
  | nil => rfl
  | cons a l ih =>
    rw [List.map_cons, List.flatten_cons, List.flatMap_cons, List.flatMap_cons,
      List.zipWith_append (hl a List.mem_cons_self), ih fun x hx => hl x (List.mem_cons_of_mem _ hx)]

theorem mapE_forall₂ {α β : Type} {f : α → Except Err β} {l : List α} {r : List β} (h : List.Forall₂ (fun a b => f a = .ok b) l r) :
    mapE f l = .ok r := by
  induction h with
  | nil => rfl
  | cons h1 _ ih => exact mapE_cons_eq h1 ih

/-- The pre-activation is computed from the undivided matrices. -/
theorem tensorPreact_affine {b : Basic S} {name : Str} {W : List (List S)} {bias : List S} (h : HasAffine b name W bias) (x : List S) :
    tensorPreact b.devices b.weights b.biases name true x =
      .ok (List.zipWith (fun w c => (List.zipWith (· * ·) x w).sum + c) W bias) := by
  obtain ⟨parts, hp, rfl, rfl, hne⟩ := h
  have e : mapE (devicePreact b.weights b.biases name true x) b.devices =
      .ok (parts.map fun p => List.zipWith (fun w c => (List.zipWith (· * ·) x w).sum + c) p.1 p.2) := by
    apply mapE_forall₂
    rw [List.forall₂_map_right_iff]
    refine hp.imp fun device part hpp => ?_
    unfold devicePreact
    rw [hpp.1]
    simp only [if_true]
    rw [hpp.2.1]
    simp only
    rw [List.zipWith_map_left]
    rfl
  unfold tensorPreact
  rw [e]
  simp only
  rw [concatResults_eq, zipWith_flatMap]
  · intro p hm
    obtain ⟨i, hi⟩ := List.getElem?_of_mem hm
    have hlen := hp.length_eq
    have hi' := (List.getElem?_eq_some_iff.mp hi).1
    have := (List.forall₂_iff_get.mp hp).2 i (by omega) hi'
    have e : parts.get ⟨i, hi'⟩ = p := (List.getElem?_eq_some_iff.mp hi).2
    rw [e] at this
    exact this.2.2
  · intro h0
    rw [List.map_eq_nil_iff] at h0
    rw [h0] at hp
    cases hd : b.devices with
    | nil => exact hne hd
    | cons a l => rw [hd] at hp; cases hp

theorem tensorPreact_weights {b : Basic S} {name : Str} {W : List (List S)} (h : HasWeights b name W) (x : List S) :
    tensorPreact b.devices b.weights b.biases name false x = .ok (W.map fun w => (List.zipWith (· * ·) x w).sum) := by
  obtain ⟨parts, hp, rfl, hne⟩ := h
  have e : mapE (devicePreact b.weights b.biases name false x) b.devices =
      .ok (parts.map fun p => p.map fun w => (List.zipWith (· * ·) x w).sum) := by
    apply mapE_forall₂
    rw [List.forall₂_map_right_iff]
    refine hp.imp fun device part hpp => ?_
    unfold devicePreact
    rw [hpp]
    rfl
  unfold tensorPreact
  rw [e]
  simp only
  rw [concatResults_eq, List.map_flatten]
  intro h0
  rw [List.map_eq_nil_iff] at h0
  rw [h0] at hp
  cases hd : b.devices with
  | nil => exact hne hd
  | cons a l => rw [hd] at hp; cases hp

theorem preact_units {W : List (List S)} {bias : List S} {n : Nat} (hW : W.length = n) (hb : bias.length = n) (x : List S) :
    Units n (List.zipWith (fun w c => (List.zipWith (· * ·) x w).sum + c) W bias) (unitPreact W bias x) := by
  refine ⟨by simp [hW, hb], fun k hk => ?_⟩
  have h1 : W[k]? = some W[k] := List.getElem?_eq_getElem (by omega)
  have h2 : bias[k]? = some bias[k] := List.getElem?_eq_getElem (by omega)
  rw [List.getElem?_zipWith, h1, h2]
  simp only [unitPreact, unitDot, List.getD, h1, h2]
  rfl

theorem dot_units {U : List (List S)} {n : Nat} (hU : U.length = n) (h : List S) : Units n (U.map (dot h)) (unitDot U h) := by
  refine ⟨by simp [hU], fun k hk => ?_⟩
  have h1 : U[k]? = some U[k] := List.getElem?_eq_getElem (by omega)
  rw [List.getElem?_map, h1]
  simp only [unitDot, List.getD, h1]
  rfl

theorem Units.map {n : Nat} {x : List S} {f : Nat → S} (h : Units n x f) (g : S → S) : Units n (x.map g) fun k => g (f k) := by
  refine ⟨by rw [List.length_map]; exact h.1, fun k hk => ?_⟩
  rw [List.getElem?_map, h.2 k hk]
  rfl

theorem Units.zip {n : Nat} {x y : List S} {f g : Nat → S} (hx : Units n x f) (hy : Units n y g) (op : S → S → S) :
    Units n (List.zipWith op x y) fun k => op (f k) (g k) := by
  refine ⟨by rw [List.length_zipWith, hx.1, hy.1]; exact Nat.min_self n, fun k hk => ?_⟩
  rw [List.getElem?_zipWith, hx.2 k hk, hy.2 k hk]

theorem Units.getD {n : Nat} {x : List S} {f : Nat → S} (h : Units n x f) {k : Nat} (hk : k < n) : x.getD k 0 = f k := by
  simp [List.getD, h.2 k hk]

theorem units_self {n : Nat} {x : List S} (h : x.length = n) : Units n x fun k => x.getD k 0 := by
  refine ⟨h, fun k hk => ?_⟩
  have h1 : x[k]? = some x[k] := List.getElem?_eq_getElem (by omega)
  rw [h1]
  simp [List.getD, h1]

theorem Units.congr {n : Nat} {x : List S} {f g : Nat → S} (h : Units n x f) (e : ∀ k < n, f k = g k) : Units n x g :=
  ⟨h.1, fun k hk => by rw [h.2 k hk, e k hk]⟩

theorem submatrix_units {m n i : Nat} {x : List S} {f : Nat → S} (h : Units m x f) (hi : (i + 1) * n ≤ m) :
    Units n (submatrix x i n) fun k => f (i * n + k) := by
  have e : (i + 1) * n = i * n + n := by rw [Nat.add_mul, Nat.one_mul]
  unfold submatrix
  simp only [Option.getD_none]
  refine ⟨?_, fun k hk => ?_⟩
  · rw [List.length_drop, List.length_take, h.1]
    omega
  · rw [List.getElem?_drop, List.getElem?_take, if_pos (by omega)]
    exact h.2 _ (by omega)

theorem submatrix_two_units {m n : Nat} {x : List S} {f : Nat → S} (h : Units m x f) (hi : 2 * n ≤ m) :
    Units (2 * n) (submatrix x 0 n (some 1)) f := by
  unfold submatrix
  simp only [Option.getD_some, Nat.zero_mul, List.drop_zero]
  refine ⟨?_, fun k hk => ?_⟩
  · rw [List.length_take, h.1]
    omega
  · rw [List.getElem?_take, if_pos (by omega)]
    exact h.2 _ (by omega)

theorem activationFun_eq (act : Act S) (a : Activation) : activationFun act a = applyActivation act a := by
  cases a <;> rfl

/-- One step of a recurrent layer when the position is not masked. -/
theorem cellStep_units {act : Act S} {kind : CellKind} {b : Basic S} {U : List (List S)} {x : List S} {z : Nat → S} {st : SeqState S}
    (hU : U.length = kind.parts * b.size) (hx : Units (kind.parts * b.size) x z) (hh : st.h.length = b.size)
    (hc : kind = .lstm → st.c.length = b.size) :
    CellTransition act kind b U z st (cellStep act kind b U true x st) := by
  cases kind with
  | lstm =>
    have hp : Units (4 * b.size) (vadd (U.map (dot st.h)) x) _ := (dot_units hU st.h).zip hx (· + ·)
    have hi := (submatrix_units (i := 0) (n := b.size) hp (by omega)).map act.sigmoid
    have hf := (submatrix_units (i := 1) (n := b.size) hp (by omega)).map act.sigmoid
    have ho := (submatrix_units (i := 2) (n := b.size) hp (by omega)).map act.sigmoid
    have hcand := (submatrix_units (i := 3) (n := b.size) hp (by omega)).map act.tanh
    have hc' := ((hf.zip (units_self (hc rfl)) (· * ·)).zip (hi.zip hcand (· * ·)) (· + ·))
    have hh' := ho.zip (hc'.map (applyActivation act b.activation)) (· * ·)
    unfold CellTransition
    simp only [activationFun_eq]
    refine ⟨hc'.congr fun k hk => ?_, hh'.congr fun k hk => ?_⟩
    · simp only [Nat.one_mul, Nat.zero_mul, Nat.zero_add]
    · have := hc'.getD hk
      show _ = _ * applyActivation act b.activation (List.getD (vadd (vmul _ _) (vmul _ _)) k 0)
      unfold vadd vmul
      unfold vadd at this
      rw [this]
  | gru =>
    have hp := dot_units hU st.h
    have hg : Units (2 * b.size) (vadd (submatrix (U.map (dot st.h)) 0 b.size (some 1)) (submatrix x 0 b.size (some 1))) _ :=
      (submatrix_two_units hp (by simp [CellKind.parts]; omega)).zip (submatrix_two_units hx (by simp [CellKind.parts]; omega)) (· + ·)
    have hr := (submatrix_units (i := 0) (n := b.size) hg (by omega)).map act.sigmoid
    have hu := (submatrix_units (i := 1) (n := b.size) hg (by omega)).map act.sigmoid
    have hcand := (((submatrix_units (i := 2) (n := b.size) hp (by simp [CellKind.parts])).zip hr (· * ·)).zip
      (submatrix_units (i := 2) (n := b.size) hx (by simp [CellKind.parts])) (· + ·)).map act.tanh
    have hh' := ((hu.map fun v => 1 - v).zip (units_self hh) (· * ·)).zip (hu.zip hcand (· * ·)) (· + ·)
    refine ⟨hh'.congr fun k hk => ?_, rfl⟩
    simp only [Nat.one_mul, Nat.zero_mul, Nat.zero_add]

/-- The states before and after each step of a scan. -/
theorem scan_states {α β : Type} (step : α → β → β) (init : β) (xs : List α) :
    ∃ st : Nat → β, st 0 = init ∧ ∀ t x, xs[t]? = some x → st (t + 1) = step x (st t) ∧ (scan step init xs)[t]? = some (st (t + 1)) := by
  induction xs generalizing init with
  | nil => exact ⟨fun _ => init, rfl, fun t x h => by simp at h⟩
  | cons a xs ih =>
    obtain ⟨st, h0, hs⟩ := ih (step a init)
    refine ⟨fun t => match t with
      | 0 => init
      | t + 1 => st t, rfl, fun t x h => ?_⟩
    cases t with
    | zero =>
      simp only [List.getElem?_cons_zero, Option.some.injEq] at h
      subst h
      exact ⟨h0, by simp [scan, h0]⟩
    | succ t =>
      simp only [List.getElem?_cons_succ] at h
      obtain ⟨h1, h2⟩ := hs t x h
      exact ⟨h1, by simp only [scan, List.getElem?_cons_succ]; exact h2⟩

/-- The states of every sequence in a scan over rows. -/
theorem rowScan_states {act : Act S} {kind : CellKind} {b : Basic S} {U : List (List S)} {n : Nat} {init : SeqState S}
    {rows : List (List (Bool × List S))} (hr : ∀ row ∈ rows, row.length = n) :
    ∃ st : Nat → Nat → SeqState S, (∀ s, st 0 s = init) ∧ ∀ t s x, posAt rows t s = some x →
      st (t + 1) s = cellStep act kind b U x.1 x.2 (st t s) ∧
      posAt (scan (rowStep act kind b U) (List.replicate n init) rows) t s = some (st (t + 1) s) := by
  obtain ⟨st, h0, hs⟩ := scan_states (rowStep act kind b U) (List.replicate n init) rows
  have hlen : ∀ t, t ≤ rows.length → (st t).length = n := by
    intro t
    induction t with
    | zero => intro _; rw [h0]; simp
    | succ t ih =>
      intro ht
      have hx : rows[t]? = some rows[t] := List.getElem?_eq_getElem (by omega)
      rw [(hs t _ hx).1]
      unfold rowStep
      rw [List.length_zipWith, ih (by omega), hr _ (List.getElem_mem _)]
      exact Nat.min_self n
  refine ⟨fun t s => ((st t)[s]?).getD init, fun s => ?_, fun t s x hx => ?_⟩
  · show ((st 0)[s]?).getD init = init
    rw [h0, List.getElem?_replicate]
    split <;> rfl
  · unfold posAt at hx ⊢
    cases hrow : rows[t]? with
    | none => rw [hrow] at hx; simp at hx
    | some row =>
      rw [hrow] at hx
      simp only [Option.bind_some] at hx
      obtain ⟨h1, h2⟩ := hs t row hrow
      rw [h2]
      simp only [Option.bind_some]
      have hs' : s < n := by
        rw [← hr row (List.mem_of_getElem? hrow)]
        exact (List.getElem?_eq_some_iff.mp hx).1
      have ht : t < rows.length := (List.getElem?_eq_some_iff.mp hrow).1
      have hsl : s < (st t).length := by rw [hlen t (by omega)]; exact hs'
      have hst : (st t)[s]? = some ((st t)[s]'hsl) := List.getElem?_eq_getElem hsl
      rw [h1]
      unfold rowStep
      rw [List.getElem?_zipWith, hx, hst]
      exact ⟨rfl, rfl⟩

/-- The input vectors of a position. -/
theorem concatInputs_vectors {ins : List (Option (Elem S))} {x : List S} (h : concatInputs ins = .ok x) :
    ∃ xs, InputVectors ins xs ∧ x = xs.flatten := by
  unfold concatInputs at h
  split at h
  · cases h
  · cases hm : mapE elemVec ins with
    | error e => rw [hm] at h; cases h
    | ok xs =>
      rw [hm] at h
      injection h with h
      refine ⟨xs, ?_, h.symm⟩
      unfold InputVectors
      have hf := mapE_ok hm
      clear * - hf
      induction hf with
      | nil => rfl
      | cons h1 _ ih =>
        rw [List.map_cons, ← ih]
        congr 1
        unfold elemVec at h1
        split at h1
        · injection h1 with h1; rw [h1]
        · cases h1
        · cases h1
        · cases h1

theorem concatInputs_of_vectors {ins : List (Option (Elem S))} {xs : List (List S)} (h : InputVectors ins xs) (hne : xs ≠ []) :
    concatInputs ins = .ok xs.flatten := by
  unfold concatInputs
  rw [h]
  split
  · rename_i h0
    rw [List.map_eq_nil_iff] at h0
    exact absurd h0 hne
  · have : mapE elemVec (xs.map fun x => some (Elem.vec x)) = .ok xs := by
      apply mapE_forall₂
      rw [List.forall₂_map_left_iff]
      clear * -
      induction xs with
      | nil => exact .nil
      | cons x xs ih => exact .cons rfl ih
    rw [this]

end

end TheanoLM
