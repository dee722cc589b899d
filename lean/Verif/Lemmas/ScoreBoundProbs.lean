import Verif.Lemmas.ScoreBoundLayers
import Verif.Lemmas.LanguageModel
/-!
# Lemmas for C109: bounds of the probabilities
-/
namespace TheanoLM

/-- A normalised list of exponentials, some of which may have been replaced with zeros. -/
theorem normalize_floor {A : ℝ} {N : Nat} {es : List ℝ} (hN : es.length ≤ N)
    (he : ∀ x ∈ es, x = 0 ∨ (Real.exp (-A) ≤ x ∧ x ≤ Real.exp A)) (j : Nat) (x : ℝ) (hx : (normalize es)[j]? = some x) :
    Real.exp (-A) / (N * Real.exp A) ≤ x ∨ (es[j]? = some 0 ∧ x = 0) := by
  unfold normalize at hx
  rw [List.getElem?_map] at hx
  cases hj : es[j]? with
  | none => rw [hj] at hx; cases hx
  | some e =>
    rw [hj] at hx
    simp only [Option.map_some, Option.some.injEq] at hx
    subst hx
    have hmem := List.mem_of_getElem? hj
    rcases he e hmem with rfl | ⟨h1, h2⟩
    · exact .inr ⟨rfl, zero_div _⟩
    · left
      have hexp := Real.exp_pos A
      have hexp' := Real.exp_pos (-A)
      have hnn : ∀ y ∈ es, 0 ≤ y := fun y hy => by
        rcases he y hy with h | ⟨h, _⟩
        · exact h.ge
        · exact hexp'.le.trans h
      have hle : es.sum ≤ es.length * Real.exp A := by
        have := List.sum_le_card_nsmul es (Real.exp A) fun y hy => by
          rcases he y hy with h | ⟨_, h⟩
          · rw [h]; exact hexp.le
          · exact h
        simpa using this
      have hpos : 0 < es.sum := lt_of_lt_of_le (hexp'.trans_le h1) (List.single_le_sum hnn e hmem)
      have hb : es.sum ≤ N * Real.exp A := hle.trans (mul_le_mul_of_nonneg_right (by exact_mod_cast hN) hexp.le)
      rw [div_le_div_iff₀ (hpos.trans_le hb) hpos]
      calc Real.exp (-A) * es.sum ≤ Real.exp (-A) * (N * Real.exp A) := mul_le_mul_of_nonneg_left hb hexp'.le
        _ ≤ e * (N * Real.exp A) := mul_le_mul_of_nonneg_right h1 (hpos.le.trans hb)

theorem devicePreact_length (weights : ParamDict (List ℝ)) (biases : ParamDict ℝ) (name : Str) (useBias : Bool) (device : Option Str) :
    ∃ B' : ℝ, 0 ≤ B' ∧ ∀ x y, devicePreact weights biases name useBias x device = .ok y → (y.length : ℝ) ≤ B' := by
  unfold devicePreact
  cases getParam (name ++ "/W".toList) device weights with
  | error e => exact ⟨0, le_refl 0, fun x y h => by cases h⟩
  | ok W =>
    refine ⟨W.length, Nat.cast_nonneg _, fun x y h => ?_⟩
    cases useBias with
    | false => injection h with h; subst h; simp
    | true =>
      simp only [if_true] at h
      split at h
      · cases h
      · injection h with h
        subst h
        rw [List.length_zipWith, List.length_map]
        exact_mod_cast Nat.min_le_left _ _

theorem flatten_length_le {α : Type} {C : ℝ} {rs : List (List α)} (h : ∀ r ∈ rs, (r.length : ℝ) ≤ C) :
    (rs.flatten.length : ℝ) ≤ rs.length * C := by
  induction rs with
  | nil => simp
  | cons r rs ih =>
    have h1 := h r List.mem_cons_self
    have h2 := ih fun r hr => h r (List.mem_cons_of_mem _ hr)
    simp only [List.flatten_cons, List.length_append, List.length_cons]
    push_cast
    linarith

theorem tensorPreact_length_le (devices : List (Option Str)) (weights : ParamDict (List ℝ)) (biases : ParamDict ℝ)
    (name : Str) (useBias : Bool) :
    ∃ N : Nat, ∀ x y, tensorPreact devices weights biases name useBias x = .ok y → y.length ≤ N := by
  obtain ⟨C, c0, c⟩ := exists_bound devices (P := fun d C => ∀ x y, devicePreact weights biases name useBias x d = .ok y → (y.length : ℝ) ≤ C)
    (fun a B B' h hb x y hy => (h x y hy).trans hb) (fun d _ => devicePreact_length weights biases name useBias d)
  refine ⟨Nat.ceil (devices.length * C), fun x y h => ?_⟩
  unfold tensorPreact at h
  cases hm : mapE (devicePreact weights biases name useBias x) devices with
  | error e => rw [hm] at h; cases h
  | ok rs =>
    rw [hm] at h
    have hl := mapE_length hm
    have hf : (rs.flatten.length : ℝ) ≤ rs.length * C := flatten_length_le fun r hr => by
      obtain ⟨d, h1, h2⟩ := mapE_from hm hr
      exact c d h1 x r h2
    rw [hl] at hf
    have hy : y = rs.flatten := by
      cases rs with
      | nil => cases h
      | cons r rs => injection h with h; rw [← h]; rfl
    rw [hy]
    exact_mod_cast hf.trans (Nat.le_ceil _)

theorem exp_range {A x : ℝ} (h : |x| ≤ A) : Real.exp (-A) ≤ realAct.exp x ∧ realAct.exp x ≤ Real.exp A := by
  obtain ⟨h1, h2⟩ := abs_le.mp h
  exact ⟨Real.exp_le_exp.mpr h1, Real.exp_le_exp.mpr h2⟩

/-- The least of the two, when the number of outputs is not known to be positive. -/
theorem floor_pos (A : ℝ) (N : Nat) : 0 < Real.exp (-A) / (((N + 1 : Nat) : ℝ) * Real.exp A) := by
  have h1 := Real.exp_pos A
  have h2 := Real.exp_pos (-A)
  have h3 : (0 : ℝ) < ((N + 1 : Nat) : ℝ) := by exact_mod_cast Nat.succ_pos N
  positivity

theorem softmax_floor {B : ℝ} (hB : 0 ≤ B) (b : Basic ℝ) (u : Nat) :
    ∃ ε : ℝ, 0 < ε ∧ ∀ excludeUnk ins p, InputsWithin B ins → softmaxElem realAct excludeUnk b u ins = .ok (.probs p) →
      ∀ j x, p[j]? = some x → ε ≤ x ∨ (excludeUnk = true ∧ j = u ∧ x = 0) := by
  obtain ⟨A, a0, ha⟩ := tensorPreact_within hB b.devices b.weights b.biases "input".toList true
  obtain ⟨N, hN⟩ := tensorPreact_length_le b.devices b.weights b.biases "input".toList true
  refine ⟨_, floor_pos A N, fun excludeUnk ins p hi h j x hx => ?_⟩
  unfold softmaxElem at h
  cases hc : concatInputs ins with
  | error e => rw [hc] at h; cases h
  | ok y =>
    rw [hc] at h
    simp only at h
    cases ht : tensorPreact b.devices b.weights b.biases "input".toList true y with
    | error e => rw [ht] at h; cases h
    | ok preact =>
      rw [ht] at h
      simp only at h
      split at h
      · cases h
      · split at h
        · cases h
        · injection h with h
          injection h with h
          subst h
          have hp := ha y preact (concatInputs_within hc hi) ht
          have hl := hN y preact ht
          have he : ∀ j e, (softmaxExps realAct excludeUnk u preact)[j]? = some e → ∃ v ∈ preact, e = if excludeUnk && j == u then 0 else realAct.exp v := by
            intro j e hj
            unfold softmaxExps at hj
            rw [List.getElem?_mapIdx] at hj
            cases hv : preact[j]? with
            | none => rw [hv] at hj; cases hj
            | some v =>
              rw [hv] at hj
              injection hj with hj
              exact ⟨v, List.mem_of_getElem? hv, hj.symm⟩
          rcases normalize_floor (A := A) (N := N + 1) (es := softmaxExps realAct excludeUnk u preact) (by simp [softmaxExps]; omega) (fun e hmem => by
            obtain ⟨j, hj⟩ := List.getElem?_of_mem hmem
            obtain ⟨v, hv, rfl⟩ := he j e hj
            split
            · exact .inl rfl
            · exact .inr (exp_range (hp v hv))) j x hx with h | ⟨h1, h2⟩
          · exact .inl h
          · right
            obtain ⟨v, _, hv⟩ := he j 0 h1
            by_cases hif : (excludeUnk && j == u) = true
            · rw [Bool.and_eq_true, beq_iff_eq] at hif
              exact ⟨hif.1, hif.2, h2⟩
            · rw [if_neg hif] at hv
              exact absurd hv (Real.exp_pos v).ne

theorem level_floor {B : ℝ} (hB : 0 ≤ B) (weight : List (List ℝ)) (bias : List ℝ) :
    ∃ ε : ℝ, 0 < ε ∧ ∀ x, WithinAbs B x → ∀ q ∈ normalize ((vadd (weight.map (dot x)) bias).map realAct.exp), ε ≤ q := by
  obtain ⟨C, c0, c⟩ := dots_within hB weight
  obtain ⟨D, d0, d⟩ := exists_within bias
  refine ⟨_, floor_pos (C + D) weight.length, fun x hx q hq => ?_⟩
  have hw := vadd_within (c x hx) d
  obtain ⟨j, hj⟩ := List.getElem?_of_mem hq
  rcases normalize_floor (A := C + D) (N := weight.length + 1) (es := (vadd (weight.map (dot x)) bias).map realAct.exp) (by
      rw [List.length_map]
      unfold vadd
      rw [List.length_zipWith, List.length_map]
      omega) (fun e he => by
      obtain ⟨v, hv, rfl⟩ := List.mem_map.mp he
      exact .inr (exp_range (hw v hv))) j q hj with h | ⟨h, _⟩
  · exact h
  · obtain ⟨v, _, hv⟩ := List.mem_map.mp (List.mem_of_getElem? h)
    exact absurd hv (Real.exp_pos v).ne'

theorem levels_floor {B : ℝ} (hB : 0 ≤ B) (weights : List (List (List ℝ))) (biases : List (List ℝ)) :
    ∃ ε : ℝ, 0 < ε ∧ ∀ x, WithinAbs B x → ∀ row ∈ level2Probs realAct weights biases x, ∀ q ∈ row, ε ≤ q := by
  induction weights generalizing biases with
  | nil => exact ⟨1, one_pos, fun x _ row hrow => by simp [level2Probs] at hrow⟩
  | cons w weights ih =>
    cases biases with
    | nil => exact ⟨1, one_pos, fun x _ row hrow => by simp [level2Probs] at hrow⟩
    | cons b biases =>
      obtain ⟨ε, e0, e⟩ := ih biases
      obtain ⟨δ, d0, d⟩ := level_floor hB w b
      refine ⟨min ε δ, lt_min e0 d0, fun x hx row hrow q hq => ?_⟩
      have he : level2Probs realAct (w :: weights) (b :: biases) x =
          normalize ((vadd (w.map (dot x)) b).map realAct.exp) :: level2Probs realAct weights biases x := rfl
      rw [he] at hrow
      rcases List.mem_cons.mp hrow with rfl | hrow
      · exact (min_le_right _ _).trans (d x hx q hq)
      · exact (min_le_left _ _).trans (e x hx row hrow q hq)

theorem hsoftmax_floor {B : ℝ} (hB : 0 ≤ B) (b : Basic ℝ) (ws : List (List (List ℝ))) (bs : List (List ℝ)) :
    ∃ ε : ℝ, 0 < ε ∧ ∀ ins p, InputsWithin B ins → hsoftmaxElem realAct b ws bs ins = .ok (.probs p) → ∀ x ∈ p, ε ≤ x := by
  unfold hsoftmaxElem
  cases hw : getParam "input/W".toList none b.weights with
  | error e =>
    refine ⟨1, one_pos, fun ins p _ h => ?_⟩
    split at h
    · cases h
    · cases h
  | ok weight =>
    cases hb : getParam "input/b".toList none b.biases with
    | error e =>
      refine ⟨1, one_pos, fun ins p _ h => ?_⟩
      split at h
      · cases h
      · cases h
    | ok bias =>
      obtain ⟨ε, e0, e⟩ := level_floor hB weight bias
      obtain ⟨δ, d0, d⟩ := levels_floor hB ws bs
      refine ⟨ε * δ, mul_pos e0 d0, fun ins p hi h x hx => ?_⟩
      cases hc : concatInputs ins with
      | error e => rw [hc] at h; cases h
      | ok y =>
        rw [hc] at h
        injection h with h
        injection h with h
        subst h
        have hy := concatInputs_within hc hi
        unfold hierarchicalProbs at hx
        obtain ⟨row, r1, r2⟩ := List.mem_flatten.mp (List.mem_of_mem_take hx)
        obtain ⟨q, q1, row', r3, rfl⟩ := zipWith_from r1
        obtain ⟨z, z1, rfl⟩ := List.mem_map.mp r2
        exact mul_le_mul (e y hy q q1) (d y hy row' r3 z z1) d0.le (e0.le.trans (e y hy q q1))

end TheanoLM
