import Verif.Props.ScoreBoundSpec
import Verif.Lemmas.Network
import Mathlib.Algebra.Order.BigOperators.Group.List
import Mathlib.Tactic.Linarith
import Mathlib.Tactic.Positivity
/-!
# Lemmas for C109: bounds of the outputs of a network
-/
namespace TheanoLM

/-! ## Elementary functions -/

theorem sigmoid_pos (x : ℝ) : 0 < realAct.sigmoid x := by
  show 0 < 1 / (1 + Real.exp (-x))
  have := Real.exp_pos (-x)
  positivity

theorem sigmoid_lt (x : ℝ) : realAct.sigmoid x < 1 := by
  show 1 / (1 + Real.exp (-x)) < 1
  have := Real.exp_pos (-x)
  rw [div_lt_one (by positivity)]
  linarith

theorem sigmoid_abs (x : ℝ) : |realAct.sigmoid x| ≤ 1 := by
  rw [abs_of_pos (sigmoid_pos x)]
  exact (sigmoid_lt x).le

theorem tanh_abs (x : ℝ) : |realAct.tanh x| ≤ 1 := by
  show |(Real.exp x - Real.exp (-x)) / (Real.exp x + Real.exp (-x))| ≤ 1
  have h1 := Real.exp_pos x
  have h2 := Real.exp_pos (-x)
  rw [abs_div, abs_of_pos (show 0 < Real.exp x + Real.exp (-x) by positivity), div_le_one (by positivity), abs_le]
  constructor <;> linarith

theorem activation_abs (a : Activation) (x : ℝ) : |applyActivation realAct a x| ≤ if a = .tanh then 1 else |x| := by
  cases a with
  | tanh => exact tanh_abs x
  | relu =>
    show |max 0 x| ≤ |x|
    rcases le_total 0 x with h | h
    · rw [max_eq_right h]
    · rw [max_eq_left h]; simp
  | leakyrelu =>
    show |max (3 / 10 * x) x| ≤ |x|
    rcases le_total 0 x with h | h
    · rw [max_eq_right (by linarith)]
    · rw [max_eq_left (by linarith), abs_mul]
      have := abs_nonneg x
      norm_num
      linarith

theorem activation_within {a : Activation} {x : List ℝ} {B : ℝ} (h : WithinAbs B x) :
    WithinAbs (max 1 B) (x.map (applyActivation realAct a)) := by
  intro v hv
  obtain ⟨u, hu, rfl⟩ := List.mem_map.mp hv
  refine (activation_abs a u).trans ?_
  split
  · exact le_max_left _ _
  · exact (h u hu).trans (le_max_right _ _)

/-! ## Vectors -/

theorem WithinAbs.mono {B B' : ℝ} {x : List ℝ} (h : WithinAbs B x) (hB : B ≤ B') : WithinAbs B' x := fun v hv => (h v hv).trans hB

theorem zipWith_from {α β γ : Type} {f : α → β → γ} {x : List α} {y : List β} {v : γ} (h : v ∈ List.zipWith f x y) :
    ∃ a ∈ x, ∃ b ∈ y, v = f a b := by
  induction x generalizing y with
  | nil => simp at h
  | cons a x ih =>
    cases y with
    | nil => simp at h
    | cons b y =>
      rw [List.zipWith_cons_cons, List.mem_cons] at h
      rcases h with rfl | h
      · exact ⟨a, by simp, b, by simp, rfl⟩
      · obtain ⟨a', h1, b', h2, h3⟩ := ih h
        exact ⟨a', by simp [h1], b', by simp [h2], h3⟩

theorem vadd_within {A B : ℝ} {x y : List ℝ} (hx : WithinAbs A x) (hy : WithinAbs B y) : WithinAbs (A + B) (vadd x y) := by
  intro v hv
  obtain ⟨a, ha, b, hb, rfl⟩ := zipWith_from hv
  exact (abs_add_le a b).trans (add_le_add (hx a ha) (hy b hb))

theorem vmul_within {A B : ℝ} (hA : 0 ≤ A) {x y : List ℝ} (hx : WithinAbs A x) (hy : WithinAbs B y) : WithinAbs (A * B) (vmul x y) := by
  intro v hv
  obtain ⟨a, ha, b, hb, rfl⟩ := zipWith_from hv
  rw [abs_mul]
  exact mul_le_mul (hx a ha) (hy b hb) (abs_nonneg _) hA

theorem map_within {B : ℝ} {f : ℝ → ℝ} (hf : ∀ x, |f x| ≤ B) (x : List ℝ) : WithinAbs B (x.map f) := by
  intro v hv
  obtain ⟨u, _, rfl⟩ := List.mem_map.mp hv
  exact hf u

theorem submatrix_within {B : ℝ} {x : List ℝ} (h : WithinAbs B x) (i n : Nat) (e : Option Nat) : WithinAbs B (submatrix x i n e) :=
  fun v hv => h v (List.mem_of_mem_take (List.mem_of_mem_drop hv))

theorem flatten_within {B : ℝ} {xs : List (List ℝ)} (h : ∀ x ∈ xs, WithinAbs B x) : WithinAbs B xs.flatten := by
  intro v hv
  obtain ⟨x, hx, hv⟩ := List.mem_flatten.mp hv
  exact h x hx v hv

/-- Every list has a bound. -/
theorem exists_within (x : List ℝ) : ∃ B, 0 ≤ B ∧ WithinAbs B x := by
  induction x with
  | nil => exact ⟨0, le_refl 0, fun v hv => by cases hv⟩
  | cons a x ih =>
    obtain ⟨B, h0, h⟩ := ih
    refine ⟨max B |a|, h0.trans (le_max_left _ _), fun v hv => ?_⟩
    rcases List.mem_cons.mp hv with rfl | hv
    · exact le_max_right _ _
    · exact (h v hv).trans (le_max_left _ _)

theorem dot_within {B : ℝ} (hB : 0 ≤ B) (w : List ℝ) : ∃ B', 0 ≤ B' ∧ ∀ x, WithinAbs B x → |dot x w| ≤ B' := by
  induction w with
  | nil => exact ⟨0, le_refl 0, fun x _ => by simp [dot]⟩
  | cons a w ih =>
    obtain ⟨C, h0, h⟩ := ih
    refine ⟨B * |a| + C, by positivity, fun x hx => ?_⟩
    cases x with
    | nil => simp [dot]; positivity
    | cons b x =>
      have : dot (b :: x) (a :: w) = b * a + dot x w := by simp [dot]
      rw [this]
      refine (abs_add_le _ _).trans (add_le_add ?_ (h x fun v hv => hx v (List.mem_cons_of_mem _ hv)))
      rw [abs_mul]
      exact mul_le_mul_of_nonneg_right (hx b List.mem_cons_self) (abs_nonneg a)

theorem dots_within {B : ℝ} (hB : 0 ≤ B) (W : List (List ℝ)) : ∃ B', 0 ≤ B' ∧ ∀ x, WithinAbs B x → WithinAbs B' (W.map (dot x)) := by
  induction W with
  | nil => exact ⟨0, le_refl 0, fun x _ v hv => by cases hv⟩
  | cons w W ih =>
    obtain ⟨C, h0, h⟩ := ih
    obtain ⟨D, d0, d⟩ := dot_within hB w
    refine ⟨max C D, h0.trans (le_max_left _ _), fun x hx v hv => ?_⟩
    rcases List.mem_cons.mp hv with rfl | hv
    · exact (d x hx).trans (le_max_right _ _)
    · exact (h x hx v hv).trans (le_max_left _ _)

/-! ## Pre-activations -/

/-- A property of all the elements of the result of a loop. -/
theorem mapE_from {α β : Type} {f : α → Except Err β} {l : List α} {r : List β} (h : mapE f l = .ok r) {y : β} (hy : y ∈ r) :
    ∃ a ∈ l, f a = .ok y := by
  induction l generalizing r with
  | nil => injection h with h; subst h; cases hy
  | cons a l ih =>
    obtain ⟨b, bs, ha, hl, rfl⟩ := mapE_cons_ok h
    rcases List.mem_cons.mp hy with rfl | hy
    · exact ⟨a, by simp, ha⟩
    · obtain ⟨a', h1, h2⟩ := ih hl hy
      exact ⟨a', by simp [h1], h2⟩

theorem devicePreact_within {B : ℝ} (hB : 0 ≤ B) (weights : ParamDict (List ℝ)) (biases : ParamDict ℝ) (name : Str) (useBias : Bool)
    (device : Option Str) : ∃ B', 0 ≤ B' ∧ ∀ x y, WithinAbs B x → devicePreact weights biases name useBias x device = .ok y → WithinAbs B' y := by
  unfold devicePreact
  cases getParam (name ++ "/W".toList) device weights with
  | error e => exact ⟨0, le_refl 0, fun x y _ h => by cases h⟩
  | ok W =>
    obtain ⟨C, c0, c⟩ := dots_within hB W
    cases useBias with
    | false => exact ⟨C, c0, fun x y hx h => by injection h with h; subst h; exact c x hx⟩
    | true =>
      cases getParam (name ++ "/b".toList) device biases with
      | error e => exact ⟨0, le_refl 0, fun x y _ h => by cases h⟩
      | ok bias =>
        obtain ⟨D, d0, d⟩ := exists_within bias
        exact ⟨C + D, by positivity, fun x y hx h => by injection h with h; subst h; exact vadd_within (c x hx) d⟩

theorem concatResults_within {B : ℝ} {rs : List (List ℝ)} {y : List ℝ} (h : concatResults rs = .ok y) (hr : ∀ r ∈ rs, WithinAbs B r) :
    WithinAbs B y := by
  cases rs with
  | nil => cases h
  | cons r rs =>
    injection h with h
    subst h
    exact flatten_within (xs := r :: rs) hr

theorem exists_bound {α : Type} (l : List α) {P : α → ℝ → Prop} (hm : ∀ a B B', P a B → B ≤ B' → P a B')
    (h : ∀ a ∈ l, ∃ B, 0 ≤ B ∧ P a B) : ∃ B, 0 ≤ B ∧ ∀ a ∈ l, P a B := by
  induction l with
  | nil => exact ⟨0, le_refl 0, fun a ha => by cases ha⟩
  | cons a l ih =>
    obtain ⟨C, c0, c⟩ := ih fun a ha => h a (List.mem_cons_of_mem _ ha)
    obtain ⟨D, d0, d⟩ := h a List.mem_cons_self
    refine ⟨max C D, c0.trans (le_max_left _ _), fun x hx => ?_⟩
    rcases List.mem_cons.mp hx with rfl | hx
    · exact hm _ _ _ d (le_max_right _ _)
    · exact hm _ _ _ (c x hx) (le_max_left _ _)

theorem tensorPreact_within {B : ℝ} (hB : 0 ≤ B) (devices : List (Option Str)) (weights : ParamDict (List ℝ)) (biases : ParamDict ℝ)
    (name : Str) (useBias : Bool) :
    ∃ B', 0 ≤ B' ∧ ∀ x y, WithinAbs B x → tensorPreact devices weights biases name useBias x = .ok y → WithinAbs B' y := by
  obtain ⟨C, c0, c⟩ := exists_bound devices (P := fun d C => ∀ x y, WithinAbs B x → devicePreact weights biases name useBias x d = .ok y → WithinAbs C y)
    (fun a B B' h hb x y hx hy => (h x y hx hy).mono hb) (fun d _ => devicePreact_within hB weights biases name useBias d)
  refine ⟨C, c0, fun x y hx h => ?_⟩
  unfold tensorPreact at h
  cases hm : mapE (devicePreact weights biases name useBias x) devices with
  | error e => rw [hm] at h; cases h
  | ok rs =>
    rw [hm] at h
    refine concatResults_within h fun r hr => ?_
    obtain ⟨d, h1, h2⟩ := mapE_from hm hr
    exact c d h1 x r hx h2

/-! ## Elements -/

/-- The elements of a feature vector are between `-B` and `B`. -/
def ElemWithin (B : ℝ) : Elem ℝ → Prop
  | .vec x => WithinAbs B x
  | _ => True

def InputsWithin (B : ℝ) (ins : List (Option (Elem ℝ))) : Prop := ∀ e, some e ∈ ins → ElemWithin B e

theorem ElemWithin.mono {B B' : ℝ} {e : Elem ℝ} (h : ElemWithin B e) (hB : B ≤ B') : ElemWithin B' e := by
  cases e with
  | vec x => exact WithinAbs.mono h hB
  | id n => trivial
  | probs p => trivial

theorem elemVec_within {B : ℝ} {e : Option (Elem ℝ)} {x : List ℝ} (h : elemVec e = .ok x) (he : ∀ e', e = some e' → ElemWithin B e') :
    WithinAbs B x := by
  cases e with
  | none => cases h
  | some e =>
    cases e with
    | vec y => injection h with h; subst h; exact he _ rfl
    | id n => cases h
    | probs p => cases h

theorem concatInputs_within {B : ℝ} {ins : List (Option (Elem ℝ))} {x : List ℝ} (h : concatInputs ins = .ok x) (hi : InputsWithin B ins) :
    WithinAbs B x := by
  unfold concatInputs at h
  cases ins with
  | nil => cases h
  | cons a ins =>
    simp only at h
    cases hm : mapE elemVec (a :: ins) with
    | error e => rw [hm] at h; cases h
    | ok xs =>
      rw [hm] at h
      injection h with h
      subst h
      refine flatten_within fun r hr => ?_
      obtain ⟨e, h1, h2⟩ := mapE_from hm hr
      exact elemVec_within h2 fun e' he => hi e' (he ▸ h1)

theorem inputPreact_within {B : ℝ} (hB : 0 ≤ B) (b : Basic ℝ) (name : Str) :
    ∃ B', 0 ≤ B' ∧ ∀ ins y, InputsWithin B ins → inputPreact b name ins = .ok y → WithinAbs B' y := by
  obtain ⟨C, c0, c⟩ := tensorPreact_within hB b.devices b.weights b.biases name true
  refine ⟨C, c0, fun ins y hi h => ?_⟩
  unfold inputPreact at h
  cases hc : concatInputs ins with
  | error e => rw [hc] at h; cases h
  | ok x => rw [hc] at h; exact c x y (concatInputs_within hc hi) h

theorem projection_within (b : Basic ℝ) :
    ∃ B', 0 ≤ B' ∧ ∀ ins y, projectionElem b ins = .ok y → ElemWithin B' y := by
  have hd : ∀ d ∈ b.devices, ∃ C, 0 ≤ C ∧ ∀ n r, projectDevice b n d = .ok r → WithinAbs C r := by
    intro d _
    unfold projectDevice
    cases getParam "W".toList d b.weights with
    | error e => exact ⟨0, le_refl 0, fun n r h => by cases h⟩
    | ok cols =>
      obtain ⟨C, c0, c⟩ := exists_within cols.flatten
      refine ⟨C, c0, fun n r h v hv => ?_⟩
      obtain ⟨col, h1, h2⟩ := mapE_from h hv
      refine c v (List.mem_flatten.mpr ⟨col, h1, ?_⟩)
      unfold indexE at h2
      cases hn : col[n]? with
      | none => rw [hn] at h2; cases h2
      | some u => rw [hn] at h2; injection h2 with h2; subst h2; exact List.mem_of_getElem? hn
  obtain ⟨C, c0, c⟩ := exists_bound b.devices (P := fun d C => ∀ n r, projectDevice b n d = .ok r → WithinAbs C r)
    (fun a B B' h hb n r hr => (h n r hr).mono hb) hd
  refine ⟨C, c0, fun ins y h => ?_⟩
  unfold projectionElem at h
  split at h
  · rename_i n
    cases hm : mapE (projectDevice b n) b.devices with
    | error e => rw [hm] at h; cases h
    | ok rows =>
      rw [hm] at h
      injection h with h
      subst h
      refine flatten_within fun r hr => ?_
      obtain ⟨d, h1, h2⟩ := mapE_from hm hr
      exact c d h1 n r h2
  all_goals cases h

theorem addition_within {B : ℝ} (hB : 0 ≤ B) (b : Basic ℝ) (sizes : List Nat) :
    ∃ B', 0 ≤ B' ∧ ∀ ins y, InputsWithin B ins → additionElem b sizes ins = .ok y → ElemWithin B' y := by
  have key : ∀ (sizes : List Nat) (index : Nat) (C : ℝ), 0 ≤ C → ∃ B', 0 ≤ B' ∧ ∀ ins out y, InputsWithin B ins →
      (∀ s, out = some s → WithinAbs C s) → additionLoop b index (ins.zip sizes) out = .ok (some y) → WithinAbs B' y := by
    intro sizes
    induction sizes with
    | nil =>
      intro index C c0
      refine ⟨C, c0, fun ins out y _ ho h => ?_⟩
      rw [List.zip_nil_right] at h
      injection h with h
      exact ho y h
    | cons sz sizes ih =>
      intro index C c0
      obtain ⟨D, d0, d⟩ := tensorPreact_within hB b.devices b.weights b.biases ("input".toList ++ (toString index).toList) false
      obtain ⟨E, e0, e⟩ := ih (index + 1) (C + max B D) (by positivity)
      refine ⟨max C E, c0.trans (le_max_left _ _), fun ins out y hi ho h => ?_⟩
      cases ins with
      | nil =>
        injection h with h
        exact (ho y h).mono (le_max_left _ _)
      | cons a ins =>
        rw [List.zip_cons_cons, additionLoop] at h
        have hi' : InputsWithin B ins := fun e he => hi e (List.mem_cons_of_mem _ he)
        cases hx : elemVec a with
        | error e => rw [hx] at h; cases h
        | ok x =>
          rw [hx] at h
          simp only at h
          have hxw : WithinAbs B x := elemVec_within hx fun e' he => hi e' (by rw [he]; exact List.mem_cons_self)
          generalize hz : (if sz = b.size then (.ok x : Except Err (List ℝ)) else tensorPreact b.devices b.weights b.biases
            ("input".toList ++ (toString index).toList) false x) = r at h
          cases r with
          | error e => cases h
          | ok z =>
            have hzw : WithinAbs (max B D) z := by
              split at hz
              · injection hz with hz; subst hz; exact hxw.mono (le_max_left _ _)
              · exact (d x z hxw hz).mono (le_max_right _ _)
            simp only at h
            refine WithinAbs.mono ?_ (le_max_right C E)
            cases out with
            | none => exact e ins _ y hi' (fun s hs => by injection hs with hs; subst hs; exact hzw.mono (by linarith)) h
            | some s0 => exact e ins _ y hi' (fun s hs => by injection hs with hs; subst hs; exact vadd_within (ho s0 rfl) hzw) h
  obtain ⟨C, c0, c⟩ := key sizes 0 0 (le_refl 0)
  refine ⟨C, c0, fun ins y hi h => ?_⟩
  unfold additionElem at h
  cases hl : additionLoop b 0 (ins.zip sizes) none with
  | error e => rw [hl] at h; cases h
  | ok r =>
    rw [hl] at h
    cases r with
    | none => cases h
    | some z =>
      injection h with h
      subst h
      exact c ins none z hi (fun s hs => by cases hs) hl

theorem oneMinus_sigmoid_within (x : List ℝ) : WithinAbs 1 (oneMinus (x.map realAct.sigmoid)) := by
  intro v hv
  unfold oneMinus at hv
  rw [List.map_map] at hv
  obtain ⟨u, _, rfl⟩ := List.mem_map.mp hv
  have h1 := sigmoid_pos u
  have h2 := sigmoid_lt u
  simp only [Function.comp_apply]
  rw [abs_le]
  constructor <;> linarith

theorem highway_within {B : ℝ} (hB : 0 ≤ B) (b : Basic ℝ) :
    ∃ B', 0 ≤ B' ∧ ∀ ins y, InputsWithin B ins → highwayElem realAct b ins = .ok y → ElemWithin B' y := by
  obtain ⟨C, c0, c⟩ := tensorPreact_within hB b.devices b.weights b.biases "input".toList true
  refine ⟨max 1 C * 1 + B * 1, by positivity, fun ins y hi h => ?_⟩
  unfold highwayElem at h
  cases hc : concatInputs ins with
  | error e => rw [hc] at h; cases h
  | ok x =>
    rw [hc] at h
    simp only at h
    cases ht : tensorPreact b.devices b.weights b.biases "input".toList true x with
    | error e => rw [ht] at h; cases h
    | ok p =>
      rw [ht] at h
      injection h with h
      subst h
      have hx := concatInputs_within hc hi
      have hp := c x p hx ht
      exact vadd_within (vmul_within (by positivity) (activation_within (submatrix_within hp 0 _ _)) (map_within sigmoid_abs _))
        (vmul_within hB hx (oneMinus_sigmoid_within _))

theorem dropout_within {B : ℝ} (hB : 0 ≤ B) (scale : ℝ) :
    ∃ B', 0 ≤ B' ∧ ∀ training keep ins y, InputsWithin B ins → dropoutElem training scale keep ins = .ok y → ElemWithin B' y := by
  refine ⟨max B (B * |scale|), hB.trans (le_max_left _ _), fun training keep ins y hi h => ?_⟩
  unfold dropoutElem at h
  cases hc : concatInputs ins with
  | error e => rw [hc] at h; cases h
  | ok x =>
    rw [hc] at h
    simp only at h
    have hx := concatInputs_within hc hi
    cases training with
    | false => injection h with h; subst h; exact hx.mono (le_max_left _ _)
    | true =>
      injection h with h
      subst h
      intro v hv
      obtain ⟨a, ha, k, _, rfl⟩ := zipWith_from hv
      refine le_trans ?_ (le_max_right _ _)
      rw [abs_mul, abs_mul]
      have h1 : |a| * |scale| ≤ B * |scale| := mul_le_mul_of_nonneg_right (hx a ha) (abs_nonneg _)
      have h2 : |(if k then (1 : ℝ) else 0)| ≤ 1 := by split <;> simp
      calc |a| * |scale| * |(if k then (1 : ℝ) else 0)| ≤ |a| * |scale| * 1 := mul_le_mul_of_nonneg_left h2 (by positivity)
        _ ≤ _ := by rw [mul_one]; exact h1

/-- Layers whose output in one position depends on their input in that position. -/
theorem pointElem_within {B : ℝ} (hB : 0 ≤ B) (layer : Layer ℝ) :
    ∃ B', 0 ≤ B' ∧ ∀ opts k t s p y, InputsWithin B p.2 → pointFun realAct opts layer k t s p = .ok y → ElemWithin B' y := by
  have trivially : (∀ opts k t s p y, pointFun realAct opts layer k t s p = .ok y → ElemWithin 0 y) →
      ∃ B', 0 ≤ B' ∧ ∀ opts k t s p y, InputsWithin B p.2 → pointFun realAct opts layer k t s p = .ok y → ElemWithin B' y :=
    fun h => ⟨0, le_refl 0, fun opts k t s p y _ => h opts k t s p y⟩
  cases layer with
  | wordInput => exact trivially fun opts k t s p y h => by injection h with h; subst h; trivial
  | classInput => exact trivially fun opts k t s p y h => by injection h with h; subst h; trivial
  | recurrent _ _ => exact trivially fun opts k t s p y h => by cases h
  | bidirectional _ _ _ => exact trivially fun opts k t s p y h => by cases h
  | glu _ _ _ _ => exact trivially fun opts k t s p y h => by cases h
  | projection b =>
    obtain ⟨C, c0, c⟩ := projection_within b
    exact ⟨C, c0, fun opts k t s p y _ h => c p.2 y h⟩
  | fullyConnected b =>
    obtain ⟨C, c0, c⟩ := inputPreact_within hB b "input".toList
    refine ⟨max 1 C, by positivity, fun opts k t s p y hi h => ?_⟩
    simp only [pointFun, pointElem, Option.getD_some, fullyConnectedElem] at h
    cases hp : inputPreact b "input".toList p.2 with
    | error e => rw [hp] at h; cases h
    | ok x => rw [hp] at h; injection h with h; subst h; exact activation_within (c p.2 x hi hp)
  | addition b sizes =>
    obtain ⟨C, c0, c⟩ := addition_within hB b sizes
    exact ⟨C, c0, fun opts k t s p y hi h => c p.2 y hi h⟩
  | highway b =>
    obtain ⟨C, c0, c⟩ := highway_within hB b
    exact ⟨C, c0, fun opts k t s p y hi h => c p.2 y hi h⟩
  | dropout b scale =>
    obtain ⟨C, c0, c⟩ := dropout_within hB scale
    exact ⟨C, c0, fun opts k t s p y hi h => c _ _ p.2 y hi h⟩
  | softmax b u =>
    refine trivially fun opts k t s p y h => ?_
    simp only [pointFun, pointElem, Option.getD_some, softmaxElem] at h
    repeat' split at h
    all_goals first | (injection h with h; subst h; trivial) | cases h
  | hsoftmax b l1 l2 ws bs =>
    refine trivially fun opts k t s p y h => ?_
    simp only [pointFun, pointElem, Option.getD_some, hsoftmaxElem] at h
    repeat' split at h
    all_goals first | (injection h with h; subst h; trivial) | cases h

end TheanoLM
