import Verif.Props.ScoreBound
import Mathlib.Analysis.SpecialFunctions.Log.Basic
/-!
# C109: an LSTM layer with ReLU activation
-/
namespace TheanoLM

/-- An LSTM layer with one unit, whose forget gate opens when its output grows. -/
noncomputable def growingLstm : Basic ℝ where
  inputs := [1]
  devices := [none]
  size := 1
  activation := .relu
  weights := [("layer_input/W".toList, [[0], [0], [0], [0]]), ("step_input/W".toList, [[0], [2], [0], [0]])]
  biases := [("layer_input/b".toList, [Real.log 3, 0, 0, Real.log 3])]

/-- The word, its projection, the LSTM layer, and a softmax layer with two classes. -/
noncomputable def growingNetwork : List (Layer ℝ) :=
  [.wordInput,
   .projection ⟨[0], [none], 1, .tanh, [("W".toList, [[0]])], []⟩,
   .recurrent .lstm growingLstm,
   .softmax ⟨[2], [none], 2, .tanh, [("input/W".toList, [[1], [0]])], [("input/b".toList, [0, 0])]⟩ 1]

/-- The next value of the cell state. -/
noncomputable def grow (c : ℝ) : ℝ := realAct.sigmoid c * c + 3 / 5

noncomputable def growths : ℝ → Nat → List ℝ
  | _, 0 => []
  | c, n + 1 => grow c :: growths (grow c) n

theorem grow_ge {c : ℝ} (hc : 0 ≤ c) : c + 1 / 4 ≤ grow c := by
  unfold grow
  show c + 1 / 4 ≤ 1 / (1 + Real.exp (-c)) * c + 3 / 5
  have h := Real.quadratic_le_exp_of_nonneg hc
  have hp := Real.exp_pos c
  have e : 1 / (1 + Real.exp (-c)) = Real.exp c / (1 + Real.exp c) := by
    rw [Real.exp_neg]
    field_simp
    ring
  rw [e]
  have hd : (0 : ℝ) < 1 + Real.exp c := by positivity
  have key : c / (1 + Real.exp c) ≤ 7 / 20 := by
    rw [div_le_iff₀ hd]
    nlinarith [sq_nonneg (c - 2)]
  have : Real.exp c / (1 + Real.exp c) * c = c - c / (1 + Real.exp c) := by
    field_simp
    ring
  rw [this]
  linarith

theorem growths_length (c : ℝ) (n : Nat) : (growths c n).length = n := by
  induction n generalizing c with
  | zero => rfl
  | succ n ih => simp [growths, ih]

theorem growths_ge (n : Nat) : ∀ (c : ℝ), 0 ≤ c → ∀ k < n, ∃ x, (growths c n)[k]? = some x ∧ c + (k + 1) / 4 ≤ x := by
  induction n with
  | zero => intro c _ k hk; omega
  | succ n ih =>
    intro c hc k hk
    have hg := grow_ge hc
    cases k with
    | zero => exact ⟨grow c, rfl, by push_cast; linarith⟩
    | succ k =>
      obtain ⟨x, h1, h2⟩ := ih (grow c) (by linarith) k (by omega)
      exact ⟨x, h1, by push_cast; linarith⟩

theorem sigmoid_log3 : realAct.sigmoid (Real.log 3) = 3 / 4 := by
  show 1 / (1 + Real.exp (-Real.log 3)) = 3 / 4
  rw [Real.exp_neg, Real.exp_log (by norm_num)]
  norm_num

theorem tanh_log3 : realAct.tanh (Real.log 3) = 4 / 5 := by
  show (Real.exp (Real.log 3) - Real.exp (-Real.log 3)) / (Real.exp (Real.log 3) + Real.exp (-Real.log 3)) = 4 / 5
  rw [Real.exp_neg, Real.exp_log (by norm_num)]
  norm_num

theorem sigmoid_zero : realAct.sigmoid 0 = 1 / 2 := by
  show 1 / (1 + Real.exp (-0)) = 1 / 2
  norm_num

theorem growing_step {c : ℝ} (hc : 0 ≤ c) :
    rowStep realAct .lstm growingLstm [[0], [2], [0], [0]] [(true, [Real.log 3, 0, 0, Real.log 3])] [⟨[c], [c / 2]⟩] =
      [⟨[grow c], [grow c / 2]⟩] := by
  have e : vadd ([[0], [2], [0], [0]].map (dot [c / 2])) [Real.log 3, 0, 0, Real.log 3] = [Real.log 3, c, 0, Real.log 3] := by
    simp [vadd, dot]
  have hg : 0 ≤ grow c := le_trans (by linarith) (grow_ge hc)
  simp only [rowStep, List.zipWith_cons_cons, List.zipWith_nil_right, cellStep, lstmStep, e, if_true]
  have s0 : submatrix [Real.log 3, c, 0, Real.log 3] 0 growingLstm.size = [Real.log 3] := rfl
  have s1 : submatrix [Real.log 3, c, 0, Real.log 3] 1 growingLstm.size = [c] := rfl
  have s2 : submatrix [Real.log 3, c, 0, Real.log 3] 2 growingLstm.size = [0] := rfl
  have s3 : submatrix [Real.log 3, c, 0, Real.log 3] 3 growingLstm.size = [Real.log 3] := rfl
  rw [s0, s1, s2, s3]
  have hv : vadd (vmul ([c].map realAct.sigmoid) [c]) (vmul ([Real.log 3].map realAct.sigmoid) ([Real.log 3].map realAct.tanh)) = [grow c] := by
    simp only [vadd, vmul, List.map_cons, List.map_nil, List.zipWith_cons_cons, List.zipWith_nil_right, sigmoid_log3, tanh_log3, grow]
    congr 1
    norm_num
  rw [hv]
  have hr : applyActivation realAct growingLstm.activation (grow c) = grow c := max_eq_right hg
  simp only [vmul, List.map_cons, List.map_nil, List.zipWith_cons_cons, List.zipWith_nil_right, sigmoid_zero, hr]
  congr 3
  ring

theorem growing_scan (n : Nat) : ∀ (c : ℝ), 0 ≤ c →
    scan (rowStep realAct .lstm growingLstm [[0], [2], [0], [0]]) [⟨[c], [c / 2]⟩] (List.replicate n [(true, [Real.log 3, 0, 0, Real.log 3])]) =
      (growths c n).map fun c => [⟨[c], [c / 2]⟩] := by
  induction n with
  | zero => intro c _; rfl
  | succ n ih =>
    intro c hc
    rw [List.replicate_succ, scan, growing_step hc, ih (grow c) (le_trans (by linarith) (grow_ge hc))]
    rfl

theorem pointRows_map {α : Type} {f : Nat → Nat → Pos ℝ → Except Err (Elem ℝ)} {pos : α → Pos ℝ} {val : α → Elem ℝ}
    (h : ∀ t a, f t 0 (pos a) = .ok (val a)) (l : List α) : ∀ t, pointRows f t (l.map fun a => [pos a]) = .ok (l.map fun a => [val a]) := by
  induction l with
  | nil => intro t; rfl
  | cons a l ih =>
    intro t
    simp only [List.map_cons, pointRows, pointRow, h, ih]

theorem mapE_const {α β : Type} {f : α → Except Err β} {a : α} {b : β} (h : f a = .ok b) (n : Nat) :
    mapE f (List.replicate n a) = .ok (List.replicate n b) := by
  induction n with
  | zero => rfl
  | succ n ih =>
    rw [List.replicate_succ, List.replicate_succ]
    exact mapE_cons_eq h ih

theorem evalLayers_map {α : Type} {opts : EvalOptions} {layer : Layer ℝ} {rest : List (Layer ℝ)} {k : Nat} {cell : InputCell}
    {outs : α → List (Elem ℝ)} {val : α → Elem ℝ} {l : List α}
    (h : evalLayer realAct opts layer k (l.map fun a => [(cell, layer.inputs.map fun i => (outs a)[i]?)]) = .ok (l.map fun a => [val a])) :
    evalLayers realAct opts k (layer :: rest) (l.map fun a => [⟨cell, outs a⟩]) =
      evalLayers realAct opts (k + 1) rest (l.map fun a => [⟨cell, outs a ++ [val a]⟩]) := by
  have hg : gather layer.inputs (l.map fun a => [⟨cell, outs a⟩]) = l.map fun a => [(cell, layer.inputs.map fun i => (outs a)[i]?)] := by
    unfold gather
    rw [List.map_map]
    rfl
  rw [evalLayers, hg, h]
  simp only
  congr 1
  clear h hg
  induction l with
  | nil => rfl
  | cons a l ih =>
    simp only [List.map_cons, List.zipWith_cons_cons, ih]
    rfl

theorem growing_softmax (c : ℝ) : softmaxElem realAct false ⟨[2], [none], 2, .tanh, [("input/W".toList, [[1], [0]])], [("input/b".toList, [0, 0])]⟩ 1
    [some (.vec [c])] = .ok (.probs [Real.exp c / (Real.exp c + 1), 1 / (Real.exp c + 1)]) := by
  have h1 : concatInputs [some (Elem.vec [c])] = .ok [c] := rfl
  have h2 : tensorPreact [none] [("input/W".toList, [[(1 : ℝ)], [0]])] [("input/b".toList, [0, 0])] "input".toList true [c] =
      .ok [0 + c * 1 + 0, 0 + c * 0 + 0] := by
    show Except.ok [c * 1 + 0 + 0, c * 0 + 0 + 0] = _
    simp
  have h3 : getParam "input/W".toList none [("input/W".toList, [[(1 : ℝ)], [0]])] = .ok [[1], [0]] := rfl
  have h4 : getParam "input/b".toList none [("input/b".toList, [(0 : ℝ), 0])] = .ok [0, 0] := rfl
  unfold softmaxElem
  rw [h1]
  simp only [h2, List.length_singleton, gt_iff_lt, lt_irrefl, if_false, h3, h4]
  have e : normalize (softmaxExps realAct false 1 [0 + c * 1 + 0, 0 + c * 0 + 0]) = [Real.exp c / (Real.exp c + 1), 1 / (Real.exp c + 1)] := by
    have hx : realAct.exp = Real.exp := rfl
    simp [normalize, softmaxExps, hx]
  rw [e]

theorem growing_evaluates (n : Nat) :
    evalNetwork realAct ⟨false, false, fun _ _ _ => []⟩ growingNetwork (List.replicate n [⟨0, 0, true⟩]) =
      .ok ((growths 0 n).map fun c => [⟨⟨0, 0, true⟩, [.id 0, .vec [0], .vec [c / 2],
        .probs [Real.exp (c / 2) / (Real.exp (c / 2) + 1), 1 / (Real.exp (c / 2) + 1)]]⟩]) := by
  have h0 : ((List.replicate n [(⟨0, 0, true⟩ : InputCell)]).map fun row => row.map fun c => (⟨c, []⟩ : Entry ℝ)) =
      (growths 0 n).map fun _ => [⟨⟨0, 0, true⟩, []⟩] := by
    rw [List.map_replicate, List.map_const', growths_length]
    rfl
  unfold evalNetwork
  rw [h0]
  unfold growingNetwork
  refine (evalLayers_map (outs := fun _ => []) (val := fun _ => .id 0) ?_).trans ?_
  · exact pointRows_map (fun t a => rfl) _ 0
  refine (evalLayers_map (outs := fun _ => [] ++ [Elem.id 0]) (val := fun _ => .vec [0]) ?_).trans ?_
  · exact pointRows_map (fun t a => rfl) _ 0
  refine (evalLayers_map (outs := fun _ => ([] ++ [Elem.id 0]) ++ [Elem.vec [0]]) (val := fun c => .vec [c / 2]) ?_).trans ?_
  · have hp : preactRow growingLstm [((⟨0, 0, true⟩ : InputCell), [some (Elem.vec [(0 : ℝ)])])] = .ok [(true, [Real.log 3, 0, 0, Real.log 3])] := by
      show Except.ok [(true, [0 * 0 + 0 + Real.log 3, 0 * 0 + 0 + 0, 0 * 0 + 0 + 0, 0 * 0 + 0 + Real.log 3])] = _
      simp
    have hw : getParam "step_input/W".toList none growingLstm.weights = .ok [[0], [2], [0], [0]] := rfl
    have hg : ((growths 0 n).map fun a => [((⟨0, 0, true⟩ : InputCell), (Layer.recurrent .lstm growingLstm).inputs.map fun i =>
        (([] ++ [Elem.id 0]) ++ [Elem.vec [(0 : ℝ)]])[i]?)]) = List.replicate n [((⟨0, 0, true⟩ : InputCell), [some (Elem.vec [(0 : ℝ)])])] := by
      rw [List.map_const', growths_length]
      rfl
    rw [hg]
    have hr : recurrentLayer realAct .lstm growingLstm false (List.replicate n [((⟨0, 0, true⟩ : InputCell), [some (Elem.vec [(0 : ℝ)])])]) =
        .ok ((growths 0 n).map fun c => [⟨[c], [c / 2]⟩]) := by
      unfold recurrentLayer
      rw [mapE_const hp n]
      simp only [hw]
      cases n with
      | zero => rfl
      | succ n =>
        have hz : List.replicate (numSequences (List.replicate (n + 1) [((⟨0, 0, true⟩ : InputCell), [some (Elem.vec [(0 : ℝ)])])]))
            (zeroState (S := ℝ) .lstm growingLstm.size) = [⟨[0], [0 / 2]⟩] := by
          show [(⟨[0], [0]⟩ : SeqState ℝ)] = _
          simp
        rw [hz, growing_scan (n + 1) 0 (le_refl 0)]
        rfl
    unfold evalLayer
    simp only [hr]
    rw [List.map_map]
    rfl
  refine (evalLayers_map (outs := fun c => ([] ++ [Elem.id 0] ++ [Elem.vec [0]]) ++ [Elem.vec [c / 2]])
    (val := fun c => .probs [Real.exp (c / 2) / (Real.exp (c / 2) + 1), 1 / (Real.exp (c / 2) + 1)]) ?_).trans ?_
  · exact pointRows_map (fun t c => growing_softmax (c / 2)) _ 0
  rfl

/-- C109.  With another activation function in LSTM layers, there need not be a bound: this network gives a class a probability as
small as one likes when the text is long, and the output of the LSTM layer grows without limit. -/
theorem C109_necessary (ε B : ℝ) (hε : 0 < ε) : ∃ n out e p x h, evalNetwork realAct ⟨false, false, fun _ _ _ => []⟩ growingNetwork
      (List.replicate (n + 1) [⟨0, 0, true⟩]) = .ok out ∧ posAt out n 0 = some e ∧ e.outs[3]? = some (.probs p) ∧ p[1]? = some x ∧
      0 < x ∧ x < ε ∧ e.outs[2]? = some (.vec [h]) ∧ B < h := by
  obtain ⟨n, hn⟩ := exists_nat_gt (max (8 * (1 / ε)) (8 * B))
  obtain ⟨c, h1, h2⟩ := growths_ge (n + 1) 0 (le_refl 0) n (by omega)
  have hc1 : 1 / ε < c / 2 := by
    have := lt_of_le_of_lt (le_max_left _ _) hn
    linarith
  have hc2 : B < c / 2 := by
    have := lt_of_le_of_lt (le_max_right _ _) hn
    linarith
  have hexp := Real.add_one_le_exp (c / 2)
  have hpos := Real.exp_pos (c / 2)
  refine ⟨n, _, ⟨⟨0, 0, true⟩, [.id 0, .vec [0], .vec [c / 2],
        .probs [Real.exp (c / 2) / (Real.exp (c / 2) + 1), 1 / (Real.exp (c / 2) + 1)]]⟩, _, 1 / (Real.exp (c / 2) + 1), c / 2, growing_evaluates (n + 1), ?_, rfl, rfl, ?_, ?_, rfl, hc2⟩
  · rw [posAt_some]
    exact ⟨_, by rw [List.getElem?_map, h1]; rfl, rfl⟩
  · positivity
  · rw [div_lt_iff₀ (by positivity)]
    rw [div_lt_iff₀ hε] at hc1
    nlinarith

/-- The network of `C109_necessary` does not meet the hypothesis of `C109_outputs`; with tanh activation it does. -/
example : (¬ ∀ layer ∈ growingNetwork, layer.Saturating) ∧
    ∀ layer ∈ (growingNetwork.set 2 (.recurrent .lstm { growingLstm with activation := .tanh })), layer.Saturating := by
  constructor
  · intro h
    have : Activation.relu = Activation.tanh := h (.recurrent .lstm growingLstm) (by simp [growingNetwork])
    cases this
  · intro layer hl
    simp only [growingNetwork, List.set_cons_succ, List.set_cons_zero, List.mem_cons, List.not_mem_nil, or_false] at hl
    rcases hl with rfl | rfl | rfl | rfl <;> trivial

end TheanoLM
