import Verif.Props.OrthogonalSpec
import Verif.Props.LanguageModel
import Mathlib.LinearAlgebra.Matrix.NonsingularInverse
/-!
# Orthogonal initial weights (C134)
-/
namespace TheanoLM

theorem unitSum_fin (n : Nat) (f : Nat → ℝ) : unitSum n f = ∑ i : Fin n, f i := by
  unfold unitSum
  rw [← List.sum_ofFn]
  congr 1
  apply List.ext_getElem <;> simp

theorem zipDot_fin {n : Nat} {x : List ℝ} (hx : x.length = n) (f : Nat → ℝ) :
    (List.zipWith (· * ·) x ((List.range n).map f)).sum = ∑ i : Fin n, x.getD i 0 * f i := by
  rw [← List.sum_ofFn]
  congr 1
  apply List.ext_getElem
  · simp [hx]
  · intro i h1 h2
    have : i < x.length := by simp at h1; omega
    simp [this]

theorem squares_fin {n : Nat} {x : List ℝ} (hx : x.length = n) :
    (x.map fun v => v ^ 2).sum = ∑ i : Fin n, x.getD i 0 * x.getD i 0 := by
  rw [← List.sum_ofFn]
  congr 1
  apply List.ext_getElem
  · simp [hx]
  · intro i h1 h2
    have : i < x.length := by simpa using h1
    simp [this, pow_two]

theorem randomMatrix_part {env : CreateEnv ℝ} {layer param : Str} {n parts part k : Nat} (hp : part < parts) (hk : k < n) :
    (randomMatrix env layer param n (parts * n) n).getD (part * n + k) [] =
      (List.range n).map fun i => env.svd n (fun a b => env.rand layer param [a, part * n + b]) i k := by
  have hlt : part * n + k < parts * n := by
    calc part * n + k < part * n + n := by omega
      _ = (part + 1) * n := by ring
      _ ≤ parts * n := Nat.mul_le_mul_right _ hp
  have hn : 0 < n := by omega
  have h1 : (part * n + k) / n = part := by
    rw [Nat.add_comm, Nat.add_mul_div_right _ _ hn, Nat.div_eq_of_lt hk, Nat.zero_add]
  have h2 : (part * n + k) % n = k := by
    rw [Nat.add_comm, Nat.add_mul_mod_self_right, Nat.mod_eq_of_lt hk]
  unfold randomMatrix
  rw [List.getD_eq_getElem?_getD, List.getElem?_eq_getElem (by simpa using hlt), Option.getD_some]
  simp only [List.getElem_map, List.getElem_range, randomElement, if_pos, h1, h2]

theorem randomMatrix_orthogonal {env : CreateEnv ℝ} (hs : SvdOrthonormal env) (layer param : Str) (n parts : Nat) :
    OrthogonalParts n parts (randomMatrix env layer param n (parts * n) n) := by
  constructor
  · intro part hp x hx
    set u := env.svd n (fun a b => env.rand layer param [a, part * n + b]) with hu
    let A : Matrix (Fin n) (Fin n) ℝ := Matrix.of fun i j => u i j
    have hA : A.transpose * A = 1 := by
      ext j k
      rw [Matrix.mul_apply, Matrix.one_apply]
      have := hs n (fun a b => env.rand layer param [a, part * n + b]) j k j.2 k.2
      rw [unitSum_fin] at this
      simpa [A, Fin.ext_iff] using this
    have hA' : A * A.transpose = 1 := mul_eq_one_comm.mp hA
    let v : Fin n → ℝ := fun i => x.getD i 0
    have hdot : ∀ k : Fin n, unitDot (randomMatrix env layer param n (parts * n) n) x (part * n + k) = Matrix.vecMul v A k := by
      intro k
      unfold unitDot
      rw [randomMatrix_part hp k.2, zipDot_fin hx]
      rfl
    rw [unitSum_fin, squares_fin hx]
    calc ∑ i : Fin n, unitDot (randomMatrix env layer param n (parts * n) n) x (part * n + i) ^ 2
        = dotProduct (Matrix.vecMul v A) (Matrix.vecMul v A) := by
          apply Finset.sum_congr rfl
          intro i _
          rw [hdot, pow_two]
      _ = dotProduct (Matrix.vecMul v A) (Matrix.mulVec A.transpose v) := by rw [Matrix.mulVec_transpose]
      _ = dotProduct v v := by
          rw [Matrix.dotProduct_mulVec, Matrix.vecMul_vecMul, hA', Matrix.vecMul_one]
      _ = _ := rfl
  · intro part hp j hj k hk
    rw [randomMatrix_part hp hj, randomMatrix_part hp hk, zipDot_fin (by simp),
      ← hs n (fun a b => env.rand layer param [a, part * n + b]) j k hj hk, unitSum_fin]
    apply Finset.sum_congr rfl
    intro i _
    simp

theorem randomMatrix_square {env : CreateEnv ℝ} (hs : SvdOrthonormal env) (layer param : Str) (n : Nat) :
    OrthogonalParts n 1 (randomMatrix env layer param n n) := by
  have := randomMatrix_orthogonal hs layer param n 1
  rwa [Nat.one_mul] at this

theorem createRecurrent_orthogonal {env : CreateEnv ℝ} (hs : SvdOrthonormal env) {kind : CellKind} {o : LayerOptions} {name : Str}
    {size : Nat} {b : Basic ℝ} (h : createRecurrent env kind o name size = .ok b) :
    OrthogonalCell kind b o.inputSizes.sum size := by
  obtain ⟨_, h2, _, _, h5, _⟩ := createBasic_ok h
  refine ⟨⟨_, (initParams_mem h5).2 (List.mem_cons_of_mem _ List.mem_cons_self), ?_⟩, fun hm => ?_⟩
  · rw [← cellParts_eq]
    exact randomMatrix_orthogonal hs name _ size _
  · refine ⟨randomMatrix env name "layer_input/W".toList o.inputSizes.sum (cellParts kind * size) size,
      hasWeights_of_param ?_, ?_⟩
    · rw [h2]
      exact ((initParams_mem h5).1 List.mem_cons_self).1
    · rw [← cellParts_eq, hm]
      exact randomMatrix_orthogonal hs name _ size _

theorem createSized_orthogonal {env : CreateEnv ℝ} (hs : SvdOrthonormal env) {type : LayerType} {o : LayerOptions} {size : Nat}
    {c : Created ℝ} (h : createSized env type o size = .ok c) :
    c.layer.inputs = o.inputs ∧ OrthogonalWeights o.inputSizes c := by
  unfold createSized at h
  split at h
  · obtain ⟨b, hb, rfl⟩ := createSimple_ok h
    obtain ⟨h1, h2, _, _, h5, _⟩ := createBasic_ok hb
    refine ⟨h1, fun hm => ⟨randomMatrix env o.name "W".toList o.inputSizes.sum size, hasProjection_of_param ?_, ?_⟩⟩
    · rw [h2]
      exact ((initParams_mem h5).1 List.mem_cons_self).1
    · rw [hm]; exact randomMatrix_square hs _ _ _
  · obtain ⟨b, hb, rfl⟩ := createSimple_ok h
    obtain ⟨h1, h2, _, _, h5, _⟩ := createBasic_ok hb
    refine ⟨h1, fun hm => ⟨randomMatrix env o.name "input/W".toList o.inputSizes.sum size, hasWeights_of_param ?_, ?_⟩⟩
    · rw [h2]
      exact ((initParams_mem h5).1 List.mem_cons_self).1
    · rw [hm]; exact randomMatrix_square hs _ _ _
  · obtain ⟨b, hb, rfl⟩ := createSimple_ok h
    exact ⟨(createBasic_ok hb).1, trivial⟩
  · split at h
    · cases h
    · split at h
      · cases h
      · rename_i b hb
        cases h
        exact ⟨(createBasic_ok hb).1, createRecurrent_orthogonal hs hb⟩
  · split at h
    · cases h
    · unfold createBidirectional at h
      simp only at h
      split at h
      · cases h
      · rename_i f hf
        split at h
        · cases h
        · rename_i b hb
          cases h
          exact ⟨(createBasic_ok hf).1, size - size / 2, size / 2, by simp only; omega, createRecurrent_orthogonal hs hf,
            createRecurrent_orthogonal hs hb⟩
  · split at h
    · cases h
    · rename_i hsz
      have hsz : o.inputSizes.sum = size := not_not.mp hsz
      obtain ⟨b, hb, rfl⟩ := createSimple_ok h
      obtain ⟨h1, h2, _, _, h5, _⟩ := createBasic_ok hb
      refine ⟨h1, randomMatrix env o.name "input/W".toList o.inputSizes.sum (2 * size) size, hasWeights_of_param ?_, ?_⟩
      · rw [h2]
        exact ((initParams_mem h5).1 List.mem_cons_self).1
      · rw [hsz]; exact randomMatrix_orthogonal hs _ _ _ _
  · unfold createGlu at h
    split at h
    · cases h
    · split at h
      · split at h
        · cases h
        · obtain ⟨b, hb, rfl⟩ := createSimple_ok h
          exact ⟨(createBasic_ok hb).1, trivial⟩
      · cases h
  · split at h
    · cases h
    · split at h
      · cases h
      · obtain ⟨b, hb, rfl⟩ := createSimple_ok h
        exact ⟨(createBasic_ok hb).1, trivial⟩
  · obtain ⟨b, hb, rfl⟩ := createSimple_ok h
    obtain ⟨h1, h2, _, _, h5, _⟩ := createBasic_ok hb
    refine ⟨h1, fun hm => ⟨randomMatrix env o.name "input/W".toList o.inputSizes.sum size, hasWeights_of_param ?_, ?_⟩⟩
    · rw [h2]
      exact ((initParams_mem h5).1 List.mem_cons_self).1
    · rw [hm]; exact randomMatrix_square hs _ _ _
  · unfold createHSoftmax at h
    split at h
    · cases h
    · rename_i l1 l2 _
      obtain ⟨b, hb, rfl⟩ := createSimple_ok h
      obtain ⟨h1, h2, _, _, h5, _⟩ := createBasic_ok hb
      refine ⟨h1, fun hm => ⟨randomMatrix env o.name "input/W".toList o.inputSizes.sum l1, hasWeights_of_param ?_, ?_⟩⟩
      · rw [h2]
        exact ((initParams_mem h5).1 List.mem_cons_self).1
      · rw [hm]; exact randomMatrix_square hs _ _ _

theorem createLayer_orthogonal {env : CreateEnv ℝ} (hs : SvdOrthonormal env) {o : LayerOptions} {c : Created ℝ}
    (h : createLayer env o = .ok c) : c.layer.inputs = o.inputs ∧ OrthogonalWeights o.inputSizes c := by
  unfold createLayer at h
  split at h
  · cases h
  · split at h
    · cases h
    · split at h
      · cases h
      · exact createSized_orthogonal hs h

/-- C134: in a new network every weight that is a square matrix is orthogonal, however it is divided to devices.  In particular, the
previous hidden state of a recurrent layer contributes to each gate and to the candidate state with the same norm that it has. -/
theorem C134 (env : CreateEnv ℝ) (hs : SvdOrthonormal env) (a : Architecture) (net : CreatedNetwork ℝ)
    (h : createNetwork env a = .ok net) (c : Created ℝ) (hc : c ∈ net.layers) :
    OrthogonalWeights (inputSizesOf net.layers c) c := by
  obtain ⟨k, hc⟩ := List.getElem?_of_mem hc
  obtain ⟨inputs, h1, h2, _⟩ := createNetwork_cases h
  obtain ⟨_, i2, _, i4⟩ := createInputs_trace h1
  obtain ⟨l1, l2, _, l4⟩ := createLayers_trace h2
  simp only [List.length_nil, Nat.zero_add] at i2 i4
  have hk := (List.getElem?_eq_some_iff.mp hc).1
  by_cases hlt : k < a.inputs.length
  · obtain ⟨c', hc', hcd⟩ := i4 k _ (List.getElem?_eq_getElem hlt)
    have e : c = c' := by
      obtain ⟨t, ht⟩ := l1
      rw [← ht, List.getElem?_append_left (by omega), hc'] at hc
      injection hc with hc
      exact hc.symm
    subst e
    rcases (createInput_ok hcd).type with ⟨_, hl, _⟩ | ⟨_, hl, _⟩
    · simp [OrthogonalWeights, hl]
    · simp [OrthogonalWeights, hl]
  · have hk' : k - a.inputs.length < a.layers.length := by omega
    obtain ⟨o, c', hc', ho, hcd⟩ := l4 _ _ (List.getElem?_eq_getElem hk')
    rw [i2, show a.inputs.length + (k - a.inputs.length) = k by omega] at hc' ho
    rw [hc] at hc'
    injection hc' with hc'
    subst hc'
    obtain ⟨m1, m2⟩ := createLayer_orthogonal hs hcd
    obtain ⟨_, ⟨e, names, _, _, o4⟩, o5, _, _⟩ := layerOptions_ok ho
    have hsizes : o.inputSizes = inputSizesOf net.layers c := by
      unfold inputSizesOf
      rw [o5, m1]
      apply List.map_congr_left
      intro i hi
      obtain ⟨name, _, hn⟩ := mapE_mem o4 hi
      have := (findLayer_ok hn).1
      rw [List.length_take] at this
      rw [getElem?_take_size (by omega)]
    rw [← hsizes]
    exact m2

/-- The decomposition of positive diagonal matrices. -/
noncomputable def exOrthEnv : CreateEnv ℝ := { exampleModelEnv with svd := fun _ _ i j => if i = j then 1 else 0 }

/-- The hypothesis of C134 is met. -/
example : SvdOrthonormal exOrthEnv := by
  intro n A j k hj hk
  rw [unitSum_fin]
  simp only [exOrthEnv]
  rw [Finset.sum_eq_single (⟨j, hj⟩ : Fin n)]
  · simp
  · intro b _ hb
    have : (b : Nat) ≠ j := fun e => hb (Fin.ext e)
    simp [this]
  · simp

/-- A network with an LSTM layer of three units, a GRU layer and a highway layer. -/
def exOrthDescription : Architecture where
  inputs := [[("type".toList, .one (.str "word".toList)), ("name".toList, .one (.str "w".toList))]]
  layers := [
    exampleLayer "projection" "p" ["w"] [("size", .one (.int 2))],
    exampleLayer "lstm" "l" ["p"] [("size", .one (.int 3))],
    exampleLayer "gru" "g" ["l"] [],
    exampleLayer "highway" "h" ["g"] [],
    exampleLayer "softmax" "o" ["h"] []]
  outputLayer := .str "o".toList

example : ∃ net, createNetwork exOrthEnv exOrthDescription = .ok net ∧ net.layers.map Created.size = [6, 2, 3, 3, 3, 5] := by
  decide +kernel

end TheanoLM
