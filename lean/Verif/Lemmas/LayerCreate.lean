import Verif.Lemmas.NetworkCreate
import Verif.Props.NetworkCreateSpec
import Verif.Props.RecurrentState
/-!
# Lemmas about the layers created from their options
-/
namespace TheanoLM
set_option linter.unusedSectionVars false

variable {S : Type} [Add S] [Mul S] [Sub S] [Div S] [Zero S] [One S] [Min S]

theorem randomMatrix_shaped (env : CreateEnv S) (layer param : Str) (rows columns : Nat) {width : Nat} :
    Shaped (randomMatrix env layer param rows columns width) columns rows := by
  refine ⟨by simp [randomMatrix], fun w hw => ?_⟩
  obtain ⟨j, _, rfl⟩ := List.mem_map.mp hw
  simp

theorem randomTensor_shaped (env : CreateEnv S) (layer param : Str) (first second third : Nat) :
    (randomTensor env layer param first second third).length = third ∧
      ∀ f ∈ randomTensor env layer param first second third, Shaped f first second := by
  refine ⟨by simp [randomTensor], fun w hw => ?_⟩
  obtain ⟨k, _, rfl⟩ := List.mem_map.mp hw
  refine ⟨by simp, fun v hv => ?_⟩
  obtain ⟨i, _, rfl⟩ := List.mem_map.mp hv
  simp

theorem cellParts_eq (kind : CellKind) : cellParts kind = kind.parts := by cases kind <;> rfl

theorem cellBias_initial (kind : CellKind) (n : Nat) : InitialBias kind n (cellBias kind n : List S) := by
  cases kind with
  | lstm => simp [InitialBias, cellBias, matrixFromValues]
  | gru =>
    simp only [InitialBias, cellBias, matrixFromValues, List.flatMap_cons, List.flatMap_nil, List.append_nil,
      List.replicate_append_replicate]
    congr 1
    omega

theorem InitialBias.length {kind : CellKind} {n : Nat} {bias : List S} (h : InitialBias kind n bias) :
    bias.length = kind.parts * n := by
  cases kind with
  | lstm => rw [h]; simp [CellKind.parts]; omega
  | gru => rw [h]; simp [CellKind.parts]

/-- The fields of a created layer. -/
theorem createBasic_ok {o : LayerOptions} {size : Nat} {weights : List (Bool × Str × List (List S))} {biases : List (Bool × Str × List S)}
    {b : Basic S} (h : createBasic o size weights biases = .ok b) :
    b.inputs = o.inputs ∧ b.devices = o.devices ∧ b.size = size ∧ activationOption o.options = .ok b.activation ∧
      initParams o.devices weights [] = .ok b.weights ∧ initParams o.devices biases [] = .ok b.biases := by
  unfold createBasic at h
  split at h
  · cases h
  · rename_i a ha
    split at h
    · cases h
    · rename_i w hw
      split at h
      · cases h
      · rename_i bs hb
        cases h
        exact ⟨rfl, rfl, rfl, ha, hw, hb⟩

/-- What does not depend on the type of a layer. -/
def BasicsFrom (o : LayerOptions) (c : Created S) : Prop :=
  c.name = o.name ∧ c.layer.inputs = o.inputs ∧ ∀ b ∈ c.layer.basics, b.inputs = o.inputs ∧ b.devices = o.devices ∧
    activationOption o.options = .ok b.activation

theorem createSimple_ok {o : LayerOptions} {size : Nat} {weights : List (Bool × Str × List (List S))} {biases : List (Bool × Str × List S)}
    {make : Basic S → Layer S} {c : Created S} (h : createSimple o size weights biases make = .ok c) :
    ∃ b, createBasic o size weights biases = .ok b ∧ c = ⟨o.name, size, make b⟩ := by
  unfold createSimple at h
  split at h
  · cases h
  · rename_i b hb
    cases h
    exact ⟨b, hb, rfl⟩

theorem createRecurrent_ok {env : CreateEnv S} {kind : CellKind} {o : LayerOptions} {name : Str} {size : Nat} {b : Basic S}
    (h : createRecurrent env kind o name size = .ok b) :
    b.inputs = o.inputs ∧ b.devices = o.devices ∧ activationOption o.options = .ok b.activation ∧
      RecurrentShapes kind b o.inputSizes.sum size := by
  obtain ⟨h1, h2, h3, h4, h5, h6⟩ := createBasic_ok h
  refine ⟨h1, h2, h4, h3, _, _, randomMatrix env name "step_input/W".toList size (cellParts kind * size) size, ⟨hasAffine_of_params (W := randomMatrix env name "layer_input/W".toList o.inputSizes.sum (cellParts kind * size) size) (bias := cellBias kind size) ?_ ?_ ?_, ?_, ?_, ?_, ?_⟩, ?_, ?_, cellBias_initial kind size⟩
  · rw [h2]
    exact ((initParams_mem h5).1 List.mem_cons_self).1
  · rw [h2]
    exact ((initParams_mem h6).1 List.mem_cons_self).1
  · rw [(randomMatrix_shaped env name "layer_input/W".toList o.inputSizes.sum (cellParts kind * size)).1,
      (cellBias_initial kind size).length, cellParts_eq]
  · exact (initParams_mem h5).2 (List.mem_cons_of_mem _ List.mem_cons_self)
  · rw [(randomMatrix_shaped env name _ o.inputSizes.sum (cellParts kind * size)).1, cellParts_eq, h3]
  · rw [(cellBias_initial kind size).length, h3]
  · rw [(randomMatrix_shaped env name _ size (cellParts kind * size)).1, cellParts_eq, h3]
  · rw [← cellParts_eq]; exact randomMatrix_shaped env name _ _ _
  · rw [← cellParts_eq]; exact randomMatrix_shaped env name _ _ _

theorem additionWeights_mem {env : CreateEnv S} {name : Str} {size m : Nat} {ins : List Nat} {i n : Nat} (h : ins[i]? = some n)
    (hn : n ≠ size) :
    (true, "input".toList ++ (toString (m + i)).toList ++ "/W".toList,
      randomMatrix env name ("input".toList ++ (toString (m + i)).toList ++ "/W".toList) n size) ∈
        additionWeights env name size m ins := by
  induction ins generalizing m i with
  | nil => simp at h
  | cons a ins ih =>
    rw [additionWeights]
    cases i with
    | zero =>
      simp only [List.getElem?_cons_zero, Option.some.injEq] at h
      subst h
      rw [if_pos hn]
      exact List.mem_cons_self
    | succ i =>
      have := ih (m := m + 1) (by simpa using h)
      rw [show m + 1 + i = m + (i + 1) by omega] at this
      split
      · exact List.mem_cons_of_mem _ this
      · exact this

theorem hsoftmaxLevels_devices {n size : Nat} {l : Nat × Nat} (h : hsoftmaxLevels n size = .ok l) (hn : n ≠ 0) :
    n = 1 ∧ hsoftmaxLevels 1 size = .ok l := by
  have : n = 1 := by
    unfold hsoftmaxLevels at h
    split at h
    · cases h
    · omega
  subst this
  exact ⟨rfl, h⟩

/-- The layer that is created with the given size. -/
theorem createSized_ok {env : CreateEnv S} {type : LayerType} {o : LayerOptions} {size : Nat} {c : Created S}
    (hp : type = .softmax → ∀ p, env.priorBias = some p → p.length = size)
    (h : createSized env type o size = .ok c) : BasicsFrom o c ∧ c.size = size ∧ ParamShapes env.priorBias o.inputSizes c := by
  unfold createSized at h
  split at h
  · obtain ⟨b, hb, rfl⟩ := createSimple_ok h
    obtain ⟨h1, h2, h3, h4, h5, h6⟩ := createBasic_ok hb
    refine ⟨⟨rfl, h1, by simpa [Layer.basics] using ⟨h1, h2, h4⟩⟩, rfl, h3, randomMatrix env o.name "W".toList o.inputSizes.sum size,
      hasProjection_of_param ?_, randomMatrix_shaped env o.name "W".toList _ _⟩
    rw [h2]
    exact ((initParams_mem h5).1 List.mem_cons_self).1
  · obtain ⟨b, hb, rfl⟩ := createSimple_ok h
    obtain ⟨h1, h2, h3, h4, h5, h6⟩ := createBasic_ok hb
    refine ⟨⟨rfl, h1, by simpa [Layer.basics] using ⟨h1, h2, h4⟩⟩, rfl, h3, randomMatrix env o.name "input/W".toList o.inputSizes.sum size,
      hasAffine_of_params ?_ ?_ ?_, randomMatrix_shaped env o.name "input/W".toList _ _⟩
    · rw [h2]
      exact ((initParams_mem h5).1 List.mem_cons_self).1
    · rw [h2]
      exact ((initParams_mem h6).1 List.mem_cons_self).1
    · rw [(randomMatrix_shaped env o.name "input/W".toList _ _).1, List.length_replicate]
  · obtain ⟨b, hb, rfl⟩ := createSimple_ok h
    obtain ⟨h1, h2, h3, h4, h5, h6⟩ := createBasic_ok hb
    refine ⟨⟨rfl, h1, by simpa [Layer.basics] using ⟨h1, h2, h4⟩⟩, rfl, h3, rfl, fun i n hi hn => ?_⟩
    have := additionWeights_mem (env := env) (name := o.name) (size := size) (m := 0) hi hn
    rw [Nat.zero_add] at this
    refine ⟨randomMatrix env o.name ("input".toList ++ (toString i).toList ++ "/W".toList) n size, hasWeights_of_param ?_,
      randomMatrix_shaped env o.name _ _ _⟩
    rw [h2]
    exact ((initParams_mem h5).1 this).1
  · rename_i kind
    split at h
    · cases h
    · split at h
      · cases h
      · rename_i b hb
        cases h
        obtain ⟨h1, h2, h4, h5⟩ := createRecurrent_ok hb
        exact ⟨⟨rfl, h1, by simpa [Layer.basics] using ⟨h1, h2, h4⟩⟩, rfl, h5⟩
  · rename_i kind
    split at h
    · cases h
    · unfold createBidirectional at h
      simp only at h
      split at h
      · cases h
      · rename_i f hf
        split at h
        · cases h
        · rename_i b hb
          cases h
          obtain ⟨h1, h2, h4, h5⟩ := createRecurrent_ok hf
          obtain ⟨k1, k2, k4, k5⟩ := createRecurrent_ok hb
          exact ⟨⟨rfl, h1, by simpa [Layer.basics] using ⟨⟨h1, h2, h4⟩, ⟨k1, k2, k4⟩⟩⟩, rfl, _, _, (by show size - size / 2 + size / 2 = size; omega), by omega, h5, k5,
            by rw [k1, h1]⟩
  · split at h
    · cases h
    · rename_i hs
      obtain ⟨b, hb, rfl⟩ := createSimple_ok h
      obtain ⟨h1, h2, h3, h4, h5, h6⟩ := createBasic_ok hb
      have hs' : o.inputSizes.sum = size := by simpa using hs
      refine ⟨⟨rfl, h1, by simpa [Layer.basics] using ⟨h1, h2, h4⟩⟩, rfl, h3, hs', randomMatrix env o.name "input/W".toList o.inputSizes.sum (2 * size) size,
        hs' ▸ randomMatrix_shaped env o.name "input/W".toList _ _, hasAffine_of_params ?_ ?_ ?_⟩
      · rw [h2]
        exact ((initParams_mem h5).1 List.mem_cons_self).1
      · rw [h2]
        have := ((initParams_mem h6).1 List.mem_cons_self).1
        simpa [matrixFromValues] using this
      · rw [(randomMatrix_shaped env o.name "input/W".toList _ _).1, List.length_append, List.length_replicate, List.length_replicate]
        show 2 * size = size + size
        omega
  · unfold createGlu at h
    split at h
    · cases h
    · rename_i k hk
      split at h
      · rename_i n hn
        split at h
        · cases h
        · rename_i filters hf
          obtain ⟨b, hb, rfl⟩ := createSimple_ok h
          obtain ⟨h1, h2, h3, h4, h5, h6⟩ := createBasic_ok hb
          refine ⟨⟨rfl, h1, by simpa [Layer.basics] using ⟨h1, h2, h4⟩⟩, rfl, h3, hn, fun hd =>
            ⟨_, hasFilters_of_params (F := randomTensor env o.name "input/W".toList k n (2 * size)) ?_ ?_ hd, randomTensor_shaped env _ _ _ _ _⟩⟩
          · rw [h2]
            exact ((initParams_mem hf).1 List.mem_cons_self).1
          · rw [h2]
            have := ((initParams_mem h6).1 List.mem_cons_self).1
            rw [Nat.mul_comm] at this
            exact this
      · cases h
  · split at h
    · cases h
    · rename_i scale hsc
      split at h
      · cases h
      · rename_i hs
        obtain ⟨b, hb, rfl⟩ := createSimple_ok h
        obtain ⟨h1, h2, h3, h4, h5, h6⟩ := createBasic_ok hb
        exact ⟨⟨rfl, h1, by simpa [Layer.basics] using ⟨h1, h2, h4⟩⟩, rfl, h3, by simpa using hs⟩
  · obtain ⟨b, hb, rfl⟩ := createSimple_ok h
    obtain ⟨h1, h2, h3, h4, h5, h6⟩ := createBasic_ok hb
    refine ⟨⟨rfl, h1, by simpa [Layer.basics] using ⟨h1, h2, h4⟩⟩, rfl, h3, randomMatrix env o.name "input/W".toList o.inputSizes.sum size,
      hasAffine_of_params ?_ ?_ ?_, randomMatrix_shaped env o.name "input/W".toList _ _⟩
    · rw [h2]
      exact ((initParams_mem h5).1 List.mem_cons_self).1
    · rw [h2]
      exact ((initParams_mem h6).1 List.mem_cons_self).1
    · rw [(randomMatrix_shaped env o.name "input/W".toList _ _).1]
      cases hpr : env.priorBias with
      | none => simp
      | some p => simpa using (hp rfl p hpr).symm
  · unfold createHSoftmax at h
    split at h
    · cases h
    · rename_i l1 l2 hl
      obtain ⟨b, hb, rfl⟩ := createSimple_ok h
      obtain ⟨h1, h2, h3, h4, h5, h6⟩ := createBasic_ok hb
      have hd := ((initParams_mem h5).1 List.mem_cons_self).1
      have hlev := hsoftmaxLevels_devices hl (by simpa using hd.1)
      refine ⟨⟨rfl, h1, by simpa [Layer.basics] using ⟨h1, h2, h4⟩⟩, rfl, h3, hlev.2, by simp, fun w hw => ?_, rfl,
        randomMatrix env o.name "input/W".toList o.inputSizes.sum l1, hasAffine_of_params ?_ ?_ ?_, randomMatrix_shaped env o.name "input/W".toList _ _⟩
      · obtain ⟨i, _, rfl⟩ := List.mem_map.mp hw
        refine ⟨by simp, fun v hv => ?_⟩
        obtain ⟨k, _, rfl⟩ := List.mem_map.mp hv
        simp
      · rw [h2]
        exact hd
      · rw [h2]
        exact ((initParams_mem h6).1 List.mem_cons_self).1
      · rw [(randomMatrix_shaped env o.name "input/W".toList _ _).1, List.length_replicate]

end TheanoLM
