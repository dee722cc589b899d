import Verif.Lemmas.RecurrentEquations
import Verif.Props.Network
/-!
# C79: every layer computes its documented function

The theorems are about the outputs of the layers of a network in the positions of a mini-batch.  The output of layer `k` is given unit
by unit as a function of the outputs of its input layers (in the same position, or in the other time steps for the layers that read
several time steps).  The parameters are those of the whole layer, however they have been divided to devices.
-/
set_option linter.unusedSectionVars false
namespace TheanoLM

section
variable {S : Type} [Add S] [Mul S] [Sub S] [Div S] [Zero S] [One S]
variable {act : Act S} {opts : EvalOptions} {layers : List (Layer S)} {n k : Nat} {batch : List (List InputCell)}
  {out : List (List (Entry S))}

/-- The output of a layer that reads one position. -/
theorem point_at {layer : Layer S} (hn : Rect n batch) (h : evalNetwork act opts layers batch = .ok out) (hk : layers[k]? = some layer)
    (hl : ∀ g, evalLayer act opts layer k g = pointRows (pointFun act opts layer k) 0 g) {t s : Nat} {e : Entry S}
    (he : posAt out t s = some e) :
    ∃ x, pointFun act opts layer k t s (e.cell, layer.inputs.map fun i => (e.outs.take k)[i]?) = .ok x ∧ e.outs[k]? = some x := by
  obtain ⟨g, outs, h1, _, _, _, h5⟩ := evalNetwork_layer hn h hk
  rw [hl] at h1
  obtain ⟨e1, _, e3⟩ := h5 t s e he
  obtain ⟨x, hx1, hx2⟩ := pointRows_posAt h1 e3
  exact ⟨x, hx1, by rw [e1, hx2]⟩

/-- Network input: the word or class ID of the position. -/
theorem C79_input {classes : Bool} (hn : Rect n batch) (h : evalNetwork act opts layers batch = .ok out)
    (hk : layers[k]? = some (if classes then .classInput else .wordInput)) {t s : Nat} {e : Entry S} (he : posAt out t s = some e) :
    e.outs[k]? = some (.id (if classes then e.cell.cls else e.cell.word)) ∧ posAt batch t s = some e.cell := by
  have hpos : posAt batch t s = some e.cell := by
    have hn' : Rect n (batch.map fun row => row.map fun c => (⟨c, []⟩ : Entry S)) := by
      intro row hrow
      obtain ⟨r, hr, rfl⟩ := List.mem_map.mp hrow
      rw [List.length_map]
      exact hn r hr
    obtain ⟨e0, h0, hc, _⟩ := (evalLayers_extends hn' h).2.2 t s e he
    obtain ⟨row, r1, r2⟩ := posAt_some.mp h0
    rw [List.getElem?_map] at r1
    cases hb : batch[t]? with
    | none => rw [hb] at r1; cases r1
    | some brow =>
      rw [hb] at r1
      simp only [Option.map_some, Option.some.injEq] at r1
      subst r1
      rw [List.getElem?_map] at r2
      cases hc' : brow[s]? with
      | none => rw [hc'] at r2; cases r2
      | some c =>
        rw [hc'] at r2
        simp only [Option.map_some, Option.some.injEq] at r2
        subst r2
        exact posAt_some.mpr ⟨brow, hb, by rw [hc', ← hc]⟩
  refine ⟨?_, hpos⟩
  cases classes with
  | true =>
    obtain ⟨x, h1, h2⟩ := point_at hn h hk (fun g => rfl) he
    injection h1 with h1
    rw [h2, ← h1]
    rfl
  | false =>
    obtain ⟨x, h1, h2⟩ := point_at hn h hk (fun g => rfl) he
    injection h1 with h1
    rw [h2, ← h1]
    rfl

/-- Projection layer: the row of the projection matrix. -/
theorem C79_projection {b : Basic S} {W : List (List S)} {i : Nat} (hp : HasProjection b W) (hi : b.inputs = [i]) (hn : Rect n batch)
    (h : evalNetwork act opts layers batch = .ok out) (hk : layers[k]? = some (.projection b)) {t s : Nat} {e : Entry S}
    (he : posAt out t s = some e) :
    ∃ id y, e.outs[i]? = some (.id id) ∧ e.outs[k]? = some (.vec y) ∧ y.length = W.length ∧
      ∀ j < W.length, y[j]? = (W.getD j [])[id]? := by
  obtain ⟨x, h1, h2⟩ := point_at hn h hk (fun g => rfl) he
  simp only [Layer.inputs, hi, List.map_cons, List.map_nil, pointFun, pointElem, Option.getD_some] at h1
  obtain ⟨parts, hparts, rfl⟩ := hp
  rw [List.getElem?_take] at h1
  by_cases hik : i < k
  · rw [if_pos hik] at h1
    cases ho : e.outs[i]? with
    | none => rw [ho] at h1; cases h1
    | some el =>
      rw [ho] at h1
      cases el with
      | vec _ => cases h1
      | probs _ => cases h1
      | id id =>
        simp only [projectionElem] at h1
        cases hm : mapE (projectDevice b id) b.devices with
        | error e => rw [hm] at h1; cases h1
        | ok rows =>
          rw [hm] at h1
          injection h1 with h1
          subst h1
          have hrows : List.Forall₂ (fun part row => mapE (fun column => indexE column id) part = .ok row) parts rows := by
            have hf := mapE_ok hm
            clear * - hf hparts
            generalize b.devices = ds at hf hparts
            induction hparts generalizing rows with
            | nil => cases hf; exact .nil
            | cons hd _ ih =>
              cases hf with
              | cons hd' tl' =>
                refine .cons ?_ (ih _ tl')
                unfold projectDevice at hd'
                rw [hd] at hd'
                exact hd'
          have hall : mapE (fun column => indexE column id) parts.flatten = .ok rows.flatten := by
            clear hm h2 hparts
            induction hrows with
            | nil => rfl
            | cons hd _ ih =>
              rw [List.flatten_cons, List.flatten_cons]
              apply mapE_forall₂
              exact List.rel_append (mapE_ok hd) (mapE_ok ih)
          refine ⟨id, rows.flatten, rfl, h2, mapE_length hall, fun j hj => ?_⟩
          have := mapE_getElem? hall j
          rw [this, List.getElem?_eq_getElem hj]
          simp only [Option.bind_some]
          have hj' : j < rows.flatten.length := by rw [mapE_length hall]; exact hj
          rw [List.getElem?_eq_getElem hj', List.getElem?_eq_getElem hj] at this
          simp only [Option.bind_some] at this
          rw [List.getD_eq_getElem?_getD, List.getElem?_eq_getElem hj]
          simp only [Option.getD_some]
          unfold indexE
          cases parts.flatten[j][id]? <;> rfl
  · rw [if_neg hik] at h1
    cases h1

/-- Fully connected layer. -/
theorem C79_fully_connected {b : Basic S} {W : List (List S)} {bias : List S} (hp : HasAffine b "input".toList W bias)
    (hW : W.length = b.size) (hb : bias.length = b.size) (hn : Rect n batch)
    (h : evalNetwork act opts layers batch = .ok out) (hk : layers[k]? = some (.fullyConnected b)) {t s : Nat} {e : Entry S}
    (he : posAt out t s = some e) :
    ∃ xs y, LayerInputs e b.inputs xs ∧ e.outs[k]? = some (.vec y) ∧
      Units b.size y fun j => activationFun act b.activation (unitPreact W bias xs.flatten j) := by
  obtain ⟨x, h1, h2⟩ := point_at hn h hk (fun g => rfl) he
  simp only [Layer.inputs, pointFun, pointElem, Option.getD_some, fullyConnectedElem, inputPreact] at h1
  cases hc : concatInputs (b.inputs.map fun i => (e.outs.take k)[i]?) with
  | error e => rw [hc] at h1; cases h1
  | ok v =>
    rw [hc] at h1
    simp only at h1
    rw [tensorPreact_affine hp] at h1
    injection h1 with h1
    subst h1
    obtain ⟨xs, h3, rfl⟩ := concatInputs_vectors hc
    exact ⟨xs, _, layerInputs_of_vectors h3, h2, by rw [activationFun_eq]; exact (preact_units hW hb _).map _⟩

/-- Highway layer: the transform gate weights the transformed input, the rest of the weight is on the input. -/
theorem C79_highway {b : Basic S} {W : List (List S)} {bias : List S} (hp : HasAffine b "input".toList W bias)
    (hW : W.length = 2 * b.size) (hb : bias.length = 2 * b.size) (hn : Rect n batch)
    (h : evalNetwork act opts layers batch = .ok out) (hk : layers[k]? = some (.highway b)) {t s : Nat} {e : Entry S}
    (he : posAt out t s = some e) :
    ∃ xs y, LayerInputs e b.inputs xs ∧ e.outs[k]? = some (.vec y) ∧ (xs.flatten.length = b.size →
      Units b.size y fun j =>
        let transform := act.sigmoid (unitPreact W bias xs.flatten (b.size + j))
        activationFun act b.activation (unitPreact W bias xs.flatten j) * transform + xs.flatten.getD j 0 * (1 - transform)) := by
  obtain ⟨x, h1, h2⟩ := point_at hn h hk (fun g => rfl) he
  simp only [Layer.inputs, pointFun, pointElem, Option.getD_some, highwayElem] at h1
  cases hc : concatInputs (b.inputs.map fun i => (e.outs.take k)[i]?) with
  | error e => rw [hc] at h1; cases h1
  | ok v =>
    rw [hc] at h1
    simp only at h1
    rw [tensorPreact_affine hp] at h1
    injection h1 with h1
    subst h1
    obtain ⟨xs, h3, rfl⟩ := concatInputs_vectors hc
    refine ⟨xs, _, layerInputs_of_vectors h3, h2, fun hx => ?_⟩
    rw [activationFun_eq]
    have hu := preact_units hW hb xs.flatten
    have hh := (submatrix_units (i := 0) (n := b.size) hu (by omega)).map (applyActivation act b.activation)
    have ht := (submatrix_units (i := 1) (n := b.size) hu (by omega)).map act.sigmoid
    refine ((hh.zip ht (· * ·)).zip ((units_self hx).zip (ht.map fun v => 1 - v) (· * ·)) (· + ·)).congr fun j hj => ?_
    simp only [Nat.zero_mul, Nat.zero_add, Nat.one_mul]

/-- Dropout layer: in training the dropped units are zero and the others are scaled, otherwise the input is not changed. -/
theorem C79_dropout {b : Basic S} {scale : S} (hn : Rect n batch)
    (h : evalNetwork act opts layers batch = .ok out) (hk : layers[k]? = some (.dropout b scale)) {t s : Nat} {e : Entry S}
    (he : posAt out t s = some e) :
    ∃ xs y, LayerInputs e b.inputs xs ∧ e.outs[k]? = some (.vec y) ∧ (opts.training = false → y = xs.flatten) ∧
      (opts.training = true → (opts.keep k t s).length = xs.flatten.length →
        Units xs.flatten.length y fun j => xs.flatten.getD j 0 * scale * (if (opts.keep k t s).getD j false then 1 else 0)) := by
  obtain ⟨x, h1, h2⟩ := point_at hn h hk (fun g => rfl) he
  simp only [Layer.inputs, pointFun, pointElem, Option.getD_some, dropoutElem] at h1
  cases hc : concatInputs (b.inputs.map fun i => (e.outs.take k)[i]?) with
  | error e => rw [hc] at h1; cases h1
  | ok v =>
    rw [hc] at h1
    simp only at h1
    obtain ⟨xs, h3, rfl⟩ := concatInputs_vectors hc
    cases ht : opts.training with
    | false =>
      rw [ht, if_neg (by simp)] at h1
      injection h1 with h1
      subst h1
      exact ⟨xs, _, layerInputs_of_vectors h3, h2, fun _ => rfl, fun h => by cases h⟩
    | true =>
      rw [ht, if_pos rfl] at h1
      injection h1 with h1
      subst h1
      refine ⟨xs, _, layerInputs_of_vectors h3, h2, fun h => by (cases h), fun _ hl => ⟨by simp [hl], fun j hj => ?_⟩⟩
      have h1 : xs.flatten[j]? = some xs.flatten[j] := List.getElem?_eq_getElem hj
      have h2 : (opts.keep k t s)[j]? = some (opts.keep k t s)[j] := List.getElem?_eq_getElem (by omega)
      rw [List.getElem?_zipWith, h1, h2]
      simp [List.getD, h1, h2]

/-- Addition layer: the sum of the inputs, those of another size being first transformed linearly to the size of the layer. -/
theorem C79_addition {b : Basic S} {sizes : List Nat} {V : Nat → List (List S)} (hlen : sizes.length = b.inputs.length)
    (hV : ∀ (m sz : Nat), sizes[m]? = some sz → sz ≠ b.size →
      HasWeights b ("input".toList ++ (toString m).toList) (V m) ∧ (V m).length = b.size) (hn : Rect n batch)
    (h : evalNetwork act opts layers batch = .ok out) (hk : layers[k]? = some (.addition b sizes)) {t s : Nat} {e : Entry S}
    (he : posAt out t s = some e) :
    ∃ xs y, LayerInputs e b.inputs xs ∧ e.outs[k]? = some (.vec y) ∧ xs ≠ [] ∧ (xs.map List.length = sizes →
      Units b.size y fun j => leftSum (fun m => if sizes.getD m 0 = b.size then (xs.getD m []).getD j 0
        else unitDot (V m) (xs.getD m []) j) (xs.length - 1)) := by
  obtain ⟨x, h1, h2⟩ := point_at hn h hk (fun g => rfl) he
  simp only [Layer.inputs, pointFun, pointElem, Option.getD_some, additionElem] at h1
  cases hl : additionLoop b 0 ((b.inputs.map fun i => (e.outs.take k)[i]?).zip sizes) none with
  | error err => rw [hl] at h1; cases h1
  | ok r =>
    rw [hl] at h1
    cases r with
    | none => cases h1
    | some y =>
      injection h1 with h1
      subst h1
      obtain ⟨xs, hxs⟩ := additionInputs_vectors (by rw [List.length_map]; exact hlen) hl
      have hxlen : xs.length = sizes.length := by
        have := congrArg List.length hxs
        rw [List.length_map, List.length_map] at this
        omega
      refine ⟨xs, y, layerInputs_of_vectors hxs, h2, ?_, fun hx => ?_⟩
      · rintro rfl
        unfold InputVectors at hxs
        rw [hxs, List.map_nil, List.zip_nil_left, additionLoop] at hl
        cases hl
      · unfold InputVectors at hxs
        rw [hxs] at hl
        have := additionLoop_ok (b := b) (V := V) (xs := xs) (sizes := sizes) 0
          (fun m j => if sizes.getD m 0 = b.size then (xs.getD m []).getD j 0 else unitDot (V m) (xs.getD m []) j) hxlen.symm
          (fun i sz hi hne => by rw [Nat.zero_add]; exact hV i sz hi hne)
          (fun i sz x hi hxi => by
            rw [← hx, List.getElem?_map, hxi] at hi
            simpa using hi)
          (fun i sz x hi hxi j => by
            simp only [Nat.zero_add, List.getD_eq_getElem?_getD, hi, hxi, Option.getD_some])
          (fun y h => by cases h) (fun _ => rfl) hl y rfl
        rw [Nat.zero_add] at this
        exact this.2

/-- Recurrent layer.  Every sequence has a state that is zero before the first time step; a time step that is not masked makes a
transition of the cell with the weighted input of the time step, a masked one leaves the state as it is; the output is the hidden
state. -/
theorem C79_recurrent {kind : CellKind} {b : Basic S} {W U : List (List S)} {bias : List S} (hp : RecurrentParams kind b W bias U)
    (hn : Rect n batch) (h : evalNetwork act opts layers batch = .ok out) (hk : layers[k]? = some (.recurrent kind b)) :
    ∃ (X : Nat → Nat → List (List S)) (st : Nat → Nat → SeqState S), (∀ s, ZeroState kind b.size (st 0 s)) ∧
      ∀ t s e, posAt out t s = some e → LayerInputs e b.inputs (X t s) ∧ e.outs[k]? = some (.vec (st (t + 1) s).h) ∧
        (e.cell.mask = true → CellTransition act kind b U (unitPreact W bias (X t s).flatten) (st t s) (st (t + 1) s)) ∧
        (e.cell.mask = false → st (t + 1) s = st t s) := by
  obtain ⟨g, outs, h1, h2, _, _, h5⟩ := evalNetwork_layer hn h hk
  unfold evalLayer at h1
  simp only at h1
  cases hr : recurrentLayer act kind b false g with
  | error err => rw [hr] at h1; cases h1
  | ok sts =>
    rw [hr] at h1
    injection h1 with h1
    subst h1
    obtain ⟨X, st, hX, h0, hst⟩ := recurrentLayer_forward hp h2 hr
    refine ⟨X, st, h0, fun t s e he => ?_⟩
    obtain ⟨e1, _, e3⟩ := h5 t s e he
    obtain ⟨s1, s2, s3⟩ := hst t s _ e3
    refine ⟨layerInputs_of_vectors (hX t s _ e3), ?_, s2, s3⟩
    rw [e1]
    obtain ⟨row, r1, r2⟩ := posAt_some.mp s1
    refine posAt_some.mpr ⟨hiddenOutput row, by rw [List.getElem?_map, r1]; rfl, ?_⟩
    unfold hiddenOutput
    rw [List.getElem?_map, r2]
    rfl

/-- Bidirectional layer.  The forward states are those of a recurrent layer.  The backward states start from zero after the last time
step; at time step `t` the weighted input is that of time step `t + 2`, or zero (without bias) if there is no such time step.  The
output is the hidden state of the forward layer after the time step followed by that of the backward layer. -/
theorem C79_bidirectional {kind : CellKind} {bf bb : Basic S} {Wf Uf Wb Ub : List (List S)} {biasf biasb : List S}
    (hf : RecurrentParams kind bf Wf biasf Uf) (hb : RecurrentParams kind bb Wb biasb Ub)
    (hn : Rect n batch) (h : evalNetwork act opts layers batch = .ok out) (hk : layers[k]? = some (.bidirectional kind bf bb)) :
    ∃ (X : Nat → Nat → List (List S)) (f r : Nat → Nat → SeqState S), (∀ s, ZeroState kind bf.size (f 0 s)) ∧
      (∀ s, ZeroState kind bb.size (r out.length s)) ∧
      ∀ t s e, posAt out t s = some e → LayerInputs e bf.inputs (X t s) ∧
        e.outs[k]? = some (.vec ((f (t + 1) s).h ++ (r t s).h)) ∧
        (e.cell.mask = true → CellTransition act kind bf Uf (unitPreact Wf biasf (X t s).flatten) (f t s) (f (t + 1) s) ∧
          CellTransition act kind bb Ub (if t + 2 < out.length then unitPreact Wb biasb (X (t + 2) s).flatten else fun _ => 0)
            (r (t + 1) s) (r t s)) ∧
        (e.cell.mask = false → f (t + 1) s = f t s ∧ r t s = r (t + 1) s) := by
  obtain ⟨g, outs, h1, h2, hro, hlen, h5⟩ := evalNetwork_layer hn h hk
  unfold evalLayer at h1
  simp only at h1
  cases hrf : recurrentLayer act kind bf false g with
  | error err => rw [hrf] at h1; cases h1
  | ok fs =>
    rw [hrf] at h1
    simp only at h1
    cases hrb : recurrentLayer act kind bb true g with
    | error err => rw [hrb] at h1; cases h1
    | ok bs =>
      rw [hrb] at h1
      injection h1 with h1
      subst h1
      obtain ⟨X, f, hX, hf0, hfs⟩ := recurrentLayer_forward hf h2 hrf
      obtain ⟨X', r, hX', hr0, hrs⟩ := recurrentLayer_backward hb h2 hrb
      rw [hlen] at hr0
      refine ⟨X, f, r, hf0, hr0, fun t s e he => ?_⟩
      obtain ⟨e1, _, e3⟩ := h5 t s e he
      obtain ⟨s1, s2, s3⟩ := hfs t s _ e3
      obtain ⟨s4, s5, s6⟩ := hrs t s _ e3
      refine ⟨layerInputs_of_vectors (hX t s _ e3), ?_, fun hm => ⟨s2 hm, ?_⟩, fun hm => ⟨s3 hm, s6 hm⟩⟩
      · rw [e1]
        obtain ⟨row, r1, r2⟩ := posAt_some.mp s1
        obtain ⟨row', r3, r4⟩ := posAt_some.mp s4
        refine posAt_some.mpr ⟨_, by rw [List.getElem?_zipWith, r1, r3], ?_⟩
        rw [List.getElem?_zipWith, r2, r4]
      · have := s5 hm
        rw [hlen] at this
        by_cases hlt : t + 2 < out.length
        · rw [if_pos hlt] at this ⊢
          have hdef := (posAt_isSome h2 t s).mp (by rw [e3]; rfl)
          obtain ⟨p2, hp2⟩ := Option.isSome_iff_exists.mp ((posAt_isSome h2 (t + 2) s).mpr ⟨by omega, hdef.2⟩)
          have ex : X (t + 2) s = X' (t + 2) s := by
            have a1 : InputVectors p2.2 (X (t + 2) s) := hX (t + 2) s p2 hp2
            have a2 : InputVectors p2.2 (X' (t + 2) s) := hX' (t + 2) s p2 hp2
            unfold InputVectors at a1 a2
            rw [a1] at a2
            exact List.map_injective_iff.mpr (fun x y hxy => by simpa using hxy) a2
          rw [ex]
          exact this
        · rw [if_neg hlt] at this ⊢
          exact this

/-- Softmax layer: the exponentials divided by their sum; the exponential of the class of `<unk>` is zero if `<unk>` is excluded. -/
theorem C79_softmax {b : Basic S} {unkClass : Nat} {W : List (List S)} {bias : List S} (hp : HasAffine b "input".toList W bias)
    (hW : W.length = b.size) (hb : bias.length = b.size) (hn : Rect n batch)
    (h : evalNetwork act opts layers batch = .ok out) (hk : layers[k]? = some (.softmax b unkClass)) {t s : Nat} {e : Entry S}
    (he : posAt out t s = some e) :
    ∃ xs y, LayerInputs e b.inputs xs ∧ e.outs[k]? = some (.probs y) ∧ Units b.size y fun j =>
      let E := fun j => if opts.excludeUnk = true ∧ j = unkClass then 0 else act.exp (unitPreact W bias xs.flatten j)
      E j / unitSum b.size E := by
  obtain ⟨x, h1, h2⟩ := point_at hn h hk (fun g => rfl) he
  simp only [Layer.inputs, pointFun, pointElem, Option.getD_some, softmaxElem] at h1
  cases hc : concatInputs (b.inputs.map fun i => (e.outs.take k)[i]?) with
  | error e => rw [hc] at h1; cases h1
  | ok v =>
    rw [hc] at h1
    simp only at h1
    rw [tensorPreact_affine hp] at h1
    simp only at h1
    obtain ⟨xs, h3, rfl⟩ := concatInputs_vectors hc
    split at h1
    · cases h1
    · split at h1
      · cases h1
      · injection h1 with h1
        subst h1
        refine ⟨xs, _, layerInputs_of_vectors h3, h2, ?_⟩
        have hu := preact_units hW hb xs.flatten
        generalize (List.zipWith (fun w c => (List.zipWith (· * ·) xs.flatten w).sum + c) W bias) = z at hu
        have hE : Units b.size (softmaxExps act opts.excludeUnk unkClass z) fun j =>
            if opts.excludeUnk = true ∧ j = unkClass then 0 else act.exp (unitPreact W bias xs.flatten j) := by
          unfold softmaxExps
          refine ⟨by rw [List.length_mapIdx]; exact hu.1, fun j hj => ?_⟩
          rw [List.getElem?_mapIdx, hu.2 j hj]
          simp only [Option.map_some, Bool.and_eq_true, beq_iff_eq]
        have hsum : (softmaxExps act opts.excludeUnk unkClass z) = (List.range b.size).map fun j =>
            if opts.excludeUnk = true ∧ j = unkClass then 0 else act.exp (unitPreact W bias xs.flatten j) := by
          apply List.ext_getElem?
          intro j
          rw [List.getElem?_map]
          by_cases hj : j < b.size
          · rw [hE.2 j hj, List.getElem?_range hj]
            rfl
          · rw [List.getElem?_eq_none (by rw [hE.1]; omega), List.getElem?_eq_none (by simpa using hj)]
            rfl
        unfold normalize unitSum
        have := hE.map (· / (softmaxExps act opts.excludeUnk unkClass z).sum)
        simp only
        rw [← hsum]
        exact this

/-- Gated linear unit layer: the convolution of the last `filterSize` time steps, those before the first time step being zero, each
linear unit being multiplied by its gate. -/
theorem C79_glu {b : Basic S} {filterSize inputSize : Nat} {filters : ParamDict (List (List S))} {F : List (List (List S))}
    {bias : List S} (hp : HasFilters b filters F bias) (hF : F.length = 2 * b.size) (hb : bias.length = 2 * b.size) (hn : Rect n batch)
    (h : evalNetwork act opts layers batch = .ok out) (hk : layers[k]? = some (.glu b filterSize inputSize filters)) :
    ∃ X : Nat → Nat → List S, ∀ t s e, posAt out t s = some e → LayerInputs e b.inputs [X t s] ∧
      ∃ region y, region.length = filterSize ∧
        (∀ i < filterSize, region[i]? =
          some (if t + i + 1 < filterSize then List.replicate inputSize 0 else X (t + i + 1 - filterSize) s)) ∧
        e.outs[k]? = some (.vec y) ∧
        Units b.size y fun j => unitConv F bias region j * act.sigmoid (unitConv F bias region (b.size + j)) := by
  obtain ⟨g, outs, h1, h2, _, hlen, h5⟩ := evalNetwork_layer hn h hk
  unfold evalLayer at h1
  simp only at h1
  obtain ⟨X, hX⟩ := gluLayer_at hp hF hb h2 h1
  refine ⟨X, fun t s e he => ?_⟩
  obtain ⟨e1, _, e3⟩ := h5 t s e he
  obtain ⟨x1, region, y, x2, x3, x4, x5⟩ := hX t s _ e3
  exact ⟨layerInputs_of_vectors (by unfold InputVectors; exact x1), region, y, x2, x3, by rw [e1, x4], x5⟩

/-- Hierarchical softmax layer: the class with number `i · level2Size + j` has the product of the probability of branch `i` on the first
level and the probability of `j` on the second level under that branch. -/
theorem C79_hsoftmax {b : Basic S} {l1 l2 : Nat} {W : List (List S)} {bias : List S} {Ws : List (List (List S))} {biases : List (List S)}
    (hp : getParam "input/W".toList none b.weights = .ok W) (hpb : getParam "input/b".toList none b.biases = .ok bias)
    (hW : W.length = l1) (hb : bias.length = l1) (hWs : Ws.length = l1) (hbs : biases.length = l1)
    (hWr : ∀ w ∈ Ws, w.length = l2) (hbr : ∀ w ∈ biases, w.length = l2) (hn : Rect n batch)
    (h : evalNetwork act opts layers batch = .ok out) (hk : layers[k]? = some (.hsoftmax b l1 l2 Ws biases)) {t s : Nat} {e : Entry S}
    (he : posAt out t s = some e) :
    ∃ xs y, LayerInputs e b.inputs xs ∧ e.outs[k]? = some (.probs y) ∧ y.length = min b.size (l1 * l2) ∧
      ∀ i < l1, ∀ j < l2, i * l2 + j < b.size → y[i * l2 + j]? = some (
        let E1 := fun i => act.exp (unitPreact W bias xs.flatten i)
        let E2 := fun j => act.exp (unitPreact (Ws.getD i []) (biases.getD i []) xs.flatten j)
        E1 i / unitSum l1 E1 * (E2 j / unitSum l2 E2)) := by
  obtain ⟨x, h1, h2⟩ := point_at hn h hk (fun g => rfl) he
  simp only [Layer.inputs, pointFun, pointElem, Option.getD_some, hsoftmaxElem] at h1
  cases hc : concatInputs (b.inputs.map fun i => (e.outs.take k)[i]?) with
  | error e => rw [hc] at h1; cases h1
  | ok v =>
    rw [hc] at h1
    simp only at h1
    rw [hp] at h1
    simp only at h1
    rw [hpb] at h1
    injection h1 with h1
    subst h1
    obtain ⟨xs, h3, rfl⟩ := concatInputs_vectors hc
    refine ⟨xs, _, layerInputs_of_vectors h3, h2, ?_⟩
    have hn1 : Units l1 (level1Probs act W bias xs.flatten) _ := softmax_units act hW hb xs.flatten
    have hn2 : (level2Probs act Ws biases xs.flatten).length = l1 := by
      unfold level2Probs
      rw [List.length_zipWith, hWs, hbs, Nat.min_self]
    have hrow : ∀ i < l1, ∃ row, (level2Probs act Ws biases xs.flatten)[i]? = some row ∧ Units l2 row fun j =>
        act.exp (unitPreact (Ws.getD i []) (biases.getD i []) xs.flatten j) /
          unitSum l2 fun j => act.exp (unitPreact (Ws.getD i []) (biases.getD i []) xs.flatten j) := by
      intro i hi
      have e1 : Ws[i]? = some Ws[i] := List.getElem?_eq_getElem (by omega)
      have e2 : biases[i]? = some biases[i] := List.getElem?_eq_getElem (by omega)
      refine ⟨_, by unfold level2Probs; rw [List.getElem?_zipWith, e1, e2], ?_⟩
      rw [List.getD_eq_getElem?_getD, List.getD_eq_getElem?_getD, e1, e2]
      exact softmax_units act (hWr _ (List.getElem_mem _)) (hbr _ (List.getElem_mem _)) xs.flatten
    unfold hierarchicalProbs
    have hlens : ∀ r ∈ List.zipWith (fun p row => row.map (p * ·)) (level1Probs act W bias xs.flatten)
        (level2Probs act Ws biases xs.flatten), r.length = l2 := by
      intro r hr
      obtain ⟨p, _, row, hrow', rfl⟩ := mem_zipWith hr
      rw [List.length_map]
      obtain ⟨i, hi⟩ := List.getElem?_of_mem hrow'
      have hi' := (List.getElem?_eq_some_iff.mp hi).1
      obtain ⟨row2, r1, r2⟩ := hrow i (by omega)
      rw [hi] at r1
      injection r1 with r1
      rw [r1]
      exact r2.1
    have hflat := flatten_const_length hlens
    rw [List.length_zipWith, hn1.1, hn2, Nat.min_self] at hflat
    refine ⟨by rw [List.length_take, hflat], fun i hi j hj hij => ?_⟩
    obtain ⟨row, r1, r2⟩ := hrow i hi
    rw [List.getElem?_take, if_pos hij, flatten_const_getElem? hlens hj, List.getElem?_zipWith, hn1.2 i hi, r1]
    simp only [Option.bind_some]
    rw [List.getElem?_map, r2.2 j hj]
    rfl

end

/-! The hypotheses are met by the layers of `exampleForward` and `exampleBidirectional` (Props/Network.lean), which can be evaluated. -/

/-- Undivided parameters. -/
theorem hasAffine_undivided {S : Type} [Add S] [Mul S] [Zero S] {b : Basic S} {name : Str} {W : List (List S)} {bias : List S}
    (hd : b.devices = [none]) (h1 : getParam (name ++ "/W".toList) none b.weights = .ok W)
    (h2 : getParam (name ++ "/b".toList) none b.biases = .ok bias) (hl : W.length = bias.length) : HasAffine b name W bias :=
  ⟨[(W, bias)], by rw [hd]; exact .cons ⟨h1, h2, hl⟩ .nil, by simp, by simp, by rw [hd]; simp⟩

example : ∃ b : Basic ℚ, (exampleForward true)[2]? = some (.recurrent .lstm b) ∧
    RecurrentParams .lstm b [[1], [2], [3], [4]] [0, 1, 0, 1] [[1], [-1], [2], [1]] :=
  ⟨_, rfl, hasAffine_undivided rfl rfl rfl rfl, rfl, rfl, rfl, rfl⟩

example : ∃ b : Basic ℚ, (exampleForward true)[3]? = some (.recurrent .gru b) ∧
    RecurrentParams .gru b [[1, 0], [2, 1], [3, 1]] [0, 1, 0] [[1], [-1], [2]] :=
  ⟨_, rfl, hasAffine_undivided rfl rfl rfl rfl, rfl, rfl, rfl, rfl⟩

example : ∃ b : Basic ℚ, (exampleForward true)[1]? = some (.projection b) ∧ HasProjection b [[1, 2, -1]] ∧ b.inputs = [0] :=
  ⟨_, rfl, ⟨[[[1, 2, -1]]], .cons rfl .nil, rfl⟩, rfl⟩

example : ∃ b : Basic ℚ, (exampleForward true)[4]? = some (.highway b) ∧ HasAffine b "input".toList [[2], [1]] [1, -1] :=
  ⟨_, rfl, hasAffine_undivided rfl rfl rfl rfl⟩

example : ∃ b : Basic ℚ, (exampleForward true)[6]? = some (.addition b [2, 1]) ∧ HasWeights b ("input".toList ++ (toString 1).toList) [[2], [1]] ∧
    b.size = 2 :=
  ⟨_, rfl, ⟨[[[2], [1]]], .cons (by decide +kernel) .nil, rfl, by simp [exampleBasic]⟩, rfl⟩

example : ∃ (b : Basic ℚ) (filters : ParamDict (List (List ℚ))), (exampleForward true)[8]? = some (.glu b 2 2 filters) ∧
    HasFilters b filters [[[1, 2], [3, 4]], [[-1, 0], [1, -1]]] [0, 1] ∧ b.size = 1 :=
  ⟨_, _, rfl, ⟨[[[[1, 2], [3, 4]], [[-1, 0], [1, -1]]]], .cons rfl .nil, rfl, by simp [exampleBasic], rfl⟩, rfl⟩

/-- A layer with two units on two devices. -/
example : HasAffine (⟨[0], [some "a".toList, some "b".toList], 2, .tanh,
      [("input/W/a".toList, [[1]]), ("input/W/b".toList, [[2]])], [("input/b/a".toList, [3]), ("input/b/b".toList, [4])]⟩ : Basic ℚ)
    "input".toList [[1], [2]] [3, 4] :=
  ⟨[([[1]], [3]), ([[2]], [4])], .cons ⟨rfl, rfl, rfl⟩ (.cons ⟨rfl, rfl, rfl⟩ .nil), rfl, rfl, by simp⟩

/-- The state of the LSTM layer of `exampleForward` after one time step, by the equations. -/
example : ∃ b : Basic ℚ, (exampleForward false)[2]? = some (.recurrent .lstm b) ∧
    (evalNetwork ratAct notTraining (exampleForward false) [[⟨0, 0, true⟩]]).toOption.bind (fun out => (posAt out 0 0).bind (·.outs[2]?)) =
      some (.vec [ratAct.sigmoid 3 * ratAct.tanh (ratAct.sigmoid 1 * ratAct.tanh 5)]) :=
  ⟨_, rfl, by decide +kernel⟩

end TheanoLM
