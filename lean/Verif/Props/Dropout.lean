import Verif.Model.Dropout
import Verif.Props.TrainingCost
import Mathlib.MeasureTheory.Integral.Bochner.Set
import Mathlib.MeasureTheory.Measure.Lebesgue.Basic
/-!
# Dropout does not change the expected values: C113
-/
set_option linter.unusedSectionVars false

namespace TheanoLM

open MeasureTheory

/-! ## Specification -/

/-- The mean of a function of a random number that is uniformly distributed between zero and one. -/
noncomputable def uniformMean (f : ℝ → ℝ) : ℝ := ∫ u in Set.Ico (0 : ℝ) 1, f u

/-- Evaluation in training mode, when the random numbers of the layer number `k` in one position are `sample`, and the pass rate of the layer
is `p`. -/
noncomputable def withSample (opts : EvalOptions) (k t s : Nat) (p : ℝ) (sample : List ℝ) : EvalOptions :=
  { opts with keep := fun k' t' s' => if k' = k ∧ t' = t ∧ s' = s then keptUnits p sample else opts.keep k' t' s' }

/-- The output of unit `j` of the layer number `k` in one position. -/
noncomputable def unitOutput (opts : EvalOptions) (layers : List (Created ℝ)) (batch : List (List InputCell)) (k t s j : Nat) : ℝ :=
  match evalNetwork realAct opts (layers.map Created.layer) batch with
  | .error _ => 0
  | .ok out =>
    match (posAt out t s).bind fun e => e.outs[k]? with
    | some (.vec y) => y.getD j 0
    | _ => 0

/-! ## Lemmas -/

theorem uniformMean_step {p : ℝ} (hp : 0 ≤ p) (c d : ℝ) :
    uniformMean (fun u => if u < p then c else d) = min 1 p * c + (1 - min 1 p) * d := by
  unfold uniformMean
  have e : (fun u : ℝ => if u < p then c else d) = fun u => (Set.Iio p).indicator (fun _ => c - d) u + d := by
    funext u
    by_cases h : u < p
    · rw [if_pos h, Set.indicator_of_mem (show u ∈ Set.Iio p from h)]
      ring
    · rw [if_neg h, Set.indicator_of_notMem (show u ∉ Set.Iio p from h), zero_add]
  rw [e, integral_add, setIntegral_indicator measurableSet_Iio, Set.Ico_inter_Iio, setIntegral_const, setIntegral_const,
    Real.volume_real_Ico, Real.volume_real_Ico]
  · rw [show max (min 1 p - 0) 0 = min 1 p by rw [sub_zero]; exact max_eq_left (le_min zero_le_one hp)]
    simp only [smul_eq_mul]
    norm_num
    ring
  · exact (integrable_const (c - d)).indicator measurableSet_Iio
  · exact integrable_const d

section
variable {S : Type} [Add S] [Mul S] [Sub S] [Div S] [Zero S] [One S]

/-- The outputs of the layers before layer `m` do not depend on the random numbers of layer `m` and the layers after it. -/
theorem evalLayers_before {act : Act S} {opts opts' : EvalOptions} (h1 : opts.training = opts'.training)
    (h2 : opts.excludeUnk = opts'.excludeUnk) {m : Nat} (h3 : ∀ k < m, opts.keep k = opts'.keep k) (layers : List (Layer S)) {i n : Nat}
    {table r r' : List (List (Entry S))} (hn : Rect n table) (hi : ∀ t s e, posAt table t s = some e → e.outs.length = i)
    (hr : evalLayers act opts i layers table = .ok r) (hr' : evalLayers act opts' i layers table = .ok r') {t s : Nat} {e e' : Entry S}
    (he : posAt r t s = some e) (he' : posAt r' t s = some e') : e.outs.take m = e'.outs.take m := by
  induction layers generalizing i table with
  | nil =>
    rw [evalLayers] at hr hr'
    injection hr with hr
    injection hr' with hr'
    subst hr hr'
    rw [he] at he'
    cases he'
    rfl
  | cons layer layers ih =>
    by_cases hm : i < m
    · have e0 : ∀ g, evalLayer act opts layer i g = evalLayer act opts' layer i g := by
        intro g
        have hk := h3 i hm
        cases layer with
        | dropout b scale =>
          show pointRows (fun t s p => (some (dropoutElem opts.training scale (opts.keep i t s) p.2)).getD _) 0 g =
            pointRows (fun t s p => (some (dropoutElem opts'.training scale (opts'.keep i t s) p.2)).getD _) 0 g
          rw [h1, hk]
        | softmax b u =>
          show pointRows (fun t s p => (some (softmaxElem act opts.excludeUnk b u p.2)).getD _) 0 g =
            pointRows (fun t s p => (some (softmaxElem act opts'.excludeUnk b u p.2)).getD _) 0 g
          rw [h2]
        | _ => rfl
      rw [evalLayers] at hr hr'
      rw [← e0] at hr'
      cases ho : evalLayer act opts layer i (gather layer.inputs table) with
      | error e => rw [ho] at hr; cases hr
      | ok outs =>
        rw [ho] at hr hr'
        simp only at hr hr'
        obtain ⟨s1, s2⟩ := evalLayer_shape ho (gather_rect hn)
        refine ih (addOutputs_rect hn s2) ?_ hr hr'
        intro t s e hpos
        rw [posAt_zipWith_addOutputs] at hpos
        cases hx : posAt table t s with
        | none => rw [hx] at hpos; cases hpos
        | some e1 =>
          rw [hx] at hpos
          simp only [Option.bind_some] at hpos
          cases hy : posAt outs t s with
          | none => rw [hy] at hpos; cases hpos
          | some x =>
            rw [hy] at hpos
            simp only [Option.map_some, Option.some.injEq] at hpos
            subst hpos
            simp [hi t s e1 hx]
    · obtain ⟨_, _, g1⟩ := evalLayers_extends hn hr
      obtain ⟨_, _, g2⟩ := evalLayers_extends hn hr'
      obtain ⟨e1, a1, _, b1⟩ := g1 t s e he
      obtain ⟨e2, a2, _, b2⟩ := g2 t s e' he'
      rw [a1] at a2
      cases a2
      have hl := hi t s e1 a1
      obtain ⟨x, hx⟩ := b1
      obtain ⟨y, hy⟩ := b2
      rw [← hx, ← hy, List.take_append_of_le_length (by omega), List.take_append_of_le_length (by omega)]

end

theorem keptUnits_length (p : ℝ) (U : List ℝ) : (keptUnits p U).length = U.length := List.length_map ..

theorem forall₂_at {α β : Type} {R : α → β → Prop} {l : List α} {l' : List β} (h : List.Forall₂ R l l') {k : Nat} {a : α}
    (ha : l[k]? = some a) : ∃ b, l'[k]? = some b ∧ R a b := by
  induction h generalizing k with
  | nil => cases ha
  | cons hr _ ih =>
    cases k with
    | zero => cases ha; exact ⟨_, rfl, hr⟩
    | succ k => exact ih ha

/-! ## C113 -/

section
variable {v : Vocab} {env : CreateEnv ℝ} {a : Architecture} {layers : List (Created ℝ)} {output : Nat}

/-- The output of a unit of a dropout layer, as a function of its random number. -/
theorem unitOutput_of (hm : ModelOf env a v layers output) {k : Nat} {c : Created ℝ} (hk : layers[k]? = some c) {b : Basic ℝ} {p : ℝ}
    (hc : c.layer = .dropout b (1 / p)) {opts : EvalOptions} (ht : opts.training = true)
    (hkeep : ∀ k c t s, layers[k]? = some c → (opts.keep k t s).length = c.size) {batch : List (List InputCell)} {n : Nat} (hn : Rect n batch)
    (hv : ValidBatch env batch) {t s : Nat} (h1 : t < batch.length) (h2 : s < n) :
    ∃ x : Nat → ℝ, ∀ U : List ℝ, U.length = c.size →
      (∀ out e, evalNetwork realAct (withSample opts k t s p U) (layers.map Created.layer) batch = .ok out → posAt out t s = some e →
        ∃ xs, LayerInputs e b.inputs xs ∧ ∀ j, x j = xs.flatten.getD j 0) ∧
      ∀ j u, U[j]? = some u → unitOutput (withSample opts k t s p U) layers batch k t s j = if u < p then x j * (1 / p) else 0 := by
  obtain ⟨net, m1, _, m3, m4⟩ := hm.created
  have hkl : (layers.map Created.layer)[k]? = some (.dropout b (1 / p)) := by rw [List.getElem?_map, hk, ← hc]; rfl
  have hev : ∀ U : List ℝ, U.length = c.size → ∃ out e, evalNetwork realAct (withSample opts k t s p U) (layers.map Created.layer) batch = .ok out ∧
      posAt out t s = some e := by
    intro U hU
    obtain ⟨out, g1, g2, g3, _⟩ := C80_trained env a net hm.prior m1 m4 layers m3 realAct (withSample opts k t s p U) n (by
      intro _ k' c' t' s' hk'
      unfold withSample
      simp only
      split
      · rename_i h
        rw [h.1, hk] at hk'
        cases hk'
        rw [keptUnits_length, hU]
      · exact hkeep k' c' t' s' hk') batch hn hv
    obtain ⟨e, he⟩ := Option.isSome_iff_exists.mp ((posAt_isSome g3 t s).mpr ⟨by omega, h2⟩)
    exact ⟨out, e, g1, he⟩
  have hconcat : ∀ (U : List ℝ) out e, evalNetwork realAct (withSample opts k t s p U) (layers.map Created.layer) batch = .ok out →
      posAt out t s = some e → ∃ x, concatInputs (b.inputs.map fun i => (e.outs.take k)[i]?) = .ok x ∧
        e.outs[k]? = some (.vec (List.zipWith (fun v k => v * (1 / p) * (if k then 1 else 0)) x (keptUnits p U))) := by
    intro U out e g1 g2
    obtain ⟨y, h1, h2⟩ := point_at hn g1 hkl (fun g => rfl) g2
    simp only [Layer.inputs, pointFun, pointElem, Option.getD_some, dropoutElem] at h1
    cases hx : concatInputs (b.inputs.map fun i => (e.outs.take k)[i]?) with
    | error e => rw [hx] at h1; cases h1
    | ok x =>
      rw [hx] at h1
      simp only at h1
      have ht' : (withSample opts k t s p U).training = true := ht
      have hk' : (withSample opts k t s p U).keep k t s = keptUnits p U := by
        unfold withSample
        simp
      rw [ht', if_pos rfl, hk'] at h1
      injection h1 with h1
      subst h1
      exact ⟨x, rfl, h2⟩
  obtain ⟨out0, e0, o1, o2⟩ := hev (List.replicate c.size 0) List.length_replicate
  obtain ⟨x, hx, _⟩ := hconcat _ _ _ o1 o2
  have hin : Rect n (batch.map fun row => row.map fun c => (⟨c, []⟩ : Entry ℝ)) := by
    intro row hrow
    obtain ⟨r, hr, rfl⟩ := List.mem_map.mp hrow
    rw [List.length_map]
    exact hn r hr
  have hsame : ∀ (U : List ℝ) out e, evalNetwork realAct (withSample opts k t s p U) (layers.map Created.layer) batch = .ok out →
      posAt out t s = some e → concatInputs (b.inputs.map fun i => (e.outs.take k)[i]?) = .ok x := by
    intro U out e g1 g2
    unfold evalNetwork at g1 o1
    rw [← hx, evalLayers_before (m := k) (opts := withSample opts k t s p U) (opts' := withSample opts k t s p (List.replicate c.size 0)) rfl rfl (by
      intro k' hk'
      funext t' s'
      unfold withSample
      simp only
      rw [if_neg fun h => by omega, if_neg fun h => by omega]) _ hin (by
      intro t s e he
      unfold posAt at he
      rw [List.getElem?_map] at he
      cases hb : batch[t]? with
      | none => rw [hb] at he; cases he
      | some row =>
        rw [hb] at he
        simp only [Option.map_some, Option.bind_some, List.getElem?_map] at he
        cases hc : row[s]? with
        | none => rw [hc] at he; cases he
        | some c =>
          rw [hc] at he
          simp only [Option.map_some, Option.some.injEq] at he
          subst he
          rfl) g1 o1 g2 o2]
  refine ⟨fun j => x.getD j 0, fun U hU => ⟨fun out e g1 g2 => ?_, fun j u hu => ?_⟩⟩
  · obtain ⟨xs, h3, hfl⟩ := concatInputs_vectors (hsame U out e g1 g2)
    exact ⟨xs, layerInputs_of_vectors h3, fun j => by rw [hfl]⟩
  · obtain ⟨out, e, g1, g2⟩ := hev U hU
    obtain ⟨x', hx', ho⟩ := hconcat U out e g1 g2
    rw [hsame U out e g1 g2] at hx'
    cases hx'
    unfold unitOutput
    rw [g1]
    simp only
    rw [g2]
    simp only [Option.bind_some]
    rw [ho]
    simp only [List.getD_eq_getElem?_getD]
    rw [List.getElem?_zipWith, keptUnits, List.getElem?_map, hu]
    cases hj : x[j]? with
    | none => simp
    | some w =>
      simp only [Option.map_some, Option.getD_some, decide_eq_true_eq]
      by_cases h : u < p
      · rw [if_pos h, if_pos h, mul_one]
      · rw [if_neg h, if_neg h, mul_zero]

/-- C113, expectation.  Dropping units does not change the expected value of the output of a unit of a dropout layer, over its random number
and whatever the other random numbers are: it is the input of the unit, which does not depend on the random numbers of the layer (and which
is the output when the layer is not trained, `C79_dropout`). -/
theorem C113_mean (hm : ModelOf env a v layers output) {k : Nat} {c : Created ℝ} (hk : layers[k]? = some c) {b : Basic ℝ} {p : ℝ}
    (hc : c.layer = .dropout b (1 / p)) (hp : 0 < p) (hp1 : p ≤ 1) {opts : EvalOptions} (ht : opts.training = true)
    (hkeep : ∀ k c t s, layers[k]? = some c → (opts.keep k t s).length = c.size) {batch : List (List InputCell)} {n : Nat} (hn : Rect n batch)
    (hv : ValidBatch env batch) {t s : Nat} (h1 : t < batch.length) (h2 : s < n) :
    ∃ x : Nat → ℝ, ∀ U : List ℝ, U.length = c.size →
      (∀ out e, evalNetwork realAct (withSample opts k t s p U) (layers.map Created.layer) batch = .ok out → posAt out t s = some e →
        ∃ xs, LayerInputs e b.inputs xs ∧ ∀ j, x j = xs.flatten.getD j 0) ∧
      ∀ j < c.size,
        uniformMean (fun u => unitOutput (withSample opts k t s p (U.set j u)) layers batch k t s j) = x j ∧
        uniformMean (fun u => (unitOutput (withSample opts k t s p (U.set j u)) layers batch k t s j - x j) ^ 2) =
          x j ^ 2 * ((1 - p) / p) := by
  obtain ⟨x, hx⟩ := unitOutput_of hm hk hc ht hkeep hn hv h1 h2
  refine ⟨x, fun U hU => ⟨(hx U hU).1, fun j hj => ?_⟩⟩
  have e : ∀ u, unitOutput (withSample opts k t s p (U.set j u)) layers batch k t s j = if u < p then x j * (1 / p) else 0 :=
    fun u => (hx (U.set j u) (by rw [List.length_set, hU])).2 j u (List.getElem?_set_self (by omega))
  have hne : p ≠ 0 := hp.ne'
  constructor
  · rw [show (fun u => unitOutput (withSample opts k t s p (U.set j u)) layers batch k t s j) =
      fun u => if u < p then x j * (1 / p) else 0 from funext e, uniformMean_step hp.le, min_eq_right hp1]
    field_simp
    ring
  · rw [show (fun u => (unitOutput (withSample opts k t s p (U.set j u)) layers batch k t s j - x j) ^ 2) =
      fun u => if u < p then (x j * (1 / p) - x j) ^ 2 else (0 - x j) ^ 2 from funext fun u => by rw [e]; split <;> rfl,
      uniformMean_step hp.le, min_eq_right hp1]
    field_simp
    ring

/-- C113 is violated when the dropout rate is negative, which is not rejected: nothing is dropped, but the outputs are scaled. -/
theorem C113_violated (hm : ModelOf env a v layers output) {k : Nat} {c : Created ℝ} (hk : layers[k]? = some c) {b : Basic ℝ} {p : ℝ}
    (hc : c.layer = .dropout b (1 / p)) (hp : 1 < p) {opts : EvalOptions} (ht : opts.training = true)
    (hkeep : ∀ k c t s, layers[k]? = some c → (opts.keep k t s).length = c.size) {batch : List (List InputCell)} {n : Nat} (hn : Rect n batch)
    (hv : ValidBatch env batch) {t s : Nat} (h1 : t < batch.length) (h2 : s < n) :
    ∃ x : Nat → ℝ, ∀ U : List ℝ, U.length = c.size →
      (∀ out e, evalNetwork realAct (withSample opts k t s p U) (layers.map Created.layer) batch = .ok out → posAt out t s = some e →
        ∃ xs, LayerInputs e b.inputs xs ∧ ∀ j, x j = xs.flatten.getD j 0) ∧
      ∀ j < c.size, uniformMean (fun u => unitOutput (withSample opts k t s p (U.set j u)) layers batch k t s j) = x j / p := by
  obtain ⟨x, hx⟩ := unitOutput_of hm hk hc ht hkeep hn hv h1 h2
  refine ⟨x, fun U hU => ⟨(hx U hU).1, fun j hj => ?_⟩⟩
  have e : ∀ u, unitOutput (withSample opts k t s p (U.set j u)) layers batch k t s j = if u < p then x j * (1 / p) else 0 :=
    fun u => (hx (U.set j u) (by rw [List.length_set, hU])).2 j u (List.getElem?_set_self (by omega))
  rw [show (fun u => unitOutput (withSample opts k t s p (U.set j u)) layers batch k t s j) =
    fun u => if u < p then x j * (1 / p) else 0 from funext e, uniformMean_step (by linarith), min_eq_left hp.le]
  ring

end

/-- C113, dropout rate.  The scale of a dropout layer is the inverse of the probability of not dropping a unit.  The probability is positive
whatever the given rate is, and at most one if the rate is not negative. -/
theorem C113_rate (env : CreateEnv ℝ) (h1 : env.rateLimit < 1) (h2 : 0 ≤ env.rateLimit) (h3 : env.defaultRate < 1) (h4 : 0 ≤ env.defaultRate)
    (a : Architecture) (v : Vocab) (layers : List (Created ℝ)) (output : Nat) (hm : ModelOf env a v layers output) (k : Nat) (d : ArchDict)
    (hd : a.layers[k]? = some d) (c : Created ℝ) (hc : layers[a.inputs.length + k]? = some c) (b : Basic ℝ) (scale : ℝ)
    (hl : c.layer = .dropout b scale) :
    (dictGet? d "dropout_rate".toList = none → scale = 1 / (1 - env.defaultRate) ∧ 0 < 1 - env.defaultRate ∧ 1 - env.defaultRate ≤ 1) ∧
    ∀ value rate, dictGet? d "dropout_rate".toList = some (.one value) → env.parseFloat value = some rate →
      ∃ p, p = 1 - min env.rateLimit rate ∧ scale = 1 / p ∧ 0 < p ∧ (0 ≤ rate → p ≤ 1) ∧ (rate < 0 → 1 < p) := by
  obtain ⟨net, m1, _, m3, _⟩ := hm.created
  obtain ⟨_, _, _, m5, _⟩ := C80_layers env a net hm.prior m1
  obtain ⟨c', hc', hdesc⟩ := m5 k d hd
  obtain ⟨c'', g1, _, _, hs⟩ := forall₂_at m3 hc'
  rw [hc] at g1
  cases g1
  rw [hl] at hs
  have hb : ∃ b', c'.layer = .dropout b' scale := by
    generalize c'.layer = l at hs
    cases hs
    exact ⟨_, rfl⟩
  obtain ⟨b', hb'⟩ := hb
  obtain ⟨q1, q2⟩ := hdesc.dropout b' scale hb'
  refine ⟨fun h => ⟨q1 h, by linarith, by linarith⟩, fun value rate hv hr => ⟨_, rfl, q2 value rate hv hr, ?_, fun h => ?_, fun h => ?_⟩⟩
  · linarith [min_le_left env.rateLimit rate]
  · linarith [le_min h2 h]
  · linarith [min_le_right env.rateLimit rate]

/-- The probability with which the random numbers keep a unit is the one that the scale is the inverse of. -/
theorem C113_passRate (env : CreateEnv ℝ) (o : LayerOptions) (scale : ℝ) :
    dropoutScale env o = .ok scale ↔ ∃ p, passRate env o = .ok p ∧ scale = 1 / p := by
  unfold dropoutScale passRate
  cases hd : dictGet? o.options "dropout_rate".toList with
  | none => exact ⟨fun h => ⟨_, rfl, by cases h; rfl⟩, fun ⟨p, h, e⟩ => by cases h; rw [e]⟩
  | some value =>
    cases value with
    | many l => exact ⟨fun h => (by cases h), fun ⟨p, h, e⟩ => by cases h⟩
    | one value =>
      simp only
      cases env.parseFloat value with
      | none => exact ⟨fun h => (by cases h), fun ⟨p, h, e⟩ => (by cases h)⟩
      | some rate => exact ⟨fun h => ⟨_, rfl, by cases h; rfl⟩, fun ⟨p, h, e⟩ => by cases h; rw [e]⟩

/-! ## Examples -/

/-- A network with a dropout layer: the fraction of the units that are dropped is `rate`. -/
def exampleDropout (rate : Option String) : Architecture where
  inputs := [[("type".toList, .one (.str "word".toList)), ("name".toList, .one (.str "w".toList))]]
  layers := [exampleLayer "projection" "p" ["w"] [("size", .one (.int 2))],
    exampleLayer "dropout" "d" ["p"] (rate.toList.map fun r => ("dropout_rate", .one (.str r.toList))), exampleLayer "softmax" "o" ["d"] []]
  outputLayer := .str "o".toList

/-- The number that is read is minus one. -/
noncomputable def exampleDropoutEnv : CreateEnv ℝ := { exampleModelEnv with parseFloat := fun _ => some (-1) }

instance decidableDropout {S : Type} (c : Created S) : Decidable (∃ b scale, c.layer = .dropout b scale) :=
  match c.layer with
  | .softmax _ _ => isFalse nofun
  | .bidirectional _ _ _ => isFalse nofun
  | .wordInput => isFalse nofun
  | .classInput => isFalse nofun
  | .projection _ => isFalse nofun
  | .fullyConnected _ => isFalse nofun
  | .addition _ _ => isFalse nofun
  | .recurrent _ _ => isFalse nofun
  | .highway _ => isFalse nofun
  | .glu _ _ _ _ => isFalse nofun
  | .dropout b scale => isTrue ⟨b, scale, rfl⟩
  | .hsoftmax _ _ _ _ _ => isFalse nofun

theorem exampleDropout_created (rate : Option String) (hr : rate = none ∨ rate = some "r") :
    ∃ net, createNetwork exampleDropoutEnv (exampleDropout rate) = .ok net ∧ net.output = 3 ∧
    (∃ c, net.layers[3]? = some c ∧ ∃ b u, c.layer = .softmax b u) ∧ (∃ c, net.layers[2]? = some c ∧ ∃ b scale, c.layer = .dropout b scale) ∧
    ∀ c ∈ net.layers, Connected net.layers c ∧ Placed c := by
  rcases hr with rfl | rfl <;> decide +kernel

theorem exampleDropout_model (rate : Option String) (hr : rate = none ∨ rate = some "r") :
    ∃ layers c b scale, ModelOf exampleDropoutEnv (exampleDropout rate) exScoreVocab layers 3 ∧ layers[2]? = some c ∧
      c.layer = .dropout b scale := by
  obtain ⟨net, h1, h2, ⟨c, hc, b, u, hl⟩, ⟨c', hc', b', scale, hl'⟩, h5⟩ := exampleDropout_created rate hr
  have hp : PriorFits exampleDropoutEnv (exampleDropout rate) := fun p hp => by cases hp
  have hs : SameNetwork net.layers net.layers := by
    have key := createNetwork_same (env := exampleDropoutEnv) (env' := exampleDropoutEnv)
      ⟨rfl, rfl, rfl, rfl, rfl, rfl, rfl, rfl⟩ (a := exampleDropout rate) (b := exampleDropout rate)
      (List.forall₂_same.mpr fun d hd => rfl) (List.forall₂_same.mpr fun d _ k => rfl) rfl hp hp
    rw [h1] at key
    cases key with
    | ok h => exact h.1
  refine ⟨net.layers, c', b', scale, ⟨⟨net, h1, h2, hs, h5⟩, hp, rfl, rfl, fun i hi => ?_, c, hc, .inl ⟨b, u, hl⟩⟩, hc', hl'⟩
  have : exScoreVocab.wordToId unk = some 5 := by decide +kernel
  rw [this] at hi
  cases hi
  rfl

/-- A case that meets the hypotheses of `C113_mean` and `C113_rate`: half of the units are dropped. -/
example : ∃ layers c b p, ModelOf exampleDropoutEnv (exampleDropout none) exScoreVocab layers 3 ∧ layers[2]? = some c ∧
    c.layer = .dropout b (1 / p) ∧ 0 < p ∧ p ≤ 1 ∧ exampleDropoutEnv.rateLimit < 1 ∧ 0 ≤ exampleDropoutEnv.rateLimit := by
  obtain ⟨layers, c, b, scale, h1, h2, h3⟩ := exampleDropout_model none (.inl rfl)
  have h4 : exampleDropoutEnv.rateLimit = 9999 / 10000 := rfl
  have h5 : exampleDropoutEnv.defaultRate = 1 / 2 := rfl
  obtain ⟨e, e1, e2⟩ := (C113_rate _ (by rw [h4]; norm_num) (by rw [h4]; norm_num) (by rw [h5]; norm_num) (by rw [h5]; norm_num) _ _ _ _ h1 1 _ rfl
    c h2 b scale h3).1 (by decide +kernel)
  exact ⟨layers, c, b, _, h1, h2, e ▸ h3, e1, e2, by rw [h4]; norm_num, by rw [h4]; norm_num⟩

/-- A case that meets the hypotheses of `C113_violated`: the dropout rate is minus one. -/
example : ∃ layers c b p, ModelOf exampleDropoutEnv (exampleDropout (some "r")) exScoreVocab layers 3 ∧ layers[2]? = some c ∧
    c.layer = .dropout b (1 / p) ∧ 1 < p := by
  obtain ⟨layers, c, b, scale, h1, h2, h3⟩ := exampleDropout_model (some "r") (.inr rfl)
  have h4 : exampleDropoutEnv.rateLimit = 9999 / 10000 := rfl
  have h5 : exampleDropoutEnv.defaultRate = 1 / 2 := rfl
  obtain ⟨p, _, e1, _, _, e2⟩ := (C113_rate _ (by rw [h4]; norm_num) (by rw [h4]; norm_num) (by rw [h5]; norm_num) (by rw [h5]; norm_num) _ _ _ _
    h1 1 _ rfl c h2 b scale h3).2 (.str "r".toList) (-1) (by decide +kernel) rfl
  exact ⟨layers, c, b, p, h1, h2, e1 ▸ h3, e2 (by norm_num)⟩

end TheanoLM
