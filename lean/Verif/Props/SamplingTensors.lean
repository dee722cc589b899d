import Verif.Lemmas.SamplingTensors

/-!
# C137: the tensors of the sampling-based costs

Nothing is mixed up between the positions of a mini-batch, although the noise classes may be shared between the positions and the
tensors are broadcasted, reshaped and indexed in different ways.
-/

namespace TheanoLM

section
variable {S : Type} [Field S] [LinearOrder S] {T N D C : Nat} {weight bias x : Tensor S} {targets : Tensor Nat}
  {draw : Nat → Nat → Tensor Nat}

omit [LinearOrder S] in
/-- The score of the target class in each position. -/
theorem C137_target_scores (h : SamplingInput T N D C weight bias x targets draw) :
    ∃ r, unnormalizedTensor weight bias x targets = .ok r ∧ r.shape = [T, N] ∧
      ∀ t < T, ∀ s < N, r.at' [t, s] = tensorScore D weight bias x t s (targets.at' [t, s]) :=
  unnormalized_tensor h.weightShape h.biasShape h.xShape h.targetsShape h.targetIn

omit [LinearOrder S] in
/-- The scores of the noise classes in each position, however the noise is shared. -/
theorem C137_noise_scores (h : SamplingInput T N D C weight bias x targets draw) {sharing : Option Str}
    (hs : sharing = none ∨ sharing = some "seq".toList ∨ sharing = some "batch".toList) (K : Nat) :
    ∃ sample scores, sampleTensors sharing K draw weight bias x = .ok (sample, scores) ∧ scores.shape = [T, N, K] ∧
      ∀ t < T, ∀ s < N, ∀ k < K,
        scores.at' [t, s, k] = tensorScore D weight bias x t s (noiseClassAt sharing T N K draw t s k) := by
  obtain ⟨sample, scores, a, b, h1, _, _, _, h2, _, h3⟩ := sample_tensors h.weightShape h.biasShape h.xShape h.drawShape h.noiseIn hs K
  exact ⟨sample, scores, h1, h2, fun t ht s hs k hk => (h3 t ht s hs k hk).2⟩

omit [LinearOrder S] in
/-- A target class that does not exist. -/
theorem C137_index_error (hw : weight.shape = [D, C]) (hT : targets.shape = [T, N])
    {t s : Nat} (ht : t < T) (hs : s < N) (hbad : C ≤ targets.at' [t, s]) :
    unnormalizedTensor weight bias x targets = .error .indexError := by
  have hck : checkIds C (targets.newaxis 2) = .error .indexError := by
    unfold checkIds
    rw [if_neg]
    intro hall
    rw [List.all_eq_true] at hall
    have := hall [t, s, 0] (by
      rw [mem_tensorIndices]
      have : (targets.newaxis 2).shape = [T, N, 1] := by simp [Tensor.newaxis, hT]
      rw [this]
      exact inShape3.mpr ⟨t, ht, s, hs, 0, by omega, rfl⟩)
    simp [Tensor.newaxis] at this
    omega
  unfold unnormalizedTensor targetPreactTensor Tensor.takeRows Tensor.transpose
  simp [hw, hck]

/-- Noise-contrastive estimation: in each position the result is that of the target and the noise classes of the position. -/
theorem C137_nce (F : ProbFun S) (epsilon : S) (h : SamplingInput T N D C weight bias x targets draw)
    {noise : NoiseDistribution S} {q : Nat → S} (hq : ∀ c < C, noiseProb F noise c = .ok (q c)) {sharing : Option Str}
    (hs : sharing = none ∨ sharing = some "seq".toList ∨ sharing = some "batch".toList) (K : Nat) :
    ∃ r, samplingTensor (nceTensor F epsilon noise) sharing K draw weight bias x targets = .ok r ∧ r.shape = [T, N] ∧
      ∀ t < T, ∀ s < N, r.at' [t, s] = nceLogprob F epsilon
        ⟨q (targets.at' [t, s]), tensorScore D weight bias x t s (targets.at' [t, s])⟩
        ((List.range K).map fun k => ⟨q (noiseClassAt sharing T N K draw t s k),
          tensorScore D weight bias x t s (noiseClassAt sharing T N K draw t s k)⟩) := by
  obtain ⟨u, hu, hus, huv⟩ := C137_target_scores h
  obtain ⟨sample, scores, a, b, h1, h2, ha, hb, h3, h4, h5⟩ :=
    sample_tensors h.weightShape h.biasShape h.xShape h.drawShape h.noiseIn hs K
  unfold samplingTensor
  rw [hu, h1]
  simp only
  unfold nceTensor
  obtain ⟨p, hp, g, hg, hgs, hgv⟩ := zip_prior2 F hq hus h.targetsShape h.targetIn
    (fun (x : S) (y : Flt S) => (Flt.fin x).sub y) (fun p => Flt.log F (.fin (p + epsilon)))
  obtain ⟨p', hp', g', hg', hgs', hgv'⟩ := zip_prior3 F hq h3 h2 ha hb h4
    (fun (x : S) (y : Flt S) => (Flt.fin x).sub y) (fun p => Flt.log F (.fin (p + epsilon)))
  rw [hp]
  simp only
  rw [hg]
  simp only
  rw [hp']
  simp only
  rw [hg']
  simp only
  obtain ⟨hr1, hr2⟩ := reduce3 (x := g'.map fun g => (Flt.softplus F g).neg) Flt.sum hgs'
  obtain ⟨r, hr, hrs, hrv⟩ := zip_same2 Flt.add (x := g.map fun g => (Flt.softplus F g.neg).neg) hgs hr1
  refine ⟨r, hr, hrs, ?_⟩
  intro t ht s hs'
  rw [hrv t ht s hs', hr2]
  unfold nceLogprob
  simp only [Tensor.map, hgv t ht s hs', huv t ht s hs', List.map_map]
  congr 2
  apply List.map_congr_left
  intro k hk
  rw [List.mem_range] at hk
  rw [hgv' t ht s hs' k hk, (h5 t ht s hs' k hk).1, (h5 t ht s hs' k hk).2]
  rfl

/-- BlackOut: in each position the result is that of the target and the noise classes of the position. -/
theorem C137_blackout (F : ProbFun S) (epsilon : S) (h : SamplingInput T N D C weight bias x targets draw)
    {noise : NoiseDistribution S} {q : Nat → S} (hq : ∀ c < C, noiseProb F noise c = .ok (q c)) {sharing : Option Str}
    (hs : sharing = none ∨ sharing = some "seq".toList ∨ sharing = some "batch".toList) (K : Nat) :
    ∃ r, samplingTensor (blackoutTensor F epsilon noise) sharing K draw weight bias x targets = .ok r ∧ r.shape = [T, N] ∧
      ∀ t < T, ∀ s < N, r.at' [t, s] = blackoutLogprob F epsilon
        ⟨q (targets.at' [t, s]), tensorScore D weight bias x t s (targets.at' [t, s])⟩
        ((List.range K).map fun k => ⟨q (noiseClassAt sharing T N K draw t s k),
          tensorScore D weight bias x t s (noiseClassAt sharing T N K draw t s k)⟩) := by
  obtain ⟨u, hu, hus, huv⟩ := C137_target_scores h
  obtain ⟨sample, scores, a, b, h1, h2, ha, hb, h3, h4, h5⟩ :=
    sample_tensors h.weightShape h.biasShape h.xShape h.drawShape h.noiseIn hs K
  unfold samplingTensor
  rw [hu, h1]
  simp only
  unfold blackoutTensor
  obtain ⟨p, hp, g, hg, hgs, hgv⟩ := zip_prior2 F hq hus h.targetsShape h.targetIn
    (fun (x y : S) => (Flt.fin (F.exp x)).div (.fin y)) id
  obtain ⟨p', hp', g', hg', hgs', hgv'⟩ := zip_prior3 F hq h3 h2 ha hb h4
    (fun (x y : S) => (Flt.fin (F.exp x)).div (.fin y)) id
  have e : ∀ p : Tensor S, p.map id = p := fun _ => rfl
  rw [e] at hg hg'
  rw [hp]
  simp only
  rw [hg]
  simp only
  rw [hp']
  simp only
  rw [hg']
  simp only
  obtain ⟨hr1, hr2⟩ := reduce3 (x := g') Flt.sum hgs'
  obtain ⟨dn, hdn, hdns, hdnv⟩ := zip_same2 Flt.add hgs hr1
  rw [hdn]
  simp only
  obtain ⟨tc, htc, htcs, htcv⟩ := zip_same2 Flt.div hgs hdns
  rw [htc]
  simp only
  obtain ⟨sc, hsc, hscs, hscv⟩ := zip_each Flt.div hgs' hdns
  rw [hsc]
  simp only
  obtain ⟨hl1, hl2⟩ := reduce3 (x := (sc.map fun c => (Flt.fin 1).sub c).map fun c => Flt.log F (c.add (.fin epsilon))) Flt.sum hscs
  obtain ⟨r, hr, hrs, hrv⟩ := zip_same2 Flt.add (x := tc.map fun c => Flt.log F (c.add (.fin epsilon))) htcs hl1
  refine ⟨r, hr, hrs, ?_⟩
  intro t ht s hs'
  have hw : (List.range K).map (fun k => g'.at' [t, s, k]) =
      ((List.range K).map fun k => (⟨q (noiseClassAt sharing T N K draw t s k),
        tensorScore D weight bias x t s (noiseClassAt sharing T N K draw t s k)⟩ : NoiseClass S)).map (weightedProb F) := by
    rw [List.map_map]
    apply List.map_congr_left
    intro k hk
    rw [List.mem_range] at hk
    rw [hgv' t ht s hs' k hk, (h5 t ht s hs' k hk).1, (h5 t ht s hs' k hk).2]
    rfl
  have hg0 : g.at' [t, s] = weightedProb F ⟨q (targets.at' [t, s]), tensorScore D weight bias x t s (targets.at' [t, s])⟩ := by
    rw [hgv t ht s hs', huv t ht s hs']
    rfl
  have hden : dn.at' [t, s] = (weightedProb F ⟨q (targets.at' [t, s]), tensorScore D weight bias x t s (targets.at' [t, s])⟩).add
      (Flt.sum (((List.range K).map fun k => (⟨q (noiseClassAt sharing T N K draw t s k),
        tensorScore D weight bias x t s (noiseClassAt sharing T N K draw t s k)⟩ : NoiseClass S)).map (weightedProb F))) := by
    rw [hdnv t ht s hs', hr2, hw, hg0]
  rw [hrv t ht s hs', hl2]
  unfold blackoutLogprob
  simp only [← hden, Tensor.map]
  rw [htcv t ht s hs', hg0]
  congr 2
  rw [List.map_map, List.map_map]
  apply List.map_congr_left
  intro k hk
  rw [List.mem_range] at hk
  rw [hscv t ht s hs' k hk, hgv' t ht s hs' k hk, (h5 t ht s hs' k hk).1, (h5 t ht s hs' k hk).2]
  rfl

/-- The result in a position does not depend on the other positions, the size of the mini-batch, or the way the noise is shared: two
mini-batches with the same input, target and noise classes in a position have the same result there. -/
theorem C137_local (F : ProbFun S) (epsilon : S) {T' N' : Nat} {x' : Tensor S} {targets' : Tensor Nat}
    {draw' : Nat → Nat → Tensor Nat} (h : SamplingInput T N D C weight bias x targets draw)
    (h' : SamplingInput T' N' D C weight bias x' targets' draw')
    {noise : NoiseDistribution S} {q : Nat → S} (hq : ∀ c < C, noiseProb F noise c = .ok (q c)) {sharing sharing' : Option Str}
    (hs : sharing = none ∨ sharing = some "seq".toList ∨ sharing = some "batch".toList)
    (hs' : sharing' = none ∨ sharing' = some "seq".toList ∨ sharing' = some "batch".toList) (K : Nat)
    {t s t' s' : Nat} (ht : t < T) (hsN : s < N) (ht' : t' < T') (hsN' : s' < N')
    (hx : ∀ d < D, x.at' [t, s, d] = x'.at' [t', s', d]) (htarget : targets.at' [t, s] = targets'.at' [t', s'])
    (hnoise : ∀ k < K, noiseClassAt sharing T N K draw t s k = noiseClassAt sharing' T' N' K draw' t' s' k) :
    ∃ r r', samplingTensor (nceTensor F epsilon noise) sharing K draw weight bias x targets = .ok r ∧
      samplingTensor (nceTensor F epsilon noise) sharing' K draw' weight bias x' targets' = .ok r' ∧
      r.at' [t, s] = r'.at' [t', s'] := by
  obtain ⟨r, hr, _, hv⟩ := C137_nce F epsilon h hq hs K
  obtain ⟨r', hr', _, hv'⟩ := C137_nce F epsilon h' hq hs' K
  refine ⟨r, r', hr, hr', ?_⟩
  have hscore : ∀ c, tensorScore D weight bias x t s c = tensorScore D weight bias x' t' s' c := by
    intro c
    unfold tensorScore
    congr 2
    apply List.map_congr_left
    intro d hd
    rw [hx d (List.mem_range.mp hd)]
  rw [hv t ht s hsN, hv' t' ht' s' hsN', htarget, hscore]
  congr 1
  apply List.map_congr_left
  intro k hk
  rw [hnoise k (List.mem_range.mp hk), hscore]

end

/-- A target class that does not exist: class 4 of 4. -/
example : (match unnormalizedTensor (⟨[2, 4], fun _ => 1⟩ : Tensor ℚ) ⟨[4], fun _ => 1⟩ ⟨[1, 1, 2], fun _ => 1⟩ ⟨[1, 1], fun _ => 4⟩ with
    | .ok _ => false
    | .error e => decide (e = .indexError)) = true := by decide +kernel

/-! ## A concrete mini-batch -/

/-- Two time steps of three sequences, two features, four classes; five noise classes. -/
def exSampleWeight : Tensor ℚ := ⟨[2, 4], fun idx => idx.getD 0 0 + 2 * idx.getD 1 0⟩
def exSampleBias : Tensor ℚ := ⟨[4], fun idx => 7 - idx.getD 0 0⟩
def exSampleInput : Tensor ℚ := ⟨[2, 3, 2], fun idx => 5 * idx.getD 0 0 - 3 * idx.getD 1 0 + idx.getD 2 0⟩
def exSampleTargets : Tensor Nat := ⟨[2, 3], fun idx => (idx.getD 0 0 + idx.getD 1 0) % 4⟩
def exSampleDraw (m n : Nat) : Tensor Nat := ⟨[m, n], fun idx => (3 * idx.getD 0 0 + idx.getD 1 0) % 4⟩

theorem exSample_input : SamplingInput 2 3 2 4 exSampleWeight exSampleBias exSampleInput exSampleTargets exSampleDraw := by
  refine ⟨rfl, rfl, rfl, rfl, ?_, fun _ _ => rfl, ?_⟩
  · intro t _ s _
    exact Nat.mod_lt _ (by omega)
  · intro m n i _ k _
    exact Nat.mod_lt _ (by omega)

/-- The noise classes differ between the ways of sharing, but the scores are those of the noise classes. -/
example : noiseClassAt none 2 3 5 exSampleDraw 1 2 3 = 2 ∧ noiseClassAt (some "seq".toList) 2 3 5 exSampleDraw 1 2 3 = 0 ∧
    noiseClassAt (some "batch".toList) 2 3 5 exSampleDraw 1 2 3 = 3 ∧
    (∀ sharing ∈ [none, some "seq".toList, some "batch".toList],
      (match sampleTensors sharing 5 exSampleDraw exSampleWeight exSampleBias exSampleInput with
        | .ok (_, scores) => some (scores.at' [1, 2, 3])
        | .error _ => none) =
      some (tensorScore 2 exSampleWeight exSampleBias exSampleInput 1 2 (noiseClassAt sharing 2 3 5 exSampleDraw 1 2 3))) := by
  decide +kernel

/-- A uniform noise distribution meets the assumption of the theorems. -/
example (F : ProbFun ℚ) : ∀ c < 4, noiseProb F (.uniform 4 : NoiseDistribution ℚ) c = .ok (1 / 4) := by
  intro c _
  rfl

end TheanoLM
