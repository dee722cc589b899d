import Verif.Lemmas.OptimizerStep
import Mathlib.Analysis.Real.Sqrt
import Mathlib.Tactic.LinearCombination
/-!
# C47, C48 and C49: normalization of updates, update equations, and weights of training files
-/
namespace TheanoLM
set_option linter.unusedSectionVars false

section
variable {S : Type} [Field S] [LinearOrder S]

/-! ## C48 -/

section
variable (sqrt : S → S) (o : OptOptions S) (paths : List Str) (grad : Nat → (Str → List S) → Str → List S) (lr : Nat → S)
  (net : Str → List S)

/-- **C48** (stochastic gradient descent): every update adds the limited negative gradient, multiplied by the learning rate. -/
theorem C48_sgd (hs : GradShape paths grad) :
    let run := optRun .sgd sqrt o paths grad lr (initialOptState .sgd paths net)
    let len := fun p => (net p).length
    ∃ D : Nat → Str → Nat → S,
      (∀ n, Limited sqrt o.epsilon o.maxNorm paths len (fun p i => -gradAt grad run n p i) (D n)) ∧
      ∀ p ∈ paths, (∀ n, ((run n).vars (.net p)).length = len p) ∧ ∀ i < len p,
        paramAt run 0 p i = (net p).getD i 0 ∧
        ∀ n, paramAt run (n + 1) p i = paramAt run n p i + lr n * D n p i := by
  intro run len
  have hstep : ∀ n, ∀ p ∈ paths, (run (n + 1)).vars (.net p) =
      List.zipWith (fun x d => x + lr n * d) ((run n).vars (.net p))
        (limitedTensor sqrt o paths (fun q => (grad n (fun q => (run n).vars (.net q)) q).map (- ·)) p) :=
    fun n p hp => sgd_net hp
  have hlen : ∀ n, ∀ p ∈ paths, ((run n).vars (.net p)).length = len p := by
    intro n
    induction n with
    | zero => exact fun p _ => rfl
    | succ n ih =>
      intro p hp
      rw [hstep n p hp, List.length_zipWith, limitedTensor_length, List.length_map, hs n _ p hp, ih p hp, min_self]
  refine ⟨fun n p i => (limitedTensor sqrt o paths
      (fun q => (grad n (fun q => (run n).vars (.net q)) q).map (- ·)) p).getD i 0, ?_, ?_⟩
  · intro n
    refine limited_limitedTensor sqrt o paths _ len ?_ _ ?_
    · intro p hp; rw [List.length_map, hs n _ p hp, hlen n p hp]
    · intro p hp i hi
      rw [getD_map' _ (by rw [hs n _ p hp, hlen n p hp]; exact hi)]
      rfl
  · intro p hp
    refine ⟨fun n => hlen n p hp, fun i hi => ⟨rfl, fun n => ?_⟩⟩
    unfold paramAt
    rw [hstep n p hp, getD_zipWith _ (by rw [hlen n p hp]; exact hi)
      (by rw [limitedTensor_length, List.length_map, hs n _ p hp, hlen n p hp]; exact hi)]

/-- **C48** (Nesterov momentum): the documented equations.  The velocity is a decaying sum of all the earlier updates. -/
theorem C48_nesterov (hs : GradShape paths grad) :
    let run := optRun .nesterov sqrt o paths grad lr (initialOptState .nesterov paths net)
    let len := fun p => (net p).length
    ∃ D : Nat → Str → Nat → S,
      (∀ n, Limited sqrt o.epsilon o.maxNorm paths len (fun p i => -gradAt grad run n p i) (D n)) ∧
      ∀ p ∈ paths, (∀ n, ((run n).vars (.net p)).length = len p) ∧ ∀ i < len p,
        paramAt run 0 p i = (net p).getD i 0 ∧ auxAt "_velocity".toList run 0 p i = 0 ∧
        ∀ n, auxAt "_velocity".toList run (n + 1) p i =
            o.momentum * auxAt "_velocity".toList run n p i + lr n * D n p i ∧
          paramAt run (n + 1) p i =
            paramAt run n p i + o.momentum * auxAt "_velocity".toList run (n + 1) p i + lr n * D n p i := by
  intro run len
  have hd : ∀ n, ∀ p ∈ paths, deltaOf (normalizeDeltas sqrt o
      (paths.map fun q => (q, (grad n (fun q => (run n).vars (.net q)) q).map (- ·)))) p =
      limitedTensor sqrt o paths (fun q => (grad n (fun q => (run n).vars (.net q)) q).map (- ·)) p :=
    fun n p hp => deltaOf_normalize sqrt o _ hp
  have hv : ∀ n, ∀ p ∈ paths, (run (n + 1)).vars (.opt (p ++ sfxVelocity)) =
      List.zipWith (fun v d => o.momentum * v + lr n * d) ((run n).vars (.opt (p ++ sfxVelocity)))
        (limitedTensor sqrt o paths (fun q => (grad n (fun q => (run n).vars (.net q)) q).map (- ·)) p) := by
    intro n p hp
    rw [← hd n p hp]
    exact momentum_velocity hp
  have hn : ∀ n, ∀ p ∈ paths, (run (n + 1)).vars (.net p) = List.zipWith (· + ·)
      (List.zipWith (fun x v => x + o.momentum * v) ((run n).vars (.net p)) ((run (n + 1)).vars (.opt (p ++ sfxVelocity))))
      ((limitedTensor sqrt o paths (fun q => (grad n (fun q => (run n).vars (.net q)) q).map (- ·)) p).map (lr n * ·)) := by
    intro n p hp
    rw [hv n p hp, ← hd n p hp]
    exact momentum_net hp
  have hlen : ∀ n, ∀ p ∈ paths, ((run n).vars (.net p)).length = len p ∧
      ((run n).vars (.opt (p ++ sfxVelocity))).length = len p := by
    intro n
    induction n with
    | zero =>
      intro p hp
      refine ⟨rfl, ?_⟩
      show ((initialOptState OptMethod.nesterov paths net).vars (.opt (p ++ sfxVelocity))).length = _
      rw [initial_opt (x := 0) hp (by simp [optVariables])
        (by intro q t y ht he; simp only [optVariables, List.mem_singleton, Prod.mk.injEq] at ht
            obtain ⟨rfl, rfl⟩ := ht; exact ⟨List.append_cancel_right he, rfl⟩)]
      simp [len]
    | succ n ih =>
      intro p hp
      have h2 : ((run (n + 1)).vars (.opt (p ++ sfxVelocity))).length = len p := by
        rw [hv n p hp, List.length_zipWith, limitedTensor_length, List.length_map, hs n _ p hp, (ih p hp).1, (ih p hp).2,
          min_self]
      refine ⟨?_, h2⟩
      rw [hn n p hp, List.length_zipWith, List.length_zipWith, List.length_map, limitedTensor_length, List.length_map,
        hs n _ p hp, (ih p hp).1, h2, min_self, min_self]
  have hl : ∀ n, ∀ p ∈ paths, (limitedTensor sqrt o paths
      (fun q => (grad n (fun q => (run n).vars (.net q)) q).map (- ·)) p).length = len p := by
    intro n p hp
    rw [limitedTensor_length, List.length_map, hs n _ p hp, (hlen n p hp).1]
  refine ⟨fun n p i => (limitedTensor sqrt o paths
      (fun q => (grad n (fun q => (run n).vars (.net q)) q).map (- ·)) p).getD i 0, ?_, ?_⟩
  · intro n
    refine limited_limitedTensor sqrt o paths _ len ?_ _ ?_
    · intro p hp; rw [List.length_map, hs n _ p hp, (hlen n p hp).1]
    · intro p hp i hi
      rw [getD_map' _ (by rw [hs n _ p hp, (hlen n p hp).1]; exact hi)]
      rfl
  · intro p hp
    refine ⟨fun n => (hlen n p hp).1, fun i hi => ⟨rfl, ?_, fun n => ⟨?_, ?_⟩⟩⟩
    · show ((initialOptState OptMethod.nesterov paths net).vars (.opt (p ++ sfxVelocity))).getD i 0 = 0
      rw [initial_opt (x := 0) hp (by simp [optVariables])
        (by intro q t y ht he; simp only [optVariables, List.mem_singleton, Prod.mk.injEq] at ht
            obtain ⟨rfl, rfl⟩ := ht; exact ⟨List.append_cancel_right he, rfl⟩)]
      rw [getD_map' _ (show i < (net p).length from hi)]
    · show ((run (n + 1)).vars (.opt (p ++ sfxVelocity))).getD i 0 = _
      rw [hv n p hp, getD_zipWith _ (by rw [(hlen n p hp).2]; exact hi) (by rw [hl n p hp]; exact hi)]
      rfl
    · show ((run (n + 1)).vars (.net p)).getD i 0 = _
      have h2 := (hlen (n + 1) p hp).2
      rw [hn n p hp, getD_zipWith _ (by rw [List.length_zipWith, (hlen n p hp).1, h2, min_self]; exact hi)
        (by rw [List.length_map, hl n p hp]; exact hi),
        getD_zipWith _ (by rw [(hlen n p hp).1]; exact hi) (by rw [h2]; exact hi),
        getD_map' _ (by rw [hl n p hp]; exact hi)]
      rfl

/-- **C48** (AdaGrad): the gradient is divided by the root of the sum of all its squares so far. -/
theorem C48_adagrad (hs : GradShape paths grad) :
    let run := optRun .adagrad sqrt o paths grad lr (initialOptState .adagrad paths net)
    let len := fun p => (net p).length
    let g := gradAt grad run
    ∃ D : Nat → Str → Nat → S,
      (∀ n, Limited sqrt o.epsilon o.maxNorm paths len
        (fun p i => -g n p i / sqrt ((∑ k ∈ Finset.range (n + 1), g k p i ^ 2) + o.epsilon)) (D n)) ∧
      ∀ p ∈ paths, (∀ n, ((run n).vars (.net p)).length = len p) ∧ ∀ i < len p,
        paramAt run 0 p i = (net p).getD i 0 ∧
        ∀ n, auxAt "_sum_sqr_gradient".toList run n p i = ∑ k ∈ Finset.range n, g k p i ^ 2 ∧
          paramAt run (n + 1) p i = paramAt run n p i + lr n * D n p i := by
  intro run len g
  have h1 : ∀ n, ∀ p ∈ paths, (run (n + 1)).vars (.opt (p ++ sfxSumSqrGradient)) =
      sumSqrGradient (grad n fun q => (run n).vars (.net q)) (run n) p := fun n p hp => adagrad_aux hp
  have h2 : ∀ n, ∀ p ∈ paths, (run (n + 1)).vars (.net p) =
      List.zipWith (fun x d => x + lr n * d) ((run n).vars (.net p))
        (limitedTensor sqrt o paths (rawAdagrad sqrt o (grad n fun q => (run n).vars (.net q)) (run n)) p) :=
    fun n p hp => adagrad_net hp
  have h0 : ∀ p ∈ paths, (run 0).vars (.opt (p ++ sfxSumSqrGradient)) = (net p).map fun _ => 0 := by
    intro p hp
    exact initial_opt (x := 0) hp (by simp [optVariables])
        (by intro q t y ht he; simp only [optVariables, List.mem_singleton, Prod.mk.injEq] at ht
            obtain ⟨rfl, rfl⟩ := ht; exact ⟨List.append_cancel_right he, rfl⟩)
  have hlen : ∀ n, ∀ p ∈ paths, ((run n).vars (.net p)).length = len p ∧
      ((run n).vars (.opt (p ++ sfxSumSqrGradient))).length = len p := by
    intro n
    induction n with
    | zero => intro p hp; exact ⟨rfl, by rw [h0 p hp, List.length_map]⟩
    | succ n ih =>
      intro p hp
      refine ⟨?_, ?_⟩
      · rw [h2 n p hp]
        simp [limitedTensor_length, rawAdagrad, sumSqrGradient, hs n _ p hp, ih p hp]
      · rw [h1 n p hp]
        simp [sumSqrGradient, hs n _ p hp, ih p hp]
  have hg : ∀ n, ∀ p ∈ paths, (grad n (fun q => (run n).vars (.net q)) p).length = len p :=
    fun n p hp => by rw [hs n _ p hp, (hlen n p hp).1]
  have hsum : ∀ n, ∀ p ∈ paths, ∀ i < len p,
      ((run n).vars (.opt (p ++ sfxSumSqrGradient))).getD i 0 = ∑ k ∈ Finset.range n, g k p i ^ 2 := by
    intro n
    induction n with
    | zero => intro p hp i hi; rw [h0 p hp, getD_map' _ (show i < (net p).length from hi)]; simp
    | succ n ih =>
      intro p hp i hi
      rw [h1 n p hp, sumSqrGradient, getD_zipWith _ (by rw [(hlen n p hp).2]; exact hi) (by rw [hg n p hp]; exact hi),
        ih p hp i hi, Finset.sum_range_succ]
      rfl
  refine ⟨fun n p i => (limitedTensor sqrt o paths
      (rawAdagrad sqrt o (grad n fun q => (run n).vars (.net q)) (run n)) p).getD i 0, ?_, ?_⟩
  · intro n
    refine limited_limitedTensor sqrt o paths _ len ?_ _ ?_
    · intro p hp; simp [rawAdagrad, sumSqrGradient, hg n p hp, hlen n p hp]
    · intro p hp i hi
      rw [rawAdagrad, getD_zipWith _ (by rw [hg n p hp]; exact hi) (by rw [← h1 n p hp, (hlen _ p hp).2]; exact hi),
        ← h1 n p hp, hsum (n + 1) p hp i hi]
      rfl
  · intro p hp
    refine ⟨fun n => (hlen n p hp).1, fun i hi => ⟨rfl, fun n => ⟨hsum n p hp i hi, ?_⟩⟩⟩
    show ((run (n + 1)).vars (.net p)).getD i 0 = _
    rw [h2 n p hp, getD_zipWith _ (by rw [(hlen n p hp).1]; exact hi)
      (by simp [limitedTensor_length, rawAdagrad, sumSqrGradient, hg n p hp, hlen n p hp]; exact hi)]
    rfl

/-- **C48** (RMSProp with SGD): the gradient is divided by the root of a decaying mean of its squares, which starts from one and
is updated at every step. -/
theorem C48_rmsprop_sgd (hs : GradShape paths grad) :
    let run := optRun .rmspropSgd sqrt o paths grad lr (initialOptState .rmspropSgd paths net)
    let len := fun p => (net p).length
    let g := gradAt grad run
    ∃ D : Nat → Str → Nat → S,
      (∀ n, Limited sqrt o.epsilon o.maxNorm paths len
        (fun p i => -g n p i / sqrt (decayingMean o.gamma 1 (fun k => g k p i ^ 2) (n + 1) + o.epsilon)) (D n)) ∧
      ∀ p ∈ paths, (∀ n, ((run n).vars (.net p)).length = len p) ∧ ∀ i < len p,
        paramAt run 0 p i = (net p).getD i 0 ∧
        ∀ n, auxAt "_mean_sqr_gradient".toList run n p i = decayingMean o.gamma 1 (fun k => g k p i ^ 2) n ∧
          paramAt run (n + 1) p i = paramAt run n p i + lr n * D n p i := by
  intro run len g
  have h1 : ∀ n, ∀ p ∈ paths, (run (n + 1)).vars (.opt (p ++ sfxMeanSqrGradient)) =
      meanSqrGradient o.gamma (grad n fun q => (run n).vars (.net q)) (run n) p := fun n p hp => rmsprop_ms hp
  have h2 : ∀ n, ∀ p ∈ paths, (run (n + 1)).vars (.net p) =
      List.zipWith (fun x d => x + lr n * d) ((run n).vars (.net p))
        (limitedTensor sqrt o paths (rawRmsprop sqrt o (grad n fun q => (run n).vars (.net q)) (run n)) p) :=
    fun n p hp => rmsprop_net hp
  have h0 : ∀ p ∈ paths, (run 0).vars (.opt (p ++ sfxMeanSqrGradient)) = (net p).map fun _ => 1 := by
    intro p hp
    exact initial_opt (x := 1) hp (by simp [optVariables])
        (by intro q t y ht he; simp only [optVariables, List.mem_singleton, Prod.mk.injEq] at ht
            obtain ⟨rfl, rfl⟩ := ht; exact ⟨List.append_cancel_right he, rfl⟩)
  have hlen : ∀ n, ∀ p ∈ paths, ((run n).vars (.net p)).length = len p ∧
      ((run n).vars (.opt (p ++ sfxMeanSqrGradient))).length = len p := by
    intro n
    induction n with
    | zero => intro p hp; exact ⟨rfl, by rw [h0 p hp, List.length_map]⟩
    | succ n ih =>
      intro p hp
      refine ⟨?_, ?_⟩
      · rw [h2 n p hp]
        simp [limitedTensor_length, rawRmsprop, meanSqrGradient, hs n _ p hp, ih p hp]
      · rw [h1 n p hp]
        simp [meanSqrGradient, hs n _ p hp, ih p hp]
  have hg : ∀ n, ∀ p ∈ paths, (grad n (fun q => (run n).vars (.net q)) p).length = len p :=
    fun n p hp => by rw [hs n _ p hp, (hlen n p hp).1]
  have hsum : ∀ n, ∀ p ∈ paths, ∀ i < len p,
      ((run n).vars (.opt (p ++ sfxMeanSqrGradient))).getD i 0 = decayingMean o.gamma 1 (fun k => g k p i ^ 2) n := by
    intro n
    induction n with
    | zero =>
      intro p hp i hi
      rw [h0 p hp, getD_map' _ (show i < (net p).length from hi), decayingMean_zero]
    | succ n ih =>
      intro p hp i hi
      rw [h1 n p hp, meanSqrGradient, getD_zipWith _ (by rw [(hlen n p hp).2]; exact hi) (by rw [hg n p hp]; exact hi),
        ih p hp i hi, decayingMean_succ]
      rfl
  refine ⟨fun n p i => (limitedTensor sqrt o paths
      (rawRmsprop sqrt o (grad n fun q => (run n).vars (.net q)) (run n)) p).getD i 0, ?_, ?_⟩
  · intro n
    refine limited_limitedTensor sqrt o paths _ len ?_ _ ?_
    · intro p hp; simp [rawRmsprop, meanSqrGradient, hg n p hp, hlen n p hp]
    · intro p hp i hi
      rw [rawRmsprop, getD_zipWith _ (by rw [hg n p hp]; exact hi) (by rw [← h1 n p hp, (hlen _ p hp).2]; exact hi),
        ← h1 n p hp, hsum (n + 1) p hp i hi]
      rfl
  · intro p hp
    refine ⟨fun n => (hlen n p hp).1, fun i hi => ⟨rfl, fun n => ⟨hsum n p hp i hi, ?_⟩⟩⟩
    show ((run (n + 1)).vars (.net p)).getD i 0 = _
    rw [h2 n p hp, getD_zipWith _ (by rw [(hlen n p hp).1]; exact hi)
      (by simp [limitedTensor_length, rawRmsprop, meanSqrGradient, hg n p hp, hlen n p hp]; exact hi)]
    rfl

/-- **C48** (ADADELTA): the gradient is multiplied by the root of a decaying mean of the squares of the earlier (limited) updates
and divided by the root of a decaying mean of the squares of the gradients. -/
theorem C48_adadelta (hs : GradShape paths grad) :
    let run := optRun .adadelta sqrt o paths grad lr (initialOptState .adadelta paths net)
    let len := fun p => (net p).length
    let g := gradAt grad run
    ∃ D : Nat → Str → Nat → S,
      (∀ n, Limited sqrt o.epsilon o.maxNorm paths len
        (fun p i => -g n p i * sqrt (decayingMean o.gamma 0 (fun k => D k p i ^ 2) n + o.epsilon) /
          sqrt (decayingMean o.gamma 0 (fun k => g k p i ^ 2) (n + 1) + o.epsilon)) (D n)) ∧
      ∀ p ∈ paths, (∀ n, ((run n).vars (.net p)).length = len p) ∧ ∀ i < len p,
        paramAt run 0 p i = (net p).getD i 0 ∧
        ∀ n, auxAt "_mean_sqr_gradient".toList run n p i = decayingMean o.gamma 0 (fun k => g k p i ^ 2) n ∧
          auxAt "_mean_sqr_delta".toList run n p i = decayingMean o.gamma 0 (fun k => D k p i ^ 2) n ∧
          paramAt run (n + 1) p i = paramAt run n p i + lr n * D n p i := by
  intro run len g
  have h1 : ∀ n, ∀ p ∈ paths, (run (n + 1)).vars (.opt (p ++ sfxMeanSqrGradient)) =
      meanSqrGradient o.gamma (grad n fun q => (run n).vars (.net q)) (run n) p := fun n p hp => adadelta_msg hp
  have h3 : ∀ n, ∀ p ∈ paths, (run (n + 1)).vars (.opt (p ++ sfxMeanSqrDelta)) =
      List.zipWith (fun m d => o.gamma * m + (1 - o.gamma) * d ^ 2) ((run n).vars (.opt (p ++ sfxMeanSqrDelta)))
        (limitedTensor sqrt o paths (rawAdadelta sqrt o (grad n fun q => (run n).vars (.net q)) (run n)) p) :=
    fun n p hp => adadelta_msd hp
  have h2 : ∀ n, ∀ p ∈ paths, (run (n + 1)).vars (.net p) =
      List.zipWith (fun x d => x + lr n * d) ((run n).vars (.net p))
        (limitedTensor sqrt o paths (rawAdadelta sqrt o (grad n fun q => (run n).vars (.net q)) (run n)) p) :=
    fun n p hp => adadelta_net hp
  have h0 : ∀ p ∈ paths, (run 0).vars (.opt (p ++ sfxMeanSqrGradient)) = (net p).map fun _ => 0 := by
    intro p hp
    refine initial_opt (x := 0) hp (by simp [optVariables]) ?_
    intro q t y ht he
    simp only [optVariables, List.mem_cons, Prod.mk.injEq, List.not_mem_nil, or_false] at ht
    rcases ht with ⟨rfl, rfl⟩ | ⟨rfl, rfl⟩
    · exact ⟨List.append_cancel_right he, rfl⟩
    · exact absurd he.symm ne_meanSqrDelta
  have h0' : ∀ p ∈ paths, (run 0).vars (.opt (p ++ sfxMeanSqrDelta)) = (net p).map fun _ => 0 := by
    intro p hp
    refine initial_opt (x := 0) hp (by simp [optVariables]) ?_
    intro q t y ht he
    simp only [optVariables, List.mem_cons, Prod.mk.injEq, List.not_mem_nil, or_false] at ht
    rcases ht with ⟨rfl, rfl⟩ | ⟨rfl, rfl⟩
    · exact absurd he ne_meanSqrDelta
    · exact ⟨List.append_cancel_right he, rfl⟩
  have hlen : ∀ n, ∀ p ∈ paths, ((run n).vars (.net p)).length = len p ∧
      ((run n).vars (.opt (p ++ sfxMeanSqrGradient))).length = len p ∧
      ((run n).vars (.opt (p ++ sfxMeanSqrDelta))).length = len p := by
    intro n
    induction n with
    | zero => intro p hp; exact ⟨rfl, by rw [h0 p hp, List.length_map], by rw [h0' p hp, List.length_map]⟩
    | succ n ih =>
      intro p hp
      refine ⟨?_, ?_, ?_⟩
      · rw [h2 n p hp]
        simp [limitedTensor_length, rawAdadelta, meanSqrGradient, hs n _ p hp, ih p hp]
      · rw [h1 n p hp]
        simp [meanSqrGradient, hs n _ p hp, ih p hp]
      · rw [h3 n p hp]
        simp [limitedTensor_length, rawAdadelta, meanSqrGradient, hs n _ p hp, ih p hp]
  have hg : ∀ n, ∀ p ∈ paths, (grad n (fun q => (run n).vars (.net q)) p).length = len p :=
    fun n p hp => by rw [hs n _ p hp, (hlen n p hp).1]
  have hl : ∀ n, ∀ p ∈ paths, (limitedTensor sqrt o paths
      (rawAdadelta sqrt o (grad n fun q => (run n).vars (.net q)) (run n)) p).length = len p := by
    intro n p hp
    simp [limitedTensor_length, rawAdadelta, meanSqrGradient, hg n p hp, hlen n p hp]
  have hsum : ∀ n, ∀ p ∈ paths, ∀ i < len p,
      ((run n).vars (.opt (p ++ sfxMeanSqrGradient))).getD i 0 = decayingMean o.gamma 0 (fun k => g k p i ^ 2) n := by
    intro n
    induction n with
    | zero =>
      intro p hp i hi
      rw [h0 p hp, getD_map' _ (show i < (net p).length from hi), decayingMean_zero]
    | succ n ih =>
      intro p hp i hi
      rw [h1 n p hp, meanSqrGradient, getD_zipWith _ (by rw [(hlen n p hp).2.1]; exact hi) (by rw [hg n p hp]; exact hi),
        ih p hp i hi, decayingMean_succ]
      rfl
  have hsum' : ∀ n, ∀ p ∈ paths, ∀ i < len p,
      ((run n).vars (.opt (p ++ sfxMeanSqrDelta))).getD i 0 =
      decayingMean o.gamma 0 (fun k => (limitedTensor sqrt o paths
        (rawAdadelta sqrt o (grad k fun q => (run k).vars (.net q)) (run k)) p).getD i 0 ^ 2) n := by
    intro n
    induction n with
    | zero =>
      intro p hp i hi
      rw [h0' p hp, getD_map' _ (show i < (net p).length from hi), decayingMean_zero]
    | succ n ih =>
      intro p hp i hi
      rw [h3 n p hp, getD_zipWith _ (by rw [(hlen n p hp).2.2]; exact hi) (by rw [hl n p hp]; exact hi),
        ih p hp i hi, decayingMean_succ]
  refine ⟨fun n p i => (limitedTensor sqrt o paths
      (rawAdadelta sqrt o (grad n fun q => (run n).vars (.net q)) (run n)) p).getD i 0, ?_, ?_⟩
  · intro n
    refine limited_limitedTensor sqrt o paths _ len ?_ _ ?_
    · intro p hp; simp [rawAdadelta, meanSqrGradient, hg n p hp, hlen n p hp]
    · intro p hp i hi
      rw [rawAdadelta, getD_zipWith _ (by simp [hg n p hp, hlen n p hp]; exact hi)
        (by rw [← h1 n p hp, (hlen _ p hp).2.1]; exact hi),
        getD_zipWith _ (by rw [hg n p hp]; exact hi) (by rw [(hlen n p hp).2.2]; exact hi),
        ← h1 n p hp, hsum (n + 1) p hp i hi, hsum' n p hp i hi]
      rfl
  · intro p hp
    refine ⟨fun n => (hlen n p hp).1, fun i hi => ⟨rfl, fun n => ⟨hsum n p hp i hi, hsum' n p hp i hi, ?_⟩⟩⟩
    show ((run (n + 1)).vars (.net p)).getD i 0 = _
    rw [h2 n p hp, getD_zipWith _ (by rw [(hlen n p hp).1]; exact hi) (by rw [hl n p hp]; exact hi)]
    rfl

/-- **C48** (Adam): the update is the decaying mean of the gradients divided by the root of the decaying mean of their squares,
and the learning rate is corrected for the means being biased towards zero, depending on the number of updates. -/
theorem C48_adam (hs : GradShape paths grad) :
    let run := optRun .adam sqrt o paths grad lr (initialOptState .adam paths net)
    let len := fun p => (net p).length
    let g := gradAt grad run
    ∃ D : Nat → Str → Nat → S,
      (∀ n, Limited sqrt o.epsilon o.maxNorm paths len
        (fun p i => -decayingMean o.gamma 0 (fun k => g k p i) (n + 1) /
          (sqrt (decayingMean o.gammaSqr 0 (fun k => g k p i ^ 2) (n + 1)) + o.epsilon)) (D n)) ∧
      (∀ n, (run n).timestep = n) ∧
      ∀ p ∈ paths, (∀ n, ((run n).vars (.net p)).length = len p) ∧ ∀ i < len p,
        paramAt run 0 p i = (net p).getD i 0 ∧
        ∀ n, auxAt "_mean_gradient".toList run n p i = decayingMean o.gamma 0 (fun k => g k p i) n ∧
          auxAt "_mean_sqr_gradient".toList run n p i = decayingMean o.gammaSqr 0 (fun k => g k p i ^ 2) n ∧
          paramAt run (n + 1) p i = paramAt run n p i +
            lr n * sqrt (1 - o.gammaSqr ^ (n + 1)) / (1 - o.gamma ^ (n + 1)) * D n p i := by
  intro run len g
  have ht : ∀ n, (run n).timestep = n := by
    intro n
    induction n with
    | zero => rfl
    | succ n ih =>
      show (run n).timestep + 1 = n + 1
      rw [ih]
  have h1 : ∀ n, ∀ p ∈ paths, (run (n + 1)).vars (.opt (p ++ sfxMeanSqrGradient)) =
      meanSqrGradient o.gammaSqr (grad n fun q => (run n).vars (.net q)) (run n) p := fun n p hp => adam_ms hp
  have h3 : ∀ n, ∀ p ∈ paths, (run (n + 1)).vars (.opt (p ++ sfxMeanGradient)) =
      meanGradient o.gamma (grad n fun q => (run n).vars (.net q)) (run n) p := fun n p hp => adam_m hp
  have h2 : ∀ n, ∀ p ∈ paths, (run (n + 1)).vars (.net p) =
      List.zipWith (fun x d => x + lr n * sqrt (1 - o.gammaSqr ^ (n + 1)) / (1 - o.gamma ^ (n + 1)) * d)
        ((run n).vars (.net p))
        (limitedTensor sqrt o paths (rawAdam sqrt o (grad n fun q => (run n).vars (.net q)) (run n)) p) := by
    intro n p hp
    have := adam_net (sqrt := sqrt) (o := o) (grad := grad n fun q => (run n).vars (.net q)) (alpha := lr n)
      (st := run n) hp
    rw [ht n] at this
    exact this
  have h0 : ∀ p ∈ paths, (run 0).vars (.opt (p ++ sfxMeanSqrGradient)) = (net p).map fun _ => 0 := by
    intro p hp
    refine initial_opt (x := 0) hp (by simp [optVariables]) ?_
    intro q t y ht he
    simp only [optVariables, List.mem_cons, Prod.mk.injEq, List.not_mem_nil, or_false] at ht
    rcases ht with ⟨rfl, rfl⟩ | ⟨rfl, rfl⟩
    · exact absurd he ne_meanGradient
    · exact ⟨List.append_cancel_right he, rfl⟩
  have h0' : ∀ p ∈ paths, (run 0).vars (.opt (p ++ sfxMeanGradient)) = (net p).map fun _ => 0 := by
    intro p hp
    refine initial_opt (x := 0) hp (by simp [optVariables]) ?_
    intro q t y ht he
    simp only [optVariables, List.mem_cons, Prod.mk.injEq, List.not_mem_nil, or_false] at ht
    rcases ht with ⟨rfl, rfl⟩ | ⟨rfl, rfl⟩
    · exact ⟨List.append_cancel_right he, rfl⟩
    · exact absurd he.symm ne_meanGradient
  have hlen : ∀ n, ∀ p ∈ paths, ((run n).vars (.net p)).length = len p ∧
      ((run n).vars (.opt (p ++ sfxMeanSqrGradient))).length = len p ∧
      ((run n).vars (.opt (p ++ sfxMeanGradient))).length = len p := by
    intro n
    induction n with
    | zero => intro p hp; exact ⟨rfl, by rw [h0 p hp, List.length_map], by rw [h0' p hp, List.length_map]⟩
    | succ n ih =>
      intro p hp
      refine ⟨?_, ?_, ?_⟩
      · rw [h2 n p hp]
        simp [limitedTensor_length, rawAdam, meanSqrGradient, meanGradient, hs n _ p hp, ih p hp]
      · rw [h1 n p hp]
        simp [meanSqrGradient, hs n _ p hp, ih p hp]
      · rw [h3 n p hp]
        simp [meanGradient, hs n _ p hp, ih p hp]
  have hg : ∀ n, ∀ p ∈ paths, (grad n (fun q => (run n).vars (.net q)) p).length = len p :=
    fun n p hp => by rw [hs n _ p hp, (hlen n p hp).1]
  have hl : ∀ n, ∀ p ∈ paths, (limitedTensor sqrt o paths
      (rawAdam sqrt o (grad n fun q => (run n).vars (.net q)) (run n)) p).length = len p := by
    intro n p hp
    simp [limitedTensor_length, rawAdam, meanSqrGradient, meanGradient, hg n p hp, hlen n p hp]
  have hsum : ∀ n, ∀ p ∈ paths, ∀ i < len p,
      ((run n).vars (.opt (p ++ sfxMeanSqrGradient))).getD i 0 =
        decayingMean o.gammaSqr 0 (fun k => g k p i ^ 2) n := by
    intro n
    induction n with
    | zero =>
      intro p hp i hi
      rw [h0 p hp, getD_map' _ (show i < (net p).length from hi), decayingMean_zero]
    | succ n ih =>
      intro p hp i hi
      rw [h1 n p hp, meanSqrGradient, getD_zipWith _ (by rw [(hlen n p hp).2.1]; exact hi) (by rw [hg n p hp]; exact hi),
        ih p hp i hi, decayingMean_succ]
      rfl
  have hsum' : ∀ n, ∀ p ∈ paths, ∀ i < len p,
      ((run n).vars (.opt (p ++ sfxMeanGradient))).getD i 0 = decayingMean o.gamma 0 (fun k => g k p i) n := by
    intro n
    induction n with
    | zero =>
      intro p hp i hi
      rw [h0' p hp, getD_map' _ (show i < (net p).length from hi), decayingMean_zero]
    | succ n ih =>
      intro p hp i hi
      rw [h3 n p hp, meanGradient, getD_zipWith _ (by rw [(hlen n p hp).2.2]; exact hi) (by rw [hg n p hp]; exact hi),
        ih p hp i hi, decayingMean_succ]
      rfl
  refine ⟨fun n p i => (limitedTensor sqrt o paths
      (rawAdam sqrt o (grad n fun q => (run n).vars (.net q)) (run n)) p).getD i 0, ?_, ht, ?_⟩
  · intro n
    refine limited_limitedTensor sqrt o paths _ len ?_ _ ?_
    · intro p hp; simp [rawAdam, meanSqrGradient, meanGradient, hg n p hp, hlen n p hp]
    · intro p hp i hi
      rw [rawAdam, ← h3 n p hp, ← h1 n p hp, getD_zipWith _ (by rw [(hlen _ p hp).2.2]; exact hi)
        (by rw [(hlen _ p hp).2.1]; exact hi), hsum (n + 1) p hp i hi, hsum' (n + 1) p hp i hi]
  · intro p hp
    refine ⟨fun n => (hlen n p hp).1, fun i hi => ⟨rfl, fun n => ⟨hsum' n p hp i hi, hsum n p hp i hi, ?_⟩⟩⟩
    show ((run (n + 1)).vars (.net p)).getD i 0 = _
    rw [h2 n p hp, getD_zipWith _ (by rw [(hlen n p hp).1]; exact hi) (by rw [hl n p hp]; exact hi)]
    rfl

/-- **C48** (RMSProp with Nesterov momentum, partial): the velocity and the parameters follow the documented equations with an
update that is the gradient divided by the root of a mean of squared gradients.  The mean is however not a running mean: it is
computed from the square of the current gradient and the initial value one only, because the new value of the running mean is
never stored.  What is missing is `decayingMean o.gamma 1 (fun k => g k p i ^ 2) (n + 1)` in the place of
`o.gamma + (1 - o.gamma) * g n p i ^ 2`. -/
theorem C48_rmsprop_nesterov_partial (hs : GradShape paths grad) :
    let run := optRun .rmspropNesterov sqrt o paths grad lr (initialOptState .rmspropNesterov paths net)
    let len := fun p => (net p).length
    let g := gradAt grad run
    ∃ D : Nat → Str → Nat → S,
      (∀ n, Limited sqrt o.epsilon o.maxNorm paths len
        (fun p i => -g n p i / sqrt (o.gamma + (1 - o.gamma) * g n p i ^ 2 + o.epsilon)) (D n)) ∧
      ∀ p ∈ paths, (∀ n, ((run n).vars (.net p)).length = len p) ∧ ∀ i < len p,
        paramAt run 0 p i = (net p).getD i 0 ∧ auxAt "_velocity".toList run 0 p i = 0 ∧
        ∀ n, auxAt "_mean_sqr_gradient".toList run n p i = 1 ∧
          auxAt "_velocity".toList run (n + 1) p i =
            o.momentum * auxAt "_velocity".toList run n p i + lr n * D n p i ∧
          paramAt run (n + 1) p i =
            paramAt run n p i + o.momentum * auxAt "_velocity".toList run (n + 1) p i + lr n * D n p i := by
  intro run len g
  have hd : ∀ n, ∀ p ∈ paths, deltaOf (normalizeDeltas sqrt o
      (rmspropDeltas sqrt o paths (grad n fun q => (run n).vars (.net q)) (run n))) p =
      limitedTensor sqrt o paths (rawRmsprop sqrt o (grad n fun q => (run n).vars (.net q)) (run n)) p :=
    fun n p hp => deltaOf_normalize sqrt o _ hp
  have hv : ∀ n, ∀ p ∈ paths, (run (n + 1)).vars (.opt (p ++ sfxVelocity)) =
      List.zipWith (fun v d => o.momentum * v + lr n * d) ((run n).vars (.opt (p ++ sfxVelocity)))
        (limitedTensor sqrt o paths (rawRmsprop sqrt o (grad n fun q => (run n).vars (.net q)) (run n)) p) := by
    intro n p hp
    rw [← hd n p hp]
    exact momentum_velocity hp
  have hn : ∀ n, ∀ p ∈ paths, (run (n + 1)).vars (.net p) = List.zipWith (· + ·)
      (List.zipWith (fun x v => x + o.momentum * v) ((run n).vars (.net p)) ((run (n + 1)).vars (.opt (p ++ sfxVelocity))))
      ((limitedTensor sqrt o paths (rawRmsprop sqrt o (grad n fun q => (run n).vars (.net q)) (run n)) p).map
        (lr n * ·)) := by
    intro n p hp
    rw [hv n p hp, ← hd n p hp]
    exact momentum_net hp
  have h0 : ∀ p ∈ paths, (run 0).vars (.opt (p ++ sfxMeanSqrGradient)) = (net p).map fun _ => 1 := by
    intro p hp
    refine initial_opt (x := 1) hp (by simp [optVariables]) ?_
    intro q t y ht he
    simp only [optVariables, List.mem_cons, Prod.mk.injEq, List.not_mem_nil, or_false] at ht
    rcases ht with ⟨rfl, rfl⟩ | ⟨rfl, rfl⟩
    · exact ⟨List.append_cancel_right he, rfl⟩
    · exact absurd he.symm ne_velocity
  have h0' : ∀ p ∈ paths, (run 0).vars (.opt (p ++ sfxVelocity)) = (net p).map fun _ => 0 := by
    intro p hp
    refine initial_opt (x := 0) hp (by simp [optVariables]) ?_
    intro q t y ht he
    simp only [optVariables, List.mem_cons, Prod.mk.injEq, List.not_mem_nil, or_false] at ht
    rcases ht with ⟨rfl, rfl⟩ | ⟨rfl, rfl⟩
    · exact absurd he ne_velocity
    · exact ⟨List.append_cancel_right he, rfl⟩
  have h1 : ∀ n, ∀ p ∈ paths, (run n).vars (.opt (p ++ sfxMeanSqrGradient)) = (net p).map fun _ => 1 := by
    intro n p hp
    induction n with
    | zero => exact h0 p hp
    | succ n ih =>
      rw [← ih]
      exact momentum_other fun q => ne_velocity
  have hlen : ∀ n, ∀ p ∈ paths, ((run n).vars (.net p)).length = len p ∧
      ((run n).vars (.opt (p ++ sfxVelocity))).length = len p := by
    intro n
    induction n with
    | zero => intro p hp; exact ⟨rfl, by rw [h0' p hp, List.length_map]⟩
    | succ n ih =>
      intro p hp
      have h2 : ((run (n + 1)).vars (.opt (p ++ sfxVelocity))).length = len p := by
        rw [hv n p hp]
        simp [limitedTensor_length, rawRmsprop, meanSqrGradient, hs n _ p hp, ih p hp, h1 n p hp, len]
      refine ⟨?_, h2⟩
      rw [hn n p hp]
      simp [limitedTensor_length, rawRmsprop, meanSqrGradient, hs n _ p hp, ih p hp, h1 n p hp, h2, len]
  have hg : ∀ n, ∀ p ∈ paths, (grad n (fun q => (run n).vars (.net q)) p).length = len p :=
    fun n p hp => by rw [hs n _ p hp, (hlen n p hp).1]
  have hm : ∀ n, ∀ p ∈ paths,
      (meanSqrGradient o.gamma (grad n fun q => (run n).vars (.net q)) (run n) p).length = len p := by
    intro n p hp
    simp [meanSqrGradient, hg n p hp, h1 n p hp, len]
  have hl : ∀ n, ∀ p ∈ paths, (limitedTensor sqrt o paths
      (rawRmsprop sqrt o (grad n fun q => (run n).vars (.net q)) (run n)) p).length = len p := by
    intro n p hp
    simp [limitedTensor_length, rawRmsprop, hg n p hp, hm n p hp]
  refine ⟨fun n p i => (limitedTensor sqrt o paths
      (rawRmsprop sqrt o (grad n fun q => (run n).vars (.net q)) (run n)) p).getD i 0, ?_, ?_⟩
  · intro n
    refine limited_limitedTensor sqrt o paths _ len ?_ _ ?_
    · intro p hp; simp [rawRmsprop, hg n p hp, hm n p hp]
    · intro p hp i hi
      rw [rawRmsprop, getD_zipWith _ (by rw [hg n p hp]; exact hi) (by rw [hm n p hp]; exact hi), meanSqrGradient,
        getD_zipWith _ (by rw [h1 n p hp, List.length_map]; exact hi) (by rw [hg n p hp]; exact hi), h1 n p hp,
        getD_map' _ (show i < (net p).length from hi), mul_one]
      rfl
  · intro p hp
    refine ⟨fun n => (hlen n p hp).1, fun i hi => ⟨rfl, ?_, fun n => ⟨?_, ?_, ?_⟩⟩⟩
    · show ((run 0).vars (.opt (p ++ sfxVelocity))).getD i 0 = 0
      rw [h0' p hp, getD_map' _ (show i < (net p).length from hi)]
    · show ((run n).vars (.opt (p ++ sfxMeanSqrGradient))).getD i 0 = 1
      rw [h1 n p hp, getD_map' _ (show i < (net p).length from hi)]
    · show ((run (n + 1)).vars (.opt (p ++ sfxVelocity))).getD i 0 = _
      rw [hv n p hp, getD_zipWith _ (by rw [(hlen n p hp).2]; exact hi) (by rw [hl n p hp]; exact hi)]
      rfl
    · show ((run (n + 1)).vars (.net p)).getD i 0 = _
      have h2 := (hlen (n + 1) p hp).2
      rw [hn n p hp, getD_zipWith _ (by rw [List.length_zipWith, (hlen n p hp).1, h2, min_self]; exact hi)
        (by rw [List.length_map, hl n p hp]; exact hi),
        getD_zipWith _ (by rw [(hlen n p hp).1]; exact hi) (by rw [h2]; exact hi),
        getD_map' _ (by rw [hl n p hp]; exact hi)]
      rfl

/-- **C48** (Nesterov momentum, in its usual form): the stored parameters are the point `phi n + mu * v n` to which the momentum
is about to take the actual parameters `phi n`; the gradient is computed there, as in the method of Nesterov. -/
theorem C48_nesterov_lookahead (hs : GradShape paths grad) :
    let run := optRun .nesterov sqrt o paths grad lr (initialOptState .nesterov paths net)
    let len := fun p => (net p).length
    ∃ D v phi : Nat → Str → Nat → S,
      (∀ n, Limited sqrt o.epsilon o.maxNorm paths len (fun p i => -gradAt grad run n p i) (D n)) ∧
      ∀ p ∈ paths, ∀ i < len p,
        phi 0 p i = (net p).getD i 0 ∧ v 0 p i = 0 ∧
        ∀ n, paramAt run n p i = phi n p i + o.momentum * v n p i ∧
          v (n + 1) p i = o.momentum * v n p i + lr n * D n p i ∧
          phi (n + 1) p i = phi n p i + v (n + 1) p i := by
  intro run len
  obtain ⟨D, hD, h⟩ := C48_nesterov sqrt o paths grad lr net hs
  refine ⟨D, auxAt "_velocity".toList run,
    fun n p i => paramAt run n p i - o.momentum * auxAt "_velocity".toList run n p i, hD, fun p hp i hi => ?_⟩
  obtain ⟨h0, hv, h⟩ := (h p hp).2 i hi
  refine ⟨?_, hv, fun n => ⟨by ring, (h n).1, ?_⟩⟩
  · show paramAt run 0 p i - o.momentum * auxAt "_velocity".toList run 0 p i = _
    rw [show auxAt "_velocity".toList run 0 p i = 0 from hv, mul_zero, sub_zero]; exact h0
  · obtain ⟨h1, h2⟩ := h n
    have e1 : auxAt "_velocity".toList run (n + 1) p i =
      o.momentum * auxAt "_velocity".toList run n p i + lr n * D n p i := h1
    have e2 : paramAt run (n + 1) p i = paramAt run n p i + o.momentum * auxAt "_velocity".toList run (n + 1) p i +
      lr n * D n p i := h2
    show paramAt run (n + 1) p i - o.momentum * auxAt "_velocity".toList run (n + 1) p i = _
    rw [e2, e1]; ring

/-- **C48** is violated by RMSProp with Nesterov momentum: after one update with gradient 2, the stored running mean of squared
gradients is not the documented one, whatever the options are (unless the decay rate is one, which disables averaging). -/
theorem C48_rmsprop_nesterov_violated [IsStrictOrderedRing S] (hg : o.gamma ≠ 1) :
    ∃ (paths : List Str) (grad : Nat → (Str → List S) → Str → List S) (net : Str → List S),
      GradShape paths grad ∧ ∃ p ∈ paths, ∃ i < (net p).length,
        let run := optRun .rmspropNesterov sqrt o paths grad lr (initialOptState .rmspropNesterov paths net)
        auxAt "_mean_sqr_gradient".toList run 1 p i ≠
          decayingMean o.gamma 1 (fun k => gradAt grad run k p i ^ 2) 1 := by
  have hshape : GradShape (S := S) [['p']] (fun _ theta p => (theta p).map fun _ => 2) :=
    fun _ _ _ _ => List.length_map _
  refine ⟨[['p']], fun _ theta p => (theta p).map fun _ => 2, fun _ => [0], hshape, ['p'], by simp, 0, by simp, ?_⟩
  intro run he
  obtain ⟨_, _, h⟩ := C48_rmsprop_nesterov_partial sqrt o [['p']] (fun _ theta p => (theta p).map fun _ => 2) lr
    (fun _ => [0]) hshape
  have h1 : auxAt "_mean_sqr_gradient".toList run 1 ['p'] 0 = 1 := (((h ['p'] (by simp)).2 0 (by simp)).2.2 1).1
  have h2 : gradAt (fun _ theta p => (theta p).map fun _ => (2 : S)) run 0 ['p'] 0 = 2 := rfl
  rw [h1, decayingMean_succ, decayingMean_zero, h2] at he
  apply hg
  have : (3 : S) * (o.gamma - 1) = 0 := by linear_combination he
  rcases mul_eq_zero.mp this with h | h
  · exact absurd h three_ne_zero
  · exact sub_eq_zero.mp h

end

/-! ## C47 -/

section
variable [IsStrictOrderedRing S]

/-- The Euclidean norm of all the elements of a dictionary of tensors. -/
def dictNorm (sqrt : S → S) (deltas : List (Str × List S)) : S :=
  sqrt ((deltas.flatMap fun d => d.2.map fun x => x ^ 2).sum)

theorem sum_flatMap_sq (deltas : List (Str × List S)) (c : S) :
    (deltas.flatMap fun d => d.2.map fun x => (x * c) ^ 2).sum =
      c ^ 2 * (deltas.flatMap fun d => d.2.map fun x => x ^ 2).sum := by
  have : ∀ l : List S, (l.map fun x => (x * c) ^ 2).sum = c ^ 2 * (l.map fun x => x ^ 2).sum := by
    intro l
    induction l with
    | nil => simp
    | cons a l ih => rw [List.map_cons, List.sum_cons, ih, List.map_cons, List.sum_cons]; ring
  induction deltas with
  | nil => simp
  | cons d ds ih => rw [List.flatMap_cons, List.sum_append, ih, this, List.flatMap_cons, List.sum_append]; ring

theorem sum_flatMap_nonneg (deltas : List (Str × List S)) :
    0 ≤ (deltas.flatMap fun d => d.2.map fun x => x ^ 2).sum := by
  apply List.sum_nonneg
  intro x hx
  obtain ⟨d, _, hx⟩ := List.mem_flatMap.mp hx
  obtain ⟨y, _, rfl⟩ := List.mem_map.mp hx
  exact sq_nonneg y

theorem sumOfSquares_flatMap (deltas : List (Str × List S)) :
    sumOfSquares (deltas.map (·.2)) = (deltas.flatMap fun d => d.2.map fun x => x ^ 2).sum := by
  unfold sumOfSquares
  induction deltas with
  | nil => simp
  | cons d ds ih => rw [List.flatMap_cons, List.sum_append, ← ih]; simp

theorem IsSqrt.mul_sq {sqrt : S → S} (h : IsSqrt sqrt) {c x : S} (hc : 0 ≤ c) (hx : 0 ≤ x) :
    sqrt (c ^ 2 * x) = c * sqrt x := by
  obtain ⟨h1, h2⟩ := h (c ^ 2 * x) (mul_nonneg (sq_nonneg c) hx)
  obtain ⟨h3, h4⟩ := h x hx
  refine (pow_left_inj₀ h1 (mul_nonneg hc h3) two_ne_zero).mp ?_
  rw [h2, mul_pow, h4]

/-- **C47**: normalization multiplies all the elements of all the updates by the same non-negative number (the direction is
unchanged), the norm of the result is at most the maximum, and the number is norm / (norm + epsilon) if the norm is at most the
maximum. -/
theorem C47 {sqrt : S → S} (hq : IsSqrt sqrt) {o : OptOptions S} (he : 0 < o.epsilon) {m : S} (ho : o.maxNorm = some m)
    (hm : 0 ≤ m) (deltas : List (Str × List S)) :
    ∃ c : S, 0 ≤ c ∧ c < 1 ∧
      normalizeDeltas sqrt o deltas = deltas.map (fun d => (d.1, d.2.map (· * c))) ∧
      dictNorm sqrt (normalizeDeltas sqrt o deltas) ≤ m ∧
      (dictNorm sqrt deltas ≤ m → c = dictNorm sqrt deltas / (dictNorm sqrt deltas + o.epsilon)) ∧
      (m < dictNorm sqrt deltas → c = m / (dictNorm sqrt deltas + o.epsilon)) := by
  have hN : 0 ≤ dictNorm sqrt deltas := (hq _ (sum_flatMap_nonneg deltas)).1
  have hpos : 0 < dictNorm sqrt deltas + o.epsilon := add_pos_of_nonneg_of_pos hN he
  have hc0 : 0 ≤ min (dictNorm sqrt deltas) m / (dictNorm sqrt deltas + o.epsilon) :=
    div_nonneg (le_min hN hm) hpos.le
  have hc1 : min (dictNorm sqrt deltas) m / (dictNorm sqrt deltas + o.epsilon) < 1 := by
    rw [div_lt_one hpos]
    exact lt_of_le_of_lt (min_le_left _ _) (lt_add_of_pos_right _ he)
  have hr : normalizeDeltas sqrt o deltas = deltas.map (fun d =>
      (d.1, d.2.map (· * (min (dictNorm sqrt deltas) m / (dictNorm sqrt deltas + o.epsilon))))) := by
    unfold normalizeDeltas
    rw [ho]
    simp only
    rw [sumOfSquares_flatMap]
    show deltas.map (fun d => (d.1, d.2.map fun x => x * clip (dictNorm sqrt deltas) 0 m /
      (o.epsilon + dictNorm sqrt deltas))) = _
    apply List.map_congr_left
    intro d _
    congr 1
    apply List.map_congr_left
    intro x _
    rw [clip, max_eq_left hN, add_comm o.epsilon, mul_div_assoc]
  refine ⟨_, hc0, hc1, hr, ?_, ?_, ?_⟩
  · have hn : dictNorm sqrt (normalizeDeltas sqrt o deltas) =
        min (dictNorm sqrt deltas) m / (dictNorm sqrt deltas + o.epsilon) * dictNorm sqrt deltas := by
      rw [hr]
      generalize min (dictNorm sqrt deltas) m / (dictNorm sqrt deltas + o.epsilon) = c at hc0
      unfold dictNorm
      rw [List.flatMap_map]
      simp only [List.map_map, Function.comp_def]
      rw [sum_flatMap_sq, hq.mul_sq hc0 (sum_flatMap_nonneg deltas)]
    rw [hn]
    show min (dictNorm sqrt deltas) m / (dictNorm sqrt deltas + o.epsilon) * dictNorm sqrt deltas ≤ m
    rw [div_mul_eq_mul_div, div_le_iff₀ hpos]
    calc min (dictNorm sqrt deltas) m * dictNorm sqrt deltas ≤ m * dictNorm sqrt deltas :=
          mul_le_mul_of_nonneg_right (min_le_right _ _) hN
      _ ≤ m * (dictNorm sqrt deltas + o.epsilon) := mul_le_mul_of_nonneg_left (by linarith) hm
  · intro h; rw [min_eq_left h]
  · intro h; rw [min_eq_right h.le]

/-- Limited updates have a norm of at most the limit. -/
theorem totalNorm_limited {sqrt : S → S} (hq : IsSqrt sqrt) {e m : S} (he : 0 < e) (hm : 0 ≤ m) {paths : List Str}
    {len : Str → Nat} {raw d : Str → Nat → S} (h : Limited sqrt e (some m) paths len raw d) (a : S) :
    totalNorm sqrt paths len (fun p i => a * d p i) ≤ |a| * m := by
  have hnn : ∀ x : Str → Nat → S, 0 ≤ (paths.map fun p => ∑ i ∈ Finset.range (len p), x p i ^ 2).sum := by
    intro x
    apply List.sum_nonneg
    intro y hy
    obtain ⟨p, _, rfl⟩ := List.mem_map.mp hy
    exact Finset.sum_nonneg fun i _ => sq_nonneg _
  have hN : 0 ≤ totalNorm sqrt paths len raw := (hq _ (hnn raw)).1
  set N := totalNorm sqrt paths len raw with hNd
  have hpos : 0 < e + N := add_pos_of_pos_of_nonneg he hN
  have hc0 : 0 ≤ |a| * (min N m / (e + N)) := mul_nonneg (abs_nonneg a) (div_nonneg (le_min hN hm) hpos.le)
  have : totalNorm sqrt paths len (fun p i => a * d p i) = |a| * (min N m / (e + N)) * N := by
    have hN' : N = sqrt ((paths.map fun p => ∑ i ∈ Finset.range (len p), raw p i ^ 2).sum) := hNd
    have hf : ∀ c : S, 0 ≤ c → c * N = sqrt (c ^ 2 * (paths.map fun p => ∑ i ∈ Finset.range (len p), raw p i ^ 2).sum) :=
      fun c hc => by rw [hN', hq.mul_sq hc (hnn raw)]
    rw [hf _ hc0]
    show sqrt _ = _
    congr 1
    rw [← List.sum_map_mul_left]
    congr 1
    apply List.map_congr_left
    intro p hp
    rw [Finset.mul_sum]
    apply Finset.sum_congr rfl
    intro i hi
    show (a * d p i) ^ 2 = _
    rw [h p hp i (Finset.mem_range.mp hi)]
    simp only
    rw [← hNd, max_eq_left hN, mul_pow, mul_pow, mul_pow, sq_abs]
    ring
  rw [this, mul_assoc, div_mul_eq_mul_div]
  apply mul_le_mul_of_nonneg_left _ (abs_nonneg a)
  rw [div_le_iff₀ hpos]
  calc min N m * N ≤ m * N := mul_le_mul_of_nonneg_right (min_le_right _ _) hN
    _ ≤ m * (e + N) := mul_le_mul_of_nonneg_left (by linarith) hm

/-- **C47** (training): with the methods that do not use momentum, an update never moves the parameters further than the learning
rate times the maximum norm (with Adam, the learning rate corrected for bias). -/
theorem C47_update {sqrt : S → S} (hq : IsSqrt sqrt) {o : OptOptions S} (he : 0 < o.epsilon) {m : S}
    (ho : o.maxNorm = some m) (hm : 0 ≤ m) (paths : List Str) (grad : Nat → (Str → List S) → Str → List S) (lr : Nat → S)
    (net : Str → List S) (hs : GradShape paths grad) (method : OptMethod) (hmn : method ≠ .nesterov)
    (hmr : method ≠ .rmspropNesterov) (n : Nat) :
    let run := optRun method sqrt o paths grad lr (initialOptState method paths net)
    totalNorm sqrt paths (fun p => (net p).length) (fun p i => paramAt run (n + 1) p i - paramAt run n p i) ≤
      |if method = .adam then lr n * sqrt (1 - o.gammaSqr ^ (n + 1)) / (1 - o.gamma ^ (n + 1)) else lr n| * m := by
  intro run
  have key : ∀ (a : S) (raw D : Str → Nat → S), Limited sqrt o.epsilon o.maxNorm paths (fun p => (net p).length) raw D →
      (∀ p ∈ paths, ∀ i < (net p).length, paramAt run (n + 1) p i = paramAt run n p i + a * D p i) →
      totalNorm sqrt paths (fun p => (net p).length) (fun p i => paramAt run (n + 1) p i - paramAt run n p i) ≤
        |a| * m := by
    intro a raw D hD h
    rw [ho] at hD
    refine le_trans (le_of_eq ?_) (totalNorm_limited hq he hm hD a)
    unfold totalNorm
    congr 2
    apply List.map_congr_left
    intro p hp
    exact Finset.sum_congr rfl fun i hi => by
      simp only [h p hp i (Finset.mem_range.mp hi), add_sub_cancel_left]
  cases method with
  | nesterov => exact absurd rfl hmn
  | rmspropNesterov => exact absurd rfl hmr
  | sgd =>
    obtain ⟨D, hD, h⟩ := C48_sgd sqrt o paths grad lr net hs
    exact key _ _ _ (hD n) fun p hp i hi => ((h p hp).2 i hi).2 n
  | adagrad =>
    obtain ⟨D, hD, h⟩ := C48_adagrad sqrt o paths grad lr net hs
    exact key _ _ _ (hD n) fun p hp i hi => (((h p hp).2 i hi).2 n).2
  | rmspropSgd =>
    obtain ⟨D, hD, h⟩ := C48_rmsprop_sgd sqrt o paths grad lr net hs
    exact key _ _ _ (hD n) fun p hp i hi => (((h p hp).2 i hi).2 n).2
  | adadelta =>
    obtain ⟨D, hD, h⟩ := C48_adadelta sqrt o paths grad lr net hs
    exact key _ _ _ (hD n) fun p hp i hi => (((h p hp).2 i hi).2 n).2.2
  | adam =>
    obtain ⟨D, hD, _, h⟩ := C48_adam sqrt o paths grad lr net hs
    exact key _ _ _ (hD n) fun p hp i hi => (((h p hp).2 i hi).2 n).2.2

end

/-! ## C49 -/

/-- **C49** is violated: whatever the weights of the training files are, the update of every mini-batch is the same. -/
theorem C49_violated (method : OptMethod) (sqrt : S → S) (o : OptOptions S) (paths : List Str)
    (gradient : List (List Nat) → List (List Nat) → List (List Bool) → (Str → List S) → Str → List S)
    (numWords : List (List Nat) → List (List Bool) → Nat) (learningRate : S) (weights weights' : List S)
    (wordIds classIds fileIds : List (List Nat)) (mask : List (List Bool)) (st st₁ st₂ : OptState S)
    (h₁ : updateMinibatch method sqrt o paths gradient numWords learningRate weights wordIds classIds fileIds mask st =
      .ok st₁)
    (h₂ : updateMinibatch method sqrt o paths gradient numWords learningRate weights' wordIds classIds fileIds mask st =
      .ok st₂) : st₁ = st₂ := by
  unfold updateMinibatch at h₁ h₂
  cases hw : fileWeights weights fileIds.tail with
  | error e => simp [hw, bind, Except.bind] at h₁
  | ok w =>
    cases hw' : fileWeights weights' fileIds.tail with
    | error e => simp [hw', bind, Except.bind] at h₂
    | ok w' =>
      simp only [hw, hw', bind, Except.bind, pure, Except.pure, Except.ok.injEq] at h₁ h₂
      rw [← h₁, ← h₂]
      rfl

/-- A file without a weight is an error; otherwise the mini-batch is used for an update. -/
theorem C49_index (method : OptMethod) (sqrt : S → S) (o : OptOptions S) (paths : List Str)
    (gradient : List (List Nat) → List (List Nat) → List (List Bool) → (Str → List S) → Str → List S)
    (numWords : List (List Nat) → List (List Bool) → Nat) (learningRate : S) (weights : List S)
    (wordIds classIds fileIds : List (List Nat)) (mask : List (List Bool)) (st : OptState S) :
    (∃ st', updateMinibatch method sqrt o paths gradient numWords learningRate weights wordIds classIds fileIds mask st =
      .ok st') ↔ ∀ row ∈ fileIds.tail, ∀ i ∈ row, i < weights.length := by
  have hrow : ∀ row : List Nat, (∃ w, row.mapM (fileWeight weights) = .ok w) ↔ ∀ i ∈ row, i < weights.length := by
    intro row
    induction row with
    | nil => simp [pure, Except.pure]
    | cons i row ih =>
      rw [List.mapM_cons]
      by_cases hi : i < weights.length
      · simp only [fileWeight, List.getElem?_eq_getElem hi, bind, Except.bind, List.forall_mem_cons, hi, true_and, ← ih]
        constructor
        · rintro ⟨w, hw⟩
          split at hw
          · cases hw
          · exact ⟨_, ‹_›⟩
        · rintro ⟨w, hw⟩
          rw [hw]
          exact ⟨_, rfl⟩
      · simp [fileWeight, bind, Except.bind, hi]
  have hall : ∀ rows : List (List Nat), (∃ w, fileWeights weights rows = .ok w) ↔
      ∀ row ∈ rows, ∀ i ∈ row, i < weights.length := by
    intro rows
    unfold fileWeights
    induction rows with
    | nil => simp [pure, Except.pure]
    | cons row rows ih =>
      rw [List.mapM_cons, List.forall_mem_cons, ← ih, ← hrow]
      constructor
      · rintro ⟨w, hw⟩
        simp only [bind, Except.bind] at hw
        split at hw
        · cases hw
        · split at hw
          · cases hw
          · exact ⟨⟨_, ‹_›⟩, ⟨_, ‹_›⟩⟩
      · rintro ⟨⟨w, hw⟩, ⟨w', hw'⟩⟩
        simp only [bind, Except.bind]
        rw [hw]
        simp only
        rw [hw']
        exact ⟨_, rfl⟩
  rw [← hall]
  unfold updateMinibatch
  constructor
  · rintro ⟨st', h⟩
    cases hw : fileWeights weights fileIds.tail with
    | error e => simp [hw, bind, Except.bind] at h
    | ok w => exact ⟨w, rfl⟩
  · rintro ⟨w, hw⟩
    simp [hw, bind, Except.bind, pure, Except.pure]

end

/-! ## Concrete cases -/

/-- The square root of the real numbers satisfies the assumption of C47. -/
theorem isSqrt_real : IsSqrt Real.sqrt := fun _ hx => ⟨Real.sqrt_nonneg _, Real.sq_sqrt hx⟩

/-- A gradient with the shape of the parameters. -/
example : GradShape [['W'], ['b']] (fun n theta p => (theta p).map fun x => x + (n : ℝ)) :=
  fun _ _ _ _ => List.length_map _

/-- C47 and C47_update apply to Adam with real numbers. -/
example (lr : Nat → ℝ) (n : Nat) :=
  C47_update isSqrt_real (o := ⟨1/1000, some 5, 9/10, 999/1000, 0⟩) (by norm_num) rfl (by norm_num) [['W'], ['b']]
    (fun n theta p => (theta p).map fun x => x + (n : ℝ)) lr (fun _ => [1, 2]) (fun _ _ _ _ => List.length_map _) .adam
    (by decide) (by decide) n

/-- A function that takes the square root of the numbers in the following example. -/
def exSqrt (x : Rat) : Rat := if x = 25 then 5 else if x = 9 then 3 else 1

/-- Updates 3 and 4 in different tensors have the norm 5, which is limited to 2. -/
example : normalizeDeltas exSqrt ⟨1/10, some 2, 0, 0, 0⟩ [(['W'], [3, 0]), (['b'], [-4])] =
    [(['W'], [3 * 2 / (51/10), 0]), (['b'], [-4 * 2 / (51/10)])] := by decide +kernel

/-- Two steps of stochastic gradient descent, when the gradient of the only parameter is 3: the norm is limited to 2. -/
example : (optRun .sgd exSqrt ⟨1, some 2, 0, 0, 0⟩ [['W']] (fun _ _ _ => [3]) (fun _ => 1/10)
    (initialOptState .sgd [['W']] fun _ => [1]) 2).vars (.net ['W']) = [1 - 2 * (1/10 * (3 * 2 / 4))] := by
  decide +kernel

/-- Weights 1 and 100 give the same non-zero update (C49). -/
example : ∃ st₁ st₂ : OptState Rat,
    updateMinibatch .sgd exSqrt ⟨1, some 2, 0, 0, 0⟩ [['W']] (fun _ _ _ _ _ => [3]) (fun _ _ => 1) (1/10) [1]
      [[0], [2]] [[0], [2]] [[0], [0]] [[true], [true]] (initialOptState .sgd [['W']] fun _ => [1]) = .ok st₁ ∧
    updateMinibatch .sgd exSqrt ⟨1, some 2, 0, 0, 0⟩ [['W']] (fun _ _ _ _ _ => [3]) (fun _ _ => 1) (1/10) [100]
      [[0], [2]] [[0], [2]] [[0], [0]] [[true], [true]] (initialOptState .sgd [['W']] fun _ => [1]) = .ok st₂ ∧
    st₁.vars (.net ['W']) = [17/20] ∧ st₂.vars (.net ['W']) = [17/20] :=
  ⟨_, _, rfl, rfl, by decide +kernel, by decide +kernel⟩

end TheanoLM
