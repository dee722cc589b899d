import Verif.Lemmas.Optimizer
/-! The values of the variables after one call of the update function, for each optimization method. -/
namespace TheanoLM
set_option linter.unusedSectionVars false

section
variable {S : Type} [Field S] [LinearOrder S] {sqrt : S → S} {o : OptOptions S} {paths : List Str} {grad : Str → List S}
  {alpha : S} {st : OptState S} {p : Str}

theorem sgd_net (hp : p ∈ paths) : (applyUpdates st (sgdUpdates sqrt o paths grad alpha st)).vars (.net p) =
    List.zipWith (fun x d => x + alpha * d) (st.vars (.net p))
      (limitedTensor sqrt o paths (fun q => (grad q).map (- ·)) p) := by
  refine applyUpdates_mem (t := _) ?_ ?_
  · simp only [sgdUpdates, List.mem_map]
    exact ⟨p, hp, by rw [deltaOf_normalize sqrt o (fun q => (grad q).map (- ·)) hp]⟩
  · intro t ht
    simp only [sgdUpdates, List.mem_map, Prod.mk.injEq, OptVar.net.injEq] at ht
    obtain ⟨q, hq, rfl, rfl⟩ := ht
    rw [deltaOf_normalize sqrt o (fun q => (grad q).map (- ·)) hq]

theorem momentum_velocity {deltas : List (Str × List S)} {ts : Option Nat} (hp : p ∈ paths) :
    (applyUpdates st ⟨momentumUpdates o paths deltas alpha st, ts⟩).vars (.opt (p ++ sfxVelocity)) =
    List.zipWith (fun v d => o.momentum * v + alpha * d) (st.vars (.opt (p ++ sfxVelocity))) (deltaOf deltas p) := by
  refine applyUpdates_mem (t := _) ?_ ?_
  · simp only [momentumUpdates, List.mem_flatMap]
    exact ⟨p, hp, by simp⟩
  · intro t ht
    simp only [momentumUpdates, List.mem_flatMap, List.mem_cons, Prod.mk.injEq, OptVar.opt.injEq, reduceCtorEq, false_and,
      List.not_mem_nil, or_false, List.append_cancel_right_eq] at ht
    obtain ⟨q, hq, rfl, rfl⟩ := ht
    rfl

theorem momentum_net {deltas : List (Str × List S)} {ts : Option Nat} (hp : p ∈ paths) :
    (applyUpdates st ⟨momentumUpdates o paths deltas alpha st, ts⟩).vars (.net p) =
    List.zipWith (· + ·)
      (List.zipWith (fun x v => x + o.momentum * v) (st.vars (.net p))
        (List.zipWith (fun v d => o.momentum * v + alpha * d) (st.vars (.opt (p ++ sfxVelocity))) (deltaOf deltas p)))
      ((deltaOf deltas p).map (alpha * ·)) := by
  refine applyUpdates_mem (t := _) ?_ ?_
  · simp only [momentumUpdates, List.mem_flatMap]
    exact ⟨p, hp, by simp⟩
  · intro t ht
    simp only [momentumUpdates, List.mem_flatMap, List.mem_cons, Prod.mk.injEq, OptVar.net.injEq, reduceCtorEq, false_and,
      List.not_mem_nil, or_false, false_or] at ht
    obtain ⟨q, hq, rfl, rfl⟩ := ht
    rfl

theorem momentum_other {deltas : List (Str × List S)} {ts : Option Nat} {name : Str} (hn : ∀ q, name ≠ q ++ sfxVelocity) :
    (applyUpdates st ⟨momentumUpdates o paths deltas alpha st, ts⟩).vars (.opt name) = st.vars (.opt name) := by
  refine applyUpdates_not_mem fun t ht => ?_
  simp only [momentumUpdates, List.mem_flatMap, List.mem_cons, Prod.mk.injEq, OptVar.opt.injEq, reduceCtorEq, false_and,
    List.not_mem_nil, or_false] at ht
  obtain ⟨q, _, rfl, _⟩ := ht
  exact hn q rfl

/-- Raw update directions of the methods, before normalization. -/
def rawAdagrad (sqrt : S → S) (o : OptOptions S) (grad : Str → List S) (st : OptState S) (p : Str) : List S :=
  List.zipWith (fun g s => -g / sqrt (s + o.epsilon)) (grad p) (sumSqrGradient grad st p)

def rawAdadelta (sqrt : S → S) (o : OptOptions S) (grad : Str → List S) (st : OptState S) (p : Str) : List S :=
  List.zipWith (fun gd m => gd / sqrt (m + o.epsilon))
    (List.zipWith (fun g d => -g * sqrt (d + o.epsilon)) (grad p) (st.vars (.opt (p ++ sfxMeanSqrDelta))))
    (meanSqrGradient o.gamma grad st p)

def rawAdam (sqrt : S → S) (o : OptOptions S) (grad : Str → List S) (st : OptState S) (p : Str) : List S :=
  List.zipWith (fun m ms => -m / (sqrt ms + o.epsilon))
    (meanGradient o.gamma grad st p) (meanSqrGradient o.gammaSqr grad st p)

def rawRmsprop (sqrt : S → S) (o : OptOptions S) (grad : Str → List S) (st : OptState S) (p : Str) : List S :=
  List.zipWith (fun g m => -g / sqrt (m + o.epsilon)) (grad p) (meanSqrGradient o.gamma grad st p)

theorem adagrad_aux (hp : p ∈ paths) :
    (applyUpdates st (adagradUpdates sqrt o paths grad alpha st)).vars (.opt (p ++ sfxSumSqrGradient)) =
    sumSqrGradient grad st p := by
  refine applyUpdates_mem (t := _) ?_ ?_
  · simp only [adagradUpdates, List.mem_append, List.mem_map]
    exact .inl ⟨p, hp, rfl⟩
  · intro t ht
    simp only [adagradUpdates, List.mem_append, List.mem_map, Prod.mk.injEq, OptVar.opt.injEq, reduceCtorEq, false_and,
      and_false, exists_false, or_false, List.append_cancel_right_eq] at ht
    obtain ⟨q, hq, rfl, rfl⟩ := ht
    rfl

theorem adagrad_net (hp : p ∈ paths) :
    (applyUpdates st (adagradUpdates sqrt o paths grad alpha st)).vars (.net p) =
    List.zipWith (fun x d => x + alpha * d) (st.vars (.net p))
      (limitedTensor sqrt o paths (rawAdagrad sqrt o grad st) p) := by
  refine applyUpdates_mem (t := _) ?_ ?_
  · simp only [adagradUpdates, List.mem_append, List.mem_map]
    exact .inr ⟨p, hp, by
      rw [← deltaOf_normalize sqrt o (rawAdagrad sqrt o grad st) hp]; rfl⟩
  · intro t ht
    simp only [adagradUpdates, List.mem_append, List.mem_map, Prod.mk.injEq, OptVar.net.injEq, reduceCtorEq, false_and,
      and_false, exists_false, false_or] at ht
    obtain ⟨q, hq, rfl, rfl⟩ := ht
    rw [← deltaOf_normalize sqrt o (rawAdagrad sqrt o grad st) hq]; rfl

theorem adadelta_msg (hp : p ∈ paths) :
    (applyUpdates st (adadeltaUpdates sqrt o paths grad alpha st)).vars (.opt (p ++ sfxMeanSqrGradient)) =
    meanSqrGradient o.gamma grad st p := by
  refine applyUpdates_mem (t := _) ?_ ?_
  · simp only [adadeltaUpdates, List.mem_append, List.mem_map]
    exact .inl ⟨p, hp, rfl⟩
  · intro t ht
    simp only [adadeltaUpdates, List.mem_append, List.mem_map, List.mem_flatMap, List.mem_cons, Prod.mk.injEq,
      OptVar.opt.injEq, reduceCtorEq, false_and, List.not_mem_nil, or_false, List.append_cancel_right_eq] at ht
    rcases ht with ⟨q, hq, rfl, rfl⟩ | ⟨q, hq, h, _⟩
    · rfl
    · exact absurd h ne_meanSqrDelta

theorem adadelta_msd (hp : p ∈ paths) :
    (applyUpdates st (adadeltaUpdates sqrt o paths grad alpha st)).vars (.opt (p ++ sfxMeanSqrDelta)) =
    List.zipWith (fun m d => o.gamma * m + (1 - o.gamma) * d ^ 2) (st.vars (.opt (p ++ sfxMeanSqrDelta)))
      (limitedTensor sqrt o paths (rawAdadelta sqrt o grad st) p) := by
  refine applyUpdates_mem (t := _) ?_ ?_
  · simp only [adadeltaUpdates, List.mem_append, List.mem_flatMap]
    refine .inr ⟨p, hp, ?_⟩
    rw [← deltaOf_normalize sqrt o (rawAdadelta sqrt o grad st) hp]
    exact List.mem_cons_self
  · intro t ht
    simp only [adadeltaUpdates, List.mem_append, List.mem_map, List.mem_flatMap, List.mem_cons, Prod.mk.injEq,
      OptVar.opt.injEq, reduceCtorEq, false_and, List.not_mem_nil, or_false, List.append_cancel_right_eq] at ht
    rcases ht with ⟨q, hq, h, _⟩ | ⟨q, hq, rfl, rfl⟩
    · exact absurd h ne_meanSqrDelta
    · rw [← deltaOf_normalize sqrt o (rawAdadelta sqrt o grad st) hq]; rfl

theorem adadelta_net (hp : p ∈ paths) :
    (applyUpdates st (adadeltaUpdates sqrt o paths grad alpha st)).vars (.net p) =
    List.zipWith (fun x d => x + alpha * d) (st.vars (.net p))
      (limitedTensor sqrt o paths (rawAdadelta sqrt o grad st) p) := by
  refine applyUpdates_mem (t := _) ?_ ?_
  · simp only [adadeltaUpdates, List.mem_append, List.mem_flatMap]
    refine .inr ⟨p, hp, ?_⟩
    rw [← deltaOf_normalize sqrt o (rawAdadelta sqrt o grad st) hp]
    exact List.mem_cons_of_mem _ List.mem_cons_self
  · intro t ht
    simp only [adadeltaUpdates, List.mem_append, List.mem_map, List.mem_flatMap, List.mem_cons, Prod.mk.injEq,
      OptVar.net.injEq, reduceCtorEq, false_and, and_false, exists_false, List.not_mem_nil, or_false, false_or] at ht
    obtain ⟨q, hq, rfl, rfl⟩ := ht
    rw [← deltaOf_normalize sqrt o (rawAdadelta sqrt o grad st) hq]; rfl

theorem adam_m (hp : p ∈ paths) :
    (applyUpdates st (adamUpdates sqrt o paths grad alpha st)).vars (.opt (p ++ sfxMeanGradient)) =
    meanGradient o.gamma grad st p := by
  refine applyUpdates_mem (t := _) ?_ ?_
  · simp only [adamUpdates, List.mem_append, List.mem_flatMap]
    exact .inl ⟨p, hp, List.mem_cons_self⟩
  · intro t ht
    simp only [adamUpdates, List.mem_append, List.mem_map, List.mem_flatMap, List.mem_cons, Prod.mk.injEq,
      OptVar.opt.injEq, reduceCtorEq, false_and, and_false, exists_false, List.not_mem_nil, or_false,
      List.append_cancel_right_eq] at ht
    obtain ⟨q, hq, ⟨rfl, rfl⟩ | ⟨h, _⟩⟩ := ht
    · rfl
    · exact absurd h ne_meanGradient

theorem adam_ms (hp : p ∈ paths) :
    (applyUpdates st (adamUpdates sqrt o paths grad alpha st)).vars (.opt (p ++ sfxMeanSqrGradient)) =
    meanSqrGradient o.gammaSqr grad st p := by
  refine applyUpdates_mem (t := _) ?_ ?_
  · simp only [adamUpdates, List.mem_append, List.mem_flatMap]
    exact .inl ⟨p, hp, List.mem_cons_of_mem _ List.mem_cons_self⟩
  · intro t ht
    simp only [adamUpdates, List.mem_append, List.mem_map, List.mem_flatMap, List.mem_cons, Prod.mk.injEq,
      OptVar.opt.injEq, reduceCtorEq, false_and, and_false, exists_false, List.not_mem_nil, or_false,
      List.append_cancel_right_eq] at ht
    obtain ⟨q, hq, ⟨h, _⟩ | ⟨rfl, rfl⟩⟩ := ht
    · exact absurd h.symm ne_meanGradient
    · rfl

theorem adam_net (hp : p ∈ paths) :
    (applyUpdates st (adamUpdates sqrt o paths grad alpha st)).vars (.net p) =
    List.zipWith (fun x d => x + alpha * sqrt (1 - o.gammaSqr ^ (st.timestep + 1)) / (1 - o.gamma ^ (st.timestep + 1)) * d)
      (st.vars (.net p)) (limitedTensor sqrt o paths (rawAdam sqrt o grad st) p) := by
  refine applyUpdates_mem (t := _) ?_ ?_
  · simp only [adamUpdates, List.mem_append, List.mem_map]
    refine .inr ⟨p, hp, ?_⟩
    rw [← deltaOf_normalize sqrt o (rawAdam sqrt o grad st) hp]; rfl
  · intro t ht
    simp only [adamUpdates, List.mem_append, List.mem_map, List.mem_flatMap, List.mem_cons, Prod.mk.injEq,
      OptVar.net.injEq, reduceCtorEq, false_and, and_false, exists_false, List.not_mem_nil, or_false, false_or] at ht
    obtain ⟨q, hq, rfl, rfl⟩ := ht
    rw [← deltaOf_normalize sqrt o (rawAdam sqrt o grad st) hq]; rfl

theorem rmsprop_ms (hp : p ∈ paths) :
    (applyUpdates st (rmspropSgdUpdates sqrt o paths grad alpha st)).vars (.opt (p ++ sfxMeanSqrGradient)) =
    meanSqrGradient o.gamma grad st p := by
  refine applyUpdates_mem (t := _) ?_ ?_
  · simp only [rmspropSgdUpdates, List.mem_append, List.mem_map]
    exact .inl ⟨p, hp, rfl⟩
  · intro t ht
    simp only [rmspropSgdUpdates, List.mem_append, List.mem_map, Prod.mk.injEq, OptVar.opt.injEq, reduceCtorEq, false_and,
      and_false, exists_false, or_false, List.append_cancel_right_eq] at ht
    obtain ⟨q, hq, rfl, rfl⟩ := ht
    rfl

theorem rmsprop_net (hp : p ∈ paths) :
    (applyUpdates st (rmspropSgdUpdates sqrt o paths grad alpha st)).vars (.net p) =
    List.zipWith (fun x d => x + alpha * d) (st.vars (.net p))
      (limitedTensor sqrt o paths (rawRmsprop sqrt o grad st) p) := by
  refine applyUpdates_mem (t := _) ?_ ?_
  · simp only [rmspropSgdUpdates, List.mem_append, List.mem_map]
    exact .inr ⟨p, hp, by
      rw [← deltaOf_normalize sqrt o (rawRmsprop sqrt o grad st) hp]; rfl⟩
  · intro t ht
    simp only [rmspropSgdUpdates, List.mem_append, List.mem_map, Prod.mk.injEq, OptVar.net.injEq, reduceCtorEq, false_and,
      and_false, exists_false, false_or] at ht
    obtain ⟨q, hq, rfl, rfl⟩ := ht
    rw [← deltaOf_normalize sqrt o (rawRmsprop sqrt o grad st) hq]; rfl

/-- Elements of the variables after the constructor. -/
theorem initial_net (method : OptMethod) (net : Str → List S) :
    (initialOptState method paths net).vars (.net p) = net p := rfl

theorem initial_opt {method : OptMethod} {net : Str → List S} {s : Str} {x : S} (hp : p ∈ paths)
    (hs : (s, x) ∈ optVariables method)
    (hu : ∀ q t y, (t, y) ∈ optVariables (S := S) method → q ++ t = p ++ s → q = p ∧ y = x) :
    (initialOptState method paths net).vars (.opt (p ++ s)) = (net p).map fun _ => x := by
  unfold initialOptState
  simp only
  cases hf : (paths.flatMap fun p => (optVariables (S := S) method).map fun v => (p ++ v.1, (net p).map fun _ => v.2)).find?
        (·.1 = p ++ s) with
  | none =>
    rw [List.find?_eq_none] at hf
    exact absurd (hf (p ++ s, (net p).map fun _ => x)
      (List.mem_flatMap.mpr ⟨p, hp, List.mem_map.mpr ⟨(s, x), hs, rfl⟩⟩)) (by simp)
  | some e =>
    have h1 := List.find?_some hf
    have h2 := List.mem_of_find?_eq_some hf
    simp only [decide_eq_true_eq] at h1
    obtain ⟨q, hq, h2⟩ := List.mem_flatMap.mp h2
    obtain ⟨⟨t, y⟩, ht, rfl⟩ := List.mem_map.mp h2
    obtain ⟨rfl, rfl⟩ := hu q t y ht h1
    rfl

end
end TheanoLM
