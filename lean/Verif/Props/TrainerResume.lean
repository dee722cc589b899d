import Verif.Lemmas.TrainerResumed
import Verif.Lemmas.ResumeIterator
import Verif.Lemmas.TrainerPasses
import Verif.Props.Trainer
/-!
# C107: continuing training from a model file
-/
set_option linter.unusedSectionVars false

namespace TheanoLM

section
variable {S X I J B : Type} [Field S] [LinearOrder S]

/-- **C107 (partial)** With validation: a training process is at `t0`, makes an update that is the center of the samples of a validation
(`f.update = m + 1`), and `K` more updates until the validation is completed and the model is saved.  A new process that is started from
the model file is at the same point `K + 1` steps later, and stays so, until both end: it makes the same updates with the same learning
rates, has the same validation costs, and saves the same models.

Hypotheses about the data: the next mini-batches of the new iterator are those that followed the center of the samples (`hiter`).

Missing: stopping criteria that count the decreases of the learning rate, if it has been decreased (`hcrit`,
`C107_violated_stopper`); training without validation (`C107_passes_partial`, `C107_violated_passes`); a process that ends the epoch at
the very update where the model is saved (`hp`). -/
theorem C107_partial {env : TrainEnv S X I J B} {R : I → I → Prop} (hR : SameIterators env R) {t0 t' : Trainer S X I J}
    (h0 : TrainReachable env t0) {m K : Nat} (h : Uninterrupted env t0 m (K + 1)) (hs0 : 0 < env.samples) (hn0 : 0 < env.updatesPerEpoch)
    (hp : (stateAfter env t0 (K + 1)).phase = .batches) {f : TrainFile S X J} {u : Nat} {sa : List S} {c : S}
    (hl : (stateAfter env t0 (K + 1)).log = .saved f :: .validated u sa c :: (stateAfter env t0 K).log)
    (hfe : f.epoch = t0.epoch) (hfu : f.update = m + 1)
    (hcrit : annealings (stateAfter env t0 (K + 1)).log = 0 ∨ env.criterion = .epochCount)
    {params : X} {lr : S} {iter : I} {log : List (TrainEvent S X J)}
    (hiter : SameNext env R (stateAfter env t0 1).iter (env.loadIter iter f.iter))
    (hinit : Trainer.initialize env params lr iter (some f) log = .ok t') (n : Nat) :
    SameTraining (SameNext env R) (stateAfter env t0 (K + 1 + n)) (stateAfter env t' (K + 1 + n)) := by
  have ha := resumed_agree hR h0 h hs0 hn0 hp hl hfe hfu hcrit hiter hinit
  rw [stateAfter_add env t0 (K + 1) n, stateAfter_add env t' (K + 1) n]
  exact (agree_after hR ha hp n).same

/-- **C107 (partial)** The same for the iterator that shuffles the sentences.  The position is restored to a new iterator.  When the
model was saved, a line was not left in the middle (this is always so if the length of the sequences is not limited), and if the end of
the data had been noticed, no lines were left.  The random generator of the new process gives the same orders for the next epochs. -/
theorem C107_shuffling_partial {env : TrainEnv S X (IterSt ShufSt) ShufSaved B} {files : List Str} {rand : Nat → List Nat} {cfg : IterCfg}
    {batch : List (List Tok) → B} (hm : cfg.maxLen ≠ some 0) (hus : UsesShuffling env files rand cfg batch)
    {t0 t' : Trainer S X (IterSt ShufSt) ShufSaved} (h0 : TrainReachable env t0) {m K : Nat} (h : Uninterrupted env t0 m (K + 1))
    (hs0 : 0 < env.samples) (hn0 : 0 < env.updatesPerEpoch) (hp : (stateAfter env t0 (K + 1)).phase = .batches)
    {f : TrainFile S X ShufSaved} {u : Nat} {sa : List S} {c : S}
    (hl : (stateAfter env t0 (K + 1)).log = .saved f :: .validated u sa c :: (stateAfter env t0 K).log)
    (hfe : f.epoch = t0.epoch) (hfu : f.update = m + 1)
    (hcrit : annealings (stateAfter env t0 (K + 1)).log = 0 ∨ env.criterion = .epochCount)
    {params : X} {lr : S} {iter : IterSt ShufSt} {log : List (TrainEvent S X ShufSaved)}
    (ho : (stateAfter env t0 1).iter.src.order ≠ []) (hbuf : (stateAfter env t0 1).iter.buffer = [])
    (heof : (stateAfter env t0 1).iter.eof = true → (stateAfter env t0 1).iter.src.order.length ≤ (stateAfter env t0 1).iter.src.nextLine)
    (hnb : iter.buffer = []) (hne : iter.eof = false)
    (hrand : ∀ k, rand (iter.src.shuffles + k) = rand ((stateAfter env t0 1).iter.src.shuffles + k))
    (hinit : Trainer.initialize env params lr iter (some f) log = .ok t') (n : Nat) :
    SameTraining (SameNext env (SamePosition rand)) (stateAfter env t0 (K + 1 + n)) (stateAfter env t' (K + 1 + n)) := by
  refine C107_partial (samePosition_iterators hm hus) h0 h hs0 hn0 hp hl hfe hfu hcrit ?_ hinit n
  rw [saved_iter h0 h hn0 hp hl hfe hfu]
  exact restored_sameNext hm hus ho hbuf heof hnb hne hrand

/-- **C107 (partial)** Without validation: the model is saved at the end of an epoch (`t` is the state then).  A new process that is
started from the model file makes the same updates that the old process would make if the maximum number of epochs were one greater: the
number of the epoch in the file is that of the epoch that ended (`C107_violated_passes`).

The stopping criterion is not one that stops training after a negative number of decreases of the learning rate. -/
theorem C107_passes_partial {env : TrainEnv S X I J B} {R : I → I → Prop} (hR : SameIterators env R) {t0 t' : Trainer S X I J}
    (h0 : TrainReachable env t0) (hv : env.hasValidation = false) (hc : ∀ a b, env.criterion = .annealingCount a b → 0 ≤ b)
    (hp : t0.phase = .batches) (hend : (t0.step env).phase = .epochStart) {f : TrainFile S X J} (hf : (t0.step env).file = some f)
    {params : X} {lr : S} {iter : I} {log : List (TrainEvent S X J)} (hiter : R (t0.step env).iter (env.loadIter iter f.iter))
    (hinit : Trainer.initialize env params lr iter (some f) log = .ok t') (n : Nat) :
    let t := stateAfter { env with maxEpochs := env.maxEpochs + 1 } (t0.step env) n
    let u := stateAfter env t' n
    u.params = t.params ∧ u.lr = t.lr ∧ u.phase = t.phase ∧ R t.iter u.iter ∧ t.epoch = u.epoch + 1 := by
  rw [initialize_some] at hinit
  cases hinit
  have hs := ended_step h0 hv hp hend hf hiter hc log
  have := onePass_steps hR hv hs n
  exact ⟨this.params, this.lr, this.phase, this.iter, this.epoch⟩

end

/-! ## Violations -/

/-- The model file after the first epoch of two, without validation. -/
def examplePassFile : TrainFile ℚ Nat Nat := ⟨2, 1, 2, 1, 2, []⟩

/-- **C107 is violated** without validation: with at most two epochs, a process makes four updates (an epoch is two mini-batches).  If it
is ended after the first epoch (two updates), the process that is started from the model file makes four more, ending with a model that
has been trained three epochs. -/
theorem C107_violated_passes :
    let env := exampleTrainEnv examplePerplexity false 0 2 .epochCount
    let t := stateAfter env (exampleTrainer env) 4
    t.file = some examplePassFile ∧ t.phase = .epochStart ∧ t.epoch = 2 ∧
    (stateAfter env (exampleTrainer env) 20).phase = .finished ∧ (stateAfter env (exampleTrainer env) 20).params = 4 ∧
    ∀ t', Trainer.initialize env 0 1 2 (some examplePassFile) [] = .ok t' →
      (stateAfter env t' 20).phase = .finished ∧ (stateAfter env t' 20).params = 6 := by
  refine ⟨by decide +kernel, by decide +kernel, by decide +kernel, by decide +kernel, by decide +kernel, ?_⟩
  intro t' h
  cases h
  decide +kernel

/-- The model file of the process in the next theorem: the parameters 70 and the learning rate 1 / 2, after the second update. -/
def exampleStopFile : TrainFile ℚ ℚ Nat := ⟨70, 1 / 2, 0, 1, 2, [80, 70]⟩

/-- The parameter is the perplexity.  With the learning rate 1 it gets worse, unless it is 100; with smaller learning rates it gets
better. -/
def exampleStopEnv : TrainEnv ℚ ℚ Nat Nat Unit where
  next := fun i => if i = 0 then (none, 2) else (some (), i - 1)
  saveIter := id
  loadIter := fun _ j => j
  updateBatch := fun x lr _ => if x = 100 then 80 else if lr = 1 then x + 1 else if lr = 1 / 2 then (if x = 70 then 71 else 70) else x + 1
  perplexity := .ok
  hasValidation := true
  samples := 1
  statistic := ⟨median, none⟩
  frequency := 2
  updatesPerEpoch := 2
  patience := 0
  maxEpochs := 100
  criterion := .annealingCount 0 1

/-- **C107 is violated** when the stopping criterion counts the decreases of the learning rate: the count is not in the model file.  At
most one decrease is allowed.  The process decreases the learning rate, then saves a model, decreases the learning rate again, and stops.
A process that is started from the model that was saved last decreases the learning rate two more times before it stops. -/
theorem C107_violated_stopper :
    let env := exampleStopEnv
    let t := stateAfter env (Trainer.fresh env 100 1 2 []) 30
    t.phase = .finished ∧ annealings t.log = 2 ∧ t.lr = 1 / 4 ∧ t.file = some exampleStopFile ∧
    ∀ t', Trainer.initialize env 0 0 2 (some exampleStopFile) [] = .ok t' →
      (stateAfter env t' 30).phase = .finished ∧ annealings (stateAfter env t' 30).log = 2 ∧ (stateAfter env t' 30).lr = 1 / 8 := by
  refine ⟨by decide +kernel, by decide +kernel, by decide +kernel, by decide +kernel, ?_⟩
  intro t' h
  cases h
  decide +kernel

/-! ## Examples -/

/-- Six mini-batches in an epoch, and a validation in the end of each epoch from three samples. -/
def exampleResumeEnv : TrainEnv ℚ Nat Nat Nat Unit where
  next := fun i => if i = 0 then (none, 6) else (some (), i - 1)
  saveIter := id
  loadIter := fun _ j => j
  updateBatch := fun x _ _ => x + 1
  perplexity := fun x => .ok (if x ≤ 12 then 100 - 3 * x else 50 + x)
  hasValidation := true
  samples := 3
  statistic := ⟨median, none⟩
  frequency := 1
  updatesPerEpoch := 6
  patience := 0
  maxEpochs := 100
  criterion := .noImprovement 0

/-- The model that is saved in the first epoch: the one after the fifth update. -/
def exampleResumeFile : TrainFile ℚ Nat Nat := ⟨5, 1, 1, 1, 5, [85]⟩

/-- The hypotheses of `C107_partial` are met: the validation ends one update after the center of the samples.  The learning rate is
decreased twice later, and training ends. -/
example : let env := exampleResumeEnv
    let t0 := stateAfter env (Trainer.fresh env 0 1 6 []) 5
    TrainReachable env t0 ∧ Uninterrupted env t0 4 2 ∧ (stateAfter env t0 2).phase = .batches ∧
    (stateAfter env t0 2).log = .saved exampleResumeFile :: .validated 6 [88, 85, 82] 85 :: (stateAfter env t0 1).log ∧
    exampleResumeFile.epoch = t0.epoch ∧ exampleResumeFile.update = 4 + 1 ∧ annealings (stateAfter env t0 2).log = 0 ∧
    SameNext env Eq (stateAfter env t0 1).iter (env.loadIter 6 exampleResumeFile.iter) ∧
    (stateAfter env t0 100).phase = .finished ∧ annealings (stateAfter env t0 100).log = 2 := by
  have hb : ∀ k, k < 2 → (k = 0 ∨ k = 1) := by omega
  refine ⟨?_, ⟨rfl, ?_, ?_, ?_, ?_⟩, by decide +kernel, by decide +kernel, by decide +kernel, by decide +kernel, by decide +kernel, ?_,
    by decide +kernel, by decide +kernel⟩
  · exact stateAfter_reachable (.start 0 1 6 _ rfl) 5
  · intro k hk
    rcases hb k hk with rfl | rfl <;> decide +kernel
  · intro k hk
    rcases hb k hk with rfl | rfl <;> decide +kernel
  · intro k hk
    rcases hb k hk with rfl | rfl <;> decide +kernel
  · intro k hk e
    have h1 : (stateAfter exampleResumeEnv (stateAfter exampleResumeEnv (Trainer.fresh exampleResumeEnv 0 1 6 []) 5) k).phase = .batches := by
      have : k = 0 ∨ k = 1 ∨ k = 2 := by omega
      rcases this with rfl | rfl | rfl <;> decide +kernel
    intro h2
    have h3 := h1.symm.trans h2
    cases h3
  · exact ⟨by decide +kernel, by decide +kernel⟩

/-- An environment with the iterator that shuffles sentences. -/
def shufflingEnv (files : List Str) (rand : Nat → List Nat) (cfg : IterCfg) : TrainEnv ℚ Nat (IterSt ShufSt) ShufSaved (List (List Tok)) where
  next := fun i =>
    match next (shufflingSource files rand) cfg (work (shufRem files) i + 1) i with
    | some r => r
    | none => (none, i)
  saveIter := shufGetState
  loadIter := fun i s =>
    match shufSetState (some s) i with
    | .ok j => j
    | .error _ => i
  updateBatch := fun x _ b => x + b.length
  perplexity := fun x => .ok (100 - x)
  hasValidation := true
  samples := 1
  statistic := ⟨median, none⟩
  frequency := 1
  updatesPerEpoch := 2
  patience := 0
  maxEpochs := 3
  criterion := .epochCount

theorem shufflingEnv_uses (files : List Str) (rand : Nat → List Nat) (cfg : IterCfg) (hm : cfg.maxLen ≠ some 0) :
    UsesShuffling (shufflingEnv files rand cfg) files rand cfg id := by
  refine ⟨?_, fun _ => rfl, ?_, ?_⟩
  · intro i fuel r hr
    obtain ⟨r', hr'⟩ := next_total (files := files) (rand := rand) hm i
    have := next_unique _ _ _ i hr hr'
    subst this
    show (match next (shufflingSource files rand) cfg (work (shufRem files) i + 1) i with
      | some r => r
      | none => (none, i)) = _
    rw [hr']
    simp
  · intro i s hs
    simp only [shufflingEnv, shufSetState, if_neg hs]
  · intro i s hs
    simp only [shufflingEnv, shufSetState, if_pos hs]

/-- Three lines, mini-batches of two sequences. -/
def exampleShuffled : TrainEnv ℚ Nat (IterSt ShufSt) ShufSaved (List (List Tok)) :=
  shufflingEnv ["a b\nc\nd e f\n".toList] (fun _ => [2, 0, 1]) ⟨2, none⟩

def exampleShuffledStart : IterSt ShufSt := ⟨⟨[2, 0, 1], 0, 1⟩, [], false⟩

/-- The hypotheses of `C107_shuffling_partial` are met, when the model is saved at the end of the first epoch, and the iterator has
noticed the end of the data. -/
example : let env := exampleShuffled
    let t0 := stateAfter env (Trainer.fresh env 0 1 exampleShuffledStart []) 2
    let f : TrainFile ℚ Nat ShufSaved := ⟨3, 1, ⟨[2, 0, 1], 3⟩, 1, 2, [97]⟩
    TrainReachable env t0 ∧ Uninterrupted env t0 1 1 ∧ (stateAfter env t0 1).phase = .batches ∧
    (stateAfter env t0 1).log = .saved f :: .validated 2 [97] 97 :: t0.log ∧
    f.epoch = t0.epoch ∧ f.update = 1 + 1 ∧
    (stateAfter env t0 1).iter.src.order ≠ [] ∧ (stateAfter env t0 1).iter.buffer = [] ∧ (stateAfter env t0 1).iter.eof = true ∧
    (stateAfter env t0 1).iter.src.order.length ≤ (stateAfter env t0 1).iter.src.nextLine := by
  have hb : ∀ k, k < 1 → k = 0 := by omega
  refine ⟨?_, ⟨rfl, ?_, ?_, ?_, ?_⟩, by decide +kernel, by decide +kernel, by decide +kernel, by decide +kernel, by decide +kernel,
    by decide +kernel, by decide +kernel, by decide +kernel⟩
  · exact stateAfter_reachable (.start 0 1 exampleShuffledStart _ rfl) 2
  · intro k hk
    rw [hb k hk]
    decide +kernel
  · intro k hk
    rw [hb k hk]
    decide +kernel
  · intro k hk
    rw [hb k hk]
    decide +kernel
  · intro k hk e
    have h1 : (stateAfter exampleShuffled (stateAfter exampleShuffled (Trainer.fresh exampleShuffled 0 1 exampleShuffledStart []) 2) k).phase =
        .batches := by
      have : k = 0 ∨ k = 1 := by omega
      rcases this with rfl | rfl <;> decide +kernel
    intro h2
    have h3 := h1.symm.trans h2
    cases h3

/-- The hypotheses of `C107_passes_partial` are met in `C107_violated_passes`. -/
example : let env := exampleTrainEnv examplePerplexity false 0 2 .epochCount
    let t0 := stateAfter env (exampleTrainer env) 3
    TrainReachable env t0 ∧ t0.phase = .batches ∧ (t0.step env).phase = .epochStart ∧ (t0.step env).file = some examplePassFile ∧
    (t0.step env).iter = env.loadIter 2 examplePassFile.iter :=
  ⟨stateAfter_reachable (exampleTrainer_reachable _) 3, by decide +kernel, by decide +kernel, by decide +kernel, by decide +kernel⟩

end TheanoLM
