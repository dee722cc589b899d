import Verif.Props.TrainerSpec
import Verif.Model.BatchIterator
/-!
# Specification for C107: continuing training from a model file
-/
namespace TheanoLM

section
variable {S X I J B : Type}

/-- A relation of training data iterators in two processes that return the same mini-batches: also after their positions have been
saved and restored. -/
structure SameIterators (env : TrainEnv S X I J B) (R : I → I → Prop) : Prop where
  next : ∀ i j, R i j → (env.next i).1 = (env.next j).1 ∧ R (env.next i).2 (env.next j).2
  save : ∀ i j, R i j → env.saveIter i = env.saveIter j
  load : ∀ i j s, R i j → R (env.loadIter i s) (env.loadIter j s)

/-- The next mini-batch is the same, or there is not one, and `R` holds after that. -/
def SameNext (env : TrainEnv S X I J B) (R : I → I → Prop) (i j : I) : Prop :=
  (env.next i).1 = (env.next j).1 ∧ R (env.next i).2 (env.next j).2

/-- Two training processes are at the same point: they have the same parameters, learning rate, cost history and model file, they will
receive the same mini-batches, and they both have ended or both have not. -/
structure SameTraining (R : I → I → Prop) (t t' : Trainer S X I J) : Prop where
  params : t'.params = t.params
  lr : t'.lr = t.lr
  epoch : t'.epoch = t.epoch
  update : t'.update = t.update
  costs : t'.costs = t.costs
  candidate : t'.candidateIndex = t.candidateIndex
  file : t'.file = t.file
  phase : t'.phase = t.phase
  iter : R t.iter t'.iter

/-- The training data iterator of the environment is the one that shuffles the sentences of the files (`rand` are the orders that the
random generator gives, one for each epoch), and mini-batches are made of the sequences with the function `batch`.  (Restoring an empty
order raises an exception, but the order of the sentences is not empty.) -/
structure UsesShuffling (env : TrainEnv S X (IterSt ShufSt) ShufSaved B) (files : List Str) (rand : Nat → List Nat) (cfg : IterCfg)
    (batch : List (List Tok) → B) : Prop where
  next : ∀ i fuel r, next (shufflingSource files rand) cfg fuel i = some r → env.next i = (r.1.map batch, r.2)
  save : ∀ i, env.saveIter i = shufGetState i
  load : ∀ i s, s.order ≠ [] → shufSetState (some s) i = .ok (env.loadIter i s)
  empty : ∀ i s, s.order = [] → env.loadIter i s = i

/-- The iterators have the same sentences left, and the random generators give the same orders for the next epochs. -/
structure SamePosition (rand : Nat → List Nat) (i j : IterSt ShufSt) : Prop where
  order : j.src.order = i.src.order
  nextLine : j.src.nextLine = i.src.nextLine
  buffer : j.buffer = i.buffer
  eof : j.eof = i.eof
  rand : ∀ k, rand (j.src.shuffles + k) = rand (i.src.shuffles + k)

end

end TheanoLM
