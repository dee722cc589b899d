import Verif.Model.BatchIterator
import Verif.Model.TextScorer
/-!
# Model of the computation of the perplexity of text files
-/
namespace TheanoLM

/-- textscorer.py:199-254 `compute_perplexity` of a `LinearBatchIterator` over the files, as it is used for validation (train.py:461-467,
480, trainer.py:491).  The iterator returns the word IDs, file IDs and mask of a mini-batch, of which the file IDs are not used
(textscorer.py:225).  `none` means that the iteration has not ended within `fuel` steps.  Simplified: the mini-batches are prepared
before the first one is scored, so that if preparing a mini-batch failed, it would be before the others are scored. -/
def Scorer.filePerplexity {S : Type} [Field S] [LT S] [DecidableLT S] [DecidableEq S] (sc : Scorer S) (files : List Str)
    (cfg : IterCfg) (fuel : Nat) : Option (Except Err (Flt S)) :=
  match runPass (linearSource files) cfg fuel fuel linearInit with
  | none => none
  | some (batches, _) =>
    match mapE (prepareBatch sc.vocab false) batches with
    | .error e => some (.error e)
    | .ok bs => some (sc.computePerplexity (bs.map (fun b => (b.1, b.2.2))))

end TheanoLM
