import Verif.Model.NetworkCreate
/-!
# The random numbers of dropout layers: theanolm/network/dropoutlayer.py
-/
namespace TheanoLM

section
variable {S : Type} [Add S] [Mul S] [Sub S] [Div S] [Zero S] [One S] [Min S]

/-- dropoutlayer.py:32-38, 61-62: the probability of not dropping a unit. -/
def passRate (env : CreateEnv S) (o : LayerOptions) : Except Err S :=
  match dictGet? o.options "dropout_rate".toList with
  | none => .ok (1 - env.defaultRate)
  | some value =>
    match value with
    | .many _ => .error .typeError
    | .one t =>
      match env.parseFloat t with
      | none => .error .valueError
      | some rate => .ok (1 - min env.rateLimit rate)

/-- dropoutlayer.py:63-64: the units that are not dropped, when the random numbers are `sample`. -/
def keptUnits [LT S] [DecidableLT S] (rate : S) (sample : List S) : List Bool := sample.map fun u => decide (u < rate)

end

end TheanoLM
