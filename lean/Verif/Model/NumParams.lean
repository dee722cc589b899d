import Verif.Model.NetworkState
/-!
# Model of the number of parameters that is reported when a network is created

theanolm/network/network.py:205-206, theanolm/network/basiclayer.py:105-115, theanolm/network/bidirectionallayer.py:95-106,
theanolm/backend/parameters.py:24, 75.
-/
namespace TheanoLM

section
variable {S : Type} [Add S] [Mul S] [Sub S] [Div S] [Zero S] [One S] [Min S]

/-- basiclayer.py:105-115, bidirectionallayer.py:95-106 `num_params`.  The total is increased every time when a parameter is added
(parameters.py:75); here it is computed from the parameters that have been added. -/
def Layer.numParams (name : Str) (layer : Layer S) : Nat := ((layer.params name).map fun p => p.2.data.length).sum

/-- network.py:205: the number that is written to the log. -/
def numParams (layers : List (Created S)) : Nat := (layers.map fun c => c.layer.numParams c.name).sum

end

end TheanoLM
