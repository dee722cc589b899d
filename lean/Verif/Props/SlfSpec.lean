import Verif.Model.SlfLattice
import Verif.Props.LatticeSpec
import Mathlib.Data.List.Forall2
/-!
# Specifications for SLF lattices
-/
namespace TheanoLM

variable {S : Type}

/-- The field has the given name and value. -/
def IsField (field name value : Str) : Prop := field = name ++ '=' :: value ∧ '=' ∉ name

/-- The value of the last of the fields that have one of the given names; nothing if there are none. -/
def LastField (names fields : List Str) : Option Str → Prop
  | none => ∀ f ∈ fields, ∀ n v : Str, IsField f n v → n ∉ names
  | some v => ∃ (pre post : List Str) (f n : Str), fields = pre ++ f :: post ∧ n ∈ names ∧ IsField f n v ∧
      ∀ g ∈ post, ∀ n' v' : Str, IsField g n' v' → n' ∉ names

/-- Reference to an element of a Python list of the given length: negative indices count from the end. -/
def PyRef (length : Nat) (i : ℤ) (n : Nat) : Prop :=
  n < length ∧ ((n : ℤ) = i ∨ (i < 0 ∧ (n : ℤ) = (length : ℤ) + i))

/-- Words that begin with ! or # do not count as words. -/
def IsSpecial (w : Str) : Prop := w.head? = some '!' ∨ w.head? = some '#'

/-- The word, if it is not special. -/
def Proper (v : Str) (w : Option Str) : Prop := (IsSpecial v → w = none) ∧ (¬ IsSpecial v → w = some v)

/-- The word given in some fields. -/
def OwnWord (fields : List Str) (w : Option Str) : Prop :=
  ∃ o : Option Str, LastField ["WORD".toList, "W".toList] fields o ∧ (o = none → w = none) ∧
    ∀ v : Str, o = some v → Proper v w

/-- A score given in some fields: a linear probability if there is no scale. -/
def ScoreIs [Mul S] (T : SlfText S) (scale : Option S) (names fields : List Str) (x : Option S) : Prop :=
  ∃ o : Option Str, LastField names fields o ∧ (o = none → x = none) ∧
    ∀ v : Str, o = some v → ∃ y : S, T.parseScore v = some y ∧ (scale = none → x = some (T.log y)) ∧
      ∀ c : S, scale = some c → x = some (y * c)

/-- A node given in some fields. -/
def NodeIs (T : SlfText S) (numNodes : Nat) (names fields : List Str) (n : Nat) : Prop :=
  ∃ (v : Str) (i : ℤ), LastField names fields (some v) ∧ T.parseInt v = some i ∧ PyRef numNodes i n

/-- The first field of the line is the ID of the node. -/
def IsNodeLine (T : SlfText S) (numNodes n : Nat) (first : Str) : Prop :=
  ∃ (v : Str) (i : ℤ), IsField first "I".toList v ∧ T.parseInt v = some i ∧ PyRef numNodes i n

/-- The fields on the lines of a node. -/
inductive NodeFields (T : SlfText S) (numNodes n : Nat) : List (List Str) → List Str → Prop
  | nil : NodeFields T numNodes n [] []
  | line (first : Str) (fields : List Str) (lines : List (List Str)) (rest : List Str) :
      IsNodeLine T numNodes n first → NodeFields T numNodes n lines rest →
      NodeFields T numNodes n ((first :: fields) :: lines) (fields ++ rest)
  | other (line : List Str) (lines : List (List Str)) (rest : List Str) :
      (∀ first : Str, line.head? = some first → ¬ IsNodeLine T numNodes n first) →
      NodeFields T numNodes n lines rest → NodeFields T numNodes n (line :: lines) rest

/-- The fields of each link. -/
inductive LinkFields : List (List Str) → List (List Str) → Prop
  | nil : LinkFields [] []
  | line (first v : Str) (fields : List Str) (lines rest : List (List Str)) : IsField first "J".toList v →
      LinkFields lines rest → LinkFields ((first :: fields) :: lines) (fields :: rest)
  | other (line : List Str) (lines rest : List (List Str)) :
      (∀ first v : Str, line.head? = some first → ¬ IsField first "J".toList v) →
      LinkFields lines rest → LinkFields (line :: lines) rest

/-- The link is on a path that starts from the initial node. -/
def Lattice.Reachable (L : Lattice S) (k : Link S) : Prop := Relation.ReflTransGen L.Edge L.initial k.startNode

/-- The word of a link: a word on the line of the link, or in its end node, if the link is reachable; but not in
both. -/
def LinkWord (T : SlfText S) (toks : List (List Str)) (L : Lattice S) (fields : List Str) (k : Link S) : Prop :=
  ∃ (own : Option Str) (nodeFields : List Str) (o : Option Str), OwnWord fields own ∧
    NodeFields T L.nodes.length k.endNode toks nodeFields ∧ LastField ["WORD".toList, "W".toList] nodeFields o ∧
    (L.Reachable k → (o = none → k.word = own) ∧ ∀ v : Str, o = some v → own = none ∧ Proper v k.word) ∧
    (¬ L.Reachable k → k.word = own)

/-- A link and the fields on its line. -/
structure LinkLine [Mul S] (T : SlfText S) (scale : Option S) (toks : List (List Str)) (L : Lattice S)
    (fields : List Str) (k : Link S) : Prop where
  start : NodeIs T L.nodes.length ["START".toList, "S".toList] fields k.startNode
  end_ : NodeIs T L.nodes.length ["END".toList, "E".toList] fields k.endNode
  ac : ScoreIs T scale ["acoustic".toList, "a".toList] fields k.ac
  lm : ScoreIs T scale ["language".toList, "l".toList] fields k.lm
  word : LinkWord T toks L fields k

/-- The time of a node. -/
def NodeTime (T : SlfText S) (toks : List (List Str)) (numNodes n : Nat) (time : Option ℚ) : Prop :=
  ∃ (fields : List Str) (o : Option Str), NodeFields T numNodes n toks fields ∧
    LastField ["time".toList, "t".toList] fields o ∧ (o = none → time = none) ∧
    ∀ v : Str, o = some v → ∃ t : ℚ, T.parseTime v = some t ∧ time = some t

/-- The logarithm scale: one by default, the logarithm of the base, or none if the base is zero. -/
def ScaleIs [Zero S] [One S] (T : SlfText S) (fields : List Str) (scale : Option S) : Prop :=
  ∃ o : Option Str, LastField ["base".toList] fields o ∧ (o = none → scale = some 1) ∧
    ∀ v : Str, o = some v → ∃ x : S, T.parseScore v = some x ∧ (x = 0 → scale = none) ∧
      (x ≠ 0 → scale = some (T.log x))

/-- The header fields. -/
structure HeaderSpec [Zero S] [One S] [Mul S] (T : SlfText S) (fields : List Str) (scale : Option S) (L : Lattice S) :
    Prop where
  nodes : ∃ (v : Str) (i : ℤ), LastField ["NODES".toList, "N".toList] fields (some v) ∧ T.parseInt v = some i ∧
    L.nodes.length = i.toNat
  links : ∃ v : Str, LastField ["LINKS".toList, "L".toList] fields (some v) ∧
    T.parseInt v = some (L.links.length : ℤ)
  utterance : LastField ["UTTERANCE".toList, "U".toList] fields L.utteranceId
  no_sublattice : LastField ["SUBLAT".toList, "S".toList] fields none
  scale_is : ScaleIs T fields scale
  lmScale : ∃ o : Option Str, LastField ["lmscale".toList] fields o ∧ (o = none → L.lmScale = none) ∧
    ∀ v : Str, o = some v → ∃ x : S, T.parseScore v = some x ∧ L.lmScale = some x
  wiPenalty : ScoreIs T scale ["wdpenalty".toList] fields L.wiPenalty
  /-- the initial node, by default the first node without incoming links -/
  initial : ∃ o : Option Str, LastField ["start".toList] fields o ∧
    (o = none → (∀ a : Nat, ¬ L.Edge a L.initial) ∧ ∀ n < L.initial, ∃ a : Nat, L.Edge a n) ∧
    ∀ v : Str, o = some v → ∃ i : ℤ, T.parseInt v = some i ∧ PyRef L.nodes.length i L.initial
  /-- the final nodes are those given and those without outgoing links -/
  final : ∀ (n : Nat) (node : Node), L.nodes[n]? = some node →
    (node.final = true ↔ (∃ f ∈ fields, ∃ v : Str, IsField f "end".toList v ∧ T.parseInt v = some (n : ℤ)) ∨
      ∀ b : Nat, ¬ L.Edge n b)

end TheanoLM
