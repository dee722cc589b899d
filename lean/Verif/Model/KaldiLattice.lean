import Verif.Model.Lattice
/-!
# Model of theanolm/scoring/kaldilattice.py and of the Kaldi writer in theanolm/scoring/lattice.py
-/
namespace TheanoLM

/-- Conversions between numbers and text: `int(s)`, `logprob_type(s)` (`none` when they raise `ValueError`) and
`"{}".format(x)`. -/
structure NumText (S : Type) where
  parseInt : Str → Option ℤ
  parseScore : Str → Option S
  showInt : ℤ → Str
  showScore : S → Str

/-- Python `str.strip()`. -/
def strip (s : Str) : Str := rstrip (s.dropWhile isSpace)

/-- Python `str.split(sep)` with a separator of one character. -/
def splitOnChar (sep : Char) : Str → List Str
  | [] => [[]]
  | c :: cs =>
    if c = sep then [] :: splitOnChar sep cs
    else match splitOnChar sep cs with
      | [] => [[c]]
      | w :: ws => (c :: w) :: ws

/-- Index of a Python list of length `n`: negative indices count from the end. -/
def pyIdx (n : Nat) (i : ℤ) : Option Nat :=
  if 0 ≤ i then (if i.toNat < n then some i.toNat else none)
  else if 0 ≤ (n : ℤ) + i then some ((n : ℤ) + i).toNat else none

/-- kaldilattice.py:13-33 `read_kaldi_vocabulary`. -/
def readKaldiVocabulary (parseInt : Str → Option ℤ) : List Str → List (Str × ℤ) → Except Err (List (Str × ℤ))
  | [], result => .ok result
  | line :: lines, result =>
    match pySplit line with                                                             -- 25
    | [] => readKaldiVocabulary parseInt lines result                                   -- 26-27
    | [word, wordId] =>
      match parseInt wordId with                                                        -- 31
      | none => .error .valueError
      | some i => readKaldiVocabulary parseInt lines (dictSet result word i)            -- 32
    | _ => .error .inputError                                                           -- 28-29

/-- A link while the lattice is being read.  The end node `none` is `final_node`, which is not in the list of nodes
until the end (kaldilattice.py:61-62). -/
structure KLink (S : Type) where
  startNode : Nat
  endNode : Option Nat
  word : Option Str
  ac : S
  lm : S
  transitions : Str
  deriving DecidableEq

/-- The attributes that the loop 71-128 changes: `_initial_node_id`, `nodes`, `links` and `final_node.in_links`. -/
structure KaldiSt (S : Type) where
  initialId : Option ℤ
  nodes : List Node
  links : List (KLink S)
  finalIn : List Nat
  deriving DecidableEq

def KaldiSt.empty {S : Type} : KaldiSt S := ⟨none, [], [], []⟩

variable {S : Type}

/-- kaldilattice.py:76-89: the fields of a line; start state, end state with word ID, and weight. -/
def kaldiFields (T : NumText S) (parts : List Str) : Except Err (ℤ × Option (ℤ × ℤ) × Str) :=
  match parts with
  | [a] =>                                                                              -- 76-78
    match T.parseInt a with
    | none => .error .valueError
    | some s => .ok (s, none, [])
  | [a, w] =>                                                                           -- 79-81
    match T.parseInt a with
    | none => .error .valueError
    | some s => .ok (s, none, w)
  | [a, b, c, w] =>                                                                     -- 82-85
    match T.parseInt b, T.parseInt c, T.parseInt a with
    | some e, some i, some s => .ok (s, some (e, i), w)
    | _, _, _ => .error .valueError
  | _ => .error .inputError                                                             -- 86-88

/-- kaldilattice.py:92-94, 96-98: a missing or empty part is zero. -/
def kaldiScore [Zero S] (T : NumText S) (part : Option Str) : Except Err S :=
  match part with
  | none => .ok 0
  | some p =>
    if p = [] then .ok 0
    else match T.parseScore p with
      | none => .error .valueError
      | some x => .ok x

/-- kaldilattice.py:91-100: graph (language model) and acoustic log probability and transitions.  `_log_scale` is one. -/
def kaldiWeight [Zero S] [Neg S] (T : NumText S) (weight : Str) : Except Err (S × S × Str) :=
  let parts := splitOnChar ',' weight                                                   -- 91
  match kaldiScore T parts[0]? with                                                     -- 92-95
  | .error e => .error e
  | .ok graph =>
    match kaldiScore T parts[1]? with                                                   -- 96-99
    | .error e => .error e
    | .ok ac => .ok (-graph, -ac, (parts[2]?).getD [])                                  -- 100

/-- kaldilattice.py:105-106, 108-109: creates the missing nodes up to the given ID. -/
def extendNodes (nodes : List Node) (state : ℤ) : List Node :=
  nodes ++ List.replicate ((state + 1).toNat - nodes.length) Node.new

/-- kaldilattice.py:111-121: the word on a link. -/
def kaldiWord (idToWord : List (Option Str)) (wordId : ℤ) : Except Err (Option Str) :=
  match (pyIdx idToWord.length wordId).bind (fun i => idToWord[i]?) with
  | none => .error .indexError                                                          -- 111
  | some none => .ok none
  | some (some w) =>
    if w = "<eps>".toList then .ok none                                                 -- 112-113
    else if w = "#0".toList then .error .inputError                                     -- 114-117
    else if w = sos ∨ w = eos then .error .inputError                                   -- 118-121
    else .ok (some w)

/-- lattice.py:207-225 `_add_link`, where the end node may be `final_node`. -/
def addKLink (st : KaldiSt S) (k : KLink S) : KaldiSt S :=
  let l := st.links.length
  let nodes := st.nodes.modify k.startNode (fun n => { n with outLinks := n.outLinks ++ [l] })
  match k.endNode with
  | some e => { st with
      nodes := nodes.modify e (fun n => { n with inLinks := n.inLinks ++ [l] })
      links := st.links ++ [k] }
  | none => { st with nodes := nodes, links := st.links ++ [k], finalIn := st.finalIn ++ [l] }

/-- kaldilattice.py:76-127, one line that is not empty. -/
def kaldiLine [Zero S] [Neg S] (T : NumText S) (idToWord : List (Option Str)) (parts : List Str) (st : KaldiSt S) :
    Except Err (KaldiSt S) :=
  match kaldiFields T parts with
  | .error e => .error e
  | .ok (stateFrom, target, weight) =>
    match kaldiWeight T weight with
    | .error e => .error e
    | .ok (graph, ac, transitions) =>
      let st := { st with initialId := some (st.initialId.getD stateFrom) }             -- 102-103
      let st := { st with nodes := extendNodes st.nodes stateFrom }                     -- 105-106
      match target with
      | some (stateTo, wordId) =>                                                       -- 107
        let st := { st with nodes := extendNodes st.nodes stateTo }                     -- 108-109
        match pyIdx st.nodes.length stateFrom, pyIdx st.nodes.length stateTo with       -- 110
        | some s, some e =>
          match kaldiWord idToWord wordId with                                          -- 111-121
          | .error e => .error e
          | .ok word => .ok (addKLink st ⟨s, some e, word, ac, graph, transitions⟩)     -- 110, 126-128
        | _, _ => .error .indexError
      | none =>
        match pyIdx st.nodes.length stateFrom with                                      -- 123
        | some s => .ok (addKLink st ⟨s, none, none, ac, graph, transitions⟩)           -- 123-128
        | none => .error .indexError

/-- kaldilattice.py:71-128, the loop over the lines. -/
def kaldiLoop [Zero S] [Neg S] (T : NumText S) (idToWord : List (Option Str)) :
    List Str → KaldiSt S → Except Err (KaldiSt S)
  | [], st => .ok st
  | line :: lines, st =>
    let parts := pySplit (strip line)                                                   -- 72-73
    if parts = [] then kaldiLoop T idToWord lines st                                    -- 74-75
    else
      match kaldiLine T idToWord parts st with
      | .error e => .error e
      | .ok st => kaldiLoop T idToWord lines st

/-- A link when `final_node` has been given its ID (kaldilattice.py:135). -/
def KLink.finish (finalId : Nat) (k : KLink S) : Link S :=
  ⟨k.startNode, k.endNode.getD finalId, k.word, some k.ac, some k.lm, k.transitions⟩

/-- kaldilattice.py:130-136. -/
def kaldiFinish (utteranceId : Str) (st : KaldiSt S) : Except Err (Lattice S) :=
  match st.initialId with
  | none => .error .inputError                                                          -- 130-132
  | some i =>
    match pyIdx st.nodes.length i with
    | none => .error .indexError                                                        -- 133
    | some initial =>
      .ok ⟨st.nodes ++ [⟨[], st.finalIn, none, true⟩],                                  -- 135-136
        st.links.map (KLink.finish st.nodes.length), initial, some utteranceId, none, none⟩

/-- kaldilattice.py:41-136 `KaldiLattice.__init__` with a list of lines. -/
def readKaldi [Zero S] [Neg S] (T : NumText S) (lines : List Str) (idToWord : List (Option Str)) :
    Except Err (Lattice S) :=
  match lines with
  | [] => .error .indexError                                                            -- 70
  | first :: rest =>
    match kaldiLoop T idToWord rest .empty with
    | .error e => .error e
    | .ok st => kaldiFinish (strip first) st

/-! ## Writing -/

/-- The weight `{},{},{}` (lattice.py:154-156, 161-163).  The negation of a missing score raises `TypeError`.  Adding
0.0 only changes the sign of a negative zero. -/
def kaldiWeightText [Neg S] (T : NumText S) (k : Link S) : Except Err Str :=
  match k.lm, k.ac with
  | some lm, some ac => .ok (T.showScore (-lm) ++ ',' :: (T.showScore (-ac) ++ ',' :: k.transitions))
  | _, _ => .error .typeError

/-- lattice.py:146-171, the line of one link, without the newline. -/
def kaldiLinkLine [Neg S] (T : NumText S) (wordToId : Str → Option ℤ) (L : Lattice S) (k : Link S) : Except Err Str :=
  if (L.nodes.getD k.endNode Node.new).final then                                       -- 168
    match kaldiWeightText T k with
    | .error e => .error e
    | .ok weight => .ok (T.showInt k.startNode ++ ' ' :: weight)                        -- 158-163
  else
    match wordToId (k.word.getD "<eps>".toList) with                                    -- 147-149, 153
    | none => .error .keyError
    | some wordId =>
      match kaldiWeightText T k with
      | .error e => .error e
      | .ok weight =>                                                                   -- 150-156
        .ok (T.showInt k.startNode ++ ' ' :: (T.showInt k.endNode ++ ' ' :: (T.showInt wordId ++ ' ' :: weight)))

/-- lattice.py:136-172 `write_kaldi`: the lines of the output.  (An utterance ID `None` is written as "None".) -/
def writeKaldi [Neg S] (T : NumText S) (wordToId : Str → Option ℤ) (L : Lattice S) : Except Err (List Str) :=
  let links := L.nodes.flatMap (fun n => n.outLinks.filterMap (fun l => L.links[l]?))   -- 166-167
  match mapE (kaldiLinkLine T wordToId L) links with
  | .error e => .error e
  | .ok lines => .ok (L.utteranceId.getD "None".toList :: (lines ++ [[]]))              -- 165, 172

end TheanoLM
