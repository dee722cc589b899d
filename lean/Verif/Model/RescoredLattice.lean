import Verif.Model.Decoder
/-!
# Model of theanolm/scoring/rescoredlattice.py

As in the model of the original lattice, a node or link object is represented by its index in the list of nodes or
links.  The final node gets its index only at the end; until then it is `none`.
-/
namespace TheanoLM

variable {S St : Type}

/-- A list comprehension over functions that may fail. -/
def concatE {α : Type} : List (Except Err (List α)) → Except Err (List α)
  | [] => .ok []
  | .error e :: _ => .error e
  | .ok x :: rest => match concatE rest with
    | .error e => .error e
    | .ok y => .ok (x ++ y)

/-- rescoredlattice.py:197-203 `next_words`.  Recursion that is deeper than the first argument is an error; the limit of
the Python interpreter is a constant. -/
def nextWords (L : Lattice S) : Nat → Nat → Except Err (List Str)
  | 0, _ => .error .runtimeError
  | depth + 1, l =>
    match L.links[l]? with
    | none => .error .indexError   -- not reachable: links are objects
    | some k => match k.word with
      | none => concatE ((L.outLinks k.endNode).map (nextWords L depth))                -- 198-201
      | some w => .ok [w]                                                               -- 202-203

/-- rescoredlattice.py:207-209: the items from which `word_to_link` of a node is created; the last one counts. -/
def wordMap (L : Lattice S) (depth : Nat) (n : Nat) : Except Err (List (Str × Nat)) :=
  concatE ((L.outLinks n).map (fun l => match nextWords L depth l with
    | .error e => .error e
    | .ok ws => .ok (ws.map (fun w => (w, l)))))

/-- rescoredlattice.py:184-217 `_add_word_maps`: the maps of all nodes. -/
def wordMaps (L : Lattice S) (depth : Nat) : List Nat → Except Err (List (List (Str × Nat)))
  | [] => .ok []
  | n :: ns => match wordMap L depth n with
    | .error e => .error e
    | .ok m => match wordMaps L depth ns with
      | .error e => .error e
      | .ok ms => .ok (m :: ms)

/-- `word_to_link[word]`: the last item for the word. -/
def mapGet (m : List (Str × Nat)) (w : Str) : Option Nat := (m.reverse.find? (fun e => decide (e.1 = w))).map Prod.snd

/-- The end node, log probabilities and transitions. -/
structure Followed (S : Type) where
  endNode : Nat
  ac : S
  lm : S
  transitions : Str
  deriving DecidableEq

section
variable [Field S] [LinearOrder S]

/-- rescoredlattice.py:14-55 `_follow_word_from_node`. -/
def followWord (L : Lattice S) (maps : List (List (Str × Nat))) (w : Str) : Nat → Nat → Except Err (Option (Followed S))
  | 0, _ => .error .runtimeError
  | depth + 1, n =>
    match mapGet (maps.getD n []) w with
    | none => .ok none                                                                  -- 34-35
    | some l => match L.links[l]? with                                                  -- 37
      | none => .error .indexError   -- not reachable: links are objects
      | some k => match k.word with
        | some _ => .ok (some ⟨k.endNode, k.ac.getD 0, k.lm.getD 0, k.transitions⟩)     -- 38-42
        | none => match followWord L maps w depth k.endNode with                        -- 44-45
          | .error e => .error e
          | .ok none => .ok none                                                        -- 46-47
          | .ok (some r) =>                                                             -- 48-55
            .ok (some ⟨r.endNode, r.ac + k.ac.getD 0, r.lm + k.lm.getD 0, r.transitions ++ k.transitions⟩)

/-- A link of the new lattice. -/
structure RLink (S : Type) where
  startNode : Nat
  endNode : Option Nat
  word : Option Str
  ac : S
  lm : S
  transitions : Str
  deriving DecidableEq

/-- A node of the new lattice; the attribute `in_links` is not used. -/
structure RNode where
  outLinks : List Nat
  wordToLink : List (Str × Nat)
  deriving DecidableEq

/-- The attributes `nodes` and `links` while the lattice is being created. -/
structure RLat (S : Type) where
  nodes : List RNode
  links : List (RLink S)
  deriving DecidableEq

/-- Adds a link to the node, and to the map if the link has a word (rescoredlattice.py:130-135, 166-175, 265-269). -/
def RLat.addLink (R : RLat S) (k : RLink S) : RLat S where
  nodes := R.nodes.modify k.startNode (fun n => ⟨n.outLinks ++ [R.links.length],
    match k.word with
    | none => n.wordToLink
    | some w => n.wordToLink ++ [(w, R.links.length)]⟩)
  links := R.links ++ [k]

/-- rescoredlattice.py:244-274, the loop of `_follow_words`; `create` is an argument of the function. -/
def followWords (L : Lattice S) (maps : List (List (Str × Nat))) (depth : Nat) (create : Bool) :
    List Str → RLat S → Nat → Nat → Except Err (RLat S × Nat)
  | [], R, node, _ => .ok (R, node)                                                     -- 274
  | w :: ws, R, node, orig =>
    match followWord L maps w depth orig with                                           -- 249-250
    | .error e => .error e
    | .ok none => followWords L maps depth create ws R node orig                        -- 251-252
    | .ok (some r) =>
      match mapGet (R.nodes.getD node ⟨[], []⟩).wordToLink w with
      | some l =>                                                                       -- 256-257, 271-272
        match R.links[l]? with
        | none => .error .indexError   -- not reachable: links are objects
        | some k => match k.endNode with
          | none => .error .runtimeError   -- not reachable: links to the final node do not have words
          | some next => followWords L maps depth create ws R next r.endNode
      | none =>
        if create = false then .error .nodeNotFound                                     -- 259-260
        else                                                                            -- 261-272
          let next := R.nodes.length
          let R : RLat S := { R with nodes := R.nodes ++ [⟨[], []⟩] }
          let R := R.addLink ⟨node, some next, some w, r.ac, r.lm, r.transitions⟩
          followWords L maps depth create ws R next r.endNode

/-- rescoredlattice.py:103-104: the words of a history, without the first one. -/
def historyWords (idToWord : Nat → Option Str) : List HistWord → Except Err (List Str)
  | [] => .ok []
  | .inl i :: ws => match idToWord i with
    | none => .error .indexError
    | some w => match historyWords idToWord ws with
      | .error e => .error e
      | .ok r => .ok (w :: r)
  | .inr w :: ws => match historyWords idToWord ws with
      | .error e => .error e
      | .ok r => .ok (w :: r)

/-- rescoredlattice.py:90-105 `follow_word_ids`. -/
def followIds (L : Lattice S) (maps : List (List (Str × Nat))) (depth : Nat) (idToWord : Nat → Option Str)
    (create : Bool) (ids : List HistWord) (R : RLat S) : Except Err (RLat S × Nat) :=
  match historyWords idToWord ids.tail with
  | .error e => .error e
  | .ok words => followWords L maps depth create words R 0 L.initial

/-- rescoredlattice.py:121-135, one final token. -/
def addFinal (L : Lattice S) (maps : List (List (Str × Nat))) (depth : Nat) (idToWord : Nat → Option Str)
    (R : RLat S) (t : Token S St) : Except Err (RLat S) :=
  match followIds L maps depth idToWord true t.history R with
  | .error e => .error e
  | .ok (R, node) =>
    if (R.nodes.getD node ⟨[], []⟩).outLinks.any (fun l => match R.links[l]? with
        | none => false
        | some k => decide (k.endNode = none)) then .ok R                               -- 125-126
    else .ok (R.addLink ⟨node, none, none, 0, t.nnLm, []⟩)                              -- 130-135

/-- rescoredlattice.py:139-175, one recombined token. -/
def addRecomb (L : Lattice S) (maps : List (List (Str × Nat))) (depth : Nat) (idToWord : Nat → Option Str)
    (R : RLat S) (e : Recomb S St) : Except Err (RLat S) :=
  match e.2.1.getLast?, e.1.history.getLast? with
  | some a, some b =>
    if a ≠ b then .error .assertion                                                     -- 140
    else match historyWords idToWord [b] with                                           -- 141-146
      | .error err => .error err
      | .ok [] => .error .runtimeError   -- not reachable
      | .ok (word :: _) =>
        match followIds L maps depth idToWord false e.2.1.dropLast R with               -- 150-151
        | .error .nodeNotFound => .ok R                                                 -- 152-153
        | .error err => .error err
        | .ok (_, recombFrom) =>
          match mapGet (R.nodes.getD recombFrom ⟨[], []⟩).wordToLink word with
          | none => .ok R                                                               -- 156-157
          | some l => match R.links[l]? with                                            -- 158
            | none => .error .indexError   -- not reachable: links are objects
            | some recombLink =>
              match followIds L maps depth idToWord true e.1.history.dropLast R with    -- 164
              | .error err => .error err
              | .ok (R, fromNode) =>                                                    -- 165-175
                .ok (R.addLink ⟨fromNode, recombLink.endNode, some word, recombLink.ac,
                  recombLink.lm + (e.1.nnLm - e.2.2), recombLink.transitions⟩)
  | _, _ => .error .indexError

def addAll {α : Type} (f : RLat S → α → Except Err (RLat S)) : List α → RLat S → Except Err (RLat S)
  | [], R => .ok R
  | x :: xs, R => match f R x with
    | .error e => .error e
    | .ok R => addAll f xs R

/-- rescoredlattice.py:65-182 `RescoredLattice.__init__`, before the final node is added to the list. -/
def buildRescored (L : Lattice S) (depth : Nat) (idToWord : Nat → Option Str) (finals : List (Token S St))
    (recombs : List (Recomb S St)) : Except Err (RLat S) :=
  match wordMaps L depth (List.range L.nodes.length) with                               -- 118
  | .error e => .error e
  | .ok maps =>
    match addAll (addFinal L maps depth idToWord) finals ⟨[⟨[], []⟩], []⟩ with          -- 111-116, 121-135
    | .error e => .error e
    | .ok R => addAll (addRecomb L maps depth idToWord) recombs.reverse R               -- 139-175

/-- rescoredlattice.py:181-182: the final node is added to the list.  The attributes of the lattice that
commands/decode.py sets afterwards are not included. -/
def RLat.toLattice (R : RLat S) (utteranceId : Option Str) : Lattice S where
  nodes := R.nodes.map (fun n => ⟨n.outLinks, [], none, false⟩) ++ [⟨[], [], none, true⟩]
  links := R.links.map (fun k => ⟨k.startNode, k.endNode.getD R.nodes.length, k.word, some k.ac, some k.lm,
    k.transitions⟩)
  initial := 0
  utteranceId := utteranceId
  lmScale := none
  wiPenalty := none

/-- `RescoredLattice.__init__` -/
def rescoredLattice (L : Lattice S) (depth : Nat) (idToWord : Nat → Option Str) (finals : List (Token S St))
    (recombs : List (Recomb S St)) : Except Err (Lattice S) :=
  match buildRescored L depth idToWord finals recombs with
  | .error e => .error e
  | .ok R => .ok (R.toLattice L.utteranceId)

end
end TheanoLM
