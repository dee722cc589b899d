import Verif.Model.KaldiLattice
/-!
# Model of theanolm/scoring/slflattice.py

The tokenizer `_split_slf_line` (slflattice.py:15-35), which uses the `shlex` class of the Python library, is a
parameter `tok` of the reader.
-/
namespace TheanoLM

/-- Conversions that the reader uses: `int(s)`, `logprob_type(s)` and `numpy.float64(s)`, `float(s)` (time stamps), and
`numpy.log`.  `none` is `ValueError`. -/
structure SlfText (S : Type) where
  tok : Str → Except Err (List Str)
  parseInt : Str → Option ℤ
  parseScore : Str → Option S
  parseTime : Str → Option ℚ
  log : S → S

/-- slflattice.py:37-54 `_split_slf_field`: splits at the first equals sign. -/
def splitSlfField : Str → Except Err (Str × Str)
  | [] => .error .inputError
  | c :: cs =>
    if c = '=' then .ok ([], cs)
    else match splitSlfField cs with
      | .error e => .error e
      | .ok (name, value) => .ok (c :: name, value)

/-- The attributes set by `_read_slf_header`. -/
structure SlfHeader (S : Type) where
  utteranceId : Option Str
  logScale : Option S
  lmScale : Option S
  wiPenalty : Option S
  start : Option ℤ
  ends : List ℤ
  numNodes : Option ℤ
  numLinks : Option ℤ
  deriving DecidableEq

variable {S : Type}

/-- slflattice.py:74-86; `_log_scale` is one. -/
def SlfHeader.empty [One S] : SlfHeader S := ⟨none, some 1, none, none, none, [], none, none⟩

def parseE {α : Type} : Option α → Except Err α
  | none => .error .valueError
  | some x => .ok x

/-- slflattice.py:162-166 -/
def slfBase [Zero S] [DecidableEq S] (T : SlfText S) (x : S) : Option S := if x = 0 then none else some (T.log x)

/-- slflattice.py:155-178, one field of the header. -/
def slfHeaderField [Zero S] [DecidableEq S] (T : SlfText S) (h : SlfHeader S) (name value : Str) :
    Except Err (SlfHeader S) :=
  if name = "UTTERANCE".toList ∨ name = "U".toList then .ok { h with utteranceId := some value }        -- 157-158
  else if name = "SUBLAT".toList ∨ name = "S".toList then .error .inputError                            -- 159-160
  else if name = "base".toList then                                                                     -- 161-166
    (parseE (T.parseScore value)).map (fun x => { h with logScale := slfBase T x })
  else if name = "lmscale".toList then                                                                  -- 167-168
    (parseE (T.parseScore value)).map (fun x => { h with lmScale := some x })
  else if name = "wdpenalty".toList then                                                                -- 169-170
    (parseE (T.parseScore value)).map (fun x => { h with wiPenalty := some x })
  else if name = "start".toList then                                                                    -- 171-172
    (parseE (T.parseInt value)).map (fun i => { h with start := some i })
  else if name = "end".toList then                                                                      -- 173-174
    (parseE (T.parseInt value)).map (fun i => { h with ends := h.ends ++ [i] })
  else if name = "NODES".toList ∨ name = "N".toList then                                                -- 175-176
    (parseE (T.parseInt value)).map (fun i => { h with numNodes := some i })
  else if name = "LINKS".toList ∨ name = "L".toList then                                                -- 177-178
    (parseE (T.parseInt value)).map (fun i => { h with numLinks := some i })
  else .ok h

/-- slflattice.py:148-178 `_read_slf_header`. -/
def slfHeaderFields [Zero S] [DecidableEq S] (T : SlfText S) : List Str → SlfHeader S → Except Err (SlfHeader S)
  | [], h => .ok h
  | field :: fields, h =>
    match splitSlfField field with
    | .error e => .error e
    | .ok (name, value) =>
      match slfHeaderField T h name value with
      | .error e => .error e
      | .ok h => slfHeaderFields T fields h

/-- slflattice.py:88-95: reads lines until the numbers of nodes and links are known; returns the rest of the lines. -/
def slfHeaderLines [Zero S] [DecidableEq S] (T : SlfText S) :
    List Str → SlfHeader S → Except Err (SlfHeader S × List Str)
  | [], h => if h.numNodes = none ∨ h.numLinks = none then .error .inputError else .ok (h, [])          -- 93-95
  | line :: lines, h =>
    match T.tok line with                                                                               -- 89
    | .error e => .error e
    | .ok fields =>
      match slfHeaderFields T fields h with                                                             -- 90
      | .error e => .error e
      | .ok h =>
        if h.numNodes ≠ none ∧ h.numLinks ≠ none then .ok (h, lines)                                    -- 91-92
        else slfHeaderLines T lines h

/-- slflattice.py:97-101 -/
def slfPenalty [Mul S] (T : SlfText S) (h : SlfHeader S) : Option S :=
  match h.wiPenalty with
  | none => none
  | some p => match h.logScale with
    | none => some (T.log p)
    | some scale => some (p * scale)

/-- `self.nodes`, `self.links` and the attribute `word` of the nodes: `none` if the node does not have the attribute. -/
structure SlfSt (S : Type) where
  nodes : List Node
  links : List (Link S)
  words : List (Option (Option Str))
  deriving DecidableEq

/-- `word.startswith('!') or word.startswith('#')` -/
def slfSpecial (w : Str) : Bool := w.head? == some '!' || w.head? == some '#'

/-- slflattice.py:202-204, 252-254: special words become `None`. -/
def slfNorm (w : Option Str) : Option Str :=
  match w with
  | none => none
  | some w => if slfSpecial w then none else some w

/-- slflattice.py:195-201, the loop over the fields of a node: time and word. -/
def slfNodeFields (T : SlfText S) : List Str → Option ℚ × Option (Option Str) →
    Except Err (Option ℚ × Option (Option Str))
  | [], a => .ok a
  | field :: fields, (time, word) =>
    match splitSlfField field with
    | .error e => .error e
    | .ok (name, value) =>
      if name = "time".toList ∨ name = "t".toList then                                                  -- 197-198
        match T.parseTime value with
        | none => .error .valueError
        | some t => slfNodeFields T fields (some t, word)
      else if name = "WORD".toList ∨ name = "W".toList then                                             -- 199-200
        slfNodeFields T fields (time, some (some value))
      else slfNodeFields T fields (time, word)

/-- slflattice.py:202-204: `None` does not have `startswith`. -/
def slfNodeWord : Option (Option Str) → Except Err (Option (Option Str))
  | none => .ok none
  | some none => .error .attributeError
  | some (some w) => .ok (some (slfNorm (some w)))

/-- slflattice.py:180-204 `_read_slf_node`. -/
def slfNode (T : SlfText S) (st : SlfSt S) (nodeId : ℤ) (fields : List Str) : Except Err (SlfSt S) :=
  match pyIdx st.nodes.length nodeId with                                                               -- 194
  | none => .error .indexError
  | some n =>
    match slfNodeFields T fields ((st.nodes.getD n Node.new).time, st.words.getD n none) with
    | .error e => .error e
    | .ok (time, word) =>
      match slfNodeWord word with
      | .error e => .error e
      | .ok word =>
        .ok { st with nodes := st.nodes.modify n (fun x => { x with time := time }), words := st.words.set n word }

/-- The local variables of `_read_slf_link`. -/
structure SlfLinkVars (S : Type) where
  startNode : Option Nat
  endNode : Option Nat
  word : Option Str
  ac : Option S
  lm : Option S
  deriving DecidableEq

/-- slflattice.py:231-234, 236-239 -/
def slfScore [Mul S] (T : SlfText S) (logScale : Option S) (value : Str) : Except Err S :=
  match T.parseScore value with
  | none => .error .valueError
  | some x => match logScale with
    | none => .ok (T.log x)
    | some scale => .ok (x * scale)

/-- slflattice.py:225, 227: `self.nodes[int(value)]` -/
def slfNodeRef (T : SlfText S) (numNodes : Nat) (value : Str) : Except Err Nat :=
  match T.parseInt value with
  | none => .error .valueError
  | some i => match pyIdx numNodes i with
    | none => .error .indexError
    | some n => .ok n

/-- slflattice.py:224-239, one field of a link. -/
def slfLinkField [Mul S] (T : SlfText S) (logScale : Option S) (numNodes : Nat) (v : SlfLinkVars S)
    (name value : Str) : Except Err (SlfLinkVars S) :=
  if name = "START".toList ∨ name = "S".toList then
    (slfNodeRef T numNodes value).map (fun n => { v with startNode := some n })
  else if name = "END".toList ∨ name = "E".toList then
    (slfNodeRef T numNodes value).map (fun n => { v with endNode := some n })
  else if name = "WORD".toList ∨ name = "W".toList then .ok { v with word := some value }
  else if name = "acoustic".toList ∨ name = "a".toList then
    (slfScore T logScale value).map (fun x => { v with ac := some x })
  else if name = "language".toList ∨ name = "l".toList then
    (slfScore T logScale value).map (fun x => { v with lm := some x })
  else .ok v

/-- slflattice.py:222-239, the loop over the fields of a link. -/
def slfLinkFields [Mul S] (T : SlfText S) (logScale : Option S) (numNodes : Nat) :
    List Str → SlfLinkVars S → Except Err (SlfLinkVars S)
  | [], v => .ok v
  | field :: fields, v =>
    match splitSlfField field with
    | .error e => .error e
    | .ok (name, value) =>
      match slfLinkField T logScale numNodes v name value with
      | .error e => .error e
      | .ok v => slfLinkFields T logScale numNodes fields v

/-- slflattice.py:206-254 `_read_slf_link`.  The attribute `transitions` is not set; it is used only when writing
Kaldi lattices. -/
def slfLink [Mul S] (T : SlfText S) (logScale : Option S) (st : SlfSt S) (fields : List Str) : Except Err (SlfSt S) :=
  match slfLinkFields T logScale st.nodes.length fields ⟨none, none, none, none, none⟩ with
  | .error e => .error e
  | .ok v =>
    match v.startNode, v.endNode with
    | some s, some e =>
      let r := addLink st.nodes st.links ⟨s, e, slfNorm v.word, v.ac, v.lm, []⟩                          -- 247-254
      .ok { st with nodes := r.1, links := r.2 }
    | _, _ => .error .inputError                                                                        -- 241-246

/-- slflattice.py:107-113, one line after the header. -/
def slfLine [Mul S] (T : SlfText S) (logScale : Option S) (st : SlfSt S) (fields : List Str) : Except Err (SlfSt S) :=
  match fields with
  | [] => .ok st                                                                                        -- 107-108
  | first :: rest =>
    match splitSlfField first with                                                                      -- 109
    | .error e => .error e
    | .ok (name, value) =>
      if name = "I".toList then                                                                         -- 110-111
        match T.parseInt value with
        | none => .error .valueError
        | some i => slfNode T st i rest
      else if name = "J".toList then                                                                    -- 112-113
        match T.parseInt value with
        | none => .error .valueError
        | some _ => slfLink T logScale st rest
      else .ok st

/-- slflattice.py:105-113, the loop over the lines. -/
def slfLines [Mul S] (T : SlfText S) (logScale : Option S) : List Str → SlfSt S → Except Err (SlfSt S)
  | [], st => .ok st
  | line :: lines, st =>
    match T.tok line with
    | .error e => .error e
    | .ok fields =>
      match slfLine T logScale st fields with
      | .error e => .error e
      | .ok st => slfLines T logScale lines st

/-- slflattice.py:119-129: the initial node. -/
def slfInitial (start : Option ℤ) (nodes : List Node) : Except Err Nat :=
  match start with
  | some i => match pyIdx nodes.length i with
    | none => .error .indexError
    | some n => .ok n
  | none => match nodes.findIdx? (fun n => n.inLinks.length == 0) with
    | none => .error .inputError
    | some n => .ok n

/-- slflattice.py:133: whether a node is final. -/
def slfFinal (ends : List ℤ) (n : Nat) (node : Node) : Bool := decide ((n : ℤ) ∈ ends) || node.outLinks.length == 0

/-- slflattice.py:266-285, the visits.  The recursive calls of `visit_link` are a stack of links to be visited; the
link on the top is visited first.  `none`: not finished in the given number of visits.  (The limit of the recursion
depth is not modelled.) -/
def slfVisit (words : List (Option (Option Str))) (nodes : List Node) :
    Nat → List Nat → List Nat → List (Link S) → Option (Except Err (List (Link S)))
  | _, [], _, links => some (.ok links)
  | 0, _ :: _, _, _ => none
  | fuel + 1, l :: stack, visited, links =>
    match links[l]? with
    | none => some (.error .indexError)   -- not reachable: link objects exist
    | some link =>
      match words.getD link.endNode none, link.word with                                                -- 272-278
      | some _, some _ => some (.error .inputError)
      | w, _ =>
        let links := match w with
          | some w => links.set l { link with word := w }                                               -- 275
          | none => links
        if link.endNode ∈ visited then slfVisit words nodes fuel stack visited links
        else slfVisit words nodes fuel ((nodes.getD link.endNode Node.new).outLinks ++ stack)           -- 279-282
          (link.endNode :: visited) links

/-- slflattice.py:103-146: nodes and links, given the header. -/
def slfBody [Mul S] (T : SlfText S) (h : SlfHeader S) (numNodes numLinks : ℤ) (lines : List Str) :
    Except Err (Lattice S) :=
  let st : SlfSt S := ⟨List.replicate numNodes.toNat Node.new, [], List.replicate numNodes.toNat none⟩  -- 103
  match slfLines T h.logScale lines st with
  | .error e => .error e
  | .ok st =>
    if (st.links.length : ℤ) ≠ numLinks then .error .inputError                                         -- 115-117
    else match slfInitial h.start st.nodes with
      | .error e => .error e
      | .ok initial =>
        let nodes := st.nodes.mapIdx (fun n x => { x with final := slfFinal h.ends n x })               -- 131-135
        if (nodes.filter Node.final).length ≠ 1 then .error .inputError                                 -- 137-142
        else match slfVisit st.words nodes (st.links.length + 1) (nodes.getD initial Node.new).outLinks
            [initial] st.links with                                                                     -- 146
          | some (.ok links) => .ok ⟨nodes, links, initial, h.utteranceId, h.lmScale, slfPenalty T h⟩
          | some (.error e) => .error e
          | none => .error .runtimeError   -- not reachable: every link is visited at most once

/-- slflattice.py:63-146 `SLFLattice.__init__` with the lines of a file. -/
def readSlf [Zero S] [One S] [Mul S] [DecidableEq S] (T : SlfText S) (lines : List Str) : Except Err (Lattice S) :=
  match slfHeaderLines T lines .empty with
  | .error e => .error e
  | .ok (h, rest) =>
    match h.numNodes, h.numLinks with
    | some numNodes, some numLinks => slfBody T h numNodes numLinks rest
    | _, _ => .error .inputError                                                                        -- 93-95

end TheanoLM
