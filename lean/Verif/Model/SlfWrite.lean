import Verif.Model.SlfLattice
/-!
# Model of the SLF writer in theanolm/scoring/lattice.py and of the tokenizer of the SLF reader
-/
namespace TheanoLM

variable {S : Type}

/-! ## The tokenizer -/

/-- The state of the `shlex` object of the Python library.  `escape` is after a backslash, with the state where to continue: in quotes
or not.  A comment is skipped using `readline`. -/
inductive ShState where
  | blank | word | quote | comment | escape (inQuotes : Bool)
  deriving DecidableEq

/-- `shlex.whitespace` -/
def shSpace (c : Char) : Bool := c = ' ' || c = '\t' || c = '\r' || c = '\n'

/-- The end of a token: `None` (no token) if nothing has been read. -/
def shEmit (token : Str) (quoted : Bool) (rest : Except Err (List Str)) : Except Err (List Str) :=
  match rest with
  | .error e => .error e
  | .ok tokens => .ok (if token = [] ∧ quoted = false then tokens else token :: tokens)

/-- slflattice.py:31-35: `shlex.read_token` of the Python library in the POSIX mode, where words are split at white space, the only
quotes are double quotes, the escape character is a backslash and comments start with a hash sign; repeated until the end of the line.
`token` is the token being read, and `quoted` tells whether a part of it was in quotes. -/
def shTokens : Str → ShState → Str → Bool → Except Err (List Str)
  | [], .blank, token, quoted => shEmit token quoted (.ok [])
  | [], .word, token, quoted => shEmit token quoted (.ok [])
  | [], .comment, token, quoted => shEmit token quoted (.ok [])
  | [], .quote, _, _ => .error .valueError                                  -- "No closing quotation"
  | [], .escape _, _, _ => .error .valueError                               -- "No escaped character"
  | c :: cs, .blank, token, quoted =>
    if shSpace c then shEmit token quoted (shTokens cs .blank [] false)
    else if c = '#' then shTokens cs .comment token quoted
    else if c = '\\' then shTokens cs (.escape false) token quoted
    else if c = '"' then shTokens cs .quote token quoted
    else shTokens cs .word [c] quoted
  | c :: cs, .quote, token, _ =>
    if c = '"' then shTokens cs .word token true
    else if c = '\\' then shTokens cs (.escape true) token true
    else shTokens cs .quote (token ++ [c]) true
  | c :: cs, .escape inQuotes, token, quoted =>
    let token := if inQuotes = true ∧ c ≠ '\\' ∧ c ≠ '"' then token ++ ['\\'] else token
    shTokens cs (if inQuotes then .quote else .word) (token ++ [c]) quoted
  | c :: cs, .word, token, quoted =>
    if shSpace c then shEmit token quoted (shTokens cs .blank [] false)
    else if c = '#' then shEmit token quoted (shTokens cs .comment [] false)
    else if c = '"' then shTokens cs .quote token quoted
    else if c = '\\' then shTokens cs (.escape false) token quoted
    else shTokens cs .word (token ++ [c]) quoted
  | c :: cs, .comment, token, quoted =>
    if c = '\n' then shTokens cs .blank token quoted else shTokens cs .comment token quoted

/-- slflattice.py:15-35 `_split_slf_line`. -/
def splitSlfLine (line : Str) : Except Err (List Str) := shTokens line .blank [] false

/-! ## The writer -/

/-- `"{}".format(x)` for node IDs, scores and times. -/
structure SlfShow (S : Type) where
  showInt : ℤ → Str
  showScore : S → Str
  showTime : ℚ → Str

/-- `"\t".join(fields) + "\n"` -/
def tabLine : List Str → Str
  | [] => ['\n']
  | [f] => f ++ ['\n']
  | f :: g :: fields => f ++ '\t' :: tabLine (g :: fields)

/-- A field with an optional value. -/
def optField {α : Type} (name : String) (text : α → Str) : Option α → List Str
  | none => []
  | some x => [name.toList ++ text x]

/-- lattice.py:103-107: a line with the scale and the penalty, if either is defined. -/
def slfScaleLines (W : SlfShow S) (L : Lattice S) : List Str :=
  match optField "lmscale=" W.showScore L.lmScale ++ optField "wdpenalty=" W.showScore L.wiPenalty with
  | [] => []
  | f :: fields => [tabLine (f :: fields)]

/-- lattice.py:100-113: the header.  (An utterance ID `None` is written as "None".) -/
def slfHeaderText (W : SlfShow S) (L : Lattice S) : List Str :=
  ["# Header (generated by TheanoLM)\n".toList,                                                         -- 100
    "VERSION=1.1\n".toList,                                                                             -- 101
    "UTTERANCE=\"".toList ++ L.utteranceId.getD "None".toList ++ "\"\n".toList] ++                      -- 102
  slfScaleLines W L ++                                                                                  -- 103-109
  ["start=".toList ++ W.showInt L.initial ++ "\n".toList,                                               -- 110
    tabLine ["N=".toList ++ W.showInt L.nodes.length, "L=".toList ++ W.showInt L.links.length]]         -- 111-112

/-- lattice.py:115-119: one node. -/
def slfNodeText (W : SlfShow S) (id : Nat) (node : Node) : Str :=
  tabLine (("I=".toList ++ W.showInt id) :: optField "t=" W.showTime node.time)

/-- lattice.py:121-134: one link.  Adding `0.0` to the scores is not modelled: it changes negative zero to zero. -/
def slfLinkText (W : SlfShow S) (id : Nat) (k : Link S) : Str :=
  tabLine (["J=".toList ++ W.showInt id, "S=".toList ++ W.showInt k.startNode, "E=".toList ++ W.showInt k.endNode,
    "W=".toList ++ k.word.getD "!NULL".toList] ++                                                       -- 126-129
    optField "a=" W.showScore k.ac ++ optField "l=" W.showScore k.lm)                                   -- 130-133

/-- lattice.py:93-134 `write_slf`: the text of the file. -/
def writeSlf (W : SlfShow S) (L : Lattice S) : Str :=
  (slfHeaderText W L ++ ["# Nodes\n".toList] ++ L.nodes.mapIdx (slfNodeText W) ++ ["# Links\n".toList] ++
    L.links.mapIdx (slfLinkText W)).flatten

/-- The lines of a text file.  (The conversion of other line ends than "\n" is not modelled.) -/
def fileLines : Str → List Str
  | [] => []
  | c :: cs =>
    if c = '\n' then ['\n'] :: fileLines cs
    else match fileLines cs with
      | [] => [[c]]
      | line :: lines => (c :: line) :: lines

end TheanoLM
