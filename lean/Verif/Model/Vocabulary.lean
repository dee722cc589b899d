import Verif.Model.Parsing
/-!
# Model of theanolm/vocabulary/{wordclass,vocabulary}.py

Probabilities are exact rational numbers instead of floats.  A Python `dict` is an association list with distinct keys in
insertion order; a `set` of the words seen so far is the list of those words.
-/
namespace TheanoLM

/-! ## WordClass -/

/-- wordclass.py:22-36: `id` and the ordered dictionary `_probs` from word IDs to membership probabilities. -/
structure WordClass where
  id : Nat
  probs : List (Nat × ℚ)
  deriving DecidableEq

/-- wordclass.py:22-36 `__init__`. -/
def WordClass.new (classId wordId : Nat) (prob : ℚ) : WordClass := ⟨classId, [(wordId, prob)]⟩

/-- Assignment to a key of an ordered dictionary: replaces the value or appends a new item. -/
def dictSet [DecidableEq κ] (d : List (κ × β)) (key : κ) (value : β) : List (κ × β) :=
  if d.any (fun p => decide (p.1 = key)) then d.map (fun p => if p.1 = key then (key, value) else p)
  else d ++ [(key, value)]

/-- Value of a key of a dictionary. -/
def dictGet? [DecidableEq κ] (d : List (κ × β)) (key : κ) : Option β :=
  (d.find? (fun p => decide (p.1 = key))).map Prod.snd

/-- wordclass.py:38-50 `add` and 64-75 `set_prob`. -/
def WordClass.setProb (c : WordClass) (wordId : Nat) (prob : ℚ) : WordClass :=
  { c with probs := dictSet c.probs wordId prob }

/-- wordclass.py:52-62 `get_prob`. -/
def WordClass.getProb (c : WordClass) (wordId : Nat) : Except Err ℚ :=
  match dictGet? c.probs wordId with
  | some p => .ok p
  | none => .error .keyError

/-- wordclass.py:77-83 `normalize_probs`. -/
def WordClass.normalizeProbs (c : WordClass) : Except Err WordClass :=
  let probSum := (c.probs.map Prod.snd).sum                                     -- 81
  if c.probs ≠ [] ∧ probSum = 0 then .error .zeroDivision                       -- 83
  else .ok { c with probs := c.probs.map (fun p => (p.1, p.2 / probSum)) }      -- 82-83

/-! ## Vocabulary -/

/-- The attributes of `Vocabulary` (vocabulary.py:108-118). -/
structure Vocab where
  idToWord : List Str
  classOf : List Nat
  classes : List WordClass
  numNormal : Nat
  unigram : Option (List ℚ)
  deriving DecidableEq

/-- vocabulary.py:116-117 `word_to_id`: the last of equal words wins. -/
def wordToId (idToWord : List Str) (word : Str) : Option Nat :=
  (idToWord.reverse.idxOf? word).map (fun i => idToWord.length - 1 - i)

def Vocab.wordToId (v : Vocab) (word : Str) : Option Nat := TheanoLM.wordToId v.idToWord word

/-- vocabulary.py:445-453, 455-463, 465-472 -/
def Vocab.numWords (v : Vocab) : Nat := v.idToWord.length
def Vocab.numShortlist (v : Vocab) : Nat := v.classOf.length
def Vocab.numClasses (v : Vocab) : Nat := v.classes.length

/-- vocabulary.py:102-106: the class has one word, whose name starts with `<`. -/
def isSpecialClass (idToWord : List Str) (c : WordClass) : Bool :=
  match c.probs with
  | [(wordId, _)] => (idToWord.getD wordId []).head? == some '<'
  | _ => false

/-- vocabulary.py:99-108: the number of classes left when the special classes at the end are skipped. -/
def numNormalClasses (idToWord : List Str) (classes : List WordClass) : Nat :=
  (classes.reverse.dropWhile (isSpecialClass idToWord)).length

/-- Applies `f` to the elements in order until one raises. -/
def mapE (f : α → Except Err β) : List α → Except Err (List β)
  | [] => .ok []
  | a :: as =>
    match f a with
    | .error e => .error e
    | .ok b =>
      match mapE f as with
      | .error e => .error e
      | .ok bs => .ok (b :: bs)

/-- vocabulary.py:73-118 `__init__`.  (`id_to_word[word_id]` at 104 cannot fail: the callers create classes of existing
words.) -/
def mkVocab (idToWord : List Str) (classOf : List Nat) (classes : List WordClass) : Except Err Vocab :=
  if ¬ (sos ∈ idToWord ∧ eos ∈ idToWord ∧ unk ∈ idToWord) then .error .valueError     -- 95-97
  else
    match mapE WordClass.normalizeProbs classes with                                  -- 110-111
    | .error e => .error e
    | .ok classes' => .ok
      { idToWord := idToWord, classOf := classOf, classes := classes',
        numNormal := numNormalClasses idToWord classes, unigram := none }             -- 99-108, 113-118

/-- The lists that the constructors build (vocabulary.py:159-163, 246-248).  `fileIds` maps class IDs in the file to
internal class IDs. -/
structure Build (φ : Type) where
  words : List Str
  classOf : List Nat
  classes : List WordClass
  fileIds : List (φ × Nat)

def Build.empty : Build φ := ⟨[], [], [], []⟩

/-- vocabulary.py:36-43, 45-52, 54-61 -/
def addSpecial (token : Str) (b : Build φ) : Build φ :=
  if token ∈ b.words then b
  else { b with
    words := b.words ++ [token]
    classOf := b.classOf ++ [b.classes.length]
    classes := b.classes ++ [WordClass.new b.classes.length b.words.length 1] }

/-- vocabulary.py:16-61 `_add_special_tokens`. -/
def addSpecialTokens (b : Build φ) : Except Err (Build φ) :=
  if b.words.length ≠ b.classOf.length then .error .valueError                        -- 32-34
  else .ok (addSpecial unk (addSpecial eos (addSpecial sos b)))                       -- 36-61

/-! ### from_file -/

/-- The argument `input_format`. -/
inductive VocFormat
  | words | classes | srilmClasses | other
  deriving DecidableEq

/-- A class ID in a file: a number (format "classes") or a name (format "srilm-classes"). -/
inductive FileId
  | num (n : ℤ)
  | name (s : Str)
  deriving DecidableEq

/-- Python `int(s)` and `float(s)`; `none` when they raise `ValueError`.  They are parameters of the model.  The
floats "nan" and "inf" are not modelled. -/
structure Parsers where
  int : Str → Option ℤ
  float : Str → Option ℚ

/-- vocabulary.py:170-184, the fields of one non-empty line: file ID, probability and word. -/
def vocFields (P : Parsers) (fmt : VocFormat) (fields : List Str) : Except Err (Option FileId × ℚ × Str) :=
  match fmt, fields with
  | .words, [w] => .ok (none, 1, w)                                                   -- 170-173
  | .classes, [w, c] =>                                                               -- 174-177
    match P.int c with
    | some n => .ok (some (.num n), 1, w)
    | none => .error .valueError
  | .srilmClasses, [c, p, w] =>                                                       -- 178-181
    match P.float p with
    | some q => .ok (some (.name c), q, w)
    | none => .error .valueError
  | _, _ => .error .inputError                                                        -- 182-184

/-- vocabulary.py:186-205, adds one word. -/
def addWord [DecidableEq φ] (b : Build φ) (fileId : Option φ) (prob : ℚ) (word : Str) : Except Err (Build φ) :=
  if word ∈ b.words then .error .inputError                                           -- 186-188
  else
    let wordId := b.words.length                                                      -- 190
    match fileId.bind (dictGet? b.fileIds) with
    | some classId => .ok { b with                                                    -- 193-195
        words := b.words ++ [word]
        classes := b.classes.modify classId (fun c => c.setProb wordId prob)
        classOf := b.classOf ++ [classId] }
    | none => .ok                                                                     -- 196-202
      { words := b.words ++ [word]
        classes := b.classes ++ [WordClass.new b.classes.length wordId prob]
        classOf := b.classOf ++ [b.classes.length]
        fileIds := match fileId with
          | some f => dictSet b.fileIds f b.classes.length
          | none => b.fileIds }

/-- vocabulary.py:165-205, the loop over lines. -/
def fromFileLoop (P : Parsers) (fmt : VocFormat) : List Str → Build FileId → Except Err (Build FileId)
  | [], b => .ok b
  | line :: lines, b =>
    let fields := pySplit line                                                        -- 166-167
    if fields = [] then fromFileLoop P fmt lines b                                    -- 168-169
    else
      match vocFields P fmt fields with
      | .error e => .error e
      | .ok (fileId, prob, word) =>
        match addWord b fileId prob word with
        | .error e => .error e
        | .ok b => fromFileLoop P fmt lines b

/-- vocabulary.py:210-214 -/
def addOosWords (words : List Str) : List Str → List Str
  | [] => words
  | w :: ws => if w ∈ words then addOosWords words ws else addOosWords (words ++ [w]) ws

/-- vocabulary.py:120-216 `from_file`.  `oos_words=None` is the empty list. -/
def vocabFromFile (P : Parsers) (lines : List Str) (fmt : VocFormat) (oosWords : List Str) : Except Err Vocab :=
  match fromFileLoop P fmt lines .empty with
  | .error e => .error e
  | .ok b =>
    match addSpecialTokens b with                                                     -- 207
    | .error e => .error e
    | .ok b => mkVocab (addOosWords b.words oosWords) b.classOf b.classes             -- 208-216

/-! ### from_word_counts -/

/-- Insertion that keeps the order of equal elements, and the stable sort `sorted(items, key=lambda x: x[1])`
(vocabulary.py:254-255). -/
def insertByCount (x : Str × Nat) : List (Str × Nat) → List (Str × Nat)
  | [] => [x]
  | y :: ys => if x.2 ≤ y.2 then x :: y :: ys else y :: insertByCount x ys

def sortByCount : List (Str × Nat) → List (Str × Nat)
  | [] => []
  | x :: xs => insertByCount x (sortByCount xs)

/-- vocabulary.py:253-268, the loop over the sorted words; the arguments are the number of classes, the words, the next
class ID and the lists.  Taking the modulo by zero raises. -/
def wordCountsLoop (numClasses : Nat) : List (Str × Nat) → Nat → Build Unit → Except Err (Build Unit)
  | [], _, b => .ok b
  | (word, _) :: rest, classId, b =>
    let wordId := b.words.length                                                      -- 256
    let step (b : Build Unit) : Except Err (Build Unit) :=
      if numClasses = 0 then .error .zeroDivision                                     -- 268
      else wordCountsLoop numClasses rest ((classId + 1) % numClasses) b
    if classId < b.classes.length then                                                -- 259-260
      step { b with
        words := b.words ++ [word]
        classes := b.classes.modify classId (fun c => c.setProb wordId 1)
        classOf := b.classOf ++ [classId] }
    else if classId ≠ b.classes.length then .error .assertion                         -- 262
    else
      step { b with                                                                   -- 263-267
        words := b.words ++ [word]
        classes := b.classes ++ [WordClass.new classId wordId 1]
        classOf := b.classOf ++ [classId] }

/-- vocabulary.py:362-366: the counts indexed by word ID. -/
def countsById (idToWord : List Str) : List (Str × Nat) → List Nat → List Nat
  | [], counts => counts
  | (word, count) :: rest, counts =>
    match wordToId idToWord word with
    | some wordId => countsById idToWord rest (counts.set wordId count)
    | none => countsById idToWord rest counts

/-- vocabulary.py:386-397, one class. -/
def updateClass (counts : List Nat) (c : WordClass) : Except Err WordClass :=
  let clsTotal := (c.probs.map (fun p => counts.getD p.1 0)).sum                      -- 387-390
  if 0 < clsTotal then                                                                -- 391-393
    .ok { c with probs := c.probs.map (fun p => (p.1, (counts.getD p.1 0 : ℚ) / clsTotal)) }
  else if c.probs = [] then .error .zeroDivision                                      -- 395
  else .ok { c with probs := c.probs.map (fun p => (p.1, 1 / (c.probs.length : ℚ))) } -- 395-397

/-- vocabulary.py:337-397 `compute_probs`.  The logging is not modelled. -/
def computeProbs (v : Vocab) (wordCounts : List (Str × Nat)) (updateClassProbs : Bool) : Except Err Vocab :=
  match v.wordToId sos, v.wordToId eos, v.wordToId unk with                           -- 358-360
  | some sosId, some eosId, some unkId =>
    let counts := countsById v.idToWord wordCounts (List.replicate v.numWords 0)      -- 362-366
    let total := counts.sum                                                           -- 369
    let unigram := if 0 < total then counts.map (fun (n : Nat) => (n : ℚ) / total)
      else counts.map (fun (n : Nat) => (n : ℚ))                                      -- 368-371
    let v := { v with unigram := some unigram }
    if ¬ updateClassProbs then .ok v                                                  -- 379-380
    else
      let counts := counts.set sosId (max (counts.getD sosId 0) 1)                    -- 382-384
      let counts := counts.set eosId (max (counts.getD eosId 0) 1)
      let counts := counts.set unkId (max (counts.getD unkId 0) 1)
      match mapE (updateClass counts) v.classes with                                  -- 386-397
      | .error e => .error e
      | .ok classes => .ok { v with classes := classes }
  | _, _, _ => .error .keyError

/-- vocabulary.py:218-274 `from_word_counts`. -/
def vocabFromWordCounts (wordCounts : List (Str × Nat)) (numClasses : Option Nat) : Except Err Vocab :=
  let wordCounts := wordCounts.filter (fun p => decide (p.1 ≠ sos ∧ p.1 ≠ eos ∧ p.1 ≠ unk))   -- 238-244
  let numClasses := numClasses.getD wordCounts.length                                 -- 250-251
  match wordCountsLoop numClasses (sortByCount wordCounts) 0 .empty with              -- 253-268
  | .error e => .error e
  | .ok b =>
    match addSpecialTokens b with                                                     -- 270
    | .error e => .error e
    | .ok b =>
      match mkVocab b.words b.classOf b.classes with                                  -- 272
      | .error e => .error e
      | .ok v => computeProbs v wordCounts true                                       -- 273

/-! ### get_state and from_state -/

/-- The HDF5 group `vocabulary` (vocabulary.py:409-443); `none` is a missing dataset. -/
structure VocabState where
  words : Option (List Str)
  classes : Option (List Nat)
  probs : Option (List ℚ)
  unigram : Option (List ℚ)
  deriving DecidableEq

/-- `_word_classes[class_id].get_prob(word_id)` (vocabulary.py:431, 517-519). -/
def Vocab.memberProb (v : Vocab) (wordId classId : Nat) : Except Err ℚ :=
  match v.classes[classId]? with
  | none => .error .indexError
  | some c => c.getProb wordId

/-- vocabulary.py:507-519 `get_word_prob`. -/
def Vocab.getWordProb (v : Vocab) (wordId : Nat) : Except Err ℚ :=
  match v.classOf[wordId]? with
  | none => .error .indexError
  | some classId => v.memberProb wordId classId

/-- Assignment `dataset[:] = data`: the size of an existing dataset does not change.  (Broadcasting of data with a single
element is not modelled.) -/
def h5Assign (old : Option (List α)) (data : List α) : Except Err (Option (List α)) :=
  match old with
  | none => .ok (some data)
  | some o => if o.length = data.length then .ok (some data) else .error .typeError

/-- vocabulary.py:399-443 `get_state`; the state may already contain a vocabulary. -/
def Vocab.getState (v : Vocab) (old : VocabState) : Except Err VocabState :=
  match h5Assign old.classes v.classOf with                                           -- 425-429
  | .error e => .error e
  | .ok classes =>
    match mapE (fun p => v.memberProb p.2 p.1) v.classOf.zipIdx with                  -- 431-432
    | .error e => .error e
    | .ok probs =>
      match h5Assign old.probs probs with                                             -- 433-436
      | .error e => .error e
      | .ok probs =>
        match v.unigram with                                                          -- 438-443
        | none => .ok ⟨some v.idToWord, classes, probs, old.unigram⟩
        | some u =>
          match h5Assign old.unigram u with
          | .error e => .error e
          | .ok unigram => .ok ⟨some v.idToWord, classes, probs, unigram⟩

/-- vocabulary.py:308-314, the loop that fills the list of classes. -/
def fromStateLoop (classOf : List Nat) : List (ℚ × Nat) → List (Option WordClass) → Except Err (List (Option WordClass))
  | [], classes => .ok classes
  | (prob, wordId) :: rest, classes =>
    match classOf[wordId]? with                                                       -- 309
    | none => .error .indexError
    | some classId =>
      match classes[classId]? with
      | none => .error .indexError
      | some none => fromStateLoop classOf rest (classes.set classId (some (WordClass.new classId wordId prob)))
      | some (some c) => fromStateLoop classOf rest (classes.set classId (some (c.setProb wordId prob)))

/-- A class must not be `None` in `__init__` (vocabulary.py:101-111). -/
def unwrapClass : Option WordClass → Except Err WordClass
  | some c => .ok c
  | none => .error .typeError

/-- vocabulary.py:276-335 `from_state`.  A class without words (`None`) makes `__init__` raise. -/
def vocabFromState (state : Option VocabState) : Except Err Vocab :=
  match state with
  | none => .error .incompatibleState                                                 -- 284-286
  | some s =>
    match s.words, s.classes, s.probs with
    | some words, some classOf, some probs =>
      match classOf.max? with                                                         -- 305
      | none => .error .valueError
      | some m =>
        match fromStateLoop classOf probs.zipIdx (List.replicate (m + 1) none) with   -- 306-314
        | .error e => .error e
        | .ok classes =>
          match mapE unwrapClass classes with
          | .error e => .error e
          | .ok classes =>
            match mkVocab words classOf classes with                                  -- 316-318
            | .error e => .error e
            | .ok v =>
              match s.unigram with                                                    -- 320-333
              | none => .ok v
              | some u =>
                if u.length ≠ v.numWords then .error .incompatibleState               -- 322-325
                else .ok { v with unigram := some u }
    | _, _, _ => .error .incompatibleState                                            -- 289-304

/-! ### Queries -/

/-- vocabulary.py:553-563 `in_shortlist`. -/
def Vocab.inShortlist (v : Vocab) (wordId : Nat) : Bool := decide (wordId < v.classOf.length)

/-- vocabulary.py:474-491 `words_to_ids`. -/
def Vocab.wordsToIds (v : Vocab) (words : List Str) : Except Err (List Nat) :=
  match v.wordToId unk with
  | none => .error .keyError
  | some unkId => .ok (words.map (fun w => (v.wordToId w).getD unkId))

/-- vocabulary.py:521-541 `get_class_memberships`, for one word ID: class ID and membership probability. -/
def Vocab.classMembership (v : Vocab) (wordId : Nat) : Except Err (Nat × ℚ) :=
  match v.wordToId unk with                                                           -- 535
  | none => .error .keyError
  | some unkId =>
    let wordId := if v.numShortlist ≤ wordId then unkId else wordId                   -- 536-537
    match v.classOf[wordId]? with                                                     -- 538
    | none => .error .indexError
    | some classId =>
      match v.memberProb wordId classId with                                          -- 539-541
      | .error e => .error e
      | .ok p => .ok (classId, p)

/-- vocabulary.py:576-598 `get_oos_probs`.  The result `none` of an element is nan (0/0); `none` for the whole result
means that the unigram probabilities are missing (the function then raises). -/
def Vocab.oosProbs (v : Vocab) : Option (List (Option ℚ)) :=
  match v.unigram with
  | none => none
  | some u =>
    let shortlistSize := v.numShortlist                                               -- 593
    let totalOos := (u.drop shortlistSize).sum                                        -- 596
    some ((u.take shortlistSize).map (fun _ => some 1) ++                             -- 594-595
      (u.drop shortlistSize).map (fun p => if totalOos = 0 then none else some (p / totalOos)))   -- 597

/-- vocabulary.py:600-618 `get_class_probs`. -/
def Vocab.classProbs (v : Vocab) : Option (List ℚ) :=
  match v.unigram with
  | none => none
  | some u =>
    let pairs := v.classOf.zip (u.take v.numShortlist)                                -- 608-610
    let result := (List.range v.numClasses).map
      (fun c => ((pairs.filter (fun p => decide (p.1 = c))).map Prod.snd).sum)        -- 611-612
    let total := result.sum                                                           -- 614
    some (if 0 < total then result.map (· / total) else result)                       -- 615-618

end TheanoLM
