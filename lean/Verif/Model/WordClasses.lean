import Verif.Model.Statistics
import Mathlib.Analysis.SpecialFunctions.Log.Basic
/-!
# Model of wordclasses/{bigramoptimizer,numpybigramoptimizer,theanobigramoptimizer}.py and the loop of wctool.py

Arrays are functions of their indices.  Counts are exact integers (no overflow of 32-bit integers) and logarithms are
real numbers (no rounding).  A floating point value that compares false with everything, `nan` or the `masked` constant
of `numpy.ma`, is `none`.
-/
namespace TheanoLM

/-- The two implementations of `BigramOptimizer`. -/
inductive Backend
  | numpy
  | theano
  deriving DecidableEq

/-- What does not change during the optimization: `vocabulary_size`, `num_classes`, `num_normal_classes`
(bigramoptimizer.py:23-27), `_word_counts` and `_ww_counts` (numpybigramoptimizer.py:32-35). -/
structure OptCfg where
  backend : Backend
  vocab : Vocab
  vocabularySize : Nat
  numClasses : Nat
  numNormal : Nat
  wordCounts : Nat → ℤ
  wwCounts : Nat → Nat → ℤ

/-- `_word_to_class`, `_class_counts`, `_cc_counts`, `_cw_counts`, `_wc_counts` (numpybigramoptimizer.py:40-49). -/
structure OptSt where
  wordToClass : Nat → Nat
  classCounts : Nat → ℤ
  ccCounts : Nat → Nat → ℤ
  cwCounts : Nat → Nat → ℤ
  wcCounts : Nat → Nat → ℤ

/-- `numpy.add.at(array, indices, values)` and `tensor.inc_subtensor(array[indices], values)` -/
def addAt (a : Nat → ℤ) (ps : List (Nat × ℤ)) : Nat → ℤ := ps.foldl (fun a p => inc1 a p.1 p.2) a

/-- The same for a matrix; `(i, j, x)` stands for adding `x` to element `(i, j)`. -/
def addAt2 (m : Nat → Nat → ℤ) (ps : List (Nat × Nat × ℤ)) : Nat → Nat → ℤ :=
  ps.foldl (fun m p => inc2 m p.1 p.2.1 p.2.2) m

def set2 (m : Nat → Nat → ℤ) (i j : Nat) (x : ℤ) : Nat → Nat → ℤ := fun a b => if a = i ∧ b = j then x else m a b

/-- `matrix[rows,columns] += values` in NumPy: the new values are computed first and then assigned, so an index that
occurs several times gets only the last one of its values. -/
def assignAt2 (m : Nat → Nat → ℤ) (ps : List (Nat × Nat × ℤ)) : Nat → Nat → ℤ :=
  ps.foldl (fun m' p => set2 m' p.1 p.2.1 (m p.1 p.2.1 + p.2.2)) m

/-- `ww_counts.nonzero()`, the index pairs of the non-zero elements (their order has no effect on the results). -/
def nonzeroPairs (n : Nat) (ww : Nat → Nat → ℤ) : List (Nat × Nat) :=
  ((List.range n).flatMap (fun i => (List.range n).map (fun j => (i, j)))).filter (fun p => decide (ww p.1 p.2 ≠ 0))

/-- bigramoptimizer.py:53-93 `_compute_class_statistics`. -/
def computeClassStatistics (cfg : OptCfg) (wordToClass : Nat → Nat) : OptSt :=
  let nz := nonzeroPairs cfg.vocabularySize cfg.wwCounts                                                     -- 85-86
  { wordToClass := wordToClass
    classCounts := addAt (fun _ => 0)
      ((List.range cfg.vocabularySize).map (fun w => (wordToClass w, cfg.wordCounts w)))                     -- 83
    ccCounts := addAt2 (fun _ _ => 0)
      (nz.map (fun p => (wordToClass p.1, wordToClass p.2, cfg.wwCounts p.1 p.2)))                           -- 89
    cwCounts := addAt2 (fun _ _ => 0) (nz.map (fun p => (wordToClass p.1, p.2, cfg.wwCounts p.1 p.2)))       -- 90
    wcCounts := addAt2 (fun _ _ => 0) (nz.map (fun p => (p.1, wordToClass p.2, cfg.wwCounts p.1 p.2))) }     -- 91

/-- numpybigramoptimizer.py:13-49, theanobigramoptimizer.py:16-64 `__init__`.  If there are out-of-shortlist words, the
shapes of `word_to_class` and `word_counts` differ and `numpy.add.at` (bigramoptimizer.py:83) fails. -/
def newOptimizer (backend : Backend) (v : Vocab) (st : BigramStats) : Except Err (OptCfg × OptSt) :=
  if (List.range v.numWords).all (fun w => decide (st.unigram w = 0)) then .error .valueError                -- 24-25
  else if nonzeroPairs v.numWords st.bigram = [] then .error .valueError                                     -- 26-27
  else if v.classOf.length ≠ v.numWords then .error .valueError
  else
    let cfg : OptCfg := ⟨backend, v, v.numShortlist, v.numClasses, v.numNormal, st.unigram, st.bigram⟩       -- 29-37
    .ok (cfg, computeClassStatistics cfg (fun w => v.classOf.getD w 0))                                      -- 40-49

/-- `x * log(x)` for scalars: zero times minus infinity is `nan`. -/
noncomputable def xlogxScalar (x : ℤ) : Option ℝ := if 0 < x then some (x * Real.log x) else none

/-- `(numpy.ma.log(xs) * xs).sum()` (numpybigramoptimizer.py:89): logarithms of numbers that are not positive are
masked and ignored, but if all the elements are masked, the sum is `masked`.
`_xlogx(xs).sum()` (theanobigramoptimizer.py:320-326): for zeros the value is zero. -/
noncomputable def xlogxSum (b : Backend) (xs : List ℤ) : Option ℝ :=
  match b with
  | .numpy =>
    let positive := xs.filter (fun x => decide (0 < x))
    if positive = [] then none else some (positive.map (fun x : ℤ => (x : ℝ) * Real.log x)).sum
  | .theano =>
    if xs.any (fun x => decide (x < 0)) then none
    else some (xs.map (fun x : ℤ => if x ≠ 0 then (x : ℝ) * Real.log x else 0)).sum

/-- numpybigramoptimizer.py:177-178, 179-180 -/
noncomputable def xlogxUnlessZero (x : ℤ) : Option ℝ := if x ≠ 0 then xlogxScalar x else some 0

/-- numpybigramoptimizer.py:175-181 `_ll_change`, and theanobigramoptimizer.py:307-318, where `old_count != 0` compares
a symbolic variable and is always true. -/
noncomputable def llChange (b : Backend) (old new : ℤ) : Option ℝ :=
  match b with
  | .numpy => do
    let x ← xlogxUnlessZero old                     -- 177-178
    let y ← xlogxUnlessZero new                     -- 179-180
    some (y - x)
  | .theano => do
    let x ← xlogxScalar old
    let y ← xlogxScalar new
    some (y - x)

/-- numpybigramoptimizer.py:81-91, theanobigramoptimizer.py:273-285 `log_likelihood`. -/
noncomputable def logLikelihood (cfg : OptCfg) (s : OptSt) : Option ℝ := do
  let cs := List.range cfg.numClasses
  let a ← xlogxSum cfg.backend (cs.flatMap (fun c => cs.map (fun d => s.ccCounts c d)))
  let b ← xlogxSum cfg.backend ((List.range cfg.vocabularySize).map cfg.wordCounts)
  let c ← xlogxSum cfg.backend (cs.map s.classCounts)
  some (a + b - 2 * c)

/-- numpybigramoptimizer.py:112-115, the classes other than the old and new class. -/
def iterClassIds (cfg : OptCfg) (old new : Nat) : List Nat :=
  (List.range cfg.numClasses).filter (fun c => decide (c ≠ old ∧ c ≠ new))

/-- The change when the counts `old` change to `new` (for example numpybigramoptimizer.py:118-121). -/
noncomputable def sumChange (b : Backend) (old new : List ℤ) : Option ℝ := do
  let x ← xlogxSum b old
  let y ← xlogxSum b new
  some (y - x)

/-- numpybigramoptimizer.py:93-173, theanobigramoptimizer.py:105-197 `_evaluate`. -/
noncomputable def evaluate (cfg : OptCfg) (s : OptSt) (w new : Nat) : Option ℝ := do
  let b := cfg.backend
  let old := s.wordToClass w                                                                                 -- 98
  let oldClass ← xlogxScalar (s.classCounts old)                                                             -- 101-104
  let oldClass' ← xlogxScalar (s.classCounts old - cfg.wordCounts w)
  let newClass ← xlogxScalar (s.classCounts new)                                                             -- 107-110
  let newClass' ← xlogxScalar (s.classCounts new + cfg.wordCounts w)
  let xs := iterClassIds cfg old new                                                                         -- 112-115
  let oldX ← sumChange b (xs.map (fun x => s.ccCounts old x))
    (xs.map (fun x => s.ccCounts old x - s.wcCounts w x))                                                    -- 117-121
  let newX ← sumChange b (xs.map (fun x => s.ccCounts new x))
    (xs.map (fun x => s.ccCounts new x + s.wcCounts w x))                                                    -- 123-127
  let xOld ← sumChange b (xs.map (fun x => s.ccCounts x old))
    (xs.map (fun x => s.ccCounts x old - s.cwCounts x w))                                                    -- 129-133
  let xNew ← sumChange b (xs.map (fun x => s.ccCounts x new))
    (xs.map (fun x => s.ccCounts x new + s.cwCounts x w))                                                    -- 135-139
  let ww := cfg.wwCounts w w
  let oldNew ← llChange b (s.ccCounts old new)
    (s.ccCounts old new - s.wcCounts w new + s.cwCounts old w - ww)                                          -- 141-147
  let newOld ← llChange b (s.ccCounts new old)
    (s.ccCounts new old - s.cwCounts new w + s.wcCounts w old - ww)                                          -- 149-155
  let oldOld ← llChange b (s.ccCounts old old)
    (s.ccCounts old old - s.wcCounts w old - s.cwCounts old w + ww)                                          -- 157-163
  let newNew ← llChange b (s.ccCounts new new)
    (s.ccCounts new new + s.wcCounts w new + s.cwCounts new w + ww)                                          -- 165-171
  some (2 * oldClass - 2 * oldClass' + 2 * newClass - 2 * newClass' + oldX + newX + xOld + xNew +
    oldNew + newOld + oldOld + newNew)

/-- numpybigramoptimizer.py:199-200, 209-210 (`+=` with an index array) and theanobigramoptimizer.py:229-230, 245-246
(`inc_subtensor`, which adds up repeated indices). -/
def incAt (b : Backend) (m : Nat → Nat → ℤ) (ps : List (Nat × Nat × ℤ)) : Nat → Nat → ℤ :=
  match b with
  | .numpy => assignAt2 m ps
  | .theano => addAt2 m ps

/-- numpybigramoptimizer.py:183-223, theanobigramoptimizer.py:199-271 `_move`.  In the NumPy implementation an empty
list of neighbours becomes an array of floats (195-196, 205-206), which cannot be used as index. -/
def moveWord (cfg : OptCfg) (s : OptSt) (w new : Nat) : Except Err OptSt :=
  let b := cfg.backend
  let old := s.wordToClass w                                                                                 -- 187
  let classCounts := inc1 (inc1 s.classCounts old (-cfg.wordCounts w)) new (cfg.wordCounts w)                -- 190-192
  let right := (List.range cfg.vocabularySize).filter (fun i => decide (cfg.wwCounts w i ≠ 0 ∧ i ≠ w))       -- 195-196
  if b = .numpy ∧ right = [] then .error .indexError                                                         -- 197
  else
    let cw := incAt b s.cwCounts (right.map (fun i => (old, i, -cfg.wwCounts w i)))                          -- 199
    let cw := incAt b cw (right.map (fun i => (new, i, cfg.wwCounts w i)))                                   -- 200
    let cc := addAt2 s.ccCounts (right.map (fun i => (old, s.wordToClass i, -cfg.wwCounts w i)))             -- 201
    let cc := addAt2 cc (right.map (fun i => (new, s.wordToClass i, cfg.wwCounts w i)))                      -- 202
    let left := (List.range cfg.vocabularySize).filter (fun i => decide (cfg.wwCounts i w ≠ 0 ∧ i ≠ w))      -- 205-206
    if b = .numpy ∧ left = [] then .error .indexError                                                        -- 207
    else
      let wc := incAt b s.wcCounts (left.map (fun i => (i, old, -cfg.wwCounts i w)))                         -- 209
      let wc := incAt b wc (left.map (fun i => (i, new, cfg.wwCounts i w)))                                  -- 210
      let cc := addAt2 cc (left.map (fun i => (s.wordToClass i, old, -cfg.wwCounts i w)))                    -- 211
      let cc := addAt2 cc (left.map (fun i => (s.wordToClass i, new, cfg.wwCounts i w)))                     -- 212
      let count := cfg.wwCounts w w                                                                          -- 215
      let cc := inc2 (inc2 cc old old (-count)) new new count                                                -- 216-217
      let cw := inc2 (inc2 cw old w (-count)) new w count                                                    -- 218-219
      let wc := inc2 (inc2 wc w old (-count)) w new count                                                    -- 220-221
      .ok ⟨fun i => if i = w then new else s.wordToClass i, classCounts, cc, cw, wc⟩                         -- 223

/-- numpybigramoptimizer.py:225-235 `_class_size`. -/
def classSize (cfg : OptCfg) (s : OptSt) (c : Nat) : Nat :=
  ((List.range cfg.vocabularySize).filter (fun w => decide (s.wordToClass w = c))).length

/-- `x > y` where `y` is a float that may be minus infinity (`none`) and `x` a float that may be `nan` (`none`). -/
noncomputable def greater (x : Option ℝ) (y : Option ℝ) : Bool :=
  match x, y with
  | some x, some y => decide (y < x)
  | some _, none => true
  | none, _ => false

/-- bigramoptimizer.py:112-118, the loop of `_find_best_move`; the accumulator is `best_ll_diff` (`none` is minus
infinity) and `best_class_id`. -/
noncomputable def findBestLoop (cfg : OptCfg) (s : OptSt) (w : Nat) : List Nat → Option ℝ × Option Nat → Option ℝ × Option Nat
  | [], best => best
  | c :: cs, best =>
    if c = s.wordToClass w then findBestLoop cfg s w cs best                          -- 113-114
    else
      let d := evaluate cfg s w c                                                     -- 115
      if greater d best.1 then findBestLoop cfg s w cs (d, some c)                    -- 116-118
      else findBestLoop cfg s w cs best

/-- bigramoptimizer.py:95-120 `_find_best_move`. -/
noncomputable def findBestMove (cfg : OptCfg) (s : OptSt) (w : Nat) : Option ℝ × Option Nat :=
  findBestLoop cfg s w (List.range cfg.numNormal) (none, none)

/-- bigramoptimizer.py:36 -/
def isSpecialWord (word : Str) : Bool := (word.head? == some '<') && (word.getLast? == some '>')

/-- bigramoptimizer.py:29-51 `move_to_best_class`. -/
noncomputable def moveToBestClass (cfg : OptCfg) (s : OptSt) (word : Str) : Except Err (Bool × OptSt) :=
  if isSpecialWord word then .ok (false, s)                                           -- 36-37
  else
    match cfg.vocab.wordToId word with                                                -- 39
    | none => .error .keyError
    | some w =>
      if classSize cfg s (s.wordToClass w) < 2 then .ok (false, s)                    -- 40-44
      else
        match findBestMove cfg s w with                                               -- 46
        | (some d, some c) =>
          if 0 < d then                                                               -- 47
            match moveWord cfg s w c with                                             -- 48-49
            | .ok s' => .ok (true, s')
            | .error e => .error e
          else .ok (false, s)                                                         -- 50-51
        | _ => .ok (false, s)

/-- wctool.py:132-152, one iteration over the words: the number of moves and the new state.  The periodic saving and
logging are not modelled. -/
noncomputable def optimizeIteration (cfg : OptCfg) : List Str → OptSt → Except Err (Nat × OptSt)
  | [], s => .ok (0, s)
  | word :: words, s =>
    match moveToBestClass cfg s word with                                             -- 137
    | .error e => .error e
    | .ok (moved, s') =>
      match optimizeIteration cfg words s' with
      | .error e => .error e
      | .ok (n, s'') => .ok ((if moved then 1 else 0) + n, s'')                       -- 138

/-- wctool.py:129-156, the optimization loop.  The result `none` means that the loop did not end within the given number
of iterations. -/
noncomputable def optimizeLoop (cfg : OptCfg) : Nat → OptSt → Option (Except Err OptSt)
  | 0, _ => none
  | fuel + 1, s =>
    match optimizeIteration cfg cfg.vocab.idToWord s with                             -- 134
    | .error e => some (.error e)
    | .ok (n, s') => if n = 0 then some (.ok s') else optimizeLoop cfg fuel s'        -- 154-156

end TheanoLM
