import Verif.Props.LatticeBatch
import Verif.Props.DecodeOutput
import Verif.Props.SlfWrite
import Verif.Lemmas.Network
import Verif.Lemmas.NetworkShape
/-!
# Dividing the lattices into jobs does not change what is written (C145)
-/
namespace TheanoLM

variable {S St : Type} [Field S] [LinearOrder S]

/-- What is the same in every job of the decode command: the model, the options and the contents of the files. -/
structure DecodeRun (S St : Type) where
  vocab : DecVocab S
  net : DecNet S St
  lin : S → S → S → S
  env : OutEnv S
  log : Nat → S
  args : DecodeArgs S
  out : OutputArgs
  slf : SlfText S
  format : Str
  kaldi : Option (List Str)
  files : Str → Option (List Str)

/-- Job `j` of `n` jobs finishes and writes the text. -/
def DecodeRun.Writes (R : DecodeRun S St) (lattices : List Str) (listFile : Option (List Str)) (n j : ℤ) (text : Str) : Prop :=
  ∃ (b : LatticeBatch) (ls : List (Lattice S)),
    LatticeBatch.init R.env.num.parseInt lattices listFile R.format R.kaldi n j = .ok b ∧
    b.iter R.slf R.env.num R.files = .ok ls ∧
    decodeCommand R.vocab R.net R.lin R.env R.log R.args R.out ls = (text, none)

/-- Every lattice file in SLF format gives the utterance ID. -/
def DecodeRun.Named (R : DecodeRun S St) : Prop :=
  R.format = "slf".toList → ∀ path lines L, R.files path = some lines → readSlf R.slf lines = .ok L → L.utteranceId ≠ none

/-! ## The loop over lattices -/

theorem decodeLoop_number (D : Decoder S St) (E : OutEnv S) (log : Nat → S) (args : DecodeArgs S) (out : OutputArgs)
    (ls : List (Lattice S)) (h : ∀ L ∈ ls, L.utteranceId ≠ none) (i j : Nat) :
    decodeLoop D E log args out i ls = decodeLoop D E log args out j ls := by
  induction ls generalizing i j with
  | nil => rfl
  | cons L ls ih =>
    have hu : utteranceName i L = utteranceName j L := by
      unfold utteranceName
      cases hL : L.utteranceId with
      | none => exact absurd hL (h L (by simp))
      | some u => rfl
    simp only [decodeLoop]
    rw [hu, ih (fun L hL => h L (by simp [hL])) (i + 1) (j + 1)]

theorem decodeLoop_append (D : Decoder S St) (E : OutEnv S) (log : Nat → S) (args : DecodeArgs S) (out : OutputArgs)
    (a b : List (Lattice S)) (i : Nat) (t : Str) :
    decodeLoop D E log args out i (a ++ b) = (t, none) ↔ ∃ t1 t2, decodeLoop D E log args out i a = (t1, none) ∧
      decodeLoop D E log args out (i + a.length) b = (t2, none) ∧ t = t1 ++ t2 := by
  induction a generalizing i t with
  | nil =>
    constructor
    · intro h
      exact ⟨[], t, rfl, h, rfl⟩
    · rintro ⟨t1, t2, h1, h2, rfl⟩
      cases h1
      exact h2
  | cons L a ih =>
    simp only [List.cons_append, decodeLoop, List.length_cons]
    rcases decodeOutput D E log args out { L with utteranceId := some (utteranceName i L) } (utteranceName i L) with ⟨x, _ | e⟩
    · have hidx : i + (a.length + 1) = i + 1 + a.length := by omega
      simp only [Prod.mk.injEq]
      rw [hidx]
      constructor
      · rintro ⟨h1, h2⟩
        obtain ⟨t1, t2, g1, g2, g3⟩ := (ih (i + 1) (decodeLoop D E log args out (i + 1) (a ++ b)).1).mp (Prod.ext rfl h2)
        refine ⟨x ++ t1, t2, ⟨by rw [g1], by rw [g1]⟩, g2, ?_⟩
        rw [← h1, g3, List.append_assoc]
      · rintro ⟨t1, t2, ⟨h1, h2⟩, h3, h4⟩
        have := (ih (i + 1) ((decodeLoop D E log args out (i + 1) a).1 ++ t2)).mpr ⟨_, t2, Prod.ext rfl h2, h3, rfl⟩
        rw [this, h4, ← h1, List.append_assoc]
        exact ⟨rfl, rfl⟩
    · simp

/-- The lattices in one file. -/
def fileLattices (R : DecodeRun S St) (b : LatticeBatch) (path : Str) : Except Err (List (Lattice S)) :=
  match R.files path with
  | none => .error .ioError
  | some lines =>
    if b.isKaldi then mapE (fun block => readKaldi R.env.num block ((b.kaldiVocabulary.map Prod.snd).getD []))
      (kaldiBlocks lines [])
    else match readSlf R.slf lines with
      | .error e => .error e
      | .ok L => .ok [L]

theorem iter_eq (R : DecodeRun S St) (b : LatticeBatch) (ls : List (Lattice S)) :
    b.iter R.slf R.env.num R.files = .ok ls ↔ ∃ lss, mapE (fileLattices R b) b.lattices = .ok lss ∧ ls = lss.flatten := by
  have : b.iter R.slf R.env.num R.files = match mapE (fileLattices R b) b.lattices with
      | .error e => .error e
      | .ok ls => .ok ls.flatten := rfl
  rw [this]
  cases mapE (fileLattices R b) b.lattices with
  | error e => simp
  | ok lss => simp [eq_comm]

omit [LinearOrder S] in
theorem readKaldi_named {T : NumText S} {lines : List Str} {w : List (Option Str)} {L : Lattice S}
    (h : readKaldi T lines w = .ok L) : L.utteranceId ≠ none := by
  unfold readKaldi at h
  split at h
  · cases h
  · split at h
    · cases h
    · unfold kaldiFinish at h
      split at h
      · cases h
      · split at h
        · cases h
        · cases h
          simp

theorem fileLattices_named (R : DecodeRun S St) (hn : R.Named) {b : LatticeBatch} (hb : b.isKaldi = false → R.format = "slf".toList)
    {path : Str} {ls : List (Lattice S)} (h : fileLattices R b path = .ok ls) : ∀ L ∈ ls, L.utteranceId ≠ none := by
  unfold fileLattices at h
  split at h
  · cases h
  · rename_i lines hl
    split at h
    · intro L hL
      obtain ⟨block, _, hk⟩ := mapE_mem h hL
      exact readKaldi_named hk
    · rename_i hk
      split at h
      · cases h
      · rename_i L hL
        cases h
        intro L' hL'
        rw [List.mem_singleton] at hL'
        subst hL'
        exact hn (hb (by simpa using hk)) path lines _ hl hL

/-- What is written for one file. -/
def FileText (R : DecodeRun S St) (D : Decoder S St) (b : LatticeBatch) (path text : Str) : Prop :=
  ∃ ls, fileLattices R b path = .ok ls ∧ decodeLoop D R.env R.log R.args R.out 0 ls = (text, none)

theorem loop_files (R : DecodeRun S St) (D : Decoder S St) (b : LatticeBatch) (paths : List Str)
    (hn : ∀ path ls, fileLattices R b path = .ok ls → ∀ L ∈ ls, L.utteranceId ≠ none) (text : Str) :
    (∃ lss, mapE (fileLattices R b) paths = .ok lss ∧ decodeLoop D R.env R.log R.args R.out 0 lss.flatten = (text, none)) ↔
    ∃ parts, List.Forall₂ (FileText R D b) paths parts ∧ text = parts.flatten := by
  induction paths generalizing text with
  | nil =>
    constructor
    · rintro ⟨lss, h1, h2⟩
      cases h1
      cases h2
      exact ⟨[], .nil, rfl⟩
    · rintro ⟨parts, h1, rfl⟩
      cases h1
      exact ⟨[], rfl, rfl⟩
  | cons p ps ih =>
    constructor
    · rintro ⟨lss, h1, h2⟩
      obtain ⟨ls, lss', h3, h4, rfl⟩ := mapE_cons_ok h1
      rw [List.flatten_cons, decodeLoop_append] at h2
      obtain ⟨t1, t2, g1, g2, rfl⟩ := h2
      have hall : ∀ L ∈ lss'.flatten, L.utteranceId ≠ none := by
        intro L hL
        obtain ⟨l, hl, hL⟩ := List.mem_flatten.mp hL
        obtain ⟨q, _, hq⟩ := mapE_mem h4 hl
        exact hn q l hq L hL
      rw [decodeLoop_number D R.env R.log R.args R.out _ hall _ 0] at g2
      obtain ⟨parts, i1, i2⟩ := (ih t2).mp ⟨lss', h4, g2⟩
      exact ⟨t1 :: parts, .cons ⟨ls, h3, g1⟩ i1, by rw [List.flatten_cons, i2]⟩
    · rintro ⟨parts, h1, rfl⟩
      cases h1 with
      | cons hd tl =>
        obtain ⟨ls, h3, g1⟩ := hd
        obtain ⟨lss', h4, g2⟩ := (ih _).mpr ⟨_, tl, rfl⟩
        have hall : ∀ L ∈ lss'.flatten, L.utteranceId ≠ none := by
          intro L hL
          obtain ⟨l, hl, hL⟩ := List.mem_flatten.mp hL
          obtain ⟨q, _, hq⟩ := mapE_mem h4 hl
          exact hn q l hq L hL
        refine ⟨ls :: lss', mapE_cons_eq h3 h4, ?_⟩
        rw [List.flatten_cons, decodeLoop_append]
        refine ⟨_, _, g1, ?_, rfl⟩
        rw [decodeLoop_number D R.env R.log R.args R.out _ hall _ 0]
        exact g2

/-! ## Jobs -/

theorem forall₂_slice {α β : Type} {P : α → β → Prop} {l : List α} {r : List β} (h : List.Forall₂ P l r) (m j : Nat) :
    List.Forall₂ P (sliceStep m j l) (sliceStep m j r) := by
  induction h generalizing j with
  | nil => simp [sliceStep]
  | cons hd _ ih =>
    cases j with
    | zero => exact .cons hd (ih m)
    | succ j => exact ih j

theorem init_same {parseInt : Str → Option ℤ} {lattices : List Str} {listFile : Option (List Str)} {format : Str}
    {vocabulary : Option (List Str)} {n j : ℤ} {b : LatticeBatch}
    (h : LatticeBatch.init parseInt lattices listFile format vocabulary n j = .ok b) (lattices' : List Str)
    (listFile' : Option (List Str)) (n' j' : Nat) (hj : j' < n') :
    LatticeBatch.init parseInt lattices' listFile' format vocabulary n' j' =
      .ok { b with lattices := sliceStep (n' - 1) j' (batchPaths lattices' listFile') } := by
  unfold LatticeBatch.init at h ⊢
  cases hv : batchVocabulary parseInt format vocabulary with
  | error e => rw [hv] at h; cases h
  | ok v =>
    rw [hv] at h
    simp only at h ⊢
    split at h
    · cases h
    · rename_i hf
      rw [if_neg hf, if_neg (by omega), if_neg (by omega)]
      split at h
      · cases h
      · split at h
        · cases h
        · cases h
          simp

theorem init_format {parseInt : Str → Option ℤ} {lattices : List Str} {listFile : Option (List Str)} {format : Str}
    {vocabulary : Option (List Str)} {n j : ℤ} {b : LatticeBatch}
    (h : LatticeBatch.init parseInt lattices listFile format vocabulary n j = .ok b) (hk : b.isKaldi = false) :
    format = "slf".toList := by
  have hi := (batch_init_ok h).2.2.2.2.2
  unfold LatticeBatch.init at h
  split at h
  · cases h
  · split at h
    · cases h
    · rename_i hf
      by_contra hne
      exact hf ⟨hne, fun e => by rw [hi.mpr e] at hk; cases hk⟩

/-- What a job writes is the concatenation of what is written for its files. -/
theorem writes_iff (R : DecodeRun S St) (hn : R.Named) {b : LatticeBatch} {l0 : List Str} {lf0 : Option (List Str)} {n0 j0 : ℤ}
    (hb : LatticeBatch.init R.env.num.parseInt l0 lf0 R.format R.kaldi n0 j0 = .ok b) {D : Decoder S St}
    (hD : decoderInit R.vocab R.net R.lin (decodingOptions R.log R.args) = .ok D)
    (lattices : List Str) (listFile : Option (List Str)) (n j : Nat) (hj : j < n) (text : Str) :
    R.Writes lattices listFile n j text ↔
      ∃ parts, List.Forall₂ (FileText R D b) (sliceStep (n - 1) j (batchPaths lattices listFile)) parts ∧ text = parts.flatten := by
  have hnamed : ∀ path ls, fileLattices R b path = .ok ls → ∀ L ∈ ls, L.utteranceId ≠ none :=
    fun path ls h => fileLattices_named R hn (init_format hb) h
  rw [← loop_files R D b _ hnamed]
  unfold DecodeRun.Writes
  rw [init_same hb lattices listFile n j hj]
  unfold decodeCommand
  rw [hD]
  constructor
  · rintro ⟨b', ls, h1, h2, h3⟩
    cases h1
    obtain ⟨lss, h4, rfl⟩ := (iter_eq R _ _).mp h2
    exact ⟨lss, h4, h3⟩
  · rintro ⟨lss, h4, h3⟩
    exact ⟨_, _, rfl, (iter_eq R _ _).mpr ⟨lss, h4, rfl⟩, h3⟩

theorem writes_setup {R : DecodeRun S St} {l0 : List Str} {lf0 : Option (List Str)} {n0 j0 : ℤ} {text : Str}
    (h : R.Writes l0 lf0 n0 j0 text) : ∃ b D, LatticeBatch.init R.env.num.parseInt l0 lf0 R.format R.kaldi n0 j0 = .ok b ∧
      decoderInit R.vocab R.net R.lin (decodingOptions R.log R.args) = .ok D := by
  obtain ⟨b, ls, h1, _, h3⟩ := h
  unfold decodeCommand at h3
  cases hD : decoderInit R.vocab R.net R.lin (decodingOptions R.log R.args) with
  | error e => rw [hD] at h3; cases h3
  | ok D => exact ⟨b, D, h1, rfl⟩

theorem sliceStep_one {α : Type} (l : List α) : sliceStep 0 0 l = l := by
  induction l with
  | nil => rfl
  | cons x xs ih => rw [sliceStep, ih]

theorem batchPaths_mem {lattices : List Str} {listFile : Option (List Str)} {p : Str} (h : p ∈ batchPaths lattices listFile) :
    batchPaths [p] none = [p] := by
  have hp : strip p = p ∧ p ≠ [] := by
    unfold batchPaths at h
    simp only at h
    split at h
    · rw [List.mem_singleton] at h
      subst h
      decide
    · obtain ⟨h1, h2⟩ := List.mem_filter.mp h
      obtain ⟨x, _, rfl⟩ := List.mem_map.mp h1
      exact ⟨strip_strip x, by simpa using h2⟩
  unfold batchPaths
  simp [hp.1, hp.2]

/-- C145: if decoding all the lattices in one job finishes, then with any number of jobs every job finishes.  What one job
writes is divided into parts, one for each file, each part being what is written when only that file is decoded; job `j` of `n`
writes the parts `j`, `j + n`, `j + 2n` and so on.

Missing: lattices in SLF format without an utterance ID (see `C145_violated`). -/
theorem C145_partial (R : DecodeRun S St) (hn : R.Named) (lattices : List Str) (listFile : Option (List Str)) (text : Str)
    (h : R.Writes lattices listFile 1 0 text) (n : Nat) :
    ∃ paths parts : List Str, PathsOf (lattices ++ listFile.getD []) paths ∧
      List.Forall₂ (fun path part => R.Writes [path] none 1 0 part) paths parts ∧ text = parts.flatten ∧
      ∀ j < n, ∃ mine : List Str, (∀ k : Nat, mine[k]? = parts[j + k * n]?) ∧ R.Writes lattices listFile n j mine.flatten := by
  obtain ⟨b, D, hb, hD⟩ := writes_setup h
  have key := fun lattices listFile n j hj text => writes_iff R hn hb hD lattices listFile n j hj text
  obtain ⟨parts, h1, h2⟩ := (key lattices listFile 1 0 (by omega) text).mp h
  rw [Nat.sub_self, sliceStep_one] at h1
  refine ⟨batchPaths lattices listFile, parts, batchPaths_spec _ _, ?_, h2, ?_⟩
  · have hmem : ∀ p ∈ batchPaths lattices listFile, batchPaths [p] none = [p] := fun p hp => batchPaths_mem hp
    clear h2 h
    revert hmem
    generalize batchPaths lattices listFile = paths at h1
    intro hmem
    induction h1 with
    | nil => exact .nil
    | @cons p t _ _ hd _ ih =>
      refine .cons ?_ (ih (fun q hq => hmem q (by simp [hq])))
      refine (key [p] none 1 0 (by omega) t).mpr ⟨[t], ?_, by simp⟩
      rw [hmem p (by simp)]
      exact .cons hd .nil
  · intro j hj
    obtain ⟨m, rfl⟩ : ∃ m, n = m + 1 := ⟨n - 1, by omega⟩
    refine ⟨sliceStep m j parts, fun k => sliceStep_get m parts j k, ?_⟩
    exact (key lattices listFile (m + 1) j hj _).mpr ⟨_, forall₂_slice h1 m j, rfl⟩

/-- C145: if every job finishes, then also decoding all the lattices in one job finishes. -/
theorem C145_converse_partial (R : DecodeRun S St) (hn : R.Named) (lattices : List Str) (listFile : Option (List Str)) (n : Nat)
    (h0 : 0 < n) (h : ∀ j < n, ∃ text, R.Writes lattices listFile n j text) : ∃ text, R.Writes lattices listFile 1 0 text := by
  obtain ⟨t0, ht0⟩ := h 0 h0
  obtain ⟨b, D, hb, hD⟩ := writes_setup ht0
  have key := fun lattices listFile n j hj text => writes_iff R hn hb hD lattices listFile n j hj text
  have hall : ∀ p ∈ batchPaths lattices listFile, ∃ t, FileText R D b p t := by
    intro p hp
    obtain ⟨i, hi, rfl⟩ := List.getElem_of_mem hp
    obtain ⟨t, ht⟩ := h (i % n) (Nat.mod_lt _ h0)
    obtain ⟨parts, g1, _⟩ := (key lattices listFile n (i % n) (Nat.mod_lt _ h0) t).mp ht
    have hget := sliceStep_get (n - 1) (batchPaths lattices listFile) (i % n) (i / n)
    have hidx : i % n + i / n * (n - 1 + 1) = i := by
      rw [Nat.sub_add_cancel h0, Nat.mul_comm]
      exact Nat.mod_add_div i n
    rw [hidx, List.getElem?_eq_getElem hi] at hget
    obtain ⟨hlt, heq⟩ := List.getElem?_eq_some_iff.mp hget
    have := List.forall₂_iff_get.mp g1
    exact ⟨_, by simpa [heq] using this.2 (i / n) hlt (by rw [← this.1]; exact hlt)⟩
  have hparts : ∃ parts, List.Forall₂ (FileText R D b) (batchPaths lattices listFile) parts := by
    revert hall
    generalize batchPaths lattices listFile = paths
    intro hall
    induction paths with
    | nil => exact ⟨[], .nil⟩
    | cons p ps ih =>
      obtain ⟨t, ht⟩ := hall p (by simp)
      obtain ⟨ts, hts⟩ := ih (fun q hq => hall q (by simp [hq]))
      exact ⟨t :: ts, .cons ht hts⟩
  obtain ⟨parts, hp⟩ := hparts
  refine ⟨parts.flatten, (key lattices listFile 1 0 (by omega) _).mpr ⟨parts, ?_, rfl⟩⟩
  rw [Nat.sub_self, sliceStep_one]
  exact hp

/-! ## Concrete cases -/

/-- Three lattice files; `header` tells the utterance ID. -/
def exJobRun (header : String → String) : DecodeRun ℚ (List ℕ) where
  vocab := exVocab
  net := exNet
  lin x _ _ := x
  env := exOutEnv
  log _ := 1
  args := exDecodeArgs
  out := ⟨"ref".toList, 1⟩
  slf := exSlfFile
  format := "slf".toList
  kaldi := none
  files path := if path = "x".toList then some (oneLink (header "x") " W=a a=-1/1 l=-1/1")
    else if path = "y".toList then some (oneLink (header "y") " W=b a=-1/1 l=-1/1")
    else if path = "z".toList then some (oneLink (header "z") " W=a a=-1/1 l=-1/1") else none

/-- A job that can be run. -/
theorem writes_of_run {R : DecodeRun S St} {lattices : List Str} {listFile : Option (List Str)} {n j : ℤ} {text : Str}
    (h : ∃ b : LatticeBatch, LatticeBatch.init R.env.num.parseInt lattices listFile R.format R.kaldi n j = .ok b ∧
      ∃ ls : List (Lattice S), b.iter R.slf R.env.num R.files = .ok ls ∧
        decodeCommand R.vocab R.net R.lin R.env R.log R.args R.out ls = (text, none)) : R.Writes lattices listFile n j text := by
  obtain ⟨b, h1, ls, h2, h3⟩ := h
  exact ⟨b, ls, h1, h2, h3⟩

/-- Three files that are listed on the command line and in a list file, with utterance IDs. -/
example : (exJobRun (fun p => "UTTERANCE=utt-" ++ p)).Writes ["x".toList] (some [" y\n".toList, "\n".toList, "z".toList]) 1 0
    "utt-x <s> a </s>\nutt-y <s> b </s>\nutt-z <s> a </s>\n".toList := by
  apply writes_of_run
  decide +kernel

example : (exJobRun (fun p => "UTTERANCE=utt-" ++ p)).Named := by
  intro _ path lines L hl hL
  have h : ∀ p ∈ ["x".toList, "y".toList, "z".toList], ∃ L : Lattice ℚ,
      readSlf exSlfFile (((exJobRun (fun p => "UTTERANCE=utt-" ++ p)).files p).getD []) = .ok L ∧ L.utteranceId ≠ none := by
    decide +kernel
  have hp : path ∈ ["x".toList, "y".toList, "z".toList] := by
    by_contra hne
    simp only [List.mem_cons, List.not_mem_nil, or_false, not_or] at hne
    simp only [exJobRun] at hl
    rw [if_neg hne.1, if_neg hne.2.1, if_neg hne.2.2] at hl
    cases hl
  obtain ⟨L', h1, h2⟩ := h path hp
  rw [hl, Option.getD_some] at h1
  cases hL.symm.trans h1
  exact h2

/-- In this case the first job of two writes the first and the third part. -/
example : (exJobRun (fun p => "UTTERANCE=utt-" ++ p)).Writes ["x".toList] (some [" y\n".toList, "\n".toList, "z".toList]) 2 0
    "utt-x <s> a </s>\nutt-z <s> a </s>\n".toList := by
  apply writes_of_run
  decide +kernel

/-- C145 does not hold for lattices in SLF format that do not have an utterance ID: the same lattice is number 1 in one job, and
number 0 when there are two jobs, so that the second job writes a line that is not in the output of the one job. -/
theorem C145_violated : ∃ (R : DecodeRun ℚ (List ℕ)) (paths : List Str) (text first second : Str),
    R.Writes paths none 1 0 text ∧ R.Writes paths none 2 0 first ∧ R.Writes paths none 2 1 second ∧
    ∃ line ∈ fileLines second, line ∉ fileLines text := by
  refine ⟨exJobRun (fun _ => "VERSION=1.1"), ["x".toList, "y".toList], "0 <s> a </s>\n1 <s> b </s>\n".toList,
    "0 <s> a </s>\n".toList, "0 <s> b </s>\n".toList, ?_, ?_, ?_, "0 <s> b </s>\n".toList, by decide +kernel, by decide +kernel⟩
  · apply writes_of_run
    decide +kernel
  · apply writes_of_run
    decide +kernel
  · apply writes_of_run
    decide +kernel

end TheanoLM
