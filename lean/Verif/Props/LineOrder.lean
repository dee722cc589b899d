import Verif.Props.CombinedPerplexity
/-!
# The perplexity and the order of the lines (C150)
-/
namespace TheanoLM

/-! ## Specification -/

/-- The contents of a text file that consists of the given lines. -/
def linesFile (lines : List Str) : Str := (lines.map (fun l => l ++ ['\n'])).flatten

/-! ## Lemmas -/

theorem linesOf_linesFile (lines : List Str) (h : ∀ l ∈ lines, '\n' ∉ l) :
    linesOf isNl (linesFile lines) = lines.map (fun l => l ++ ['\n']) := by
  induction lines with
  | nil => rfl
  | cons l ls ih =>
    have e : linesFile (l :: ls) = l ++ '\n' :: linesFile ls := by simp [linesFile]
    rw [e, linesOf_append_nl l _ (h l List.mem_cons_self), ih (fun x hx => h x (List.mem_cons_of_mem _ hx)), List.map_cons]

/-- The words of the sequences of one line. -/
def lineSequences (m : Option Nat) (l : Str) : List (List Str) :=
  ((piecesOf m (lineToks (l ++ ['\n'], 0))).map (·.map Prod.fst)).filter fun q => decide (2 ≤ q.length)

theorem fileSequences_linesFile (m : Option Nat) (lines : List Str) (h : ∀ l ∈ lines, '\n' ∉ l) :
    fileSequences m (linesFile lines) = lines.flatMap (lineSequences m) := by
  unfold fileSequences
  rw [linesOf_linesFile lines h, List.map_map, List.filter_flatten, List.map_map]
  rfl

theorem filesSequences_linesFile (m : Option Nat) (parts : List (List Str)) (h : ∀ l ∈ parts.flatten, '\n' ∉ l) :
    (parts.map linesFile).flatMap (fileSequences m) = parts.flatten.flatMap (lineSequences m) := by
  induction parts with
  | nil => rfl
  | cons p ps ih =>
    rw [List.flatten_cons] at h
    rw [List.map_cons, List.flatMap_cons, List.flatten_cons, List.flatMap_append,
      fileSequences_linesFile m p (fun l hl => h l (List.mem_append_left _ hl)),
      ih (fun l hl => h l (List.mem_append_right _ hl))]

/-! ## Properties -/

section
variable {S : Type} [Field S] [LinearOrder S] [IsStrictOrderedRing S]

/-- C150: if the network scores a sequence independently of the other sequences of the mini-batch, the perplexity of a text does
not depend on the order of its lines, on how they are divided to files, or on the size of the mini-batches. -/
theorem C150_lines (P : Parsers) (sc : Scorer S) (h : sc.Proper P) (hi : sc.BatchIndependent) (hn : sc.NonPositive)
    (parts parts' : List (List Str)) (hl : ∀ l ∈ parts.flatten, '\n' ∉ l) (hp : parts.flatten.Perm parts'.flatten)
    (maxLen : Option Nat) (hm : maxLen ≠ some 0) (B B' : Nat) (hB : 0 < B) (hB' : 0 < B') :
    ∃ r, sc.FilesGive (parts.map linesFile) B maxLen r ∧ sc.FilesGive (parts'.map linesFile) B' maxLen r := by
  have hl' : ∀ l ∈ parts'.flatten, '\n' ∉ l := fun l hx => hl l (hp.mem_iff.mpr hx)
  obtain ⟨ss, hs, _⟩ := sequences_exist_unique (parts.map linesFile) maxLen hm
  obtain ⟨ss', hs', _⟩ := sequences_exist_unique (parts'.map linesFile) maxLen hm
  obtain ⟨scores, r, h1, h2, h3⟩ := C110_perplexity P sc h hi hn _ maxLen hm ss hs
  obtain ⟨scores', r', h1', h2', h3'⟩ := C110_perplexity P sc h hi hn _ maxLen hm ss' hs'
  have a1 := scored_of_words h1
  have a1' := scored_of_words h1'
  rw [sequences_words maxLen hm _ ss hs, filesSequences_linesFile maxLen parts hl] at a1
  rw [sequences_words maxLen hm _ ss' hs', filesSequences_linesFile maxLen parts' hl'] at a1'
  obtain ⟨mid, b1, b2⟩ := List.perm_comp_forall₂ (hp.flatMap_right (lineSequences maxLen)).symm a1
  have hmid : mid = scores' := by
    refine forall₂_unique (fun ws xs ys hx hy => ?_) b1 a1'
    obtain ⟨ids, c1, c2⟩ := hx
    obtain ⟨ids', c1', c2'⟩ := hy
    have : ids = ids' := forall₂_unique (R := IdOf sc.vocab false sc.unkId)
      (fun _ _ _ a b => idOf_unique (constructible_nodup h.vocab) a b) c1 c1'
    subst this
    exact includedScores_unique c2 c2'
  subst hmid
  have hr : r = r' := (h2.perm b2.symm.flatten).unique h2'
  subst hr
  exact ⟨r, h3 B hB, h3' B' hB'⟩

end

section
variable {P : Parsers} {v : Vocab} {unkId : Nat} {env : CreateEnv ℝ} {a : Architecture} {layers : List (Created ℝ)} {output : Nat}

/-- C150 for a network without bidirectional layers. -/
theorem C150_network (hv : Constructible P v) (hu : v.wordToId unk = some unkId) (hm : ModelOf env a v layers output)
    (hf : ∀ c ∈ layers, c.layer.Forward) (useShortlist excludeUnk : Bool) (hx : excludeUnk = true → 2 ≤ v.numClasses)
    (hprob : ∀ w, 0 ≤ probOf v w) (hun : ∀ u, v.unigram = some u → ∀ x ∈ u, 0 ≤ x)
    (parts parts' : List (List Str)) (hl : ∀ l ∈ parts.flatten, '\n' ∉ l) (hp : parts.flatten.Perm parts'.flatten)
    (maxLen : Option Nat) (hml : maxLen ≠ some 0) (B B' : Nat) (hB : 0 < B) (hB' : 0 < B') :
    ∃ r, (scorerOf v unkId layers output useShortlist excludeUnk).FilesGive (parts.map linesFile) B maxLen r ∧
      (scorerOf v unkId layers output useShortlist excludeUnk).FilesGive (parts'.map linesFile) B' maxLen r :=
  C150_lines P _ ⟨hv, hu⟩ (C96_independent hv hu hm hf useShortlist excludeUnk)
    (fun ids t x _ ht _ h => C110_probability hv hu hm useShortlist excludeUnk hx hprob hun (sentenceBatch ids) t 0 ht
      (by simp [sentenceBatch]) x h) parts parts' hl hp maxLen hml B B' hB hB'

end

/-! ## Concrete cases -/

/-- A case that meets the hypotheses: three lines in two files, and the same lines in one file in another order. -/
example : (exScorer true false).Proper exParsers ∧ (exScorer true false).BatchIndependent ∧ (exScorer true false).NonPositive ∧
    (∀ l ∈ [["a".toList, "a a".toList], ["".toList]].flatten, '\n' ∉ l) ∧
    [["a".toList, "a a".toList], ["".toList]].flatten.Perm [["a a".toList, "".toList, "a".toList]].flatten :=
  ⟨exScorer_proper true false, fun _ _ _ _ _ _ _ _ _ _ _ _ _ _ => rfl, exScorer_nonPositive true false, by decide +kernel,
    by decide +kernel⟩

/-- The perplexity in the case above. -/
example : (exScorer true false).filePerplexity ([["a".toList, "a a".toList], ["".toList]].map linesFile) ⟨2, none⟩ 100 =
      some (.ok (.fin (14/5))) ∧
    (exScorer true false).filePerplexity ([["a a".toList, "".toList, "a".toList]].map linesFile) ⟨1, none⟩ 100 =
      some (.ok (.fin (14/5))) := by
  decide +kernel

/-- The lines must be complete: when the last line of a file has no newline, and the files are concatenated, the text is
another one. -/
theorem C150_necessary : ∃ files files' : List Str, files.flatten = files'.flatten ∧
    (exScorer true false).FilesGive files 2 none (.ok (.fin (5/2))) ∧
    ¬ (exScorer true false).FilesGive files' 2 none (.ok (.fin (5/2))) := by
  refine ⟨["a".toList, " a".toList], ["a a".toList], by decide +kernel, filesGive_of 100 (by decide +kernel), fun h => ?_⟩
  have h3 : (exScorer true false).FilesGive ["a a".toList] 2 none (.ok (.fin 3)) := filesGive_of 100 (by decide +kernel)
  have e := filesGive_unique h h3
  simp only [Except.ok.injEq, Flt.fin.injEq] at e
  norm_num at e

end TheanoLM
