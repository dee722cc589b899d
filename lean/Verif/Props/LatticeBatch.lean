import Verif.Model.LatticeBatch
import Verif.Lemmas.Statistics
import Verif.Props.Slf
/-!
# Properties of lattice batches (C28, C71, C72)
-/
namespace TheanoLM

variable {α S : Type}

/-- The paths of the lattices: the lines that have text, without the white space around them, or `-` if there are
none. -/
def PathsOf (lines : List Str) (paths : List Str) : Prop :=
  ((∃ l ∈ lines, HasText l) ∧ List.Forall₂ Stripped (lines.filter (fun l => decide (HasText l))) paths) ∨
    ((∀ l ∈ lines, ¬ HasText l) ∧ paths = ["-".toList])

/-- The lines of an archive and the lines of the lattices: each lattice is a maximal run of lines that have text. -/
inductive Blocks : List Str → List (List Str) → Prop
  | blank (lines : List Str) : (∀ l ∈ lines, ¬ HasText l) → Blocks lines []
  | block (before run rest : List Str) (lattice : List Str) (lattices : List (List Str)) :
      (∀ l ∈ before, ¬ HasText l) → run ≠ [] → (∀ l ∈ run, HasText l) →
      (∀ l : Str, rest.head? = some l → ¬ HasText l) → List.Forall₂ Stripped run lattice →
      Blocks rest lattices → Blocks (before ++ run ++ rest) (lattice :: lattices)

/-! ## Slices -/

theorem sliceStep_get (m : Nat) (l : List α) (j k : Nat) : (sliceStep m j l)[k]? = l[j + k * (m + 1)]? := by
  induction l generalizing j k with
  | nil => simp [sliceStep]
  | cons x xs ih =>
    cases j with
    | zero =>
      cases k with
      | zero => simp [sliceStep]
      | succ k =>
        have : 0 + (k + 1) * (m + 1) = (m + k * (m + 1)) + 1 := by rw [Nat.succ_mul]; omega
        rw [sliceStep, List.getElem?_cons_succ, ih, this, List.getElem?_cons_succ]
    | succ j =>
      have : j + 1 + k * (m + 1) = (j + k * (m + 1)) + 1 := by omega
      rw [sliceStep, ih, this, List.getElem?_cons_succ]

theorem sliceStep_sublist (m : Nat) (l : List α) (j : Nat) : (sliceStep m j l).Sublist l := by
  induction l generalizing j with
  | nil => simp [sliceStep]
  | cons x xs ih =>
    cases j with
    | zero => exact (ih m).cons_cons x
    | succ j => exact (ih j).cons x

theorem sliceStep_perm (m : Nat) (l : List α) : ((List.range (m + 1)).flatMap (fun j => sliceStep m j l)).Perm l := by
  induction l with
  | nil =>
    have : (List.range (m + 1)).flatMap (fun j => sliceStep m j ([] : List α)) = [] := by
      rw [List.flatMap_eq_nil_iff]; intro j _; cases j <;> rfl
    rw [this]
  | cons x xs ih =>
    rw [List.range_succ_eq_map, List.flatMap_cons, List.flatMap_map]
    simp only [sliceStep, List.cons_append]
    refine List.Perm.cons x (List.Perm.trans ?_ ih)
    rw [List.range_succ, List.flatMap_append]
    simp only [List.flatMap_cons, List.flatMap_nil, List.append_nil]
    exact List.perm_append_comm

/-! ## White space -/

theorem strip_eq_nil (l : Str) : strip l = [] ↔ ¬ HasText l := by
  constructor
  · intro h
    obtain ⟨pre, post, h1, h2, h3, _⟩ := strip_stripped l
    rw [h] at h1
    rintro ⟨c, hc, hs⟩
    rw [h1] at hc
    simp only [List.append_nil, List.mem_append] at hc
    rcases hc with hc | hc
    · rw [h2 c hc] at hs; cases hs
    · rw [h3 c hc] at hs; cases hs
  · intro h
    by_contra hne
    obtain ⟨pre, post, h1, _, _, h4, _⟩ := strip_stripped l
    apply h
    cases hs : strip l with
    | nil => exact absurd hs hne
    | cons c cs =>
      refine ⟨c, ?_, h4 c (by rw [hs]; rfl)⟩
      rw [h1, hs]; simp

theorem forall₂_strip (l : List Str) : List.Forall₂ Stripped l (l.map strip) := by
  induction l with
  | nil => exact .nil
  | cons x xs ih => exact .cons (strip_stripped x) ih

theorem filter_map_strip (l : List Str) : (l.map strip).filter (fun x => decide (x ≠ [])) =
    (l.filter (fun l => decide (HasText l))).map strip := by
  induction l with
  | nil => rfl
  | cons x xs ih =>
    rw [List.map_cons, List.filter_cons, List.filter_cons]
    by_cases h : HasText x
    · have hs : strip x ≠ [] := fun e => (strip_eq_nil x).mp e h
      rw [if_pos (by simpa using hs), if_pos (by simpa using h), ih, List.map_cons]
    · have hs : strip x = [] := (strip_eq_nil x).mpr h
      rw [if_neg (by simpa using hs), if_neg (by simpa using h), ih]

theorem batchPaths_spec (lattices : List Str) (listFile : Option (List Str)) :
    PathsOf (lattices ++ listFile.getD []) (batchPaths lattices listFile) := by
  unfold batchPaths
  simp only
  rw [filter_map_strip]
  generalize lattices ++ listFile.getD [] = ls
  split
  · rename_i h
    right
    refine ⟨?_, rfl⟩
    intro l hl ht
    rw [List.map_eq_nil_iff, List.filter_eq_nil_iff] at h
    exact h l hl (by simpa using ht)
  · rename_i h
    left
    refine ⟨?_, forall₂_strip _⟩
    rw [List.map_eq_nil_iff] at h
    obtain ⟨l, hl⟩ := List.exists_mem_of_ne_nil _ h
    exact ⟨l, (List.mem_filter.mp hl).1, by simpa using (List.mem_filter.mp hl).2⟩

theorem batch_init_ok {parseInt : Str → Option ℤ} {lattices : List Str} {listFile : Option (List Str)} {format : Str}
    {vocabulary : Option (List Str)} {n j : ℤ} {b : LatticeBatch}
    (h : LatticeBatch.init parseInt lattices listFile format vocabulary n j = .ok b) :
    1 ≤ n ∧ 0 ≤ j ∧ j < n ∧ b.lattices = sliceStep (n.toNat - 1) j.toNat (batchPaths lattices listFile) ∧
    batchVocabulary parseInt format vocabulary = .ok b.kaldiVocabulary ∧
    (b.isKaldi = true ↔ format = "kaldi".toList) := by
  unfold LatticeBatch.init at h
  split at h
  · cases h
  · rename_i v hv
    split at h
    · cases h
    · simp only at h
      split at h
      · cases h
      · split at h
        · cases h
        · cases h
          refine ⟨by omega, by omega, by omega, rfl, hv, ?_⟩
          simp

/-- C28: the jobs partition the lattices.  When the batch is created for each job, job `j` has the lattices at the
positions `j`, `j + n`, `j + 2n` and so on, in the same order, and all jobs together have every lattice once. -/
theorem C28_jobs (parseInt : Str → Option ℤ) (lattices : List Str) (listFile : Option (List Str)) (format : Str)
    (vocabulary : Option (List Str)) (n : Nat) (hn : 0 < n) (b : Nat → LatticeBatch)
    (h : ∀ j < n, LatticeBatch.init parseInt lattices listFile format vocabulary n j = .ok (b j)) :
    ∃ all : List Str, PathsOf (lattices ++ listFile.getD []) all ∧
      (∀ j < n, ∀ k : Nat, (b j).lattices[k]? = all[j + k * n]?) ∧
      (∀ j < n, (b j).lattices.Sublist all) ∧
      ((List.range n).flatMap (fun j => (b j).lattices)).Perm all := by
  obtain ⟨m, rfl⟩ : ∃ m, n = m + 1 := ⟨n - 1, by omega⟩
  have hb : ∀ j < m + 1, (b j).lattices = sliceStep m j (batchPaths lattices listFile) := by
    intro j hj
    have := (batch_init_ok (h j hj)).2.2.2.1
    have h1 : (((m + 1 : Nat) : ℤ)).toNat - 1 = m := by omega
    have h2 : ((j : ℤ)).toNat = j := by omega
    rw [h1, h2] at this
    exact this
  refine ⟨batchPaths lattices listFile, batchPaths_spec _ _, ?_, ?_, ?_⟩
  · intro j hj k
    rw [hb j hj]
    exact sliceStep_get m _ j k
  · intro j hj
    rw [hb j hj]
    exact sliceStep_sublist m _ j
  · have : (List.range (m + 1)).flatMap (fun j => (b j).lattices) =
        (List.range (m + 1)).flatMap (fun j => sliceStep m j (batchPaths lattices listFile)) := by
      rw [List.flatMap_def, List.flatMap_def]
      congr 1
      exact List.map_congr_left (fun j hj => hb j (List.mem_range.mp hj))
    rw [this]
    exact sliceStep_perm m _

/-- C28: an invalid number of jobs or job number is rejected. -/
theorem C28_invalid (parseInt : Str → Option ℤ) (lattices : List Str) (listFile : Option (List Str)) (format : Str)
    (vocabulary : Option (List Str)) (n j : ℤ) (h : n < 1 ∨ j < 0 ∨ n ≤ j) :
    ∃ e : Err, LatticeBatch.init parseInt lattices listFile format vocabulary n j = .error e := by
  cases hb : LatticeBatch.init parseInt lattices listFile format vocabulary n j with
  | error e => exact ⟨e, rfl⟩
  | ok b =>
    obtain ⟨h1, h2, h3, _⟩ := batch_init_ok hb
    omega

example : ∀ j ∈ [0, 1, 2], ∃ b : LatticeBatch, LatticeBatch.init unaryParse (["a".toList, " b ".toList] : List Str)
    (some (["c\n".toList, "\n".toList, "d".toList] : List Str)) "slf".toList none 3 j = .ok b ∧
    b.lattices = [["a".toList, "d".toList], ["b".toList], ["c".toList]].getD j.toNat [] := by
  decide +kernel
example : LatticeBatch.init unaryParse [] none "slf".toList none 2 2 = .error .valueError := by decide +kernel

/-! ## Kaldi vocabularies -/

/-- The word ID on the last line of the word. -/
def LastLine (parseInt : Str → Option ℤ) (lines : List Str) (w : Str) : Option ℤ → Prop
  | none => ∀ l ∈ lines, (pySplit l).head? ≠ some w
  | some i => ∃ (pre post : List Str) (line f : Str), lines = pre ++ line :: post ∧ pySplit line = [w, f] ∧
      parseInt f = some i ∧ ∀ l ∈ post, (pySplit l).head? ≠ some w

theorem lastLine_other {parseInt : Str → Option ℤ} {lines : List Str} {line w : Str} {o : Option ℤ}
    (h : LastLine parseInt lines w o) (hl : (pySplit line).head? ≠ some w) :
    LastLine parseInt (lines ++ [line]) w o := by
  cases o with
  | none =>
    intro l hl'
    rcases List.mem_append.mp hl' with h1 | h1
    · exact h l h1
    · rw [List.mem_singleton.mp h1]; exact hl
  | some i =>
    obtain ⟨pre, post, line', f, rfl, h1, h2, h3⟩ := h
    refine ⟨pre, post ++ [line], line', f, by simp, h1, h2, ?_⟩
    intro l hl'
    rcases List.mem_append.mp hl' with h4 | h4
    · exact h3 l h4
    · rw [List.mem_singleton.mp h4]; exact hl

theorem readKaldiVocabulary_spec {parseInt : Str → Option ℤ} (lines : List Str) :
    ∀ {done : List Str} {d d' : List (Str × ℤ)}, (d.map Prod.fst).Nodup →
    (∀ w, LastLine parseInt done w (dictGet? d w)) → readKaldiVocabulary parseInt lines d = .ok d' →
    (d'.map Prod.fst).Nodup ∧ ∀ w, LastLine parseInt (done ++ lines) w (dictGet? d' w) := by
  induction lines with
  | nil =>
    intro done d d' hk hd h
    cases h
    rw [List.append_nil]
    exact ⟨hk, hd⟩
  | cons line lines ih =>
    intro done d d' hk hd h
    unfold readKaldiVocabulary at h
    have happ : done ++ line :: lines = (done ++ [line]) ++ lines := by simp
    rw [happ]
    split at h
    · rename_i hsp
      exact ih hk (fun w => lastLine_other (hd w) (by rw [hsp]; simp)) h
    · rename_i word f hsp
      split at h
      · cases h
      · rename_i i hi
        refine ih (dictSet_keys _ _ _ hk) ?_ h
        intro w
        rw [dictGet?_set]
        split
        · rename_i hw
          subst hw
          exact ⟨done, [], line, f, rfl, hsp, hi, by simp⟩
        · rename_i hw
          exact lastLine_other (hd w) (by rw [hsp]; simpa using fun e => hw e.symm)
    · cases h

theorem kaldiIdToWord_spec (d : List (Str × ℤ)) : ∀ {ws ws' : List (Option Str)},
    (∀ e ∈ d, 0 ≤ e.2) → (d.map Prod.snd).Nodup → kaldiIdToWord d ws = .ok ws' →
    ws'.length = ws.length ∧ (∀ e ∈ d, ws'[e.2.toNat]? = some (some e.1)) ∧
    ∀ n : Nat, (n : ℤ) ∉ d.map Prod.snd → ws'[n]? = ws[n]? := by
  induction d with
  | nil => intro ws ws' _ _ h; cases h; simp
  | cons e d ih =>
    obtain ⟨word, i⟩ := e
    intro ws ws' h0 hnd h
    unfold kaldiIdToWord at h
    split at h
    · cases h
    · rename_i n hn
      have hi0 : 0 ≤ i := h0 (word, i) (by simp)
      rw [pyIdx_iff] at hn
      obtain ⟨hlt, hn⟩ := hn
      have hni : (n : ℤ) = i := by omega
      rw [List.map_cons, List.nodup_cons] at hnd
      obtain ⟨h1, h2, h3⟩ := ih (fun e he => h0 e (List.mem_cons_of_mem _ he)) hnd.2 h
      refine ⟨by rw [h1, List.length_set], ?_, ?_⟩
      · intro e he
        rcases List.mem_cons.mp he with rfl | he
        · have : (i.toNat) = n := by omega
          simp only [this]
          rw [h3 n (by rw [hni]; exact hnd.1), List.getElem?_set_self hlt]
        · exact h2 e he
      · intro m hm
        simp only [List.map_cons, List.mem_cons, not_or] at hm
        rw [h3 m hm.2, List.getElem?_set_ne (by omega)]

/-- C71: the mappings between words and Kaldi word IDs.  The ID of a word is the number on its (last) line.  If no two
words have the same ID and IDs are not negative, the two mappings are inverses of each other, and the IDs are exactly
the numbers smaller than the number of words. -/
theorem C71_kaldi_vocabulary (parseInt : Str → Option ℤ) (lattices : List Str) (listFile : Option (List Str))
    (format : Str) (lines : List Str) (n j : ℤ) (b : LatticeBatch)
    (h : LatticeBatch.init parseInt lattices listFile format (some lines) n j = .ok b) :
    ∃ (d : List (Str × ℤ)) (idToWord : List (Option Str)), b.kaldiVocabulary = some (d, idToWord) ∧
      (∀ w : Str, LastLine parseInt lines w (dictGet? d w)) ∧
      ((∀ (w : Str) (i : ℤ), dictGet? d w = some i → 0 ≤ i) →
        (∀ (w w' : Str) (i : ℤ), dictGet? d w = some i → dictGet? d w' = some i → w = w') →
        (∀ (i : Nat) (w : Str), idToWord[i]? = some (some w) ↔ dictGet? d w = some (i : ℤ)) ∧
        (∀ i < idToWord.length, ∃ w : Str, idToWord[i]? = some (some w))) := by
  have hv := (batch_init_ok h).2.2.2.2.1
  unfold batchVocabulary at hv
  simp only at hv
  split at hv
  · cases hv
  · rename_i d hd
    split at hv
    · cases hv
    · rename_i ws hws
      simp only [Except.ok.injEq] at hv
      obtain ⟨hk, hl⟩ := readKaldiVocabulary_spec lines (done := []) (d := []) (by simp)
        (fun w => by simp [dictGet?, LastLine]) hd
      refine ⟨d, ws, hv.symm, by simpa using hl, ?_⟩
      intro h0 hinj
      have hmem : ∀ e ∈ d, dictGet? d e.1 = some e.2 := fun e he => dictGet?_of_mem hk he
      have hnd : (d.map Prod.snd).Nodup := by
        have hd' : d.Nodup := List.Nodup.of_map _ hk
        rw [List.nodup_map_iff_inj_on hd']
        intro x hx y hy e
        have h1 := hmem x hx
        have h2 := hmem y hy
        rw [← e] at h2
        exact Prod.ext (hinj _ _ _ h1 h2) e
      obtain ⟨h1, h2, h3⟩ := kaldiIdToWord_spec d (fun e he => h0 _ _ (hmem e he)) hnd hws
      rw [List.length_replicate] at h1
      -- every position is filled: the IDs are distinct numbers smaller than the number of words
      have hfill : ∀ i < ws.length, (i : ℤ) ∈ d.map Prod.snd := by
        have hlt : ∀ e ∈ d, e.2.toNat < d.length := by
          intro e he
          have := (List.getElem?_eq_some_iff.mp (h2 e he)).1
          rw [h1] at this
          exact this
        have hsub : (d.map (fun e => e.2.toNat)) ⊆ List.range d.length := by
          intro x hx
          obtain ⟨e, he, rfl⟩ := List.mem_map.mp hx
          exact List.mem_range.mpr (hlt e he)
        have hnd' : (d.map (fun e => e.2.toNat)).Nodup := by
          have hd' : d.Nodup := List.Nodup.of_map _ hk
          rw [List.nodup_map_iff_inj_on hd']
          rw [List.nodup_map_iff_inj_on hd'] at hnd
          intro x hx y hy e
          have hx0 := h0 _ _ (hmem x hx)
          have hy0 := h0 _ _ (hmem y hy)
          exact hnd x hx y hy (by omega)
        have hp : (d.map (fun e => e.2.toNat)).Perm (List.range d.length) :=
          (List.subperm_of_subset hnd' hsub).perm_of_length_le (by simp)
        intro i hi
        have : i ∈ d.map (fun e => e.2.toNat) := hp.mem_iff.mpr (List.mem_range.mpr (by omega))
        obtain ⟨e, he, hei⟩ := List.mem_map.mp this
        have he0 := h0 _ _ (hmem e he)
        exact List.mem_map.mpr ⟨e, he, by omega⟩
      refine ⟨?_, ?_⟩
      · intro i w
        constructor
        · intro hw
          have hi : i < ws.length := (List.getElem?_eq_some_iff.mp hw).1
          obtain ⟨e, he, hei⟩ := List.mem_map.mp (hfill i hi)
          have := h2 e he
          have hen : e.2.toNat = i := by omega
          rw [hen, hw] at this
          simp only [Option.some.injEq] at this
          rw [this, ← hei]
          exact hmem e he
        · intro hw
          have := h2 _ (dictGet?_mem hw)
          simpa using this
      · intro i hi
        obtain ⟨e, he, hei⟩ := List.mem_map.mp (hfill i hi)
        have := h2 e he
        have hen : e.2.toNat = i := by omega
        rw [hen] at this
        exact ⟨_, this⟩

example : ∃ b : LatticeBatch, LatticeBatch.init unaryParse [] none "kaldi".toList
    (some (["<eps> +\n".toList, "maa +11\n".toList, "\n".toList, "hei +1".toList] : List Str)) 1 0 = .ok b ∧
    b.kaldiVocabulary.map Prod.snd = some [some "<eps>".toList, some "hei".toList, some "maa".toList] := by
  decide +kernel

/-! ## Archives -/

theorem kaldiBlocks_spec (lines : List Str) : ∀ (run : List Str), (∀ l ∈ run, HasText l) →
    Blocks (run ++ lines) (kaldiBlocks lines (run.map strip)) ∧
    (run = [] → Blocks lines (kaldiBlocks lines [])) := by
  induction lines with
  | nil =>
    intro run hr
    have h0 : Blocks [] (kaldiBlocks [] []) := Blocks.blank [] (by simp)
    refine ⟨?_, fun _ => h0⟩
    unfold kaldiBlocks
    split
    · rename_i hn
      rw [List.map_eq_nil_iff] at hn
      subst hn
      exact h0
    · rename_i hn
      have := Blocks.block [] run [] (run.map strip) [] (by simp) (fun e => hn (by rw [e]; rfl)) hr (by simp)
        (forall₂_strip run) (Blocks.blank [] (by simp))
      simpa using this
  | cons line lines ih =>
    intro run hr
    have key : Blocks (run ++ line :: lines) (kaldiBlocks (line :: lines) (run.map strip)) := by
      unfold kaldiBlocks
      simp only
      split
      · rename_i hs
        have hl := (strip_eq_nil line).mp hs
        have hrest : Blocks lines (kaldiBlocks lines []) := (ih [] (by simp)).2 rfl
        have hcons : ∀ {bs : List (List Str)}, Blocks lines bs → Blocks (line :: lines) bs := by
          intro bs hb
          cases hb with
          | blank _ h => exact Blocks.blank _ (by
              intro l hl'
              rcases List.mem_cons.mp hl' with rfl | h'
              · exact hl
              · exact h l h')
          | block before run rest lattice lattices h1 h2 h3 h4 h5 h6 =>
            have := Blocks.block (line :: before) run rest lattice lattices (by
              intro l hl'
              rcases List.mem_cons.mp hl' with rfl | h'
              · exact hl
              · exact h1 l h') h2 h3 h4 h5 h6
            simpa using this
        split
        · rename_i hn
          rw [List.map_eq_nil_iff] at hn
          subst hn
          exact hcons hrest
        · rename_i hn
          have := Blocks.block [] run (line :: lines) (run.map strip) _ (by simp) (fun e => hn (by rw [e]; rfl)) hr
            (by intro l hl'; cases hl'; exact hl) (forall₂_strip run) (hcons hrest)
          simpa using this
      · rename_i hs
        have hl : HasText line := by
          by_contra hc
          exact hs ((strip_eq_nil line).mpr hc)
        have := (ih (run ++ [line]) (by
          intro l hl'
          rcases List.mem_append.mp hl' with h' | h'
          · exact hr l h'
          · rw [List.mem_singleton.mp h']; exact hl)).1
        simpa using this
    refine ⟨key, ?_⟩
    rintro rfl
    exact key

/-- C72: a batch reads its files in order; in a Kaldi archive each maximal run of lines with text is one lattice, an
SLF file is one lattice. -/
theorem C72_archive [Zero S] [One S] [Mul S] [Neg S] [DecidableEq S] (b : LatticeBatch) (T : SlfText S)
    (K : NumText S) (files : Str → Option (List Str)) (lattices : List (Lattice S))
    (h : b.iter T K files = .ok lattices) :
    ∃ perFile : List (List (Lattice S)), lattices = perFile.flatten ∧
      List.Forall₂ (fun path Ls => ∃ lines : List Str, files path = some lines ∧
        (b.isKaldi = false → ∃ L : Lattice S, readSlf T lines = .ok L ∧ Ls = [L]) ∧
        (b.isKaldi = true → ∃ blocks : List (List Str), Blocks lines blocks ∧
          List.Forall₂ (fun block L => readKaldi K block ((b.kaldiVocabulary.map Prod.snd).getD []) = .ok L)
            blocks Ls)) b.lattices perFile := by
  unfold LatticeBatch.iter at h
  split at h
  · cases h
  · rename_i ls hls
    cases h
    refine ⟨ls, rfl, ?_⟩
    refine (mapE_ok hls).imp ?_
    intro path Ls hp
    split at hp
    · cases hp
    · rename_i lines hf
      refine ⟨lines, hf, ?_, ?_⟩
      · intro hk
        rw [hk] at hp
        simp only [Bool.false_eq_true, if_false] at hp
        split at hp
        · cases hp
        · rename_i L hL
          cases hp
          exact ⟨L, hL, rfl⟩
      · intro hk
        rw [hk] at hp
        simp only [if_true] at hp
        exact ⟨_, (kaldiBlocks_spec lines [] (by simp)).2 rfl, mapE_ok hp⟩

example : kaldiBlocks (["\n".toList, "utt1\n".toList, " 0 1\n".toList, " \n".toList, "\n".toList, "utt2".toList] : List Str) [] =
    [["utt1".toList, "0 1".toList], ["utt2".toList]] := by decide +kernel

end TheanoLM
