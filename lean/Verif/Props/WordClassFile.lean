import Verif.Lemmas.WordClassFile
import Mathlib.Algebra.BigOperators.Field
/-!
# Properties of the output of wctool: C84
-/
namespace TheanoLM

/-! ## Specification -/

/-- A vocabulary has exactly the given words, in the same order, all of them in the shortlist, and two of them are in the
same class exactly when `cl` gives them the same class. -/
structure HasClasses (v : Vocab) (ws : List Str) (cl : Nat → Nat) : Prop where
  words : v.idToWord = ws
  shortlist : v.numShortlist = ws.length
  classes : ∀ i < ws.length, ∀ j < ws.length, (v.classOf[i]? = v.classOf[j]? ↔ cl i = cl j)

/-- Number of words in the same class with word `i`, when there are `n` words. -/
def numInClass (n : Nat) (cl : Nat → Nat) (i : Nat) : Nat := ((Finset.range n).filter (fun j => cl j = cl i)).card

/-! ## Reading one list of classes -/

theorem sum_filter_map_range (n : Nat) (p : Nat → Prop) [DecidablePred p] (f : Nat → ℚ) :
    (((List.range n).filter (fun i => decide (p i))).map f).sum = ∑ i ∈ (Finset.range n).filter p, f i := rfl

theorem fileClassSum_entries (cfg : OptCfg) (s : OptSt) {fmt : VocFormat} (hf : fmt = .classes ∨ fmt = .srilmClasses)
    (i : Nat) (w : Str) :
    fileClassSum ((optWords cfg s).map (classEntry fmt)) (classEntry fmt (w, s.wordToClass i, optWordProb cfg s i)) =
      ∑ j ∈ (Finset.range cfg.vocab.idToWord.length).filter (fun j => s.wordToClass j = s.wordToClass i),
        (if fmt = .classes then 1 else optWordProb cfg s j) := by
  rw [optWords_eq, List.map_map, ← sum_filter_map_range]
  rcases hf with rfl | rfl
  · simp only [classEntry, fileClassSum, if_true]
    rw [List.filter_map, List.map_map]
    congr 1
    have : ((fun e' : Option FileId × ℚ × Str => decide (e'.1 = some (FileId.num (s.wordToClass i)))) ∘
        (classEntry .classes ∘ fun j => (cfg.vocab.idToWord.getD j [], s.wordToClass j, optWordProb cfg s j))) =
        (fun j => decide (s.wordToClass j = s.wordToClass i)) := by
      funext j
      simp [classEntry]
    rw [this]
    rfl
  · simp only [classEntry, fileClassSum]
    rw [List.filter_map, List.map_map]
    congr 1
    have : ((fun e' : Option FileId × ℚ × Str => decide (e'.1 = some (FileId.name (className (s.wordToClass i))))) ∘
        (classEntry .srilmClasses ∘ fun j => (cfg.vocab.idToWord.getD j [], s.wordToClass j, optWordProb cfg s j))) =
        (fun j => decide (s.wordToClass j = s.wordToClass i)) := by
      funext j
      simp only [Function.comp_apply, classEntry, Option.some.injEq, FileId.name.injEq]
      rw [decide_eq_decide]
      exact ⟨className_inj, fun h => by rw [h]⟩
    rw [this]
    rfl

/-- The words of a text file and of a vocabulary are words that a text file can contain. -/
def PlainWords (v : Vocab) : Prop := ∀ w ∈ v.idToWord, FieldWord w

theorem optWords_field {cfg : OptCfg} (s : OptSt) (h : PlainWords cfg.vocab) : ∀ e ∈ optWords cfg s, FieldWord e.1 := by
  intro e he
  apply h
  rw [← optWords_words cfg s]
  exact List.mem_map_of_mem he

theorem entryWord_entries (cfg : OptCfg) (s : OptSt) {fmt : VocFormat} (hf : fmt = .classes ∨ fmt = .srilmClasses) :
    ((optWords cfg s).map (classEntry fmt)).map entryWord = cfg.vocab.idToWord := by
  rw [List.map_map, ← optWords_words cfg s]
  apply List.map_congr_left
  intro e _
  rcases hf with rfl | rfl <;> rfl

theorem classEntry_same {fmt : VocFormat} (hf : fmt = .classes ∨ fmt = .srilmClasses) (e e' : Str × Nat × ℚ) :
    SameFileClass (classEntry fmt e) (classEntry fmt e') ↔ e.2.1 = e'.2.1 := by
  rcases hf with rfl | rfl
  · constructor
    · rintro ⟨f, h1, h2⟩
      simp only [classEntry] at h1 h2
      rw [← h2] at h1
      simpa using h1
    · intro h
      exact ⟨_, rfl, by simp [classEntry, h]⟩
  · constructor
    · rintro ⟨f, h1, h2⟩
      simp only [classEntry] at h1 h2
      rw [← h2] at h1
      simp only [Option.some.injEq, FileId.name.injEq] at h1
      exact className_inj h1
    · intro h
      exact ⟨_, rfl, by simp only [classEntry, h]⟩

/-- Reading the classes in a state of the optimizer. -/
theorem readClasses {P : Parsers} {showProb : ℚ → Str} (hP : FaithfulNumbers P showProb) {fmt : VocFormat}
    (hf : fmt = .classes ∨ fmt = .srilmClasses) {cfg : OptCfg} {s : OptSt} (hw : PlainWords cfg.vocab)
    (hn : cfg.vocab.idToWord.Nodup) (hs : sos ∈ cfg.vocab.idToWord ∧ eos ∈ cfg.vocab.idToWord ∧ unk ∈ cfg.vocab.idToWord) :
    ((∀ i < cfg.vocab.idToWord.length,
        ∑ j ∈ (Finset.range cfg.vocab.idToWord.length).filter (fun j => s.wordToClass j = s.wordToClass i),
          (if fmt = .classes then 1 else optWordProb cfg s j) ≠ 0) ∧
      ∃ v, vocabFromFile P (fileLines (classText showProb fmt cfg s)) fmt [] = .ok v ∧
        HasClasses v cfg.vocab.idToWord s.wordToClass ∧
        ∀ i < cfg.vocab.idToWord.length, v.getWordProb i = .ok ((if fmt = .classes then 1 else optWordProb cfg s i) /
          ∑ j ∈ (Finset.range cfg.vocab.idToWord.length).filter (fun j => s.wordToClass j = s.wordToClass i),
            (if fmt = .classes then 1 else optWordProb cfg s j))) ∨
    ((∃ i < cfg.vocab.idToWord.length,
        ∑ j ∈ (Finset.range cfg.vocab.idToWord.length).filter (fun j => s.wordToClass j = s.wordToClass i),
          (if fmt = .classes then 1 else optWordProb cfg s j) = 0) ∧
      vocabFromFile P (fileLines (classText showProb fmt cfg s)) fmt [] = .error .zeroDivision) := by
  have hes := Entries_map hP hf (optWords cfg s) (optWords_field s hw)
  have hwords := entryWord_entries cfg s hf
  have hget : ∀ i < cfg.vocab.idToWord.length, ∃ w, ((optWords cfg s).map (classEntry fmt))[i]? =
      some (classEntry fmt (w, s.wordToClass i, optWordProb cfg s i)) := by
    intro i hi
    refine ⟨cfg.vocab.idToWord[i], ?_⟩
    rw [List.getElem?_map, optWords_get cfg s (List.getElem?_eq_getElem hi)]
    rfl
  rcases C18_accepted P _ fmt [] _ hes (by rw [hwords]; exact hn) with ⟨h1, v, h2⟩ | ⟨⟨e, he, h1⟩, h2⟩
  · left
    refine ⟨?_, v, h2, ?_, ?_⟩
    · intro i hi
      obtain ⟨w, hw'⟩ := hget i hi
      rw [← fileClassSum_entries cfg s hf i w]
      exact h1 _ (List.mem_of_getElem? hw')
    · obtain ⟨es, rest, k1, _, k3, k4, k5, k6⟩ := C18_contents P _ fmt [] v h2
      have : es = (optWords cfg s).map (classEntry fmt) := by
        rw [Entries_iff] at k1 hes
        rw [hes] at k1
        injection k1 with k1
        exact k1.symm
      subst this
      rw [hwords] at k3 k4
      have hmiss : missingSpecials cfg.vocab.idToWord = [] := by
        unfold missingSpecials
        rw [List.filter_eq_nil_iff]
        intro t ht
        simp only [List.mem_cons, List.not_mem_nil, or_false] at ht
        rcases ht with rfl | rfl | rfl <;> simp [hs]
      have hrest : rest = [] := by
        apply List.eq_nil_iff_forall_not_mem.mpr
        intro w hw'
        exact absurd ((k5 w).mp hw').1 (by simp)
      rw [hmiss] at k3 k4
      subst hrest
      have hlen : v.numShortlist = cfg.vocab.idToWord.length := by
        rw [k4]; simp [optWords]
      refine ⟨by simpa using k3, hlen, ?_⟩
      intro i hi j hj
      rw [k6 i (by omega) j (by omega)]
      obtain ⟨wi, hwi⟩ := hget i hi
      obtain ⟨wj, hwj⟩ := hget j hj
      constructor
      · rintro (rfl | ⟨e, e', e1, e2, e3⟩)
        · rfl
        · rw [hwi] at e1; rw [hwj] at e2
          cases e1; cases e2
          exact (classEntry_same hf _ _).mp e3
      · intro h
        exact Or.inr ⟨_, _, hwi, hwj, (classEntry_same hf _ _).mpr h⟩
    · intro i hi
      obtain ⟨w, hw'⟩ := hget i hi
      rw [C18_probs P _ fmt [] v h2 _ hes i _ hw', fileClassSum_entries cfg s hf i w]
      rcases hf with rfl | rfl <;> rfl
  · right
    refine ⟨?_, h2⟩
    obtain ⟨i, hi⟩ := List.getElem?_of_mem he
    have hil : i < cfg.vocab.idToWord.length := by
      have := (List.getElem?_eq_some_iff.mp hi).1
      simpa [optWords] using this
    obtain ⟨w, hw'⟩ := hget i hil
    rw [hw'] at hi
    cases hi
    exact ⟨i, hil, by rw [← fileClassSum_entries cfg s hf i w]; exact h1⟩

/-! ## The optimizer that wctool creates -/

theorem special_field : FieldWord sos ∧ FieldWord eos ∧ FieldWord unk := by
  refine ⟨⟨by decide, ?_⟩, ⟨by decide, ?_⟩, ⟨by decide, ?_⟩⟩ <;> decide

theorem Entries_words {P : Parsers} {fmt : VocFormat} {lines : List Str} {es : List (Option FileId × ℚ × Str)}
    (h : Entries P fmt lines es) : ∀ e ∈ es, FieldWord (entryWord e) := by
  induction h with
  | nil => simp
  | blank _ _ _ _ _ ih => exact ih
  | cons line lines ws e es hw h _ ih =>
    intro x hx
    rcases List.mem_cons.mp hx with rfl | hx
    · have := Words_mem hw
      cases h <;> exact this _ (by simp [entryWord])
    · exact ih x hx

theorem utterance_field (l : Str) : ∀ w ∈ utterance l, FieldWord w := by
  obtain ⟨ws, hw⟩ := Words_total l
  by_cases hne : ws = []
  · subst hne
    rw [utterance_of_ok (C01_blank l hw)]
    simp
  · obtain ⟨pre, post, h1, h2, h3⟩ := C01_words l ws hw hne
    rw [utterance_of_ok h1]
    intro w hm
    rcases List.mem_append.mp hm with hm | hm
    · rcases List.mem_append.mp hm with hm | hm
      · rw [h2] at hm
        split at hm
        · cases hm
        · rw [List.mem_singleton.mp hm]; exact special_field.1
      · exact Words_mem hw w hm
    · rw [h3] at hm
      split at hm
      · cases hm
      · rw [List.mem_singleton.mp hm]; exact special_field.2.1

theorem utterancesOf_map (files : List (List Str)) : UtterancesOf files (files.flatten.map utterance) := by
  unfold UtterancesOf
  generalize files.flatten = ls
  induction ls with
  | nil => exact .nil
  | cons l ls ih => exact .cons (utterance_ok l) ih

theorem wctoolOptimizer_start {P : Parsers} {files : List (List Str)} {vocabulary : Option (List Str × VocFormat)}
    {n : Nat} {b : Backend} {cfg : OptCfg} {s0 : OptSt} (h : wctoolOptimizer P files vocabulary n b = .ok (cfg, s0)) :
    OptStart P cfg.vocab files cfg s0 ∧ PlainWords cfg.vocab := by
  have key : ∀ v, Constructible P v → PlainWords v → (match bigramStatistics v files with
      | .error e => .error e | .ok st => newOptimizer b v st) = Except.ok (cfg, s0) →
      OptStart P cfg.vocab files cfg s0 ∧ PlainWords cfg.vocab := by
    intro v hv hp h
    split at h
    · cases h
    · rename_i st hst
      have hs : OptStart P v files cfg s0 := ⟨hv, st, b, hst, h⟩
      obtain ⟨_, _, _, hcv, _⟩ := hs.inv
      rw [hcv]
      exact ⟨hs, hp⟩
  unfold wctoolOptimizer at h
  dsimp only at h
  cases vocabulary with
  | none =>
    dsimp only at h
    obtain ⟨hk, hmem⟩ := C19_words files _ (utterancesOf_map files)
    split at h
    · cases h
    · rename_i v hv
      refine key v (.counts _ _ _ hk hv) ?_ h
      rcases fromWordCounts_spec (computeWordCounts files) (some n) hk _ rfl _ rfl with ⟨_, _, h1⟩ | ⟨v', ps, h1, _, _, h2, _⟩
      · rw [h1] at hv; cases hv
      · rw [hv] at h1
        cases h1
        intro w hw
        rw [h2] at hw
        rcases List.mem_append.mp hw with hw | hw
        · obtain ⟨⟨w', c⟩, hp, rfl⟩ := List.mem_map.mp hw
          have hp' := (List.mem_filter.mp ((sortByCount_perm _).mem_iff.mp hp)).1
          obtain ⟨u, hu, hwu⟩ := List.mem_flatten.mp ((hmem w' c).mp hp').1
          obtain ⟨l, _, rfl⟩ := List.mem_map.mp hu
          exact utterance_field l w' hwu
        · simp only [List.mem_cons, List.not_mem_nil, or_false] at hw
          rcases hw with rfl | rfl | rfl
          · exact special_field.1
          · exact special_field.2.1
          · exact special_field.2.2
  | some p =>
    obtain ⟨lines, fmt⟩ := p
    dsimp only at h
    split at h
    · cases h
    · rename_i v hv
      refine key v (.file _ _ _ _ hv) ?_ h
      obtain ⟨es, rest, h1, _, h3, _, h5, _⟩ := C18_contents P lines fmt [] v hv
      intro w hw
      rw [h3] at hw
      rcases List.mem_append.mp hw with hw | hw
      · rcases List.mem_append.mp hw with hw | hw
        · obtain ⟨e, he, rfl⟩ := List.mem_map.mp hw
          exact Entries_words h1 e he
        · unfold missingSpecials at hw
          have hw := (List.mem_filter.mp hw).1
          simp only [List.mem_cons, List.not_mem_nil, or_false] at hw
          rcases hw with rfl | rfl | rfl
          · exact special_field.1
          · exact special_field.2.1
          · exact special_field.2.2
      · exact absurd ((h5 w).mp hw).1 (by simp)

/-! ## Saving during the optimization -/

theorem savingIteration_spec (showProb : ℚ → Str) (fmt : VocFormat) (freq : Nat) (cfg : OptCfg) (words : List Str) :
    ∀ (k : Nat) (s : OptSt) (f : OutFile) (n : Nat) (s' : OptSt), optimizeIteration cfg words s = .ok (n, s') →
    ∃ f' ss, savingIteration showProb fmt freq cfg words k s f = .ok (n, s', f') ∧ f'.seekable = f.seekable ∧
      (f.seekable = false → f'.text = f.text ++ (ss.map (classText showProb fmt cfg)).flatten) ∧
      (0 < freq → k + words.length = cfg.vocabularySize → words ≠ [] → ss ≠ []) := by
  induction words with
  | nil =>
    intro k s f n s' h
    simp only [optimizeIteration] at h
    cases h
    exact ⟨f, [], rfl, rfl, fun _ => by simp, fun _ _ h => absurd rfl h⟩
  | cons word words ih =>
    intro k s f n s' h
    simp only [optimizeIteration] at h
    split at h
    · cases h
    · rename_i moved s1 h1
      split at h
      · cases h
      · rename_i n1 s2 h2
        cases h
        obtain ⟨f', ss, g1, g2, g3, g4⟩ := ih (k + 1) s1 (saveIfScheduled showProb fmt freq cfg s1 (k + 1) f) n1 s' h2
        have hseek : (saveIfScheduled showProb fmt freq cfg s1 (k + 1) f).seekable = f.seekable := by
          unfold saveIfScheduled saveClasses
          split <;> rfl
        refine ⟨f', (if wcIsScheduled (k + 1) freq cfg.vocabularySize then [s1] else []) ++ ss, ?_, ?_, ?_, ?_⟩
        · simp only [savingIteration, h1, g1]
        · rw [g2, hseek]
        · intro hf
          rw [g3 (by rw [hseek]; exact hf)]
          unfold saveIfScheduled saveClasses
          split
          · simp [hf, classText]
          · simp
        · intro hfr hk _
          by_cases hw : words = []
          · subst hw
            have : wcIsScheduled (k + 1) freq cfg.vocabularySize = true := by
              simp only [List.length_cons, List.length_nil, Nat.zero_add] at hk
              unfold wcIsScheduled
              rw [← hk, Nat.mul_mod_right]
              simpa using hfr
            rw [this]
            simp
          · intro hc
            exact g4 hfr (by rw [List.length_cons] at hk; omega) hw (List.append_eq_nil_iff.mp hc).2

theorem wctoolLoop_spec (showProb : ℚ → Str) (fmt : VocFormat) (freq : Nat) (cfg : OptCfg)
    (hlen : cfg.vocab.idToWord.length = cfg.vocabularySize) (hne : cfg.vocab.idToWord ≠ []) (fuel : Nat) :
    ∀ (s : OptSt) (f : OutFile) (s' : OptSt), optimizeLoop cfg fuel s = some (.ok s') →
    ∃ f' ss, wctoolLoop showProb fmt freq cfg fuel s f = some (.ok (s', saveClasses showProb fmt cfg s' f')) ∧
      f'.seekable = f.seekable ∧
      (f.seekable = false → f'.text = f.text ++ (ss.map (classText showProb fmt cfg)).flatten) ∧
      (0 < freq → ss ≠ []) := by
  induction fuel with
  | zero => intro s f s' h; cases h
  | succ fuel ih =>
    intro s f s' h
    simp only [optimizeLoop] at h
    split at h
    · cases h
    · rename_i n s1 h1
      obtain ⟨f', ss, g1, g2, g3, g4⟩ := savingIteration_spec showProb fmt freq cfg _ 0 s f n s1 h1
      split at h
      · rename_i hn
        cases h
        refine ⟨f', ss, ?_, g2, g3, fun hf => g4 hf (by omega) hne⟩
        simp only [wctoolLoop, g1, hn, if_true]
      · rename_i hn
        obtain ⟨f2, ss2, k1, k2, k3, k4⟩ := ih s1 f' s' h
        refine ⟨f2, ss ++ ss2, ?_, by rw [k2, g2], ?_, ?_⟩
        · simp only [wctoolLoop, g1, if_neg hn]
          exact k1
        · intro hf
          rw [k3 (by rw [g2]; exact hf), g3 hf]
          simp
        · intro hf hc
          exact k4 hf (List.append_eq_nil_iff.mp hc).2

/-- A run of wctool ends in a reachable state, where the classes are saved once more. -/
theorem wctoolRun {P : Parsers} {files : List (List Str)} {vocabulary : Option (List Str × VocFormat)} {n : Nat}
    {b : Backend} {cfg : OptCfg} {s0 : OptSt} (h : wctoolOptimizer P files vocabulary n b = .ok (cfg, s0))
    (showProb : ℚ → Str) (fmt : VocFormat) (freq : Nat) (f : OutFile) :
    ∃ N s f', (∀ fuel, N ≤ fuel → wctoolLoop showProb fmt freq cfg fuel s0 f = some (.ok (s, f'))) ∧ OptReach cfg s0 s ∧
      (f.seekable = true → f'.text = classText showProb fmt cfg s) ∧
      (f.seekable = false → ∃ ss, f'.text = f.text ++ ((ss ++ [s]).map (classText showProb fmt cfg)).flatten ∧
        (0 < freq → ss ≠ [])) := by
  obtain ⟨hs, _⟩ := wctoolOptimizer_start h
  obtain ⟨_, _, inv, _⟩ := hs.inv
  have hne : cfg.vocab.idToWord ≠ [] := by
    intro hc
    have := (wordToId_lt inv inv.sos).2
    rw [hc] at this
    simp at this
  obtain ⟨N, s, h1, h2, _⟩ := C22_terminates P cfg.vocab files cfg s0 hs
  obtain ⟨f', ss, g1, g2, g3, g4⟩ := wctoolLoop_spec showProb fmt freq cfg inv.size hne N s0 f s (h1 N (le_refl _))
  have hmono : ∀ (fuel : Nat) (s : OptSt) (f : OutFile) r, wctoolLoop showProb fmt freq cfg fuel s f = some r →
      ∀ fuel', fuel ≤ fuel' → wctoolLoop showProb fmt freq cfg fuel' s f = some r := by
    intro fuel
    induction fuel with
    | zero => intro s f r h; cases h
    | succ fuel ih =>
      intro s f r h fuel' hf
      obtain ⟨k, rfl⟩ : ∃ k, fuel' = k + 1 := ⟨fuel' - 1, by omega⟩
      rw [wctoolLoop] at h ⊢
      cases he : savingIteration showProb fmt freq cfg cfg.vocab.idToWord 0 s f with
      | error e => rw [he] at h; exact h
      | ok x =>
        obtain ⟨n, s', f'⟩ := x
        rw [he] at h
        dsimp only at h ⊢
        split at h
        · rename_i hn; rw [if_pos hn]; exact h
        · rename_i hn; rw [if_neg hn]; exact ih _ _ _ h _ (by omega)
  refine ⟨N, s, _, fun fuel hf => hmono N s0 f _ g1 fuel hf, h2, ?_, ?_⟩
  · intro hf
    simp [saveClasses, g2, hf, classText]
  · intro hf
    refine ⟨ss, ?_, g4⟩
    simp [saveClasses, g2, hf, g3 hf, classText]

theorem wctool_specials {P : Parsers} {v : Vocab} {files : List (List Str)} {cfg : OptCfg} {s0 : OptSt}
    (h : OptStart P v files cfg s0) : sos ∈ v.idToWord ∧ eos ∈ v.idToWord ∧ unk ∈ v.idToWord := by
  obtain ⟨n, ps, inv⟩ := h.vocab.inv
  exact ⟨List.mem_of_mem_take (inv.special _ (.inl rfl)), List.mem_of_mem_take (inv.special _ (.inr (.inl rfl))),
    List.mem_of_mem_take (inv.special _ (.inr (.inr rfl)))⟩

/-! ## C84 -/

/-- C84, format "classes": wctool always ends, and when the output file is seekable, reading the file as a vocabulary
gives the words in the same order and the classes of the optimizer.  Each word of a class has the same probability.
It does not matter how often the classes are saved during the optimization, or what the file contained earlier. -/
theorem C84_classes (P : Parsers) (showProb : ℚ → Str) (hP : FaithfulNumbers P showProb) (files : List (List Str))
    (vocabulary : Option (List Str × VocFormat)) (n : Nat) (b : Backend) (cfg : OptCfg) (s0 : OptSt)
    (h : wctoolOptimizer P files vocabulary n b = .ok (cfg, s0)) (freq : Nat) (old : Str) :
    ∃ N s f, (∀ fuel, N ≤ fuel → wctoolLoop showProb .classes freq cfg fuel s0 ⟨true, old⟩ = some (.ok (s, f))) ∧
      OptReach cfg s0 s ∧
      ∃ v, vocabFromFile P (fileLines f.text) .classes [] = .ok v ∧ HasClasses v cfg.vocab.idToWord s.wordToClass ∧
        ∀ i < cfg.vocab.idToWord.length, v.getWordProb i =
          .ok (1 / (numInClass cfg.vocab.idToWord.length s.wordToClass i : ℚ)) := by
  obtain ⟨hs, hw⟩ := wctoolOptimizer_start h
  obtain ⟨N, s, f, h1, h2, h3, _⟩ := wctoolRun h showProb .classes freq ⟨true, old⟩
  refine ⟨N, s, f, h1, h2, ?_⟩
  rw [h3 rfl]
  obtain ⟨_, _, inv, _⟩ := hs.inv
  have hsum : ∀ i, ∑ j ∈ (Finset.range cfg.vocab.idToWord.length).filter (fun j => s.wordToClass j = s.wordToClass i),
      (if VocFormat.classes = .classes then (1 : ℚ) else optWordProb cfg s j) =
      (numInClass cfg.vocab.idToWord.length s.wordToClass i : ℚ) := by
    intro i
    simp [numInClass]
  rcases readClasses (s := s) hP (.inl rfl) hw inv.nodup (wctool_specials hs) with ⟨_, v, k1, k2, k3⟩ | ⟨⟨i, hi, k1⟩, _⟩
  · refine ⟨v, k1, k2, ?_⟩
    intro i hi
    rw [k3 i hi, hsum, if_pos rfl]
  · exfalso
    rw [hsum] at k1
    have : numInClass cfg.vocab.idToWord.length s.wordToClass i = 0 := by exact_mod_cast k1
    unfold numInClass at this
    rw [Finset.card_eq_zero] at this
    have hm : i ∈ (Finset.range cfg.vocab.idToWord.length).filter (fun j => s.wordToClass j = s.wordToClass i) := by
      simp [hi]
    rw [this] at hm
    simp at hm

theorem sum_optWordProb {cfg : OptCfg} {s : OptSt} (he : ExactCounts cfg s)
    (hlen : cfg.vocab.idToWord.length = cfg.vocabularySize) (i : Nat) :
    ∑ j ∈ (Finset.range cfg.vocab.idToWord.length).filter (fun j => s.wordToClass j = s.wordToClass i),
      (if VocFormat.srilmClasses = .classes then (1 : ℚ) else optWordProb cfg s j) =
      if classCount cfg.vocabularySize cfg.wordCounts s.wordToClass (s.wordToClass i) = 0 then 0 else 1 := by
  have h1 : ∀ j ∈ (Finset.range cfg.vocab.idToWord.length).filter (fun j => s.wordToClass j = s.wordToClass i),
      (if VocFormat.srilmClasses = .classes then (1 : ℚ) else optWordProb cfg s j) =
      if classCount cfg.vocabularySize cfg.wordCounts s.wordToClass (s.wordToClass i) = 0 then 0 else
        (cfg.wordCounts j : ℚ) / (classCount cfg.vocabularySize cfg.wordCounts s.wordToClass (s.wordToClass i) : ℚ) := by
    intro j hj
    rw [if_neg (by decide)]
    unfold optWordProb
    rw [(Finset.mem_filter.mp hj).2, he.cls]
  rw [Finset.sum_congr rfl h1]
  split
  · simp
  · rename_i hz
    rw [← Finset.sum_div]
    have : ∑ j ∈ (Finset.range cfg.vocab.idToWord.length).filter (fun j => s.wordToClass j = s.wordToClass i),
        (cfg.wordCounts j : ℚ) = (classCount cfg.vocabularySize cfg.wordCounts s.wordToClass (s.wordToClass i) : ℚ) := by
      unfold classCount
      rw [hlen]
      push_cast
      rfl
    rw [this]
    exact div_self (by exact_mod_cast hz)

/-- C84, format "srilm-classes", partial: reading the file gives the classes of the optimizer, and the probability of a
word is its share of the occurrences of its class, provided that each class occurs in the training data.  Otherwise
reading the file fails with a `ZeroDivisionError`. -/
theorem C84_srilm_partial (P : Parsers) (showProb : ℚ → Str) (hP : FaithfulNumbers P showProb) (files : List (List Str))
    (vocabulary : Option (List Str × VocFormat)) (n : Nat) (b : Backend) (cfg : OptCfg) (s0 : OptSt)
    (h : wctoolOptimizer P files vocabulary n b = .ok (cfg, s0)) (freq : Nat) (old : Str) :
    ∃ N s f, (∀ fuel, N ≤ fuel → wctoolLoop showProb .srilmClasses freq cfg fuel s0 ⟨true, old⟩ = some (.ok (s, f))) ∧
      OptReach cfg s0 s ∧
      ((∀ i < cfg.vocab.idToWord.length, classCount cfg.vocabularySize cfg.wordCounts s.wordToClass (s.wordToClass i) ≠ 0) →
        ∃ v, vocabFromFile P (fileLines f.text) .srilmClasses [] = .ok v ∧
          HasClasses v cfg.vocab.idToWord s.wordToClass ∧
          ∀ i < cfg.vocab.idToWord.length, v.getWordProb i = .ok ((cfg.wordCounts i : ℚ) /
            (classCount cfg.vocabularySize cfg.wordCounts s.wordToClass (s.wordToClass i) : ℚ))) ∧
      ((∃ i < cfg.vocab.idToWord.length,
          classCount cfg.vocabularySize cfg.wordCounts s.wordToClass (s.wordToClass i) = 0) →
        vocabFromFile P (fileLines f.text) .srilmClasses [] = .error .zeroDivision) := by
  obtain ⟨hs, hw⟩ := wctoolOptimizer_start h
  obtain ⟨N, s, f, h1, h2, h3, _⟩ := wctoolRun h showProb .srilmClasses freq ⟨true, old⟩
  refine ⟨N, s, f, h1, h2, ?_⟩
  rw [h3 rfl]
  obtain ⟨_, _, inv, _⟩ := hs.inv
  have he := (optReach_inv hs h2).exact
  have hsum := sum_optWordProb he inv.size
  rcases readClasses (s := s) hP (.inr rfl) hw inv.nodup (wctool_specials hs) with ⟨k0, v, k1, k2, k3⟩ | ⟨⟨i, hi, k1⟩, k2⟩
  · have hnz : ∀ i < cfg.vocab.idToWord.length,
        classCount cfg.vocabularySize cfg.wordCounts s.wordToClass (s.wordToClass i) ≠ 0 := by
      intro i hi hz
      apply k0 i hi
      rw [hsum, if_pos hz]
    refine ⟨fun _ => ⟨v, k1, k2, ?_⟩, fun ⟨i, hi, hz⟩ => absurd hz (hnz i hi)⟩
    intro i hi
    rw [k3 i hi, hsum, if_neg (hnz i hi), if_neg (by decide), div_one]
    unfold optWordProb
    rw [he.cls, if_neg (hnz i hi)]
  · refine ⟨fun hnz => ?_, fun _ => k2⟩
    exfalso
    rw [hsum, if_neg (hnz i hi)] at k1
    norm_num at k1

theorem Entries_line {P : Parsers} {fmt : VocFormat} {lines : List Str} {es : List (Option FileId × ℚ × Str)}
    (h : Entries P fmt lines es) : ∀ l ∈ lines, Words l [] ∨ ∃ ws e, Words l ws ∧ EntryOf P fmt ws e := by
  induction h with
  | nil => simp
  | blank line _ _ hb _ ih =>
    intro l hl
    rcases List.mem_cons.mp hl with rfl | hl
    · exact .inl hb
    · exact ih l hl
  | cons line _ ws e _ hw he _ ih =>
    intro l hl
    rcases List.mem_cons.mp hl with rfl | hl
    · exact .inr ⟨ws, e, hw, he⟩
    · exact ih l hl

/-- C84 is violated when the output is not seekable, for example a pipe, in every run with the default or any other
positive saving frequency: the output contains the classes several times, and cannot be read. -/
theorem C84_violated_pipe (P : Parsers) (showProb : ℚ → Str) (hP : FaithfulNumbers P showProb) (files : List (List Str))
    (vocabulary : Option (List Str × VocFormat)) (n : Nat) (b : Backend) (cfg : OptCfg) (s0 : OptSt)
    (h : wctoolOptimizer P files vocabulary n b = .ok (cfg, s0)) (fmt : VocFormat)
    (hf : fmt = .classes ∨ fmt = .srilmClasses) (freq : Nat) (hfreq : 0 < freq) :
    ∃ N s f, (∀ fuel, N ≤ fuel → wctoolLoop showProb fmt freq cfg fuel s0 ⟨false, []⟩ = some (.ok (s, f))) ∧
      vocabFromFile P (fileLines f.text) fmt [] = .error .inputError := by
  obtain ⟨hs, hw⟩ := wctoolOptimizer_start h
  obtain ⟨N, s, f, h1, h2, _, h3⟩ := wctoolRun h showProb fmt freq ⟨false, []⟩
  refine ⟨N, s, f, h1, ?_⟩
  obtain ⟨ss, h4, h5⟩ := h3 rfl
  rw [h4, List.nil_append]
  have htext : ((ss ++ [s]).map (classText showProb fmt cfg)).flatten =
      (((ss ++ [s]).flatMap (optWords cfg)).map (classLine showProb fmt)).flatten := by
    generalize ss ++ [s] = l
    induction l with
    | nil => rfl
    | cons a l ih => rw [List.map_cons, List.flatten_cons, ih, List.flatMap_cons, List.map_append, List.flatten_append]; rfl
  rw [htext]
  have hes := Entries_map hP hf ((ss ++ [s]).flatMap (optWords cfg)) (by
    intro e he
    obtain ⟨a, _, ha⟩ := List.mem_flatMap.mp he
    exact optWords_field a hw e ha)
  have hdup : ¬ ((((ss ++ [s]).flatMap (optWords cfg)).map (classEntry fmt)).map entryWord).Nodup := by
    obtain ⟨a, as, rfl⟩ := List.exists_cons_of_ne_nil (h5 hfreq)
    rw [List.flatMap_append, List.map_append, List.map_append, List.flatMap_cons, List.map_append, List.map_append,
      entryWord_entries cfg a hf, List.flatMap_singleton, entryWord_entries cfg s hf]
    intro hn
    obtain ⟨hm, _, _⟩ := wctool_specials hs
    exact (List.nodup_append.mp hn).2.2 sos (List.mem_append_left _ hm) sos hm rfl
  rcases C18_rejected_partial P _ fmt [] (by
    rintro ⟨es, k1, k2⟩
    rw [Entries_iff] at k1
    have k3 := (Entries_iff _ _ _ _).mp hes
    rw [k3] at k1
    cases k1
    exact hdup k2) with k | ⟨_, line, hl, k⟩
  · exact k
  · exfalso
    have huniq : ∀ {a c : List Str}, Words line a → Words line c → a = c := fun ha hc => by
      rw [← pySplit_of_Words ha, pySplit_of_Words hc]
    rcases Entries_line hes line hl with g | ⟨ws, e, g, g'⟩
    · rcases k with ⟨_, _, k, _⟩ | ⟨_, _, _, k, _⟩ <;> exact absurd (huniq g k) (by simp)
    · rcases k with ⟨_, _, k, hk, hi⟩ | ⟨_, _, _, k, hk, hi⟩ <;>
      · rw [huniq g k] at g'
        subst hk
        cases g' with
        | _ => simp_all

/-! ## The usual case -/

theorem numNormal_lt {v : Vocab} {m : Nat} {ps : List ℚ} (inv : VInv v (m + 1) ps) {k : Nat} {w : Str}
    (hids : idsOf v.classOf m = [k]) (hk : v.idToWord[k]? = some w) (hw : w.head? = some '<') : v.numNormal ≤ m := by
  rw [inv.normal, inv.cls]
  unfold numNormalClasses classList
  rw [List.range_succ, List.map_append, List.reverse_append, List.map_singleton, List.reverse_singleton,
    List.singleton_append, List.dropWhile_cons_of_pos]
  · refine (List.dropWhile_suffix _).length_le.trans ?_
    simp
  · simp [isSpecialClass, hids, hk, hw]

theorem idsOf_eq_nil {classOf : List Nat} {c : Nat} (h : ∀ x ∈ classOf, x ≠ c) : idsOf classOf c = [] := by
  unfold idsOf
  rw [List.filter_eq_nil_iff]
  intro i _ hi
  exact h c (List.mem_of_getElem? (of_decide_eq_true hi)) rfl

/-- When the vocabulary is created from the training data, only `<unk>` is ever in its class. -/
theorem unk_alone {P : Parsers} {files : List (List Str)} {n : Nat} {b : Backend} {cfg : OptCfg} {s0 s : OptSt}
    (h : wctoolOptimizer P files none n b = .ok (cfg, s0)) (hr : OptReach cfg s0 s) :
    ∃ k, cfg.vocab.idToWord[k]? = some unk ∧
      ∀ j < cfg.vocab.idToWord.length, s.wordToClass j = s.wordToClass k → j = k := by
  obtain ⟨hs, _⟩ := wctoolOptimizer_start h
  obtain ⟨hk, hmem⟩ := C19_words files _ (utterancesOf_map files)
  obtain ⟨st, b', hst, hopt⟩ := hs.start
  obtain ⟨_, _, inv, _, _, hnn, hs0, hlt, _⟩ := hs.inv
  have hv : vocabFromWordCounts (computeWordCounts files) (some n) = .ok cfg.vocab := by
    unfold wctoolOptimizer at h
    dsimp only at h
    split at h
    · cases h
    · rename_i v hv
      split at h
      · cases h
      · rename_i st' hst'
        have : OptStart P v files cfg s0 := ⟨.counts _ _ _ hk hv, st', b, hst', h⟩
        obtain ⟨_, _, _, hcv, _⟩ := this.inv
        rw [hcv]; exact hv
  rcases fromWordCounts_spec (computeWordCounts files) (some n) hk _ rfl _ rfl with ⟨_, _, h1⟩ | ⟨v', ps, h1, vinv, _, h2, h3, _⟩
  · rw [h1] at hv; cases hv
  rw [hv] at h1
  injection h1 with h1
  subst h1
  rw [Option.getD_some] at vinv h3
  have hzero : 0 < n ∨ (computeWordCounts files).filter (fun p => decide (p.1 ≠ sos ∧ p.1 ≠ eos ∧ p.1 ≠ unk)) = [] := by
    by_contra hc
    push Not at hc
    obtain ⟨q, hq⟩ := List.exists_mem_of_ne_nil _ hc.2
    obtain ⟨hq1, hq2⟩ := List.mem_filter.mp hq
    have h0 : n = 0 := by omega
    rw [h0, C16_zero _ hk q hq1 (by simpa using hq2)] at hv
    cases hv
  generalize (computeWordCounts files).filter (fun p => decide (p.1 ≠ sos ∧ p.1 ≠ eos ∧ p.1 ≠ unk)) = wc at *
  have hlen : cfg.vocab.idToWord.length = wc.length + 3 := by
    rw [h2]; simp [(sortByCount_perm wc).length_eq]
  have hget : cfg.vocab.idToWord[wc.length + 2]? = some unk := by
    rw [h2, List.getElem?_append_right (by simp [(sortByCount_perm wc).length_eq])]
    simp [(sortByCount_perm wc).length_eq]
  have hmod : ∀ x < wc.length, x % n < min wc.length n := by
    intro x hx
    rcases hzero with h0 | h0
    · have := Nat.mod_lt x h0
      have := Nat.mod_le x n
      omega
    · rw [h0] at hx; simp at hx
  have hids : idsOf cfg.vocab.classOf (min wc.length n + 2) = [wc.length + 2] := by
    have : cfg.vocab.classOf = ((List.range wc.length).map (· % n) ++ [min wc.length n, min wc.length n + 1]) ++
        [min wc.length n + 2] := by rw [h3]; simp
    rw [this, idsOf_append, if_pos rfl, idsOf_eq_nil]
    · simp
    · intro x hx
      rcases List.mem_append.mp hx with hx | hx
      · obtain ⟨y, hy, rfl⟩ := List.mem_map.mp hx
        have := hmod y (List.mem_range.mp hy)
        omega
      · simp only [List.mem_cons, List.not_mem_nil, or_false] at hx
        omega
  have hnorm := numNormal_lt vinv hids hget (by decide)
  have hinit : ∀ j < cfg.vocab.idToWord.length,
      (s0.wordToClass j = min wc.length n + 2 ↔ j = wc.length + 2) := by
    intro j hj
    rw [hs0]
    show cfg.vocab.classOf.getD j 0 = _ ↔ _
    have hcl : cfg.vocab.classOf.length = wc.length + 3 := by rw [h3]; simp
    have hmemids : ∀ j, j ∈ idsOf cfg.vocab.classOf (min wc.length n + 2) ↔
        j < cfg.vocab.classOf.length ∧ cfg.vocab.classOf[j]? = some (min wc.length n + 2) := by
      intro j
      simp [idsOf]
    have := hmemids j
    rw [hids, List.mem_singleton] at this
    rw [this, List.getD_eq_getElem?_getD, List.getElem?_eq_getElem (by omega)]
    simp only [Option.getD_some, Option.some.injEq]
    exact ⟨fun h => ⟨by omega, h⟩, fun h => h.2⟩
  have hinv : ∀ j < cfg.vocab.idToWord.length, (s.wordToClass j = min wc.length n + 2 ↔ j = wc.length + 2) := by
    clear hs0 hlt
    induction hr with
    | start => exact hinit
    | step s s' word moved hr hm ih =>
      have hstep := C23_step P cfg.vocab files cfg s0 s s' hs word moved hm
      cases moved with
      | false => rw [if_neg (by simp)] at hstep; rw [hstep]; exact ih
      | true =>
        rw [if_pos rfl] at hstep
        obtain ⟨w, e1, e2, e3, _, e5, _⟩ := hstep
        intro j hj
        by_cases hjw : j = w
        · subst hjw
          constructor
          · intro h; omega
          · rintro rfl
            rw [hget] at e1
            cases e1
            exact absurd (by decide) e2
        · rw [e5 j hjw]; exact ih j hj
  refine ⟨wc.length + 2, hget, ?_⟩
  intro j hj he
  rw [(hinv (wc.length + 2) (by omega)).mpr rfl] at he
  exact (hinv j hj).mp he

/-- When the vocabulary is created from training data that does not contain `<unk>`, the count of `<unk>` is zero. -/
theorem unk_count {P : Parsers} {files : List (List Str)} {n : Nat} {b : Backend} {cfg : OptCfg} {s0 : OptSt}
    (h : wctoolOptimizer P files none n b = .ok (cfg, s0)) (hunk : ∀ line ∈ files.flatten, unk ∉ utterance line) {k : Nat}
    (hk : cfg.vocab.idToWord[k]? = some unk) : cfg.wordCounts k = 0 := by
  obtain ⟨hs, _⟩ := wctoolOptimizer_start h
  obtain ⟨hkeys, hmem⟩ := C19_words files _ (utterancesOf_map files)
  obtain ⟨_, _, inv, _⟩ := hs.inv
  have hwords : ∀ line ∈ files.flatten, ∀ w ∈ utterance line, w ∈ cfg.vocab.idToWord := by
    intro line hl w hw
    unfold wctoolOptimizer at h
    dsimp only at h
    split at h
    · cases h
    · rename_i v hv
      split at h
      · cases h
      · rename_i st' hst'
        have : OptStart P v files cfg s0 := ⟨.counts _ _ _ hkeys hv, st', b, hst', h⟩
        obtain ⟨_, _, _, hcv, _⟩ := this.inv
        rw [hcv]
        rcases fromWordCounts_spec (computeWordCounts files) (some n) hkeys _ rfl _ rfl with
          ⟨_, _, h1⟩ | ⟨v', ps, h1, _, _, h2, _⟩
        · rw [h1] at hv; cases hv
        rw [hv] at h1
        injection h1 with h1
        subst h1
        rw [h2]
        by_cases hsp : w ≠ sos ∧ w ≠ eos ∧ w ≠ unk
        · apply List.mem_append_left
          have hin := (hmem w _).mpr ⟨List.mem_flatten.mpr ⟨_, List.mem_map_of_mem hl, hw⟩, rfl⟩
          have hf := (List.mem_filter (p := fun p : Str × Nat => decide (p.1 ≠ sos ∧ p.1 ≠ eos ∧ p.1 ≠ unk))).mpr
            ⟨hin, by simpa using hsp⟩
          exact List.mem_map.mpr ⟨_, (sortByCount_perm _).mem_iff.mpr hf, rfl⟩
        · apply List.mem_append_right
          simp only [List.mem_cons, List.not_mem_nil, or_false]
          by_contra hc
          apply hsp
          push Not at hc
          exact hc
  obtain ⟨st, b', hst, hopt⟩ := hs.start
  have hcounts : cfg.wordCounts = st.unigram := by
    unfold newOptimizer at hopt
    split at hopt
    · cases hopt
    · split at hopt
      · cases hopt
      · split at hopt
        · cases hopt
        · injection hopt with hopt
          rw [Prod.mk.injEq] at hopt
          rw [← hopt.1]
  rw [bigramStatistics_eq cfg.vocab files k ((wordToId_iff inv.nodup).mpr hk)] at hst
  injection hst with hst
  rw [hcounts, ← hst]
  show (((files.flatten.map (idsOfLine cfg.vocab k)).flatten.count k : Nat) : ℤ) = 0
  rw [Int.natCast_eq_zero, List.count_eq_zero]
  intro hm
  obtain ⟨l, hl, hkl⟩ := List.mem_flatten.mp hm
  obtain ⟨line, hline, rfl⟩ := List.mem_map.mp hl
  obtain ⟨w, hw, hwk⟩ := List.mem_map.mp hkl
  unfold sequenceId at hwk
  have hin := hwords line hline w hw
  cases hid : cfg.vocab.wordToId w with
  | none => exact absurd (wordToId_none.mp hid) (by simpa using hin)
  | some i =>
    rw [hid] at hwk
    simp only at hwk
    subst hwk
    have := (wordToId_iff inv.nodup).mp hid
    rw [hk] at this
    cases this
    exact hunk line hline hw

/-- C84 is violated in the usual case: when wctool creates the vocabulary from the training data, and the training data
does not contain `<unk>`, the output in the default format "srilm-classes" cannot be read. -/
theorem C84_violated_unk (P : Parsers) (showProb : ℚ → Str) (hP : FaithfulNumbers P showProb) (files : List (List Str))
    (n : Nat) (b : Backend) (cfg : OptCfg) (s0 : OptSt) (h : wctoolOptimizer P files none n b = .ok (cfg, s0))
    (hunk : ∀ line ∈ files.flatten, ∀ ws, Words line ws → unk ∉ ws) (freq : Nat) (old : Str) :
    ∃ N s f, (∀ fuel, N ≤ fuel → wctoolLoop showProb .srilmClasses freq cfg fuel s0 ⟨true, old⟩ = some (.ok (s, f))) ∧
      vocabFromFile P (fileLines f.text) .srilmClasses [] = .error .zeroDivision := by
  obtain ⟨N, s, f, h1, h2, _, h4⟩ := C84_srilm_partial P showProb hP files none n b cfg s0 h freq old
  refine ⟨N, s, f, h1, h4 ?_⟩
  obtain ⟨k, hk, halone⟩ := unk_alone h h2
  obtain ⟨hs, _⟩ := wctoolOptimizer_start h
  obtain ⟨_, _, inv, _⟩ := hs.inv
  refine ⟨k, (List.getElem?_eq_some_iff.mp hk).1, ?_⟩
  unfold classCount
  apply Finset.sum_eq_zero
  intro j hj
  obtain ⟨hj1, hj2⟩ := Finset.mem_filter.mp hj
  rw [halone j (by rw [inv.size]; exact Finset.mem_range.mp hj1) hj2]
  refine unk_count h ?_ hk
  intro line hl hc
  obtain ⟨ws, hw⟩ := Words_total line
  have hnot := hunk line hl ws hw
  by_cases hne : ws = []
  · subst hne
    rw [utterance_of_ok (C01_blank line hw)] at hc
    cases hc
  · obtain ⟨pre, post, g1, g2, g3⟩ := C01_words line ws hw hne
    rw [utterance_of_ok g1] at hc
    rcases List.mem_append.mp hc with hc | hc
    · rcases List.mem_append.mp hc with hc | hc
      · rw [g2] at hc
        split at hc
        · cases hc
        · exact absurd (List.mem_singleton.mp hc) (by decide)
      · exact hnot hc
    · rw [g3] at hc
      split at hc
      · cases hc
      · exact absurd (List.mem_singleton.mp hc) (by decide)

/-! ## Examples -/

/-- A conversion between numbers and text: decimal integers, and a fraction of two unary numbers. -/
def exNumbers : Parsers where
  int s := if s ≠ [] ∧ s.all Char.isDigit then some (Nat.ofDigitChars 10 s 0) else none
  float := unary.parseScore

theorem exNumbers_faithful : FaithfulNumbers exNumbers unary.showScore := by
  refine ⟨?_, unary_faithful.score, fun q => ⟨(unary_faithful.score_text q).1, fun c hc => ((unary_faithful.score_text q).2 c hc).1⟩⟩
  intro n
  show exNumbers.int (decimal n) = _
  unfold exNumbers
  simp only
  rw [if_pos ⟨decimal_ne_nil n, List.all_eq_true.mpr (fun c hc => decimal_digit hc)⟩, decimal_eq,
    Nat.ofDigitChars_ten_toDigits]

/-- The hypotheses of `C84_classes`, `C84_violated_pipe` and `C84_violated_unk` are met: an optimizer with two normal
classes is created for a corpus without `<unk>`. -/
example (b : Backend) : ∃ cs, wctoolOptimizer exNumbers exCorpus none 2 b = .ok cs ∧ cs.1.backend = b ∧
    cs.1.vocab.idToWord = ["d".toList, "a".toList, "c".toList, "b".toList, sos, eos, unk] ∧ cs.1.numNormal = 2 ∧
    (∀ line ∈ exCorpus.flatten, unk ∉ pySplit line) := by
  cases b <;> decide +kernel

theorem classCount_ne_zero {n : Nat} {count : Nat → ℤ} (h : ∀ w < n, 0 < count w) (cl : Nat → Nat) {i : Nat} (hi : i < n) :
    classCount n count cl (cl i) ≠ 0 := by
  unfold classCount
  apply ne_of_gt
  apply Finset.sum_pos
  · intro w hw
    exact h w (Finset.mem_range.mp (Finset.mem_filter.mp hw).1)
  · exact ⟨i, Finset.mem_filter.mpr ⟨Finset.mem_range.mpr hi, rfl⟩⟩

/-- The hypothesis of `C84_srilm_partial` is met, when all the words occur in the training data: here `d` is an unknown
word. -/
example (b : Backend) : ∃ cs, wctoolOptimizer exNumbers exCorpus (some (["a 0".toList, "b 0".toList, "c 1".toList], .classes)) 0 b =
    .ok cs ∧ ∃ N s f v, (∀ fuel, N ≤ fuel →
      wctoolLoop unary.showScore .srilmClasses 1 cs.1 fuel cs.2 ⟨true, []⟩ = some (.ok (s, f))) ∧
      vocabFromFile exNumbers (fileLines f.text) .srilmClasses [] = .ok v := by
  have key : ∃ cs, wctoolOptimizer exNumbers exCorpus (some (["a 0".toList, "b 0".toList, "c 1".toList], .classes)) 0 b = .ok cs ∧
      cs.1.vocab.idToWord.length = cs.1.vocabularySize ∧ ∀ w < cs.1.vocabularySize, 0 < cs.1.wordCounts w := by
    cases b <;> decide +kernel
  obtain ⟨⟨cfg, s0⟩, h1, hlen, hpos⟩ := key
  refine ⟨_, h1, ?_⟩
  obtain ⟨N, s, f, g1, g2, g3, _⟩ := C84_srilm_partial _ _ exNumbers_faithful _ _ _ _ _ _ h1 1 []
  have hlen' : cfg.vocab.idToWord.length = cfg.vocabularySize := hlen
  obtain ⟨v, hv, _⟩ := g3 (fun i hi => classCount_ne_zero hpos _ (by show i < cfg.vocabularySize; omega))
  exact ⟨N, s, f, v, g1, hv⟩

end TheanoLM
