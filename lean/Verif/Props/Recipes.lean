import Verif.Lemmas.Recipes
import Verif.Lemmas.WordClassFile
/-!
# Properties of the recipes: C93 (fix-class-probabilities) and C94 (n-gram counts)
-/
set_option linter.unusedSectionVars false
namespace TheanoLM

/-! ## Reading the files -/

/-- Whether an n-gram is accepted by the limits of `read`. -/
def Accepted (maxOrder minCount : Option ℤ) (e : List Str × ℤ) : Prop :=
  (∀ m ∈ maxOrder, (e.1.length : ℤ) ≤ m) ∧ ∀ m ∈ minCount, m ≤ e.2

instance (maxOrder minCount : Option ℤ) (e : List Str × ℤ) : Decidable (Accepted maxOrder minCount e) := by
  unfold Accepted; infer_instance

theorem countsRead_fold {int : Str → Option ℤ} {lines : List Str} {es : List (List Str × ℤ)}
    (h : CountLines int lines es) (maxOrder minCount : Option ℤ) (counts : NGramCounts) :
    NGramCounts.read int maxOrder minCount lines counts =
      .ok ((es.filter (fun e => decide (Accepted maxOrder minCount e))).foldl (fun d e => dictSet d e.1 e.2) counts) := by
  induction h generalizing counts with
  | nil => rfl
  | cons a b lines ngram n es ht hw hn hr ih =>
    unfold NGramCounts.read
    rw [countFields_split a b ht, pySplit_of_Words hw]
    simp only
    by_cases h1 : maxOrder.any (fun m => decide (m < (ngram.length : ℤ))) = true
    · rw [if_pos h1, ih]
      have : ¬ Accepted maxOrder minCount (ngram, n) := by
        rintro ⟨g, _⟩
        cases maxOrder with
        | none => simp at h1
        | some m => simp at h1; have := g m rfl; simp only at this; omega
      rw [List.filter_cons_of_neg (by simpa using this)]
    · rw [if_neg h1, hn]
      simp only
      by_cases h2 : minCount.any (fun m => decide (n < m)) = true
      · rw [if_pos h2, ih]
        have : ¬ Accepted maxOrder minCount (ngram, n) := by
          rintro ⟨_, g⟩
          cases minCount with
          | none => simp at h2
          | some m => simp at h2; have := g m rfl; simp only at this; omega
        rw [List.filter_cons_of_neg (by simpa using this)]
      · rw [if_neg h2, ih]
        have : Accepted maxOrder minCount (ngram, n) := by
          constructor
          · intro m hm; cases hm; simp at h1; simpa using h1
          · intro m hm; cases hm; simp at h2; simpa using h2
        rw [List.filter_cons_of_pos (by simpa using this), List.foldl_cons]

theorem classesRead {float : Str → Option ℚ} {lines : List Str} {ds : List ((Str × Str) × ℚ)}
    (h : Definitions float lines ds) {classes : ClassDefs} {ds0 : List ((Str × Str) × ℚ)} (hi : ClassInv classes ds0) :
    ∃ classes', ClassDefs.read float lines classes = .ok classes' ∧ ClassInv classes' (ds0 ++ ds) := by
  induction h generalizing classes ds0 with
  | nil => exact ⟨classes, rfl, by simpa using hi⟩
  | blank line lines ds hw hr ih =>
    obtain ⟨c, h1, h2⟩ := ih hi
    refine ⟨c, ?_, h2⟩
    rw [ClassDefs.read, classFields, pySplit_of_Words hw]
    exact h1
  | mkcls line lines word number ds hw hr ih =>
    obtain ⟨c, h1, h2⟩ := ih (classInv_add hi (mkclsName number) word 0)
    refine ⟨c, ?_, by simpa using h2⟩
    rw [ClassDefs.read, classFields, pySplit_of_Words hw]
    exact h1
  | srilm line lines name prob word p ds hw hp hr ih =>
    obtain ⟨c, h1, h2⟩ := ih (classInv_add hi name word p)
    refine ⟨c, ?_, by simpa using h2⟩
    rw [ClassDefs.read, classFields, pySplit_of_Words hw]
    simp only [hp]
    exact h1

theorem classesRead_inv {float : Str → Option ℚ} (lines : List Str) {classes classes' : ClassDefs}
    (h : ClassDefs.read float lines classes = .ok classes') : ∃ ds, Definitions float lines ds := by
  induction lines generalizing classes with
  | nil => exact ⟨[], .nil⟩
  | cons line lines ih =>
    have hw := Words_pySplit line
    rw [ClassDefs.read] at h
    unfold classFields at h
    split at h
    · cases h
    · rename_i he
      obtain ⟨ds, hd⟩ := ih h
      split at he
      · rename_i hs; rw [hs] at hw; exact ⟨ds, .blank _ _ _ hw hd⟩
      · cases he
      · split at he <;> cases he
      · cases he
    · rename_i he
      obtain ⟨ds, hd⟩ := ih h
      split at he
      · cases he
      · rename_i hs; rw [hs] at hw; exact ⟨_, .mkcls _ _ _ _ _ hw hd⟩
      · rename_i hs
        rw [hs] at hw
        split at he
        · rename_i hp; exact ⟨_, .srilm _ _ _ _ _ _ _ hw hp hd⟩
        · cases he
      · cases he

theorem mkclsName_field {number : Str} (h : FieldWord number) : FieldWord (mkclsName number) := by
  have hz : ∀ k, ∀ c ∈ List.replicate k '0', isSpace c = false := by
    intro k c hc
    rw [List.eq_of_mem_replicate hc]; decide
  have hc : ∀ c ∈ zfill5 number, isSpace c = false := by
    intro c hc
    unfold zfill5 at hc
    split at hc
    · rcases List.mem_cons.mp hc with rfl | hc
      · decide
      · rcases List.mem_append.mp hc with hc | hc
        · exact hz _ c hc
        · exact h.2 c (List.mem_cons_of_mem _ hc)
    · rcases List.mem_cons.mp hc with rfl | hc
      · decide
      · rcases List.mem_append.mp hc with hc | hc
        · exact hz _ c hc
        · exact h.2 c (List.mem_cons_of_mem _ hc)
    · rcases List.mem_append.mp hc with hc | hc
      · exact hz _ c hc
      · exact h.2 c hc
  constructor
  · unfold mkclsName; simp
  · intro c hc'
    unfold mkclsName at hc'
    rcases List.mem_append.mp hc' with hc' | hc'
    · have : ∀ c ∈ "CLASS-".toList, isSpace c = false := by decide
      exact this c hc'
    · exact hc c hc'

theorem Definitions.fields {float : Str → Option ℚ} {lines : List Str} {ds : List ((Str × Str) × ℚ)}
    (h : Definitions float lines ds) : ∀ d ∈ ds, FieldWord d.1.1 ∧ FieldWord d.1.2 := by
  induction h with
  | nil => simp
  | blank line lines ds hw hr ih => exact ih
  | mkcls line lines word number ds hw hr ih =>
    intro d hd
    rcases List.mem_cons.mp hd with rfl | hd
    · have := Words_mem hw
      exact ⟨mkclsName_field (this number (by simp)), this word (by simp)⟩
    · exact ih d hd
  | srilm line lines name prob word p ds hw hp hr ih =>
    intro d hd
    rcases List.mem_cons.mp hd with rfl | hd
    · have := Words_mem hw
      exact ⟨this name (by simp), this word (by simp)⟩
    · exact ih d hd

/-! ## C93 -/

/-- The lines that are written of a class. -/
def outLines (wc : NGramCounts) (c : Str × List (Str × ℚ)) : List FixedLine :=
  (normalizeClass (fixClass wc c.2)).map (fun e => ⟨c.1, e.2, e.1⟩)

theorem outLines_words (wc : NGramCounts) (c : Str × List (Str × ℚ)) : (outLines wc c).map FixedLine.word = c.2.map Prod.fst := by
  unfold outLines normalizeClass
  rw [fixClass_spec]
  split <;> simp [Function.comp_def]

theorem lastOf_isSome {κ β : Type} [DecidableEq κ] (es : List (κ × β)) (k : κ) :
    (lastOf es k).isSome = true ↔ k ∈ es.map Prod.fst := by
  unfold lastOf
  rw [Option.isSome_map, Option.isSome_iff_ne_none, ne_eq, List.getLast?_eq_none_iff, List.filter_eq_nil_iff, List.mem_map]
  constructor
  · intro h
    by_contra hc
    apply h
    intro e he hk
    exact hc ⟨e, he, of_decide_eq_true hk⟩
  · rintro ⟨e, he, rfl⟩ h
    exact h e he (by simp)

theorem outLines_spec {wc : NGramCounts} {cs : List (List Str × ℤ)} {ds : List ((Str × Str) × ℚ)}
    (hcs : ∀ g, dictGet? wc g = lastOf cs g) {classes : ClassDefs} (hi : ClassInv classes ds)
    {c : Str × List (Str × ℚ)} (hc : c ∈ classes) {l : FixedLine} (hl : l ∈ outLines wc c) :
    l.prob = fixedProb ds cs (classes.flatMap (outLines wc)) c.1 l.word := by
  have hfilter : (classes.flatMap (outLines wc)).filter (fun l => decide (l.name = c.1)) = outLines wc c := by
    refine filter_class (outLines wc) FixedLine.name ?_ classes hi.names c hc
    intro d a ha
    unfold outLines at ha
    obtain ⟨e, _, rfl⟩ := List.mem_map.mp ha
    rfl
  have hgiven : ∀ e ∈ c.2, lastOf ds (c.1, e.1) = some e.2 := by
    intro e he
    rw [← hi.probs, dictGet?_of_mem hi.names hc]
    exact dictGet?_of_mem (hi.words c hc) he
  have htot : classTotal cs (classes.flatMap (outLines wc)) c.1 = (c.2.map (fun e => (dictGet? wc [e.1]).getD 0)).sum := by
    unfold classTotal
    rw [hfilter]
    have h1 : (outLines wc c).map (fun l => unigramCount cs l.word) =
        ((outLines wc c).map FixedLine.word).map (unigramCount cs) := by rw [List.map_map]; rfl
    rw [h1, outLines_words, List.map_map]
    congr 1
    apply List.map_congr_left
    intro e _
    simp only [Function.comp, unigramCount, hcs]
  have hgtot : givenTotal ds (classes.flatMap (outLines wc)) c.1 = (c.2.map Prod.snd).sum := by
    unfold givenTotal
    rw [hfilter]
    have h1 : (outLines wc c).map (fun l => (lastOf ds (c.1, l.word)).getD 0) =
        ((outLines wc c).map FixedLine.word).map (fun w => (lastOf ds (c.1, w)).getD 0) := by rw [List.map_map]; rfl
    rw [h1, outLines_words, List.map_map]
    congr 1
    apply List.map_congr_left
    intro e he
    simp only [Function.comp, hgiven e he, Option.getD_some]
  unfold fixedProb
  rw [htot, hgtot]
  unfold outLines at hl
  obtain ⟨e, he, rfl⟩ := List.mem_map.mp hl
  rw [fixClass_spec] at he
  split
  · rename_i hT
    rw [if_pos hT] at he
    unfold normalizeClass at he
    generalize hTdef : (c.2.map (fun e => (dictGet? wc [e.1]).getD 0)).sum = T at *
    have hs : ((c.2.map (fun e => (e.1, (((dictGet? wc [e.1]).getD 0 : ℤ) : ℚ) / (T : ℚ)))).map Prod.snd).sum = 1 := by
      rw [List.map_map]
      have h1 : (Prod.snd ∘ fun e : Str × ℚ => (e.1, (((dictGet? wc [e.1]).getD 0 : ℤ) : ℚ) / (T : ℚ))) =
          fun e => (((dictGet? wc [e.1]).getD 0 : ℤ) : ℚ) * (T : ℚ)⁻¹ := by
        funext e; simp [div_eq_mul_inv]
      rw [h1, List.sum_map_mul_right]
      have h2 : (c.2.map (fun e => (((dictGet? wc [e.1]).getD 0 : ℤ) : ℚ))).sum = (T : ℚ) := by
        rw [← hTdef]
        generalize c.2 = l
        induction l with
        | nil => simp
        | cons a l ih => rw [List.map_cons, List.sum_cons, ih, List.map_cons, List.sum_cons]; push_cast; rfl
      rw [h2]
      exact mul_inv_cancel₀ (by exact_mod_cast hT)
    simp only [hs] at he
    obtain ⟨e', he', rfl⟩ := List.mem_map.mp he
    obtain ⟨e'', he'', rfl⟩ := List.mem_map.mp he'
    simp [unigramCount, hcs]
  · rename_i hT
    rw [if_neg hT] at he
    unfold normalizeClass at he
    obtain ⟨e', he', rfl⟩ := List.mem_map.mp he
    simp only
    rw [hgiven e' he']
    split
    · simp only [Option.getD_some]; rw [mul_one_div]
    · rw [mul_zero]

theorem writeClasses_text (str : ℚ → Str) (wc : NGramCounts) (classes : ClassDefs) :
    ClassDefs.write str (classes.map (fun c => (c.1, fixClass wc c.2))) =
      ((classes.flatMap (outLines wc)).map (FixedLine.text str)).flatten := by
  unfold ClassDefs.write
  rw [List.map_map]
  induction classes with
  | nil => rfl
  | cons c cs ih =>
    rw [List.map_cons, List.flatten_cons, List.flatMap_cons, List.map_append, List.flatten_append, ih]
    congr 1
    simp only [Function.comp, writeClass, outLines, List.map_map]
    congr 1
    apply List.map_congr_left
    intro e _
    simp [FixedLine.text, joinSp]

/-- C93: fix-class-probabilities writes one line for each word of each class of its input, and the probability of a word
is its share of the unigram counts of the words of the class.  When the words of the class have not been counted, it is
the given probability, normalised over the class. -/
theorem C93_probabilities (P : Parsers) (str : ℚ → Str) (classLines countLines : List Str) (ds : List ((Str × Str) × ℚ))
    (cs : List (List Str × ℤ)) (hd : Definitions P.float classLines ds) (hc : CountLines P.int countLines cs) :
    ∃ out : List FixedLine,
      fixClassProbabilities P str classLines countLines = .ok ((out.map (FixedLine.text str)).flatten) ∧
      (out.map (fun l => (l.name, l.word))).Nodup ∧
      (∀ name word, (name, word) ∈ out.map (fun l => (l.name, l.word)) ↔ (name, word) ∈ ds.map Prod.fst) ∧
      ∀ l ∈ out, l.prob = fixedProb ds cs out l.name l.word := by
  obtain ⟨classes, h1, h2⟩ := classesRead hd (classes := []) (ds0 := [])
    ⟨by simp, by simp, by intro n w; simp [dictGet?, lastOf]⟩
  rw [List.nil_append] at h2
  have h3 := countsRead_fold hc none none []
  have hall : cs.filter (fun e => decide (Accepted none none e)) = cs := by
    rw [List.filter_eq_self]
    intro e _
    simp [Accepted]
  rw [hall] at h3
  generalize hwc : cs.foldl (fun d e => dictSet d e.1 e.2) ([] : NGramCounts) = wc at h3
  have hcs : ∀ g, dictGet? wc g = lastOf cs g := by
    intro g
    rw [← hwc]
    exact dictFold_get cs g
  have hname : ∀ c : Str × List (Str × ℚ), ∀ l ∈ outLines wc c, l.name = c.1 := by
    intro c l hl
    unfold outLines at hl
    obtain ⟨e, _, rfl⟩ := List.mem_map.mp hl
    rfl
  have hpair : ∀ c : Str × List (Str × ℚ), (outLines wc c).map (fun l => (l.name, l.word)) = c.2.map (fun e => (c.1, e.1)) := by
    intro c
    have : (outLines wc c).map (fun l => (l.name, l.word)) = ((outLines wc c).map FixedLine.word).map (fun w => (c.1, w)) := by
      rw [List.map_map]
      apply List.map_congr_left
      intro l hl
      simp [hname c l hl]
    rw [this, outLines_words, List.map_map]
    rfl
  refine ⟨classes.flatMap (outLines wc), ?_, ?_, ?_, ?_⟩
  · unfold fixClassProbabilities
    rw [h1, h3]
    simp only
    rw [writeClasses_text]
  · rw [List.map_flatMap]
    simp only [hpair]
    rw [List.nodup_flatMap]
    constructor
    · intro c hc'
      have := h2.words c hc'
      have he : c.2.map (fun e => (c.1, e.1)) = (c.2.map Prod.fst).map (fun w => (c.1, w)) := by rw [List.map_map]; rfl
      rw [he]
      exact List.Nodup.map (fun a b hab => by simpa using hab) this
    · have := h2.names
      rw [List.Nodup, List.pairwise_map] at this
      refine this.imp ?_
      intro a b hab x hx hy
      obtain ⟨e, _, rfl⟩ := List.mem_map.mp hx
      obtain ⟨e', _, he'⟩ := List.mem_map.mp hy
      exact hab (by simpa using (congrArg Prod.fst he').symm)
  · intro name word
    rw [← lastOf_isSome, ← h2.probs, List.map_flatMap]
    simp only [hpair]
    rw [List.mem_flatMap]
    constructor
    · rintro ⟨c, hc', hm⟩
      obtain ⟨e, he, hp⟩ := List.mem_map.mp hm
      cases hp
      rw [dictGet?_of_mem h2.names hc', Option.bind_some, dictGet?_of_mem (h2.words c hc') he]
      rfl
    · intro h
      cases hg : dictGet? classes name with
      | none => rw [hg] at h; simp at h
      | some ps =>
        rw [hg, Option.bind_some] at h
        obtain ⟨p, hp⟩ := Option.isSome_iff_exists.mp h
        exact ⟨_, dictGet?_mem hg, List.mem_map.mpr ⟨_, dictGet?_mem hp, rfl⟩⟩
  · intro l hl
    obtain ⟨c, hc', hm⟩ := List.mem_flatMap.mp hl
    rw [hname c l hm]
    exact outLines_spec hcs h2 hc' hm

theorem fixed_sum {ds : List ((Str × Str) × ℚ)} {cs : List (List Str × ℤ)} {out : List FixedLine}
    (h4 : ∀ l ∈ out, l.prob = fixedProb ds cs out l.name l.word) (name : Str) :
    ((out.filter (fun l => decide (l.name = name))).map FixedLine.prob).sum =
      if classTotal cs out name ≠ 0 ∨ 0 < givenTotal ds out name then 1 else 0 := by
  have hp : (out.filter (fun l => decide (l.name = name))).map FixedLine.prob =
      (out.filter (fun l => decide (l.name = name))).map (fun l => fixedProb ds cs out name l.word) := by
    apply List.map_congr_left
    intro l hl
    obtain ⟨hl1, hl2⟩ := List.mem_filter.mp hl
    rw [h4 l hl1, of_decide_eq_true hl2]
  rw [hp]
  unfold fixedProb
  by_cases hT : classTotal cs out name ≠ 0
  · rw [if_pos (.inl hT)]
    simp only [if_pos hT, div_eq_mul_inv]
    rw [List.sum_map_mul_right]
    have h2 : ((out.filter (fun l => decide (l.name = name))).map (fun l => (unigramCount cs l.word : ℚ))).sum =
        (classTotal cs out name : ℚ) := by
      unfold classTotal
      generalize out.filter (fun l => decide (l.name = name)) = ls
      induction ls with
      | nil => simp
      | cons a ls ih => rw [List.map_cons, List.sum_cons, ih, List.map_cons, List.sum_cons]; push_cast; rfl
    rw [h2]
    exact mul_inv_cancel₀ (by exact_mod_cast hT)
  · simp only [if_neg hT]
    by_cases hG : 0 < givenTotal ds out name
    · rw [if_pos (.inr hG)]
      simp only [if_pos hG, div_eq_mul_inv]
      rw [List.sum_map_mul_right]
      exact mul_inv_cancel₀ hG.ne'
    · rw [if_neg (by tauto)]
      simp [hG]

/-- C93: the probabilities of the words of a class sum to one, unless there are no counts and no probabilities. -/
theorem C93_sum (P : Parsers) (str : ℚ → Str) (classLines countLines : List Str) (ds : List ((Str × Str) × ℚ))
    (cs : List (List Str × ℤ)) (hd : Definitions P.float classLines ds) (hc : CountLines P.int countLines cs) :
    ∃ out : List FixedLine,
      fixClassProbabilities P str classLines countLines = .ok ((out.map (FixedLine.text str)).flatten) ∧
      ∀ name, ((out.filter (fun l => decide (l.name = name))).map FixedLine.prob).sum =
        if classTotal cs out name ≠ 0 ∨ 0 < givenTotal ds out name then 1 else 0 := by
  obtain ⟨out, h1, _, _, h4⟩ := C93_probabilities P str classLines countLines ds cs hd hc
  exact ⟨out, h1, fixed_sum h4⟩

/-- What a line says when it is read as a vocabulary. -/
def FixedLine.entry (l : FixedLine) : Option FileId × ℚ × Str := (some (.name l.name), l.prob, l.word)

theorem fixed_entries {P : Parsers} {str : ℚ → Str} (hf : ∀ q, P.float (str q) = some q) (hs : ∀ q, FieldWord (str q))
    (out : List FixedLine) (hw : ∀ l ∈ out, FieldWord l.name ∧ FieldWord l.word) :
    Entries P .srilmClasses (fileLines ((out.map (FixedLine.text str)).flatten)) (out.map FixedLine.entry) := by
  have hfields : ∀ l ∈ out, ∀ w ∈ [l.name, str l.prob, l.word], FieldWord w := by
    intro l hl w hw'
    simp only [List.mem_cons, List.not_mem_nil, or_false] at hw'
    rcases hw' with rfl | rfl | rfl
    · exact (hw l hl).1
    · exact hs _
    · exact (hw l hl).2
  rw [fileLines_flatten]
  · induction out with
    | nil => exact .nil
    | cons l out ih =>
      refine .cons _ _ _ _ _ (Words_newline (joinSp_Words _ (hfields l (by simp)))) (.srilm _ _ _ _ (hf _)) ?_
      exact ih (fun x hx => hw x (by simp [hx])) (fun x hx => hfields x (by simp [hx]))
  · intro t ht
    obtain ⟨l, hl, rfl⟩ := List.mem_map.mp ht
    exact ⟨_, rfl, joinSp_newline (hfields l hl)⟩

/-- C93, partial: when each word is in one class, the output can be read as a vocabulary, whose membership probabilities
are the probabilities above, if each class has counts or probabilities.  Otherwise reading the output fails. -/
theorem C93_vocabulary_partial (P : Parsers) (str : ℚ → Str) (hf : ∀ q, P.float (str q) = some q)
    (hs : ∀ q, FieldWord (str q)) (classLines countLines : List Str) (ds : List ((Str × Str) × ℚ))
    (cs : List (List Str × ℤ)) (hd : Definitions P.float classLines ds) (hc : CountLines P.int countLines cs)
    (hone : ∀ n n' w, (n, w) ∈ ds.map Prod.fst → (n', w) ∈ ds.map Prod.fst → n = n') :
    ∃ out text, fixClassProbabilities P str classLines countLines = .ok text ∧
      text = (out.map (FixedLine.text str)).flatten ∧
      (∀ name word, (name, word) ∈ out.map (fun l => (l.name, l.word)) ↔ (name, word) ∈ ds.map Prod.fst) ∧
      (((∀ d ∈ ds, classTotal cs out d.1.1 ≠ 0 ∨ 0 < givenTotal ds out d.1.1) ∧
        ∃ v, vocabFromFile P (fileLines text) .srilmClasses [] = .ok v ∧
          ∀ i l, out[i]? = some l → v.idToWord[i]? = some l.word ∧
            v.getWordProb i = .ok (fixedProb ds cs out l.name l.word)) ∨
       ((∃ d ∈ ds, classTotal cs out d.1.1 = 0 ∧ givenTotal ds out d.1.1 ≤ 0) ∧
        vocabFromFile P (fileLines text) .srilmClasses [] = .error .zeroDivision)) := by
  obtain ⟨out, h1, h2, h3, h4⟩ := C93_probabilities P str classLines countLines ds cs hd hc
  refine ⟨out, _, h1, rfl, h3, ?_⟩
  have hfield : ∀ l ∈ out, FieldWord l.name ∧ FieldWord l.word := by
    intro l hl
    obtain ⟨d, hd', he⟩ := List.mem_map.mp ((h3 l.name l.word).mp (List.mem_map.mpr ⟨l, hl, rfl⟩))
    have := hd.fields d hd'
    rw [he] at this
    exact this
  have hes := fixed_entries hf hs out hfield
  have hwords : (out.map FixedLine.entry).map entryWord = out.map FixedLine.word := by rw [List.map_map]; rfl
  have hnod : ((out.map FixedLine.entry).map entryWord).Nodup := by
    rw [hwords]
    refine (List.nodup_map_iff_inj_on (List.Nodup.of_map _ h2)).mpr ?_
    intro a ha b hb hab
    have ha' := (h3 a.name a.word).mp (List.mem_map.mpr ⟨a, ha, rfl⟩)
    have hb' := (h3 b.name b.word).mp (List.mem_map.mpr ⟨b, hb, rfl⟩)
    rw [← hab] at hb'
    have hn := hone _ _ _ ha' hb'
    exact List.inj_on_of_nodup_map h2 ha hb (by simp only [hn, hab])
  have hsum : ∀ l ∈ out, fileClassSum (out.map FixedLine.entry) l.entry =
      if classTotal cs out l.name ≠ 0 ∨ 0 < givenTotal ds out l.name then 1 else 0 := by
    intro l _
    rw [← fixed_sum h4]
    show (((out.map FixedLine.entry).filter (fun e' => decide (e'.1 = some (.name l.name)))).map (fun e' => e'.2.1)).sum = _
    rw [List.filter_map, List.map_map]
    congr 1
    have : ((fun e' : Option FileId × ℚ × Str => decide (e'.1 = some (.name l.name))) ∘ FixedLine.entry) =
        fun x : FixedLine => decide (x.name = l.name) := by
      funext x
      simp [FixedLine.entry]
    rw [this]
    rfl
  rcases C18_accepted P _ .srilmClasses [] _ hes hnod with ⟨k1, v, k2⟩ | ⟨⟨e, he, k1⟩, k2⟩
  · left
    have hall : ∀ l ∈ out, classTotal cs out l.name ≠ 0 ∨ 0 < givenTotal ds out l.name := by
      intro l hl
      have := k1 l.entry (List.mem_map_of_mem hl)
      rw [hsum l hl] at this
      by_contra hc
      rw [if_neg hc] at this
      exact this rfl
    refine ⟨?_, v, k2, ?_⟩
    · intro d hd'
      obtain ⟨l, hl, he⟩ := List.mem_map.mp ((h3 d.1.1 d.1.2).mpr (List.mem_map.mpr ⟨d, hd', rfl⟩))
      have hn : l.name = d.1.1 := congrArg Prod.fst he
      rw [← hn]
      exact hall l hl
    · intro i l hi
      have hm := List.mem_of_getElem? hi
      have hi' : (out.map FixedLine.entry)[i]? = some l.entry := by rw [List.getElem?_map, hi]; rfl
      constructor
      · obtain ⟨es, rest, g1, _, g3, _⟩ := C18_contents P _ .srilmClasses [] v k2
        have : es = out.map FixedLine.entry := by
          rw [Entries_iff] at g1 hes
          rw [hes] at g1
          injection g1 with g1
          exact g1.symm
        subst this
        rw [g3, hwords, List.append_assoc]
        have hlen : i < (out.map FixedLine.word).length := by
          rw [List.length_map]; exact (List.getElem?_eq_some_iff.mp hi).1
        rw [List.getElem?_append_left hlen, List.getElem?_map, hi]
        rfl
      · rw [C18_probs P _ .srilmClasses [] v k2 _ hes i _ hi', hsum l hm, if_pos (hall l hm), div_one]
        exact congrArg Except.ok (h4 l hm)
  · right
    refine ⟨?_, k2⟩
    obtain ⟨l, hl, rfl⟩ := List.mem_map.mp he
    rw [hsum l hl] at k1
    obtain ⟨d, hd', hde⟩ := List.mem_map.mp ((h3 l.name l.word).mp (List.mem_map.mpr ⟨l, hl, rfl⟩))
    have hn : d.1.1 = l.name := congrArg Prod.fst hde
    refine ⟨d, hd', ?_⟩
    rw [hn]
    by_cases hc : classTotal cs out l.name ≠ 0 ∨ 0 < givenTotal ds out l.name
    · rw [if_pos hc] at k1; simp at k1
    · rw [not_or, not_not, not_lt] at hc; exact hc

/-- C93: a file of class definitions with a line that has one field or more than three, or whose probability is not a
number, is rejected. -/
theorem C93_rejected (P : Parsers) (str : ℚ → Str) (classLines countLines : List Str)
    (h : ¬ ∃ ds, Definitions P.float classLines ds) :
    ∃ e, fixClassProbabilities P str classLines countLines = .error e := by
  unfold fixClassProbabilities
  cases hr : ClassDefs.read P.float classLines [] with
  | error e => exact ⟨e, rfl⟩
  | ok classes => exact absurd (classesRead_inv classLines hr) h

/-- The name of a class that has a number: the number is padded with zeros to five digits. -/
theorem C93_name (number : Str) (h : ∀ c ∈ number, c.isDigit = true) :
    mkclsName number = "CLASS-".toList ++ (List.replicate (5 - number.length) '0' ++ number) := by
  unfold mkclsName
  congr 1
  unfold zfill5
  split
  · exact absurd (h '+' (by simp)) (by decide)
  · exact absurd (h '-' (by simp)) (by decide)
  · rfl

/-! ### Examples -/

/-- Numbers as single digits for the examples, with white space around them. -/
def exIntParsers : Parsers where
  int s := match pySplit s with
    | [[c]] => if c.isDigit then some (c.toNat - 48 : ℤ) else none
    | _ => none
  float := exParsers.float

/-- Two classes: the words of the first have been counted, and those of the second have not. -/
def exClassLines : List Str := ["a 7\n".toList, "\n".toList, "X 1 b\n".toList, "c 7\n".toList, "X 3 d".toList]
/-- Counts of a bigram and of unigrams; the last count of "a" is the one that is used. -/
def exCountLines : List Str := ["a c\t9\n".toList, "a\t5\n".toList, "c\t3\n".toList, "a\t1\n".toList]

example : Definitions exIntParsers.float exClassLines [(("CLASS-00007".toList, "a".toList), 0), (("X".toList, "b".toList), 1),
    (("CLASS-00007".toList, "c".toList), 0), (("X".toList, "d".toList), 3)] := by
  have h7 : mkclsName "7".toList = "CLASS-00007".toList := by decide
  rw [← h7]
  refine .mkcls _ _ "a".toList "7".toList _ ?_ (.blank _ _ _ ?_ (.srilm _ _ "X".toList "1".toList "b".toList _ _ ?_ (by decide +kernel)
    (.mkcls _ _ "c".toList "7".toList _ ?_ (.srilm _ _ "X".toList "3".toList "d".toList _ _ ?_ (by decide +kernel) .nil))))
  · have := Words_pySplit "a 7\n".toList; exact this
  · have := Words_pySplit "\n".toList; exact this
  · have := Words_pySplit "X 1 b\n".toList; exact this
  · have := Words_pySplit "c 7\n".toList; exact this
  · have := Words_pySplit "X 3 d".toList; exact this

example : CountLines exIntParsers.int exCountLines [(["a".toList, "c".toList], 9), (["a".toList], 5), (["c".toList], 3),
    (["a".toList], 1)] := by
  refine .cons "a c".toList "9\n".toList _ _ _ _ (by decide) ?_ (by decide +kernel) (.cons "a".toList "5\n".toList _ _ _ _ (by decide) ?_
    (by decide +kernel) (.cons "c".toList "3\n".toList _ _ _ _ (by decide) ?_ (by decide +kernel)
      (.cons "a".toList "1\n".toList _ _ _ _ (by decide) ?_ (by decide +kernel) .nil)))
  · have := Words_pySplit "a c".toList; exact this
  · have := Words_pySplit "a".toList; exact this
  · have := Words_pySplit "c".toList; exact this
  · have := Words_pySplit "a".toList; exact this

/-- Text of the numbers of the example. -/
def exShowFixed (q : ℚ) : Str :=
  if q = 1 / 4 then "0.25".toList else if q = 3 / 4 then "0.75".toList else if q = 0 then "0".toList else "1".toList

example : fixClassProbabilities exIntParsers exShowFixed exClassLines exCountLines =
    .ok "CLASS-00007 0.25 a\nCLASS-00007 0.75 c\nX 0.25 b\nX 0.75 d\n".toList := by decide +kernel

/-- C93 is violated: when the words of a class of a file in mkcls format do not have counts, the script writes a file that
cannot be read as a vocabulary. -/
theorem C93_violated : ∃ (P : Parsers) (str : ℚ → Str) (classLines countLines : List Str) (text : Str),
    fixClassProbabilities P str classLines countLines = .ok text ∧
    vocabFromFile P (fileLines text) .srilmClasses [] = .error .zeroDivision :=
  ⟨exIntParsers, exShowFixed, ["a 1\n".toList, "b 2\n".toList], ["a\t2\n".toList],
    "CLASS-00001 1 a\nCLASS-00002 0 b\n".toList, by decide +kernel, by decide +kernel⟩

/-! ## C94 -/

/-- C94, reading: each line gives the count of an n-gram, the lines outside the limits are ignored, and the last count of
an n-gram is used. -/
theorem C94_read (int : Str → Option ℤ) (lines : List Str) (es : List (List Str × ℤ)) (h : CountLines int lines es)
    (maxOrder minCount : Option ℤ) :
    ∃ counts, NGramCounts.read int maxOrder minCount lines [] = .ok counts ∧ (counts.map Prod.fst).Nodup ∧
      ∀ g, dictGet? counts g = lastOf (es.filter (fun e =>
        decide ((∀ m ∈ maxOrder, (e.1.length : ℤ) ≤ m) ∧ ∀ m ∈ minCount, m ≤ e.2))) g :=
  ⟨_, countsRead_fold h maxOrder minCount [], dictFold_keys _ _ (by simp), fun g => dictFold_get _ g⟩

theorem dictFold_new {κ β : Type} [DecidableEq κ] (es d : List (κ × β)) (h : ((d ++ es).map Prod.fst).Nodup) :
    es.foldl (fun d e => dictSet d e.1 e.2) d = d ++ es := by
  induction es generalizing d with
  | nil => simp
  | cons e es ih =>
    have hk : e.1 ∉ d.map Prod.fst := by
      rw [List.map_append, List.map_cons] at h
      intro hc
      exact (List.nodup_append.mp h).2.2 _ hc _ (by simp) rfl
    rw [List.foldl_cons, dictSet_new _ _ _ hk, ih]
    · simp
    · simpa using h

theorem joinSp_tab {ws : List Str} (h : ∀ w ∈ ws, FieldWord w) : '\t' ∉ joinSp ws := by
  induction ws with
  | nil => simp [joinSp]
  | cons w ws ih =>
    have hw : '\t' ∉ w := by
      intro hc
      have := (h w (by simp)).2 _ hc
      revert this; decide
    cases ws with
    | nil => exact hw
    | cons w' ws =>
      intro hc
      rw [joinSp] at hc
      · rcases List.mem_append.mp hc with hc | hc
        · exact hw hc
        · rcases List.mem_cons.mp hc with hc | hc
          · revert hc; decide
          · exact ih (fun x hx => h x (by simp [hx])) hc
      · simp

theorem write_lines {int : Str → Option ℤ} {str : ℤ → Str} (hint : ∀ n, int (str n ++ ['\n']) = some n)
    (hstr : ∀ n, '\n' ∉ str n) (counts : NGramCounts) (hw : ∀ e ∈ counts, ∀ w ∈ e.1, FieldWord w) :
    CountLines int (fileLines (NGramCounts.write str counts)) counts := by
  unfold NGramCounts.write
  rw [fileLines_flatten]
  · induction counts with
    | nil => exact .nil
    | cons e counts ih =>
      have he := hw e (by simp)
      refine .cons _ _ _ _ _ _ (joinSp_tab he) (joinSp_Words _ he) (hint _) (ih (fun x hx => hw x (by simp [hx])))
  · intro t ht
    obtain ⟨e, he, rfl⟩ := List.mem_map.mp ht
    refine ⟨joinSp e.1 ++ '\t' :: str e.2, by simp, ?_⟩
    intro hc
    rcases List.mem_append.mp hc with hc | hc
    · exact joinSp_newline (hw e he) hc
    · rcases List.mem_cons.mp hc with hc | hc
      · revert hc; decide
      · exact hstr _ hc

/-- C94, round trip: reading what was written gives the same counts in the same order, without the n-grams that are
outside the limits. -/
theorem C94_round_trip (int : Str → Option ℤ) (str : ℤ → Str) (hint : ∀ n, int (str n ++ ['\n']) = some n)
    (hstr : ∀ n, '\n' ∉ str n) (counts : NGramCounts) (hk : (counts.map Prod.fst).Nodup)
    (hw : ∀ e ∈ counts, ∀ w ∈ e.1, w ≠ [] ∧ ∀ c ∈ w, isSpace c = false) (maxOrder minCount : Option ℤ) :
    NGramCounts.read int maxOrder minCount (fileLines (NGramCounts.write str counts)) [] =
      .ok (counts.filter (fun e => decide ((∀ m ∈ maxOrder, (e.1.length : ℤ) ≤ m) ∧ ∀ m ∈ minCount, m ≤ e.2))) := by
  rw [countsRead_fold (write_lines hint hstr counts hw), dictFold_new]
  · rfl
  · rw [List.nil_append]
    exact hk.sublist (List.filter_sublist.map _)

/-- C94, counting: after `from_text`, an n-gram has a count exactly when it has at least one word and at most `max_order`
words and it occurs in the text, and the count is the number of its occurrences in the sequence of all words. -/
theorem C94_text (lines : List Str) (maxOrder : Nat) (wss : List (List Str)) (h : List.Forall₂ Words lines wss) :
    ((NGramCounts.fromText lines maxOrder []).map Prod.fst).Nodup ∧
    ∀ g, dictGet? (NGramCounts.fromText lines maxOrder []) g =
      if g ≠ [] ∧ g.length ≤ maxOrder ∧ 0 < ngramCount g wss.flatten then some (ngramCount g wss.flatten : ℤ) else none := by
  have hs : lines.map pySplit = wss := by
    induction h with
    | nil => rfl
    | cons h _ ih => rw [List.map_cons, ih, pySplit_of_Words h]
  have := textInv_lines lines (textInv_empty maxOrder)
  rw [List.nil_append, hs] at this
  exact ⟨this.keys, this.count⟩

/-- Counting the places where an n-gram ends is the same as counting those where it begins. -/
theorem ngramCount_begin (g ws : List Str) :
    ngramCount g ws = ((List.range (ws.length + 1)).filter (fun k => decide (g <+: ws.drop k))).length := by
  have hcard : ∀ p : Nat → Prop, [DecidablePred p] → ((List.range (ws.length + 1)).filter (fun k => decide (p k))).length =
      ((Finset.range (ws.length + 1)).filter p).card := by
    intro p _
    rfl
  unfold ngramCount
  rw [hcard, hcard]
  refine (Finset.card_nbij' (fun k => k + g.length) (fun k => k - g.length) ?_ ?_ ?_ ?_).symm
  · intro k hk
    simp only [Finset.coe_filter, Finset.mem_range, Set.mem_ofPred_eq] at hk ⊢
    obtain ⟨hk1, t, ht⟩ := hk
    have hl := congrArg List.length ht
    rw [List.length_append, List.length_drop] at hl
    refine ⟨by omega, ws.take k, ?_⟩
    rw [List.take_add, ← ht]
    simp
  · intro k hk
    simp only [Finset.coe_filter, Finset.mem_range, Set.mem_ofPred_eq] at hk ⊢
    obtain ⟨hk1, hs⟩ := hk
    have hl := hs.length_le
    rw [List.length_take] at hl
    have hd := (List.suffix_iff_eq_drop.mp hs)
    rw [List.length_take, Nat.min_eq_left (by omega)] at hd
    refine ⟨by omega, ?_⟩
    have : g = (ws.drop (k - g.length)).take (k - (k - g.length)) := by rw [← List.drop_take]; exact hd
    have hp := List.take_prefix (k - (k - g.length)) (ws.drop (k - g.length))
    rw [← this] at hp
    exact hp
  · intro k _
    simp
  · intro k hk
    simp only [Finset.coe_filter, Finset.mem_range, Set.mem_ofPred_eq] at hk
    have hl := hk.2.length_le
    rw [List.length_take] at hl
    simp only
    omega

/-- C94, queries: `level` gives the n-grams of a length once each, and the other two count the n-grams, and the n-grams
that have a count in another collection too. -/
theorem C94_queries (counts other : NGramCounts) (hk : (counts.map Prod.fst).Nodup) :
    (∀ n, (counts.level n).Nodup ∧ ∀ g, g ∈ counts.level n ↔ (dictGet? counts g).isSome = true ∧ g.length = n) ∧
    counts.numNGrams = (counts.map Prod.fst).toFinset.card ∧
    counts.numContained other = ((counts.map Prod.fst).toFinset ∩ (other.map Prod.fst).toFinset).card := by
  have hmem : ∀ (d : NGramCounts) (g : List Str), (dictGet? d g).isSome = true ↔ g ∈ d.map Prod.fst := by
    intro d g
    rw [Option.isSome_iff_ne_none, ne_eq, dictGet?_none, not_not]
  refine ⟨fun n => ⟨?_, fun g => ?_⟩, ?_, ?_⟩
  · exact hk.sublist (List.filter_sublist.map _)
  · rw [hmem, NGramCounts.level, List.mem_map, List.mem_map]
    constructor
    · rintro ⟨e, he, rfl⟩
      obtain ⟨h1, h2⟩ := List.mem_filter.mp he
      exact ⟨⟨e, h1, rfl⟩, of_decide_eq_true h2⟩
    · rintro ⟨⟨e, he, rfl⟩, h2⟩
      exact ⟨e, List.mem_filter.mpr ⟨he, by simpa using h2⟩, rfl⟩
  · rw [List.toFinset_card_of_nodup hk, List.length_map]; rfl
  · have : (counts.map Prod.fst).toFinset ∩ (other.map Prod.fst).toFinset =
        ((counts.filter (fun e => (dictGet? other e.1).isSome)).map Prod.fst).toFinset := by
      ext g
      rw [Finset.mem_inter, List.mem_toFinset, List.mem_toFinset, List.mem_toFinset, ← hmem other, List.mem_map, List.mem_map]
      constructor
      · rintro ⟨⟨e, he, rfl⟩, h2⟩
        exact ⟨e, List.mem_filter.mpr ⟨he, h2⟩, rfl⟩
      · rintro ⟨e, he, rfl⟩
        obtain ⟨h1, h2⟩ := List.mem_filter.mp he
        exact ⟨⟨e, h1, rfl⟩, h2⟩
    rw [this, List.toFinset_card_of_nodup (hk.sublist (List.filter_sublist.map _)), List.length_map]
    rfl

/-- C94, pruning, partial: `prune_count` works only when there is nothing to prune. -/
theorem C94_prune_partial (counts : NGramCounts) (n : ℤ) :
    ((∀ e ∈ counts, n < e.2) ∧ counts.pruneCount n = .ok counts) ∨
    ((∃ e ∈ counts, e.2 ≤ n) ∧ counts.pruneCount n = .error .nameError) := by
  unfold NGramCounts.pruneCount
  by_cases h : ∃ e ∈ counts, e.2 ≤ n
  · right
    refine ⟨h, ?_⟩
    obtain ⟨e, he, hn⟩ := h
    have : e.1 ∈ (counts.filter (fun e => decide (e.2 ≤ n))).map Prod.fst :=
      List.mem_map.mpr ⟨e, List.mem_filter.mpr ⟨he, by simpa using hn⟩, rfl⟩
    split
    · rename_i hc; rw [hc] at this; cases this
    · rfl
  · left
    have hall : ∀ e ∈ counts, n < e.2 := fun e he => not_le.mp (fun hc => h ⟨e, he, hc⟩)
    refine ⟨hall, ?_⟩
    have : counts.filter (fun e => decide (e.2 ≤ n)) = [] := by
      rw [List.filter_eq_nil_iff]
      intro e he
      have := hall e he
      simp only [decide_eq_true_eq]
      omega
    rw [this]
    rfl

/-- C94 is violated: removing the n-grams whose count is at most one fails after counting a text. -/
theorem C94_violated : (NGramCounts.fromText ["a b a".toList] 1 []).pruneCount 1 = .error .nameError := by decide +kernel

example : NGramCounts.fromText ["a b\n".toList, " a b".toList] 2 [] =
    [(["a".toList], 2), (["b".toList], 2), (["a".toList, "b".toList], 2), (["b".toList, "a".toList], 1)] := by decide +kernel

example : List.Forall₂ Words ["a b\n".toList, " a b".toList] [["a".toList, "b".toList], ["a".toList, "b".toList]] :=
  .cons (by have := Words_pySplit "a b\n".toList; exact this) (.cons (by have := Words_pySplit " a b".toList; exact this) .nil)

/-! ## C95 -/

/-- C95, creating: `create` always ends, it adds an empty class after the others, and the name of the class is a number that
is not below the earlier ones and that no class has as its name. -/
theorem C95_create (classes : ClassDefs) (nextId : Nat) :
    ∃ n, nextId ≤ n ∧ className n ∉ classes.map Prod.fst ∧ (∀ m, nextId ≤ m → m < n → className m ∈ classes.map Prod.fst) ∧
      ∃ N, ∀ fuel, N ≤ fuel →
        classes.create fuel nextId = some (className n, classes ++ [(className n, [])], n + 1) := by
  have hmem : ∀ g, (dictGet? classes g).isSome = true ↔ g ∈ classes.map Prod.fst := by
    intro g
    rw [Option.isSome_iff_ne_none, ne_eq, dictGet?_none, not_not]
  have hex : ∃ k, className (nextId + k) ∉ classes.map Prod.fst := by
    by_contra hc
    push Not at hc
    have hinj : Function.Injective (fun k => className (nextId + k)) := fun a b hab => by
      have := className_inj hab
      omega
    exact Set.infinite_range_of_injective hinj ((classes.map Prod.fst).finite_toSet.subset
      (by rintro _ ⟨k, rfl⟩; exact hc k))
  classical
  have hstep : ∀ k start, className (start + k) ∉ classes.map Prod.fst →
      (∀ m, m < k → className (start + m) ∈ classes.map Prod.fst) → ∀ fuel, k + 1 ≤ fuel →
      classes.create fuel start = some (className (start + k), classes ++ [(className (start + k), [])], start + k + 1) := by
    intro k
    induction k with
    | zero =>
      intro start h1 _ fuel hf
      obtain ⟨f, rfl⟩ : ∃ f, fuel = f + 1 := ⟨fuel - 1, by omega⟩
      unfold ClassDefs.create
      have hn : ¬ (dictGet? classes (className start)).isSome = true := fun hc => h1 ((hmem _).mp hc)
      show (if (dictGet? classes (className start)).isSome = true then _ else
        some (className start, dictSet classes (className start) [], start + 1)) = _
      rw [Nat.add_zero] at h1 ⊢; rw [if_neg hn, dictSet_new _ _ _ h1]
      rfl
    | succ k ih =>
      intro start h1 h2 fuel hf
      obtain ⟨f, rfl⟩ : ∃ f, fuel = f + 1 := ⟨fuel - 1, by omega⟩
      unfold ClassDefs.create
      have hn : (dictGet? classes (className start)).isSome = true := (hmem _).mpr (h2 0 (by omega))
      show (if (dictGet? classes (className start)).isSome = true then classes.create f (start + 1) else _) = _
      rw [if_pos hn]
      have hadd : start + (k + 1) = start + 1 + k := by omega
      rw [hadd] at h1 ⊢
      refine ih (start + 1) h1 ?_ f (by omega)
      intro m hm
      have := h2 (m + 1) (by omega)
      rwa [show start + (m + 1) = start + 1 + m by omega] at this
  refine ⟨nextId + Nat.find hex, by omega, Nat.find_spec hex, ?_, Nat.find hex + 1, ?_⟩
  · intro m h1 h2
    have := Nat.find_min hex (m := m - nextId) (by omega)
    rw [not_not, show nextId + (m - nextId) = m by omega] at this
    exact this
  · intro fuel hf
    refine hstep _ _ (Nat.find_spec hex) ?_ fuel hf
    intro m hm
    have := Nat.find_min hex hm
    rwa [not_not] at this

/-- The names of the classes that have a word, in order. -/
def classesOf (classes : ClassDefs) (word : Str) : List Str :=
  (classes.filter (fun c => decide (word ∈ c.2.map Prod.fst))).map Prod.fst

theorem wordsToClasses_class (name : Str) (ps : List (Str × ℚ)) (map : List (Str × Str)) (word : Str) :
    dictGet? (ps.foldl (fun map e => dictSet map e.1 name) map) word =
      if word ∈ ps.map Prod.fst then some name else dictGet? map word := by
  induction ps generalizing map with
  | nil => simp
  | cons e ps ih =>
    rw [List.foldl_cons, ih, dictGet?_set, List.map_cons]
    by_cases h1 : word ∈ ps.map Prod.fst
    · rw [if_pos h1, if_pos (List.mem_cons_of_mem _ h1)]
    · rw [if_neg h1]
      by_cases h2 : word = e.1
      · rw [if_pos h2, if_pos (by rw [h2]; exact List.mem_cons_self)]
      · rw [if_neg h2, if_neg (by simp only [List.mem_cons, not_or]; exact ⟨h2, h1⟩)]

theorem wordsToClasses_get (classes : ClassDefs) (map : List (Str × Str)) (word : Str) :
    dictGet? (classes.foldl (fun map c => c.2.foldl (fun map e => dictSet map e.1 c.1) map) map) word =
      ((classesOf classes word).getLast?).or (dictGet? map word) := by
  induction classes generalizing map with
  | nil => rfl
  | cons c cs ih =>
    rw [List.foldl_cons, ih, wordsToClasses_class]
    unfold classesOf
    by_cases h : word ∈ c.2.map Prod.fst
    · rw [if_pos h, List.filter_cons_of_pos (by simpa using h), List.map_cons, List.getLast?_cons]
      cases ((cs.filter (fun c => decide (word ∈ c.2.map Prod.fst))).map Prod.fst).getLast? <;> simp
    · rw [if_neg h, List.filter_cons_of_neg (by simpa using h)]

/-- C95, finding: `find_containing` gives the first class that has the word, and a `WordsToClasses` gives the last.  Both
have nothing for a word exactly when no class has it. -/
theorem C95_find (classes : ClassDefs) (word : Str) :
    classes.findContaining word = (classesOf classes word).head? ∧
    dictGet? (wordsToClasses classes) word = (classesOf classes word).getLast? := by
  constructor
  · unfold ClassDefs.findContaining classesOf
    rw [List.head?_map, List.head?_filter]
    congr 2
    funext c
    rw [Bool.eq_iff_iff, Option.isSome_iff_ne_none, ne_eq, dictGet?_none, not_not]
    simp
  · unfold wordsToClasses
    rw [wordsToClasses_get]
    cases (classesOf classes word).getLast? <;> rfl

/-- C95: they agree when the word is in one class only. -/
theorem C95_agree (classes : ClassDefs) (hn : (classes.map Prod.fst).Nodup) (word : Str)
    (hone : ∀ c ∈ classes, ∀ c' ∈ classes, word ∈ c.2.map Prod.fst → word ∈ c'.2.map Prod.fst → c.1 = c'.1) :
    classes.findContaining word = dictGet? (wordsToClasses classes) word := by
  obtain ⟨h1, h2⟩ := C95_find classes word
  rw [h1, h2]
  have hsub : (classesOf classes word).Nodup := hn.sublist (List.filter_sublist.map _)
  have hall : ∀ a ∈ classesOf classes word, ∀ b ∈ classesOf classes word, a = b := by
    intro a ha b hb
    unfold classesOf at ha hb
    obtain ⟨c, hc, rfl⟩ := List.mem_map.mp ha
    obtain ⟨c', hc', rfl⟩ := List.mem_map.mp hb
    obtain ⟨g1, g2⟩ := List.mem_filter.mp hc
    obtain ⟨g3, g4⟩ := List.mem_filter.mp hc'
    exact hone c g1 c' g3 (of_decide_eq_true g2) (of_decide_eq_true g4)
  match hl : classesOf classes word, hsub, hall with
  | [], _, _ => rfl
  | [a], _, _ => rfl
  | a :: b :: l, hs, ha =>
    have := ha a (by simp) b (by simp)
    rw [this] at hs
    simp at hs

/-- Two classes that have a word in common. -/
def exClassDefs : ClassDefs := [(className 1, [("a".toList, 1)]), (className 3, [("b".toList, 1), ("a".toList, 0)])]

example : exClassDefs.findContaining "a".toList = some (className 1) ∧
    dictGet? (wordsToClasses exClassDefs) "a".toList = some (className 3) ∧
    (exClassDefs.create 2 1).map (fun r => (r.1, r.2.2)) = some ("CLASS-00002".toList, 3) := by
  decide +kernel

end TheanoLM
