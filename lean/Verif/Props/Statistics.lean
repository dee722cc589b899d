import Verif.Lemmas.Statistics
import Verif.Props.PrepareBatch
/-!
# Properties of corpus statistics: C19
-/
namespace TheanoLM

/-! ## Specification -/

/-- `us` are the utterances of the lines of all the files, in order. -/
def UtterancesOf (files : List (List Str)) (us : List (List Str)) : Prop :=
  List.Forall₂ (fun l u => utteranceFromLine l = .ok u) files.flatten us

/-- `ids` are the utterances `us` as word IDs; a word outside the vocabulary is represented by `<unk>`. -/
def IdsOf (v : Vocab) (unkId : Nat) (us : List (List Str)) (ids : List (List Nat)) : Prop :=
  List.Forall₂ (List.Forall₂ (IdOf v false unkId)) us ids

/-- Number of positions of a list where `a` is immediately followed by `b`. -/
def adjacent [DecidableEq α] (a b : α) (s : List α) : Nat :=
  ((List.range s.length).filter (fun i => decide (s[i]? = some a ∧ s[i + 1]? = some b))).length

/-! ## Proofs -/

theorem adjacent_eq [DecidableEq α] (a b : α) (s : List α) : adjacent a b s = pairCount a b s := by
  induction s with
  | nil => rfl
  | cons x s ih =>
    unfold adjacent at ih ⊢
    rw [List.length_cons, List.range_succ_eq_map, List.filter_cons, List.filter_map, ]
    have e : ((fun i => decide ((x :: s)[i]? = some a ∧ (x :: s)[i + 1]? = some b)) ∘ Nat.succ) =
        (fun i => decide (s[i]? = some a ∧ s[i + 1]? = some b)) := by
      funext i; simp
    rw [e]
    cases s with
    | nil => simp [pairCount]
    | cons y s =>
      rw [pairCount, ← ih]
      by_cases h : x = a ∧ y = b
      · obtain ⟨rfl, rfl⟩ := h
        simp; omega
      · have : decide ((x :: y :: s)[0]? = some a ∧ (x :: y :: s)[0 + 1]? = some b) = false := by simpa using h
        rw [this]; simp [h]

theorem utterancesOf_eq {files : List (List Str)} {us : List (List Str)} (h : UtterancesOf files us) :
    us = files.flatten.map utterance := by
  unfold UtterancesOf at h
  generalize files.flatten = ls at h
  induction h with
  | nil => rfl
  | cons h _ ih => rw [List.map_cons, utterance_of_ok h, ih]

theorem sequenceId_eq {v : Vocab} (hn : v.idToWord.Nodup) {unkId : Nat} {w : Str} {i : Nat}
    (h : IdOf v false unkId w i) : sequenceId v unkId w = i := by
  unfold sequenceId
  cases h with
  | known _ hk _ =>
    have : v.wordToId w = some i := (wordToId_iff hn).mpr hk
    rw [this]
  | outOfShortlist _ _ hk _ => cases hk
  | unknown hk =>
    have : v.wordToId w = none := wordToId_none.mpr hk
    rw [this]

theorem idsOf_eq {v : Vocab} (hn : v.idToWord.Nodup) {unkId : Nat} {us : List (List Str)} {ids : List (List Nat)}
    (h : IdsOf v unkId us ids) : ids = us.map (List.map (sequenceId v unkId)) := by
  unfold IdsOf at h
  induction h with
  | nil => rfl
  | cons h _ ih =>
    rw [List.map_cons, ← ih]
    congr 1
    induction h with
    | nil => rfl
    | cons h _ ih => rw [List.map_cons, sequenceId_eq hn h, ← ih]

/-- C19: the counts of the words are their numbers of occurrences in the utterances; each word is listed once. -/
theorem C19_words (files us : List (List Str)) (h : UtterancesOf files us) :
    ((computeWordCounts files).map Prod.fst).Nodup ∧
    ∀ w n, (w, n) ∈ computeWordCounts files ↔ (w ∈ us.flatten ∧ n = us.flatten.count w) := by
  have hi := computeWordCounts_inv files
  rw [← utterancesOf_eq h] at hi
  refine ⟨hi.keys, ?_⟩
  intro w n
  have key : (w, n) ∈ computeWordCounts files ↔ dictGet? (computeWordCounts files) w = some n := by
    have hk := hi.keys
    generalize computeWordCounts files = d at hk
    induction d with
    | nil => simp [dictGet?]
    | cons p d ih =>
      rw [List.map_cons, List.nodup_cons] at hk
      have ih := ih hk.2
      rw [dictGet?_cons, List.mem_cons]
      by_cases hp : p.1 = w
      · rw [if_pos hp]
        constructor
        · rintro (h | h)
          · rw [← h]
          · exfalso
            apply hk.1
            rw [hp]
            exact List.mem_map_of_mem (f := Prod.fst) h
        · intro h
          left
          rw [← hp]
          cases h; rfl
      · rw [if_neg hp]
        constructor
        · rintro (h | h)
          · exact absurd (by rw [← h]) hp
          · exact ih.mp h
        · exact fun h => Or.inr (ih.mpr h)
  rw [key, hi.get w, ← List.count_pos_iff]
  split
  · rename_i h0; simp [h0]
  · rename_i h0
    simp only [Option.some.injEq]
    exact ⟨fun h => ⟨by omega, h.symm⟩, fun h => h.2.symm⟩

/-- C19: collecting the statistics always succeeds, and the counts of word IDs and of pairs of word IDs are the
numbers of their occurrences in the utterances. -/
theorem C19_bigrams (P : Parsers) (v : Vocab) (hv : Constructible P v) (unkId : Nat)
    (hu : v.idToWord[unkId]? = some unk) (files us : List (List Str)) (ids : List (List Nat))
    (h : UtterancesOf files us) (hi : IdsOf v unkId us ids) :
    ∃ st, bigramStatistics v files = .ok st ∧ (∀ a, st.unigram a = ids.flatten.count a) ∧
      (∀ a b, st.bigram a b = (ids.map (adjacent a b)).sum) := by
  obtain ⟨n, ps, inv⟩ := hv.inv
  refine ⟨_, bigramStatistics_eq v files unkId ((wordToId_iff inv.nodup).mpr hu), ?_, ?_⟩
  · intro a
    rw [idsOf_eq inv.nodup hi, utterancesOf_eq h, List.map_map]; rfl
  · intro a b
    have e : (adjacent a b : List Nat → Nat) = pairCount a b := funext (adjacent_eq a b)
    rw [e, idsOf_eq inv.nodup hi, utterancesOf_eq h, List.map_map]
    simp only [statsOf, List.map_map]; rfl

theorem sum_list_comm (n : Nat) (l : List α) (f : Nat → α → ℤ) :
    ∑ b ∈ Finset.range n, (l.map (f b)).sum = (l.map (fun x => ∑ b ∈ Finset.range n, f b x)).sum := by
  induction l with
  | nil => simp
  | cons x l ih => simp only [List.map_cons, List.sum_cons, Finset.sum_add_distrib, ih]

theorem idsOf_bound {v : Vocab} (hn : v.idToWord.Nodup) {unkId : Nat} (hu : v.idToWord[unkId]? = some unk)
    {us : List (List Str)} {ids : List (List Nat)} (hi : IdsOf v unkId us ids) : ∀ s ∈ ids, ∀ x ∈ s, x < v.numWords := by
  have hlt : unkId < v.numWords := (List.getElem?_eq_some_iff.mp hu).1
  intro s hs x hx
  rw [idsOf_eq hn hi] at hs
  obtain ⟨u, _, rfl⟩ := List.mem_map.mp hs
  obtain ⟨w, _, rfl⟩ := List.mem_map.mp hx
  unfold sequenceId
  cases hw : v.wordToId w with
  | none => exact hlt
  | some i => exact (List.getElem?_eq_some_iff.mp ((wordToId_iff hn).mp hw)).1

theorem cast_sum_map (l : List α) (f : α → Nat) : (((l.map f).sum : Nat) : ℤ) = (l.map (fun x => (f x : ℤ))).sum := by
  induction l with
  | nil => rfl
  | cons x l ih => simp [ih]

theorem count_flatten_int (ids : List (List Nat)) (a : Nat) :
    (ids.flatten.count a : ℤ) = (ids.map (fun s => (s.count a : ℤ))).sum := by
  induction ids with
  | nil => rfl
  | cons s ids ih => simp [ih]

theorem sum_ite_countP (ids : List (List Nat)) (p : List Nat → Prop) [DecidablePred p] :
    (ids.map (fun s => if p s then (1 : ℤ) else 0)).sum = ids.countP (fun s => decide (p s)) := by
  induction ids with
  | nil => rfl
  | cons s ids ih =>
    rw [List.map_cons, List.sum_cons, ih, List.countP_cons]
    by_cases h : p s <;> simp [h]
    ring

theorem sum_sub_list (ids : List (List Nat)) (f g : List Nat → ℤ) :
    (ids.map (fun s => f s - g s)).sum = (ids.map f).sum - (ids.map g).sum := by
  induction ids with
  | nil => simp
  | cons s ids ih => simp only [List.map_cons, List.sum_cons, ih]; ring

/-- C19: the pairs that start with a word are its occurrences except for those at the end of an utterance, and the
pairs that end with a word are its occurrences except for those at the beginning of an utterance. -/
theorem C19_sums (P : Parsers) (v : Vocab) (hv : Constructible P v) (unkId : Nat)
    (hu : v.idToWord[unkId]? = some unk) (files us : List (List Str)) (ids : List (List Nat))
    (h : UtterancesOf files us) (hi : IdsOf v unkId us ids) (st : BigramStats)
    (hs : bigramStatistics v files = .ok st) (a : Nat) :
    (∑ b ∈ Finset.range v.numWords, st.bigram a b =
      st.unigram a - ids.countP (fun s => decide (s.getLast? = some a))) ∧
    (∑ b ∈ Finset.range v.numWords, st.bigram b a =
      st.unigram a - ids.countP (fun s => decide (s.head? = some a))) := by
  obtain ⟨st', h1, h2, h3⟩ := C19_bigrams P v hv unkId hu files us ids h hi
  rw [hs] at h1; cases h1
  obtain ⟨n, ps, inv⟩ := hv.inv
  have hb := idsOf_bound inv.nodup hu hi
  simp only [h2, h3, adjacent_eq, count_flatten_int, cast_sum_map]
  rw [sum_list_comm v.numWords ids (fun b s => (pairCount a b s : ℤ)),
    sum_list_comm v.numWords ids (fun b s => (pairCount b a s : ℤ))]
  constructor
  · rw [List.map_congr_left (g := fun s => (s.count a : ℤ) - (if s.getLast? = some a then 1 else 0))
      (fun s hs => pairCount_rows v.numWords a s (hb s hs)), sum_sub_list, sum_ite_countP]
  · rw [List.map_congr_left (g := fun s => (s.count a : ℤ) - (if s.head? = some a then 1 else 0))
      (fun s hs => pairCount_cols v.numWords a s (hb s hs)), sum_sub_list, sum_ite_countP]

/-- The utterances and their IDs always exist. -/
theorem utterancesOf_exists (files : List (List Str)) : UtterancesOf files (files.flatten.map utterance) := by
  unfold UtterancesOf
  rw [List.forall₂_map_right_iff, List.forall₂_same]
  intro l _
  obtain ⟨u, hu⟩ := C01_no_error l
  rw [hu, utterance_of_ok hu]

theorem idsOf_exists {v : Vocab} (hn : v.idToWord.Nodup) (unkId : Nat) (us : List (List Str)) :
    IdsOf v unkId us (us.map (List.map (sequenceId v unkId))) := by
  unfold IdsOf
  rw [List.forall₂_map_right_iff, List.forall₂_same]
  intro u _
  rw [List.forall₂_map_right_iff, List.forall₂_same]
  intro w _
  have := tokenId_spec hn false unkId w
  have e : tokenId v false unkId w = sequenceId v unkId w := by
    unfold tokenId sequenceId
    cases v.wordToId w <;> simp
  rwa [e] at this

/-- The hypotheses of C19 are met by a corpus of two files. -/
example : ∃ v, vocabFromFile exParsers ["a\n".toList, "b\n".toList] .words [] = .ok v ∧
    ∃ st, bigramStatistics v [["a b\n".toList, "\n".toList], ["b b c\n".toList]] = .ok st ∧
    st.unigram 1 = 3 ∧ st.bigram 1 1 = 1 ∧ v.idToWord[4]? = some unk ∧ st.bigram 1 4 = 1 := by
  decide +kernel

end TheanoLM
