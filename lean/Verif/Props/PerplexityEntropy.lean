import Verif.Props.FilePerplexity
import Verif.Props.Parsing
import Verif.Props.Cost
import Mathlib.Algebra.BigOperators.Group.Finset.Basic
/-!
# Perplexity and the entropy of the text: C122
-/
set_option linter.unusedSectionVars false

namespace TheanoLM

/-! ## Specification -/

/-- `ids` are the word IDs of the sentences of the text files, one list for each line with words, with `<s>` and `</s>`. -/
def TextIds (v : Vocab) (unkId : Nat) (files : List Str) (ids : List (List Nat)) : Prop :=
  ∃ ss, Sequences files none ss ∧ List.Forall₂ (fun seq s => List.Forall₂ (fun p id => IdOf v false unkId p.1 id) seq s) ss ids

/-- The entropy of the distribution of the sentences of a text, multiplied by the number of sentences: a sentence that occurs `c` times
in a text of `n` sentences contributes `c log (n / c)`. -/
noncomputable def sentenceEntropy (ids : List (List Nat)) : ℝ :=
  ∑ s ∈ ids.toFinset, ids.count s * Real.log (ids.length / ids.count s)

/-- The number of predicted words: all but `<s>`. -/
def predictedWords (ids : List (List Nat)) : Nat := (ids.map fun s => s.length - 1).sum

/-! ## Lemmas -/

theorem count_eq_count (s : List Nat) (L : List (List Nat)) :
    @List.count (List Nat) List.instBEq s L = @List.count (List Nat) instBEqOfDecidableEq s L := by
  congr 1
  exact lawful_beq_subsingleton _ _

/-- Gibbs' inequality. -/
theorem gibbs_sentences {L : List (List Nat)} {p : List Nat → ℝ} (hp : ∀ s ∈ L, 0 < p s) (hs : ∑ s ∈ L.toFinset, p s ≤ 1) :
    (L.map fun s => Real.log (p s)).sum ≤ - sentenceEntropy L := by
  have hc0 := Finset.sum_list_map_count L fun s => Real.log (p s)
  simp only [← count_eq_count] at hc0
  rw [hc0]
  unfold sentenceEntropy
  rw [← sub_nonpos, sub_neg_eq_add, ← Finset.sum_add_distrib]
  have hlen : ∑ s ∈ L.toFinset, (L.count s : ℝ) = L.length := by
    have := Finset.sum_list_map_count L fun _ => (1 : ℝ)
    simp only [List.map_const', List.sum_replicate, nsmul_eq_mul, mul_one] at this
    rw [this]
    exact Finset.sum_congr rfl fun s _ => by rw [count_eq_count]
  calc ∑ s ∈ L.toFinset, (L.count s • Real.log (p s) + L.count s * Real.log (L.length / L.count s))
      ≤ ∑ s ∈ L.toFinset, (p s * L.length - L.count s) := by
        refine Finset.sum_le_sum fun s hs => ?_
        rw [List.mem_toFinset] at hs
        have hc : (0 : ℝ) < L.count s := by exact_mod_cast List.count_pos_iff.mpr hs
        have hl : (0 : ℝ) < L.length := by exact_mod_cast List.length_pos_iff.mpr (List.ne_nil_of_mem hs)
        have h0 := hp s hs
        rw [nsmul_eq_mul, ← mul_add, ← Real.log_mul h0.ne' (div_pos hl hc).ne']
        have := Real.log_le_sub_one_of_pos (mul_pos h0 (div_pos hl hc))
        calc (L.count s : ℝ) * Real.log (p s * (L.length / L.count s)) ≤ L.count s * (p s * (L.length / L.count s) - 1) :=
              mul_le_mul_of_nonneg_left this hc.le
          _ = _ := by field_simp
    _ = (∑ s ∈ L.toFinset, p s) * L.length - L.length := by rw [Finset.sum_sub_distrib, ← Finset.sum_mul, hlen]
    _ ≤ 0 := by
        have : (∑ s ∈ L.toFinset, p s) * L.length ≤ 1 * L.length := mul_le_mul_of_nonneg_right hs (Nat.cast_nonneg _)
        linarith

theorem sentenceEntropy_nodup {ids : List (List Nat)} (h : ids.Nodup) : sentenceEntropy ids = ids.length * Real.log ids.length := by
  unfold sentenceEntropy
  rw [Finset.sum_congr rfl (g := fun _ => Real.log ids.length)]
  · rw [Finset.sum_const, List.toFinset_card_of_nodup h, nsmul_eq_mul]
  · intro s hs
    rw [List.count_eq_one_of_mem h (List.mem_toFinset.mp hs)]
    simp

theorem idOf_special {P : Parsers} {v : Vocab} (hv : Constructible P v) {unkId : Nat} {t : Str} (ht : t = sos ∨ t = eos ∨ t = unk) {i j : Nat}
    (hi : v.wordToId t = some i) (hj : IdOf v false unkId t j) : j = i ∧ i < v.numShortlist := by
  obtain ⟨k, k1, k2, k3⟩ := C12_special P v hv t ht
  rw [hi] at k2
  cases k2
  have hlt : i < v.numShortlist := by simpa [Vocab.inShortlist, Vocab.numShortlist] using k1
  cases hj with
  | known _ h _ => exact ⟨(k3 j).mp h, hlt⟩
  | outOfShortlist _ _ hm _ => exact absurd hm (by simp)
  | unknown h => exact absurd (List.mem_of_getElem? ((k3 i).mpr rfl)) h

/-- The sentences of a text start with `<s>` and end with `</s>`. -/
theorem textIds_shape {P : Parsers} {v : Vocab} (hv : Constructible P v) {unkId first last : Nat} (hsos : v.wordToId sos = some first)
    (heos : v.wordToId eos = some last) {files : List Str} {ids : List (List Nat)} (h : TextIds v unkId files ids) :
    ∀ s ∈ ids, s = first :: (s.tail.dropLast ++ [last]) := by
  obtain ⟨ss, hs, hf⟩ := h
  intro s hmem
  obtain ⟨seq, hseq, hrel⟩ := forall₂_from hf hmem
  have hw : seq.map Prod.fst ∈ files.flatMap (fileSequences none) := by
    rw [← sequences_words none nofun files ss hs]
    exact List.mem_map_of_mem hseq
  obtain ⟨f, _, hf2⟩ := List.mem_flatMap.mp hw
  unfold fileSequences at hf2
  obtain ⟨hf3, hf4⟩ := List.mem_filter.mp hf2
  obtain ⟨l, hl1, hl2⟩ := List.mem_flatten.mp hf3
  obtain ⟨line, _, rfl⟩ := List.mem_map.mp hl1
  unfold piecesOf at hl2
  simp only at hl2
  split at hl2
  · simp at hl2
  · rename_i hne
    simp only [List.map_cons, List.map_nil, List.mem_singleton] at hl2
    have hu : (lineToks (line, 0)).map Prod.fst = utterance line := by
      unfold lineToks
      rw [List.map_map]
      exact List.map_id _
    rw [hu] at hl2
    obtain ⟨ws, hws⟩ := Words_total line
    by_cases hnil : ws = []
    · subst hnil
      have : utterance line = [] := by unfold utterance; rw [C01_blank line hws]
      exact absurd (by unfold lineToks; rw [this]; rfl) hne
    · obtain ⟨u, u1, u2, u3, u4⟩ := C01_delimited line ws hws hnil
      have hu' : utterance line = u := by unfold utterance; rw [u1]
      rw [hu'] at hl2
      have hrel' : List.Forall₂ (IdOf v false unkId) u s := by
        rw [← hl2, List.forall₂_map_left_iff]
        exact hrel
      have hlen := hrel'.length_eq
      have e1 : s.head? = some first := by
        cases hrel' with
        | nil => simp at u2
        | cons h1 h2 =>
          simp only [List.head?_cons, Option.some.injEq] at u2 ⊢
          subst u2
          exact (idOf_special hv (.inl rfl) hsos h1).1
      have e2 : s.getLast? = some last := by
        have := List.rel_reverse hrel'
        rw [← List.head?_reverse] at u3 ⊢
        cases hr : u.reverse with
        | nil => rw [hr] at u3; simp at u3
        | cons w us =>
          rw [hr] at this u3
          cases hr2 : s.reverse with
          | nil => rw [hr2] at this; cases this
          | cons i is =>
            rw [hr2] at this
            cases this with
            | cons h1 h2 =>
              simp only [List.head?_cons, Option.some.injEq] at u3 ⊢
              subst u3
              exact (idOf_special hv (.inr (.inl rfl)) heos h1).1
      cases s with
      | nil => simp at e1
      | cons x s =>
        simp only [List.head?_cons, Option.some.injEq] at e1
        subst e1
        cases hs' : s with
        | nil => rw [hs'] at hlen; simp at hlen; omega
        | cons y r =>
          rw [List.tail_cons, ← hs']
          have hne' : s ≠ [] := by rw [hs']; simp
          rw [List.getLast?_cons_of_ne_nil hne', List.getLast?_eq_some_getLast hne', Option.some.injEq] at e2
          rw [← e2, List.dropLast_append_getLast hne']

section
variable {P : Parsers} {v : Vocab} {unkId : Nat} {env : CreateEnv ℝ} {a : Architecture} {layers : List (Created ℝ)} {output : Nat}

theorem perplexity_entropy (hv : Constructible P v) (hu : v.wordToId unk = some unkId) (hm : ModelOf env a v layers output)
    (hf : ∀ c ∈ layers, c.layer.Forward) {useShortlist excludeUnk : Bool} (hx : excludeUnk = true → 2 ≤ v.numClasses)
    (hprob : ∀ w, 0 ≤ probOf v w) (hun : ∀ u, v.unigram = some u → ∀ x ∈ u, 0 ≤ x) {files : List Str}
    {ids : List (List Nat)} (ht : TextIds v unkId files ids) {p : List Nat → ℝ}
    (hp : ∀ s ∈ ids, ∃ xs, List.Forall₂ (fun t x => (scorerOf v unkId layers output useShortlist excludeUnk).WordScore
      (sentenceBatch s) t 0 x) (List.range (s.length - 1)) xs ∧ Flt.sum xs = fltLog (p s))
    (hsum : ∑ s ∈ ids.toFinset, p s ≤ 1)
    (hinc : ∀ s ∈ ids, ∀ w ∈ s.tail, ¬ (scorerOf v unkId layers output useShortlist excludeUnk).Excluded w ∧ (memberOf v w).2 ≠ 0)
    {B : Nat} (hB : 0 < B) {ppl : ℝ} (hr : ∃ N, ∀ fuel, N ≤ fuel →
      (scorerOf v unkId layers output useShortlist excludeUnk).filePerplexity files ⟨B, none⟩ fuel = some (.ok (.fin ppl))) :
    Real.exp (sentenceEntropy ids / predictedWords ids) ≤ ppl := by
  obtain ⟨ss, hs, hids⟩ := ht
  obtain ⟨scores, r, h1, h2, h3⟩ := C110_network hv hu hm hf useShortlist excludeUnk hx hprob hun files none nofun ss hs
  obtain ⟨N, hN⟩ := hr
  obtain ⟨N', hN'⟩ := h3 B hB
  have hr : r = .ok (.fin ppl) := by
    have e1 := hN (max N N') (le_max_left _ _)
    rw [hN' (max N N') (le_max_right _ _)] at e1
    exact Option.some.inj e1
  subst hr
  have hnd := constructible_nodup hv
  -- the scores of each sentence
  have hsc : List.Forall₂ (fun s xs => Flt.sum xs = fltLog (p s) ∧ xs.length = s.length - 1) ids scores := by
    refine forall₂_join (A := fun seq s => List.Forall₂ (fun p id => IdOf v false unkId p.1 id) seq s ∧ s ∈ ids) ?_ h1 ?_
    · exact (List.forall₂_iff_zip.mpr ⟨hids.length_eq, fun {a b} hab => ⟨(List.forall₂_iff_zip.mp hids).2 hab, (List.of_mem_zip hab).2⟩⟩)
    · rintro seq s xs ⟨g1, g2⟩ ⟨ids', k1, k2⟩
      have : ids' = s := forall₂_unique (R := fun (p : Tok) id => IdOf v false unkId p.1 id)
        (fun _ _ _ a b => idOf_unique hnd a b) k1 g1
      subst this
      obtain ⟨ys, y1, y2⟩ := hp _ g2
      unfold Scorer.IncludedScores at k2
      rw [sentence_positions, List.filter_map, List.forall₂_map_left_iff] at k2
      have hall : (List.range (ids'.length - 1)).filter ((fun p : Nat × Nat => decide ((scorerOf v unkId layers output useShortlist
          excludeUnk).Included (sentenceBatch ids') p.1 p.2)) ∘ fun t => (t, 0)) = List.range (ids'.length - 1) := by
        rw [List.filter_eq_self]
        intro t ht
        rw [List.mem_range] at ht
        simp only [Function.comp, decide_eq_true_eq]
        have hw : (sentenceBatch ids').word (t + 1) 0 ∈ ids'.tail := by
          unfold sentenceBatch
          simp only
          rw [List.getD_eq_getElem?_getD, List.getElem?_eq_getElem (by omega), Option.getD_some]
          rw [List.mem_iff_getElem]
          exact ⟨t, by simp; omega, by simp⟩
        exact ⟨rfl, hinc _ g2 _ hw⟩
      rw [hall] at k2
      have : xs = ys := forall₂_unique (R := fun t x => (scorerOf v unkId layers output useShortlist excludeUnk).WordScore
        (sentenceBatch ids') t 0 x) (fun _ _ _ hx hy => C38_word_score_unique _ _ _ _ _ _ hx hy) k2 y1
      subst this
      exact ⟨y2, by rw [← k2.length_eq, List.length_range]⟩
  generalize hfl : scores.flatten = fl at h2
  cases h2 with
  | perplexity xs hne =>
    have key : ∀ {l : List (List Nat)} {sc : List (List (Flt ℝ))} {xs : List ℝ},
        List.Forall₂ (fun s xs => Flt.sum xs = fltLog (p s) ∧ xs.length = s.length - 1) l sc → sc.flatten = xs.map Flt.fin →
        xs.sum = (l.map fun s => Real.log (p s)).sum ∧ xs.length = predictedWords l ∧ ∀ s ∈ l, 0 < p s := by
      intro l sc xs h
      induction h generalizing xs with
      | nil =>
        intro e
        have : xs = [] := by simpa using e.symm
        subst this
        exact ⟨rfl, rfl, fun s hs => absurd hs (by simp)⟩
      | @cons s y l sc h1 _ ih =>
        intro e
        rw [List.flatten_cons] at e
        obtain ⟨xs1, xs2, rfl, e1, e2⟩ := List.map_eq_append_iff.mp e.symm
        obtain ⟨i1, i2, i3⟩ := ih e2.symm
        have hy := h1.1
        rw [← e1, sum_fin] at hy
        obtain ⟨q1, q2⟩ := fltLog_fin hy.symm
        have hl := h1.2
        rw [← e1, List.length_map] at hl
        refine ⟨by rw [List.sum_append, i1, q2, List.map_cons, List.sum_cons], ?_, ?_⟩
        · rw [List.length_append, i2, hl]
          rfl
        · intro s' hs'
          rcases List.mem_cons.mp hs' with rfl | hs'
          · exact q1
          · exact i3 s' hs'
    obtain ⟨e1, e2, e3⟩ := key hsc hfl
    have hg := gibbs_sentences e3 hsum
    rw [Real.exp_le_exp, e1, e2]
    have hpos : (0 : ℝ) < predictedWords ids := by
      rw [← e2]
      exact_mod_cast List.length_pos_iff.mpr hne
    rw [div_le_div_iff_of_pos_right hpos]
    linarith

end

/-! ## The properties -/

section
variable {P : Parsers} {v : Vocab} {unkId : Nat} {env : CreateEnv ℝ} {a : Architecture} {layers : List (Created ℝ)} {output : Nat}

/-- **C122** The reported perplexity of a text whose sentences consist of words that are scored is at least the entropy of its sentences:
no network can predict a text better than the distribution of the sentences of the text itself. -/
theorem C122_entropy (hv : Constructible P v) (hu : v.wordToId unk = some unkId) (hm : ModelOf env a v layers output)
    (hno : Normalized layers output) (hf : ∀ c ∈ layers, c.layer.Forward) (useShortlist excludeUnk : Bool)
    (hx : excludeUnk = true → 2 ≤ v.numClasses) (hprob : ∀ w, 0 ≤ probOf v w) (hun : ∀ u, v.unigram = some u → ∀ x ∈ u, 0 ≤ x)
    (hs : ¬ (scorerOf v unkId layers output useShortlist excludeUnk).UsesShortlist) (last : Nat) (heos : v.wordToId eos = some last)
    (files : List Str) (ids : List (List Nat)) (ht : TextIds v unkId files ids)
    (hw : ∀ s ∈ ids, ∀ w ∈ s.tail.dropLast, w < v.numShortlist ∧ w ≠ last)
    (hinc : ∀ s ∈ ids, ∀ w ∈ s.tail, ¬ (scorerOf v unkId layers output useShortlist excludeUnk).Excluded w ∧ (memberOf v w).2 ≠ 0)
    (B : Nat) (hB : 0 < B) (ppl : ℝ) (hr : ∃ N, ∀ fuel, N ≤ fuel →
      (scorerOf v unkId layers output useShortlist excludeUnk).filePerplexity files ⟨B, none⟩ fuel = some (.ok (.fin ppl))) :
    Real.exp (sentenceEntropy ids / predictedWords ids) ≤ ppl := by
  obtain ⟨n, ps, hvi⟩ := hv.inv
  have hsl : v.numShortlist ≤ v.numWords := hvi.short
  obtain ⟨first, f1, f2, _⟩ := C12_special P v hv sos (.inl rfl)
  obtain ⟨last', l1, l2, _⟩ := C12_special P v hv eos (.inr (.inl rfl))
  rw [heos] at l2
  cases l2
  have f1' : first < v.numShortlist := by simpa [Vocab.inShortlist, Vocab.numShortlist] using f1
  have l1' : last < v.numShortlist := by simpa [Vocab.inShortlist, Vocab.numShortlist] using l1
  have hshape := textIds_shape hv f2 heos ht
  obtain ⟨p, p1, p2, p3⟩ := C96_sentences hv hu hm hno hf useShortlist excludeUnk hx hprob hs first last (by omega) l1'
  refine perplexity_entropy hv hu hm hf hx hprob hun ht (p := fun s => p s.tail.dropLast) ?_ ?_ hinc hB hr
  · intro s hmem
    obtain ⟨xs, x1, x2⟩ := p2 s.tail.dropLast fun w hw' => lt_of_lt_of_le (hw s hmem w hw').1 hsl
    refine ⟨xs, ?_, x2⟩
    have e := hshape s hmem
    have hl : s.length - 1 = s.tail.dropLast.length + 1 := by
      have := congrArg List.length e
      simp at this
      simp
      omega
    rw [hl]
    have e' : first :: s.tail.dropLast ++ [last] = s := e.symm
    rw [e'] at x1
    exact x1
  · have hinj : ∀ s ∈ ids.toFinset, ∀ s' ∈ ids.toFinset, s.tail.dropLast = s'.tail.dropLast → s = s' := by
      intro s h1 s' h2 h
      rw [hshape s (List.mem_toFinset.mp h1), hshape s' (List.mem_toFinset.mp h2), h]
    rw [← Finset.sum_image (f := p) hinj]
    refine p3 _ fun ws hws => ?_
    obtain ⟨s, h1, rfl⟩ := Finset.mem_image.mp hws
    exact hw s (List.mem_toFinset.mp h1)

/-- **C122** The same when the probability of `<unk>` is distributed among the words outside the shortlist. -/
theorem C122_shortlist (hv : Constructible P v) (hu : v.wordToId unk = some unkId) (hm : ModelOf env a v layers output)
    (hno : Normalized layers output) (hf : ∀ c ∈ layers, c.layer.Forward) (excludeUnk : Bool)
    (hx : excludeUnk = true → 2 ≤ v.numClasses) (hprob : ∀ w, 0 ≤ probOf v w) (u : List ℚ) (hg : v.unigram = some u)
    (hun : ∀ x ∈ u, 0 ≤ x) (hpos : (u.drop v.numShortlist).sum ≠ 0) (last : Nat) (heos : v.wordToId eos = some last)
    (files : List Str) (ids : List (List Nat)) (ht : TextIds v unkId files ids)
    (hw : ∀ s ∈ ids, ∀ w ∈ s.tail.dropLast, w < v.numWords ∧ w ≠ last)
    (hinc : ∀ s ∈ ids, ∀ w ∈ s.tail, w ≠ unkId ∧ (memberOf v w).2 ≠ 0)
    (B : Nat) (hB : 0 < B) (ppl : ℝ) (hr : ∃ N, ∀ fuel, N ≤ fuel →
      (scorerOf v unkId layers output true excludeUnk).filePerplexity files ⟨B, none⟩ fuel = some (.ok (.fin ppl))) :
    Real.exp (sentenceEntropy ids / predictedWords ids) ≤ ppl := by
  obtain ⟨n, ps, hvi⟩ := hv.inv
  have hsl : v.numShortlist ≤ v.numWords := hvi.short
  obtain ⟨first, f1, f2, _⟩ := C12_special P v hv sos (.inl rfl)
  obtain ⟨last', l1, l2, _⟩ := C12_special P v hv eos (.inr (.inl rfl))
  rw [heos] at l2
  cases l2
  have f1' : first < v.numShortlist := by simpa [Vocab.inShortlist, Vocab.numShortlist] using f1
  have l1' : last < v.numShortlist := by simpa [Vocab.inShortlist, Vocab.numShortlist] using l1
  have hshape := textIds_shape hv f2 heos ht
  have hus : (scorerOf v unkId layers output true excludeUnk).UsesShortlist := ⟨rfl, fun h => by
    rw [show (scorerOf v unkId layers output true excludeUnk).vocab.unigram = some u from hg] at h
    cases h⟩
  by_cases hnil : ids = []
  · obtain ⟨ss, hss, hids⟩ := ht
    subst hnil
    cases hids
    obtain ⟨scores, r, h1, h2, h3⟩ := C110_network hv hu hm hf true excludeUnk hx hprob (fun u' hu' => by rw [hg] at hu'; cases hu'; exact hun)
      files none nofun [] hss
    cases h1
    obtain ⟨N, hN⟩ := hr
    obtain ⟨N', hN'⟩ := h3 B hB
    have e1 := hN (max N N') (le_max_left _ _)
    rw [hN' (max N N') (le_max_right _ _)] at e1
    cases e1
    generalize hfl : ([] : List (List (Flt ℝ))).flatten = fl at h2
    cases h2 with
    | perplexity xs hne => exact absurd (by simpa using hfl.symm) hne
  obtain ⟨s0, hs0⟩ := List.exists_mem_of_ne_nil ids hnil
  have hlu : last ≠ unkId := by
    refine (hinc s0 hs0 last ?_).1
    have := hshape s0 hs0
    rw [this]
    simp
  obtain ⟨p, p1, p2, p3⟩ := C96_sentences_shortlist hv hu hm hno hf excludeUnk hx hprob u hg hun hpos first last (by omega) (by omega) hlu
  refine perplexity_entropy hv hu hm hf hx hprob (fun u' hu' => by rw [hg] at hu'; cases hu'; exact hun) ht
    (p := fun s => p s.tail.dropLast) ?_ ?_ ?_ hB hr
  · intro s hmem
    obtain ⟨xs, x1, x2⟩ := p2 s.tail.dropLast fun w hw' => (hw s hmem w hw').1
    refine ⟨xs, ?_, x2⟩
    have e := hshape s hmem
    have hl : s.length - 1 = s.tail.dropLast.length + 1 := by
      have := congrArg List.length e
      simp at this
      simp
      omega
    rw [hl]
    have e' : first :: s.tail.dropLast ++ [last] = s := e.symm
    rw [e'] at x1
    exact x1
  · have hinj : ∀ s ∈ ids.toFinset, ∀ s' ∈ ids.toFinset, s.tail.dropLast = s'.tail.dropLast → s = s' := by
      intro s h1 s' h2 h
      rw [hshape s (List.mem_toFinset.mp h1), hshape s' (List.mem_toFinset.mp h2), h]
    rw [← Finset.sum_image (f := p) hinj]
    refine p3 _ fun ws hws => ?_
    obtain ⟨s, h1, rfl⟩ := Finset.mem_image.mp hws
    intro w hw'
    have hs1 := List.mem_toFinset.mp h1
    exact ⟨(hw s hs1 w hw').1, (hinc s hs1 w (List.mem_of_mem_dropLast hw')).1, (hw s hs1 w hw').2⟩
  · intro s hmem w hw'
    refine ⟨?_, (hinc s hmem w hw').2⟩
    unfold Scorer.Excluded
    rw [if_pos hus]
    exact (hinc s hmem w hw').1

/-- **C122** The perplexity of a text of `n` different sentences and `w` words is at least the `w / n`-th root of `n`. -/
theorem C122_distinct {ids : List (List Nat)} (hnd : ids.Nodup) (hne : ids ≠ []) {ppl : ℝ}
    (h : Real.exp (sentenceEntropy ids / predictedWords ids) ≤ ppl) :
    (ids.length : ℝ) ^ ((ids.length : ℝ) / predictedWords ids) ≤ ppl := by
  rw [sentenceEntropy_nodup hnd] at h
  rw [Real.rpow_def_of_pos (by exact_mod_cast List.length_pos_iff.mpr hne)]
  rwa [show Real.log ids.length * (ids.length / predictedWords ids) = ids.length * Real.log ids.length / predictedWords ids by ring]

/-- If the scores of the words of a text are finite, the text has a perplexity. -/
theorem perplexity_finite (hv : Constructible P v) (hu : v.wordToId unk = some unkId) (hm : ModelOf env a v layers output)
    (hf : ∀ c ∈ layers, c.layer.Forward) {useShortlist : Bool} (hprob : ∀ w, 0 ≤ probOf v w)
    (hun : ∀ u, v.unigram = some u → ∀ x ∈ u, 0 ≤ x) {last : Nat} (heos : v.wordToId eos = some last)
    (hlast : (memberOf v last).2 ≠ 0) (hex : ¬ (scorerOf v unkId layers output useShortlist false).Excluded last)
    {files : List Str} {ids : List (List Nat)} (ht : TextIds v unkId files ids) (hne : ids ≠ [])
    (hfin : ∀ s ∈ ids, ∀ w ∈ s.tail, 0 < (memberOf v w).2 → w < v.numWords → ∀ h, h ≠ [] →
      ∃ x : ℝ, (scorerOf v unkId layers output useShortlist false).WordScore (sentenceBatch (h ++ [w])) (h.length - 1) 0 (.fin x)) :
    ∃ ppl : ℝ, ∀ B, 0 < B → ∃ N, ∀ fuel, N ≤ fuel →
      (scorerOf v unkId layers output useShortlist false).filePerplexity files ⟨B, none⟩ fuel = some (.ok (.fin ppl)) := by
  obtain ⟨n, ps, hvi⟩ := hv.inv
  have hsl : v.numShortlist ≤ v.numWords := hvi.short
  obtain ⟨first, -, f2, -⟩ := C12_special P v hv sos (.inl rfl)
  have hshape := textIds_shape hv f2 heos ht
  have hnd := constructible_nodup hv
  obtain ⟨ss, hss, hids⟩ := ht
  obtain ⟨scores, r, h1, h2, h3⟩ := C110_network hv hu hm hf useShortlist false nofun hprob hun files none nofun ss hss
  have hsc : ∀ seq ∈ ss, ∀ s, List.Forall₂ (fun (p : Tok) id => IdOf v false unkId p.1 id) seq s → ∀ w ∈ s, w < v.numWords := by
    intro seq _ s hrel w hw
    obtain ⟨q, _, hq⟩ := forall₂_from hrel hw
    generalize q.1 = t at hq
    cases hq with
    | known _ h _ => exact (List.getElem?_eq_some_iff.mp h).1
    | outOfShortlist _ _ hm _ => exact absurd hm (by simp)
    | unknown h => exact lt_of_lt_of_le (unkId_lt hv hu) hsl
  have hword : ∀ (s : List Nat) (t : Nat) (hlt : t + 1 < s.length), (sentenceBatch s).word (t + 1) 0 = s[t + 1] := by
    intro s t hlt
    show s.getD (t + 1) 0 = _
    rw [List.getD_eq_getElem?_getD, List.getElem?_eq_getElem hlt, Option.getD_some]
  generalize hfl : scores.flatten = fl at h2
  cases h2 with
  | perplexity xs hne => exact ⟨_, h3⟩
  | noWords =>
    exfalso
    obtain ⟨s, hs0⟩ := List.exists_mem_of_ne_nil ids hne
    obtain ⟨seq, hseq, hrel⟩ := forall₂_from hids hs0
    obtain ⟨xs, hxs, s', hrel', hinc⟩ := forall₂_mem_left h1 hseq
    have : s' = s := forall₂_unique (R := fun (p : Tok) id => IdOf v false unkId p.1 id)
      (fun _ _ _ a b => idOf_unique hnd a b) hrel' hrel
    subst this
    have hnil : xs = [] := by
      rw [List.flatten_eq_nil_iff] at hfl
      exact hfl xs hxs
    subst hnil
    unfold Scorer.IncludedScores at hinc
    have hf0 := List.forall₂_nil_right_iff.mp hinc
    rw [List.filter_eq_nil_iff] at hf0
    have e := hshape s' hs0
    have hlen : 2 ≤ s'.length := by
      rw [e]
      simp
    refine hf0 (s'.length - 2, 0) (by
      rw [sentence_positions]
      exact List.mem_map.mpr ⟨s'.length - 2, by rw [List.mem_range]; omega, rfl⟩) ?_
    rw [decide_eq_true_eq]
    refine ⟨rfl, ?_⟩
    have hl : (sentenceBatch s').word (s'.length - 2 + 1) 0 = last := by
      rw [hword s' _ (by omega)]
      have hl : s'.getLast? = some last := by
        rw [e, ← List.cons_append]
        exact List.getLast?_concat
      rw [List.getLast?_eq_getElem?] at hl
      have : s'[s'.length - 2 + 1]? = some last := by rw [← hl]; congr 1; omega
      exact (List.getElem?_eq_some_iff.mp this).2
    show ¬ _ ∧ (memberOf v ((sentenceBatch s').word (s'.length - 2 + 1) 0)).2 ≠ 0
    rw [hl]
    exact ⟨hex, hlast⟩
  | notFinite _ hnf =>
    exfalso
    obtain ⟨x, hx, hnf⟩ := hnf
    rw [← hfl] at hx
    obtain ⟨xs, hxs, hx⟩ := List.mem_flatten.mp hx
    obtain ⟨seq, hseq, s, hrel, hinc⟩ := forall₂_from h1 hxs
    obtain ⟨⟨t, i⟩, hpos, hws⟩ := forall₂_from hinc hx
    obtain ⟨hpos, hincl⟩ := List.mem_filter.mp hpos
    rw [sentence_positions] at hpos
    obtain ⟨t', ht', he⟩ := List.mem_map.mp hpos
    cases he
    rw [List.mem_range] at ht'
    have hlt : t + 1 < s.length := by omega
    have hsplit : s = s.take (t + 1) ++ s[t + 1] :: s.drop (t + 2) := by
      rw [← List.drop_eq_getElem_cons hlt, List.take_append_drop]
    have hne' : s.take (t + 1) ≠ [] := by
      intro h
      have := congrArg List.length h
      rw [List.length_take, List.length_nil] at this
      omega
    have hl : (s.take (t + 1)).length - 1 = t := by simp; omega
    have hw := (score_prefix hv hu hm hf useShortlist false s _ _ _ hsplit hne' (hsc seq hseq s hrel) x).mp (by rw [hl]; exact hws)
    have hmem : 0 < (memberOf v s[t + 1]).2 := by
      have h0 := (decide_eq_true_eq.mp hincl).2.2
      have h0 : (memberOf v ((sentenceBatch s).word (t + 1) 0)).2 ≠ 0 := h0
      rw [hword s t hlt] at h0
      refine lt_of_le_of_ne ?_ (Ne.symm h0)
      rw [(memberOf_class hv hu _).2.2]
      exact hprob _
    obtain ⟨s', hs', hrel'⟩ := forall₂_mem_left hids hseq
    have : s' = s := forall₂_unique (R := fun (p : Tok) id => IdOf v false unkId p.1 id)
      (fun _ _ _ a b => idOf_unique hnd a b) hrel' hrel
    subst this
    obtain ⟨y, hy⟩ := hfin s' hs' s'[t + 1] (by
      rw [List.mem_iff_getElem]
      exact ⟨t, by simp; omega, by simp⟩) hmem (hsc seq hseq s' hrel _ (List.getElem_mem hlt)) _ hne'
    exact hnf y (C38_word_score_unique _ _ _ _ _ _ hw hy)

/-- **C122** When no words are excluded, every text with a sentence has a perplexity, which does not depend on the size of the mini-batches:
a softmax gives no word the probability zero. -/
theorem C122_finite (hv : Constructible P v) (hu : v.wordToId unk = some unkId) (hm : ModelOf env a v layers output)
    (hf : ∀ c ∈ layers, c.layer.Forward) (useShortlist : Bool) (hprob : ∀ w, 0 ≤ probOf v w)
    (hun : ∀ u, v.unigram = some u → ∀ x ∈ u, 0 ≤ x)
    (hs : ¬ (scorerOf v unkId layers output useShortlist false).UsesShortlist) (last : Nat) (heos : v.wordToId eos = some last)
    (hlast : (memberOf v last).2 ≠ 0) (files : List Str) (ids : List (List Nat)) (ht : TextIds v unkId files ids) (hne : ids ≠ []) :
    ∃ ppl : ℝ, ∀ B, 0 < B → ∃ N, ∀ fuel, N ≤ fuel →
      (scorerOf v unkId layers output useShortlist false).filePerplexity files ⟨B, none⟩ fuel = some (.ok (.fin ppl)) := by
  refine perplexity_finite hv hu hm hf hprob hun heos hlast (fun h => ?_) ht hne fun s _ w _ hw _ h hh =>
    C96_finite hv hu hm useShortlist hs h hh w hw
  unfold Scorer.Excluded at h
  rw [if_neg hs] at h
  exact Bool.false_ne_true h.1

/-- **C122** The same when the probability of `<unk>` is distributed among the words outside the shortlist, if the words of the text outside
the shortlist have occurred in the training data. -/
theorem C122_finite_shortlist (hv : Constructible P v) (hu : v.wordToId unk = some unkId) (hm : ModelOf env a v layers output)
    (hf : ∀ c ∈ layers, c.layer.Forward) (hprob : ∀ w, 0 ≤ probOf v w) (u : List ℚ) (hg : v.unigram = some u)
    (hun : ∀ x ∈ u, 0 ≤ x) (hpos : (u.drop v.numShortlist).sum ≠ 0) (last : Nat) (heos : v.wordToId eos = some last)
    (hlast : (memberOf v last).2 ≠ 0) (hlu : last ≠ unkId) (files : List Str) (ids : List (List Nat)) (ht : TextIds v unkId files ids)
    (hne : ids ≠ []) (ho : ∀ s ∈ ids, ∀ w ∈ s.tail, v.numShortlist ≤ w → u.getD w 0 ≠ 0) :
    ∃ ppl : ℝ, ∀ B, 0 < B → ∃ N, ∀ fuel, N ≤ fuel →
      (scorerOf v unkId layers output true false).filePerplexity files ⟨B, none⟩ fuel = some (.ok (.fin ppl)) := by
  have hs : (scorerOf v unkId layers output true false).UsesShortlist := ⟨rfl, fun h => by
    rw [show (scorerOf v unkId layers output true false).vocab.unigram = some u from hg] at h
    cases h⟩
  refine perplexity_finite hv hu hm hf hprob (fun u' hu' => by rw [hg] at hu'; cases hu'; exact hun) heos hlast (fun h => ?_) ht hne
    fun s hs0 w hw hmem hlt h hh => ?_
  · unfold Scorer.Excluded at h
    rw [if_pos hs] at h
    exact hlu h
  · obtain ⟨q, q1, q2, q3, _, q4, q5⟩ := next_scores hv hu hm true (excludeUnk := false) (fun h => by cases h) hh
    obtain ⟨r, r1, r2, r3, -⟩ := oos_fractions hv hg hpos
    have hlen := List.length_pos_iff.mpr hh
    have hc : (memberOf v w).1 < q.length := by rw [q1]; exact (memberOf_class hv hu w).1
    have hq : 0 < q.getD (memberOf v w).1 0 := by
      simp only [List.getD, List.getElem?_eq_getElem hc, Option.getD_some]
      exact q4 rfl _ (List.getElem_mem hc)
    have hmn : (0 : ℝ) < ((memberOf v w).2 : ℝ) := by exact_mod_cast hmem
    have hsum : 0 < (u.drop v.numShortlist).sum :=
      lt_of_le_of_ne (List.sum_nonneg fun x hx => hun x (List.mem_of_mem_drop hx)) (Ne.symm hpos)
    have hr : 0 < r w := by
      by_cases hw' : w < v.numShortlist
      · rw [r2 w hw']; exact one_pos
      · rw [r3 w (by omega)]
        refine div_pos (lt_of_le_of_ne ?_ (Ne.symm (ho s hs0 w hw (by omega)))) hsum
        by_cases hl : w < u.length
        · simp only [List.getD, List.getElem?_eq_getElem hl, Option.getD_some]
          exact hun _ (List.getElem_mem hl)
        · simp [List.getD, List.getElem?_eq_none (show u.length ≤ w by omega)]
    have hr' : (0 : ℝ) < ((r w : ℚ) : ℝ) := by exact_mod_cast hr
    have hw' : (sentenceBatch (h ++ [w])).word (h.length - 1 + 1) 0 = w := by
      unfold sentenceBatch
      simp only
      rw [show h.length - 1 + 1 = h.length by omega]
      simp [List.getD]
    obtain ⟨l, hl1, hl2⟩ := r1 w hlt
    refine ⟨Real.log (q.getD (memberOf v w).1 0 * ((memberOf v w).2 : ℝ) * ((r w : ℚ) : ℝ)), fun h' => absurd hs h',
      fun _ => ⟨l, some (r w), hl1, by rw [hw']; exact hl2, ?_⟩⟩
    simp only
    rw [q5 w, hw']
    have hlog : (scorerOf v unkId layers output true false).log (memberOf (scorerOf v unkId layers output true
        false).vocab w).2 = fltLog ((memberOf v w).2 : ℝ) := rfl
    have hlog' : (scorerOf v unkId layers output true false).log (r w) = fltLog ((r w : ℚ) : ℝ) := rfl
    rw [hlog, hlog', fltLog_mul hq.le hmn.le, fltLog_mul (mul_pos hq hmn).le hr'.le]
    unfold fltLog
    rw [if_neg (mul_pos (mul_pos hq hmn) hr').ne', if_pos (mul_pos (mul_pos hq hmn) hr')]

end

/-! ## Examples -/

theorem textIds_of (v : Vocab) (hn : v.idToWord.Nodup) (unkId : Nat) (files : List Str) :
    TextIds v unkId files ((files.flatMap (fileSequences none)).map fun s => s.map (tokenId v false unkId)) := by
  obtain ⟨ss, hss, _⟩ := sequences_exist_unique files none nofun
  refine ⟨ss, hss, ?_⟩
  rw [← sequences_words none nofun files ss hss, List.map_map, List.forall₂_map_right_iff, List.forall₂_same]
  intro seq _
  simp only [Function.comp]
  rw [List.map_map, List.forall₂_map_right_iff, List.forall₂_same]
  exact fun q _ => tokenId_spec hn false unkId q.1

/-- A text with three sentences, one of them twice, on which the smallest possible perplexity is greater than 1. -/
theorem exEntropyText : TextIds exScoreVocab 5 ["a c\n\na\n".toList, "a c\n".toList] [[3, 1, 2, 4], [3, 1, 4], [3, 1, 2, 4]] := by
  have := textIds_of exScoreVocab (constructible_nodup exScoreVocab_constructible) 5 ["a c\n\na\n".toList, "a c\n".toList]
  have e : ((["a c\n\na\n".toList, "a c\n".toList].flatMap (fileSequences none)).map fun s => s.map (tokenId exScoreVocab false 5)) =
    [[3, 1, 2, 4], [3, 1, 4], [3, 1, 2, 4]] := by decide +kernel
  rwa [e] at this

/-- A case that meets the hypotheses of `C122_entropy` and `C122_finite`. -/
example : ∃ layers, ModelOf exampleModelEnv (exampleSmall "q") exScoreVocab layers 3 ∧ ∃ ppl : ℝ,
    Real.exp (sentenceEntropy [[3, 1, 2, 4], [3, 1, 4], [3, 1, 2, 4]] / 8) ≤ ppl ∧ ∀ B, 0 < B → ∃ N, ∀ fuel, N ≤ fuel →
      (scorerOf exScoreVocab 5 layers 3 false false).filePerplexity ["a c\n\na\n".toList, "a c\n".toList] ⟨B, none⟩ fuel =
        some (.ok (.fin ppl)) := by
  obtain ⟨layers, h1, h2, h3⟩ := exampleModel
  have hs : ¬ (scorerOf exScoreVocab 5 layers 3 false false).UsesShortlist := fun h => Bool.false_ne_true h.1
  have hu : exScoreVocab.wordToId unk = some 5 := by decide +kernel
  have hun : ∀ u, exScoreVocab.unigram = some u → ∀ x ∈ u, 0 ≤ x := fun u hu => by
    cases hu
    decide +kernel
  have heos : exScoreVocab.wordToId eos = some 4 := by decide +kernel
  obtain ⟨ppl, hp⟩ := C122_finite exScoreVocab_constructible hu h1 h2 false exScoreVocab_nonneg hun hs 4 heos (by decide +kernel) _ _
    exEntropyText (by simp)
  refine ⟨layers, h1, ppl, ?_, hp⟩
  have := C122_entropy exScoreVocab_constructible hu h1 (normalized_softmax h3) h2 false false nofun exScoreVocab_nonneg hun hs 4 heos _ _
    exEntropyText (by decide +kernel) (by
      intro s hs' w hw
      refine ⟨fun h => ?_, ?_⟩
      · unfold Scorer.Excluded at h
        rw [if_neg hs] at h
        exact Bool.false_ne_true h.1
      · revert w s
        decide +kernel) 1 one_pos ppl (hp 1 one_pos)
  exact_mod_cast this

theorem exEntropyTextOos : TextIds exScoreVocab 5 ["a x\ny\n".toList] [[3, 1, 6, 4], [3, 7, 4]] := by
  have := textIds_of exScoreVocab (constructible_nodup exScoreVocab_constructible) 5 ["a x\ny\n".toList]
  have e : ((["a x\ny\n".toList].flatMap (fileSequences none)).map fun s => s.map (tokenId exScoreVocab false 5)) =
    [[3, 1, 6, 4], [3, 7, 4]] := by decide +kernel
  rwa [e] at this

/-- A case that meets the hypotheses of `C122_shortlist`, `C122_finite_shortlist` and `C122_distinct`. -/
example : ∃ layers, ModelOf exampleModelEnv (exampleSmall "q") exScoreVocab layers 3 ∧ ∃ ppl : ℝ,
    (2 : ℝ) ^ ((2 : ℝ) / 5) ≤ ppl ∧ ∀ B, 0 < B → ∃ N, ∀ fuel, N ≤ fuel →
      (scorerOf exScoreVocab 5 layers 3 true false).filePerplexity ["a x\ny\n".toList] ⟨B, none⟩ fuel = some (.ok (.fin ppl)) := by
  obtain ⟨layers, h1, h2, h3⟩ := exampleModel
  have hu : exScoreVocab.wordToId unk = some 5 := by decide +kernel
  have heos : exScoreVocab.wordToId eos = some 4 := by decide +kernel
  obtain ⟨ppl, hp⟩ := C122_finite_shortlist exScoreVocab_constructible hu h1 h2 exScoreVocab_nonneg _ rfl (by decide +kernel)
    (by decide +kernel) 4 heos (by decide +kernel) (by decide) _ _ exEntropyTextOos (by simp) (by decide +kernel)
  refine ⟨layers, h1, ppl, ?_, hp⟩
  have := C122_distinct (by decide) (by simp) (C122_shortlist exScoreVocab_constructible hu h1 (normalized_softmax h3) h2 false nofun
    exScoreVocab_nonneg _ rfl (by decide +kernel) (by decide +kernel) 4 heos _ _ exEntropyTextOos (by decide +kernel) (by decide +kernel)
    1 one_pos ppl (hp 1 one_pos))
  exact_mod_cast this

end TheanoLM
