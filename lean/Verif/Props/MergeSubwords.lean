import Verif.Lemmas.MergeSubwords
import Mathlib.Data.Rat.Defs
/-!
# Property C37: merging subwords to words
-/
namespace TheanoLM

/-! ## C37 -/

section
variable {S : Type} [AddMonoid S]

/-- C37: merging succeeds exactly when there is one log probability for every subword but the first one, and the marking is
one of the known ones. -/
theorem C37_succeeds (subwords : List Str) (lps : List (Option S)) (marking : Marking) :
    (∃ r, mergeSubwords subwords lps marking = .ok r) ↔ lps.length + 1 = subwords.length ∧ marking ≠ .other := by
  cases subwords with
  | nil => simp [mergeSubwords]
  | cons first rest =>
    by_cases hl : lps.length = rest.length
    · cases marking <;> simp [mergeSubwords, hl]
    · cases marking <;> simp [mergeSubwords, hl]

/-- C37: without subword marking the words and the log probabilities are returned as they are. -/
theorem C37_plain (first : Str) (rest : List Str) (lps : List (Option S)) (hl : lps.length = rest.length) :
    mergeSubwords (first :: rest) lps .noMarking = .ok ((first :: rest).map .plain, lps) := by
  simp [mergeSubwords, hl]

/-- C37, prefix-affix marking: the words after the first one are the maximal groups of consecutive subwords in which each
subword ends and the following one starts with a plus sign; every subword is kept, in order, and the log probability of a
word is the sum of those of its parts. -/
theorem C37_affix (first : Str) (rest : List Str) (lps : List (Option S)) (hl : lps.length = rest.length) :
    ∃ gs, AffixWords (rest.zip lps) gs ∧
      mergeSubwords (first :: rest) lps .prefixAffix =
        .ok (.parts [first] :: gs.map (fun g => .parts (g.map Prod.fst)),
             gs.map (fun g => totalLogprob (g.map Prod.snd))) := by
  obtain ⟨gs, hw, he⟩ := mergeAffix_spec (rest.zip lps) [[first]] ([] : List (Option S))
  refine ⟨gs, hw, ?_⟩
  simp only [mergeSubwords, if_neg (not_not.mpr hl), he]
  simp [Function.comp_def]

/-- C37, word-boundary marking: the words after the first one are the nonempty segments between boundary tokens, a word that
contains `<unk>` being replaced by `<unk>`; the log probability of a word is the sum of those of its parts and of the boundary
that ends it. -/
theorem C37_boundary (first : Str) (rest : List Str) (lps : List (Option S)) (hl : lps.length = rest.length) :
    ∃ full last, BoundaryWords (rest.zip lps) full last ∧
      mergeSubwords (first :: rest) lps .wordBoundary =
        .ok (.parts [first] :: (nonemptySegments full last).map (fun s => .parts (shownWord s.1)),
             (nonemptySegments full last).map (fun s => totalLogprob (s.2.map Prod.snd))) := by
  obtain ⟨full, last, hb, he⟩ := mergeBoundary_spec (rest.zip lps) [[first]] ([] : List (Option S))
  refine ⟨full, last, hb, ?_⟩
  simp only [mergeSubwords, if_neg (not_not.mpr hl), he]
  simp [Function.comp_def]

/-- C37: there is exactly one log probability for every word but the first one. -/
theorem C37_count (subwords : List Str) (lps : List (Option S)) (marking : Marking) (ws : List MergedWord)
    (ls : List (Option S)) (h : mergeSubwords subwords lps marking = .ok (ws, ls)) : ls.length + 1 = ws.length := by
  have hs := (C37_succeeds subwords lps marking).mp ⟨_, h⟩
  cases subwords with
  | nil => simp at hs
  | cons first rest =>
    have hl : lps.length = rest.length := by simpa using hs.1
    cases marking with
    | other => exact absurd rfl hs.2
    | noMarking =>
      rw [C37_plain first rest lps hl] at h
      cases h; simp [hl]
    | wordBoundary =>
      obtain ⟨full, last, -, he⟩ := C37_boundary first rest lps hl
      rw [he] at h; cases h; simp
    | prefixAffix =>
      obtain ⟨gs, -, he⟩ := C37_affix first rest lps hl
      rw [he] at h; cases h; simp

/-- C37: in prefix-affix marking the sum of the log probabilities does not change. -/
theorem C37_affix_sum (first : Str) (rest : List Str) (lps : List (Option S)) (ws : List MergedWord)
    (ls : List (Option S)) (h : mergeSubwords (first :: rest) lps .prefixAffix = .ok (ws, ls)) :
    totalLogprob ls = totalLogprob lps := by
  have hs := (C37_succeeds (first :: rest) lps .prefixAffix).mp ⟨_, h⟩
  have hl : lps.length = rest.length := by simpa using hs.1
  obtain ⟨gs, hw, he⟩ := C37_affix first rest lps hl
  rw [he] at h; cases h
  have := totalLogprob_flatten (gs.map (·.map Prod.snd))
  rw [← List.map_flatten, hw.all, List.map_snd_zip (le_of_eq hl)] at this
  rw [this, List.map_map]; rfl

/-- C37: in word-boundary marking the sum of the log probabilities does not change, if no boundary comes immediately after the
first token of the sentence or after another boundary.

Missing from the full claim: see `C37_boundary_violated`. -/
theorem C37_boundary_sum_partial (first : Str) (rest : List Str) (lps : List (Option S)) (ws : List MergedWord)
    (ls : List (Option S)) (h : mergeSubwords (first :: rest) lps .wordBoundary = .ok (ws, ls))
    (hfirst : rest.head? ≠ some wordBoundaryToken)
    (hnext : rest.IsChain (fun a b => ¬ (a = wordBoundaryToken ∧ b = wordBoundaryToken))) :
    totalLogprob ls = totalLogprob lps := by
  have hs := (C37_succeeds (first :: rest) lps .wordBoundary).mp ⟨_, h⟩
  have hl : lps.length = rest.length := by simpa using hs.1
  obtain ⟨full, last, hb, he⟩ := C37_boundary first rest lps hl
  rw [he] at h; cases h
  have hrest : (full.flatMap (fun s => s.1 ++ [s.2]) ++ last).map Prod.fst = rest := by
    rw [hb.all, List.map_fst_zip (le_of_eq hl.symm)]
  have hne : ∀ s ∈ full, s.1 ≠ [] := by
    intro s hs hnil
    obtain ⟨l, r, rfl⟩ := List.append_of_mem hs
    have hse := hb.ends s hs
    rcases List.eq_nil_or_concat l with rfl | ⟨l', s', rfl⟩
    · apply hfirst
      rw [← hrest]
      simp [hnil, hse]
    · have hs'e := hb.ends s' (by simp)
      rw [← hrest] at hnext
      simp only [List.concat_eq_append, List.flatMap_append, List.flatMap_cons, List.flatMap_nil, List.append_nil, hnil,
        List.nil_append, List.map_append, List.map_cons, List.map_nil, List.append_assoc] at hnext
      have h1 := hnext.right_of_append.right_of_append
      simp only [List.cons_append, List.nil_append] at h1
      exact (List.isChain_cons_cons.mp h1).1 ⟨hs'e, hse⟩
  have hfull : (full.map (fun s => (s.1, s.1 ++ [s.2]))).filter (fun s => decide (s.1 ≠ [])) =
      full.map (fun s => (s.1, s.1 ++ [s.2])) := by
    rw [List.filter_eq_self]
    intro s hs
    obtain ⟨s', hs', rfl⟩ := List.mem_map.mp hs
    simpa using hne s' hs'
  have hlps : lps = (full.map (fun s => s.1 ++ [s.2]) ++ [last]).flatten.map Prod.snd := by
    rw [List.flatten_append, ← List.flatMap_def, List.flatten_singleton, hb.all, List.map_snd_zip (le_of_eq hl)]
  conv_rhs => rw [hlps, List.map_flatten, totalLogprob_flatten]
  unfold nonemptySegments
  rw [List.filter_append, hfull]
  by_cases hlast : last = []
  · subst hlast
    simp only [List.map_append, List.map_map, totalLogprob_append, List.map_cons, List.map_nil, totalLogprob_cons]
    simp [totalLogprob, addLogprob_zero, Function.comp_def]
  · simp [hlast, Function.comp_def, totalLogprob_append]

/-- C37: a word has no log probability exactly when one of its parts has none (in prefix-affix marking; `g` are the parts). -/
theorem C37_affix_unknown (first : Str) (rest : List Str) (lps : List (Option S)) (hl : lps.length = rest.length) :
    ∃ gs, AffixWords (rest.zip lps) gs ∧ ∀ ws ls, mergeSubwords (first :: rest) lps .prefixAffix = .ok (ws, ls) →
      ∀ i g, gs[i]? = some g → ws[i + 1]? = some (.parts (g.map Prod.fst)) ∧
        (ls[i]? = some none ↔ ∃ p ∈ g, p.2 = none) := by
  obtain ⟨gs, hw, he⟩ := C37_affix first rest lps hl
  refine ⟨gs, hw, ?_⟩
  intro ws ls h i g hg
  rw [he] at h; cases h
  refine ⟨by simp [hg], ?_⟩
  simp only [List.getElem?_map, hg, Option.map_some, Option.some.injEq, totalLogprob_eq_none, List.mem_map]
  
/-- C37: a word has no log probability exactly when one of its parts, or the boundary that ends it, has none (in word-boundary
marking). -/
theorem C37_boundary_unknown (first : Str) (rest : List Str) (lps : List (Option S)) (hl : lps.length = rest.length) :
    ∃ full last, BoundaryWords (rest.zip lps) full last ∧
      ∀ ws ls, mergeSubwords (first :: rest) lps .wordBoundary = .ok (ws, ls) →
      ∀ i s, (nonemptySegments full last)[i]? = some s → ws[i + 1]? = some (.parts (shownWord s.1)) ∧
        (ls[i]? = some none ↔ ∃ p ∈ s.2, p.2 = none) := by
  obtain ⟨full, last, hw, he⟩ := C37_boundary first rest lps hl
  refine ⟨full, last, hw, ?_⟩
  intro ws ls h i g hg
  rw [he] at h; cases h
  refine ⟨by simp [hg], ?_⟩
  simp only [List.getElem?_map, hg, Option.map_some, Option.some.injEq, totalLogprob_eq_none, List.mem_map]

end

/-! ## Examples -/

def exSub (s : String) : Str := s.toList

/-- Subwords that are merged, in both markings. -/
example : mergeSubwords [sos, exSub "a+", exSub "+b", exSub "c+", eos] [some (-1), some (-2), some (-4), some (-8 : ℚ)]
      .prefixAffix =
    .ok ([.parts [sos], .parts [exSub "a+", exSub "+b"], .parts [exSub "c+"], .parts [eos]],
      [some (-3), some (-4), some (-8)]) := by decide +kernel

example : mergeSubwords [sos, exSub "a", unk, exSub "<w>", exSub "c", exSub "<w>", eos]
      [some (-1), none, some (-4), some (-8), some (-16), some (-32 : ℚ)] .wordBoundary =
    .ok ([.parts [sos], .parts [unk], .parts [exSub "c"], .parts [eos]],
      [none, some (-24), some (-32)]) := by decide +kernel

/-- The hypotheses of `C37_boundary_sum_partial` hold for the sentence `<s> a b <w> c <w> </s>`. -/
example : ∃ r, mergeSubwords [sos, exSub "a", exSub "b", exSub "<w>", exSub "c", exSub "<w>", eos]
      [some (-1), some (-2), some (-4), some (-8), some (-16), some (-32 : ℚ)] .wordBoundary = .ok r ∧
      totalLogprob r.2 = some (-63) ∧
      [exSub "a", exSub "b", exSub "<w>", exSub "c", exSub "<w>", eos].head? ≠ some wordBoundaryToken ∧
      [exSub "a", exSub "b", exSub "<w>", exSub "c", exSub "<w>", eos].IsChain
        (fun a b => ¬ (a = wordBoundaryToken ∧ b = wordBoundaryToken)) := by
  refine ⟨([.parts [sos], .parts [exSub "a", exSub "b"], .parts [exSub "c"], .parts [eos]],
    [some (-7), some (-24), some (-32)]), by decide +kernel, by decide +kernel, by decide +kernel, ?_⟩
  decide +kernel

/-- C37 is violated: in word-boundary marking the probability of a boundary that follows the start of the sentence is lost, as
in `<s> <w> a <w> </s>`. -/
theorem C37_boundary_violated : ∃ (subwords : List Str) (lps : List (Option ℚ)) (ws : List MergedWord)
    (ls : List (Option ℚ)), mergeSubwords subwords lps .wordBoundary = .ok (ws, ls) ∧ none ∉ lps ∧
      totalLogprob ls ≠ totalLogprob lps :=
  ⟨[sos, exSub "<w>", exSub "a", exSub "<w>", eos], [some (-1), some (-2), some (-4), some (-8)],
    [.parts [sos], .parts [exSub "a"], .parts [eos]], [some (-6), some (-8)],
    by decide +kernel, by decide +kernel, by decide +kernel⟩

end TheanoLM
