import Verif.Props.FilePerplexitySpec
import Verif.Props.ScoreOutput
import Mathlib.Data.List.Perm.Basic
/-!
# Lemmas for C110
-/
set_option linter.unusedSectionVars false

namespace TheanoLM

section
variable {S : Type} [Field S] [LinearOrder S] [IsStrictOrderedRing S]

theorem all_fin_or (l : List (Flt S)) : (∃ xs : List S, l = xs.map .fin) ∨ ∃ x ∈ l, ∀ y, x ≠ .fin y := by
  induction l with
  | nil => exact .inl ⟨[], rfl⟩
  | cons a l ih =>
    rcases ih with ⟨xs, rfl⟩ | ⟨x, h1, h2⟩
    · cases a with
      | fin y => exact .inl ⟨y :: xs, rfl⟩
      | nan => exact .inr ⟨_, List.mem_cons_self, nofun⟩
      | negInf => exact .inr ⟨_, List.mem_cons_self, nofun⟩
      | posInf => exact .inr ⟨_, List.mem_cons_self, nofun⟩
    · exact .inr ⟨x, List.mem_cons_of_mem _ h1, h2⟩

theorem PerplexityOf.unique {exp : S → S} {l : List (Flt S)} {r r' : Except Err (Flt S)} (h : PerplexityOf exp l r)
    (h' : PerplexityOf exp l r') : r = r' := by
  have aux : ∀ xs : List S, ¬ ∃ x ∈ xs.map (Flt.fin (S := S)), ∀ y, x ≠ .fin y := by
    rintro xs ⟨x, hx, hy⟩
    obtain ⟨z, _, rfl⟩ := List.mem_map.mp hx
    exact hy z rfl
  have inj : Function.Injective (Flt.fin (S := S)) := fun a b h => by injection h
  generalize hl : l = l' at h'
  cases h with
  | perplexity xs hne =>
    cases h' with
    | perplexity ys _ => rw [List.map_injective_iff.mpr inj hl]
    | noWords => exact absurd (List.map_eq_nil_iff.mp hl) hne
    | notFinite _ h => subst hl; exact absurd h (aux xs)
  | noWords =>
    cases h' with
    | perplexity ys hne => exact absurd (List.map_eq_nil_iff.mp hl.symm) hne
    | noWords => rfl
    | notFinite _ h => subst hl; obtain ⟨x, hx, _⟩ := h; cases hx
  | notFinite _ h =>
    subst hl
    generalize hl : l = l' at h'
    cases h' with
    | perplexity ys hne => subst hl; exact absurd h (aux ys)
    | noWords => subst hl; obtain ⟨x, hx, _⟩ := h; cases hx
    | notFinite _ h => rfl

theorem PerplexityOf.perm {exp : S → S} {l l' : List (Flt S)} {r : Except Err (Flt S)} (h : PerplexityOf exp l r)
    (hp : l.Perm l') : PerplexityOf exp l' r := by
  cases h with
  | perplexity xs hne =>
    rcases all_fin_or l' with ⟨ys, rfl⟩ | ⟨x, hx, hy⟩
    · have inj : Function.Injective (Flt.fin (S := S)) := fun a b h => by injection h
      have hp' := (List.map_perm_map_iff inj).mp hp
      rw [hp'.sum_eq, hp'.length_eq]
      exact .perplexity ys fun e => hne (by rw [e] at hp'; exact hp'.eq_nil)
    · obtain ⟨z, _, rfl⟩ := List.mem_map.mp (hp.mem_iff.mpr hx)
      exact absurd rfl (hy z)
  | noWords => rw [hp.symm.eq_nil]; exact .noWords
  | notFinite _ h =>
    obtain ⟨x, h1, h2⟩ := h
    exact .notFinite _ ⟨x, hp.mem_iff.mp h1, h2⟩

theorem list_sum_nonpos (l : List S) (h : ∀ x ∈ l, x ≤ 0) : l.sum ≤ 0 := by
  induction l with
  | nil => simp
  | cons a l ih =>
    rw [List.sum_cons]
    have h1 := h a List.mem_cons_self
    have h2 := ih fun x hx => h x (List.mem_cons_of_mem _ hx)
    linarith

theorem checkLogprob_error {x : Flt S} {e : Err} (h : checkLogprob x = .error e) : e = .numberError := by
  unfold checkLogprob at h
  split at h
  · cases h; rfl
  · split at h
    · cases h; rfl
    · split at h
      · cases h; rfl
      · cases h

theorem perplexityLoop_error {P : Parsers} {sc : Scorer S} (h : sc.Proper P) (bs : List MiniBatch)
    (hb : ∀ b ∈ bs, b.Valid sc.vocab) (a : Flt S) (k : Nat) (e : Err)
    (he : sc.perplexityLoop (bs.map MiniBatch.matrices) a k = .error e) : e = .numberError := by
  induction bs generalizing a k with
  | nil => cases he
  | cons b bs ih =>
    rw [List.map_cons] at he
    obtain ⟨xs, hxs, ht⟩ := totalLogprob_batch h b (hb b List.mem_cons_self)
    rw [show b.matrices = (b.matrices.1, b.matrices.2) from rfl, Scorer.perplexityLoop, cells_table h b] at he
    simp only [ht] at he
    cases hk : checkLogprob (Flt.sum xs) with
    | error e' => rw [hk] at he; cases he; exact checkLogprob_error hk
    | ok y =>
      rw [hk] at he
      exact ih (fun b hb' => hb b (List.mem_cons_of_mem _ hb')) _ _ he

theorem forall₂_included_unique {sc : Scorer S} {bs : List MiniBatch} {xs ys : List (List (Flt S))}
    (hx : List.Forall₂ sc.IncludedScores bs xs) (hy : List.Forall₂ sc.IncludedScores bs ys) : xs = ys :=
  forall₂_unique (R := sc.IncludedScores) (fun _ _ _ h h' => includedScores_unique h h') hx hy

/-- The perplexity of mini-batches, when no score is positive. -/
theorem computePerplexity_of {P : Parsers} {sc : Scorer S} (h : sc.Proper P) (bs : List MiniBatch)
    (hb : ∀ b ∈ bs, b.Valid sc.vocab) (scores : List (List (Flt S))) (hs : List.Forall₂ sc.IncludedScores bs scores)
    (hn : ∀ l ∈ scores, ∀ x, Flt.fin x ∈ l → x ≤ 0) :
    PerplexityOf sc.exp scores.flatten (sc.computePerplexity (bs.map MiniBatch.matrices)) := by
  rcases all_fin_or scores.flatten with ⟨xs, hxs⟩ | hbad
  · have hall : ∃ vals : List (List S), scores = vals.map (·.map .fin) := by
      clear hs hb hn
      induction scores generalizing xs with
      | nil => exact ⟨[], rfl⟩
      | cons l scores ih =>
        rw [List.flatten_cons] at hxs
        obtain ⟨a, b, _, h1, h2⟩ := List.append_eq_map_iff.mp hxs
        obtain ⟨vals, rfl⟩ := ih b h2.symm
        exact ⟨a :: vals, by rw [List.map_cons, h1]⟩
    obtain ⟨vals, rfl⟩ := hall
    rw [List.forall₂_map_right_iff] at hs
    have hv : List.Forall₂ (fun b xs => sc.IncludedScores b (xs.map Flt.fin) ∧ xs.sum ≤ 0) bs vals := by
      clear hxs hb
      induction hs with
      | nil => exact .nil
      | cons h1 _ ih =>
        refine .cons ⟨h1, list_sum_nonpos _ fun x hx => ?_⟩ (ih fun l hl => hn l (by rw [List.map_cons]; exact List.mem_cons_of_mem _ hl))
        exact hn _ List.mem_cons_self x (List.mem_map.mpr ⟨x, hx, rfl⟩)
    have hfl : (vals.map (·.map (Flt.fin (S := S)))).flatten = vals.flatten.map .fin := List.map_flatten.symm
    rw [hfl]
    by_cases hne : vals.flatten = []
    · have : sc.computePerplexity (bs.map MiniBatch.matrices) = .error .valueError := by
        unfold Scorer.computePerplexity
        rw [(perplexityLoop_ok h bs hb 0 0 _).mpr ⟨vals, hv, rfl⟩, hne]
        rfl
      rw [this, hne]
      exact .noWords
    · rw [(C38_perplexity P sc h bs hb _).mpr ⟨vals, hv, hne, rfl⟩]
      exact .perplexity _ hne
  · have : sc.computePerplexity (bs.map MiniBatch.matrices) = .error .numberError := by
      unfold Scorer.computePerplexity
      cases hl : sc.perplexityLoop (bs.map MiniBatch.matrices) (.fin 0) 0 with
      | error e => rw [perplexityLoop_error h bs hb _ _ e hl]
      | ok r =>
        obtain ⟨vals, hv, _⟩ := (perplexityLoop_ok h bs hb 0 0 r).mp hl
        have hu : scores = vals.map (·.map .fin) := forall₂_included_unique hs (by
          rw [List.forall₂_map_right_iff]
          exact hv.imp fun _ _ h => h.1)
        obtain ⟨x, hx, hy⟩ := hbad
        rw [hu, ← List.map_flatten] at hx
        obtain ⟨z, _, rfl⟩ := List.mem_map.mp hx
        exact absurd rfl (hy z)
    rw [this]
    exact .notFinite _ hbad

/-! ## Mini-batches and their sequences -/

theorem positions_perm (b : MiniBatch) :
    b.positions.Perm ((List.range b.n).flatMap (fun i => (List.range b.steps).map (fun t => (t, i)))) := by
  refine (List.perm_ext_iff_of_nodup ?_ ?_).mpr fun p => ?_
  · exact List.Nodup.product List.nodup_range List.nodup_range
  · have := (List.Nodup.product (List.nodup_range (n := b.n)) (List.nodup_range (n := b.steps))).map Prod.swap_injective
    convert this using 1
    simp [SProd.sprod, List.product, List.map_flatMap, Function.comp_def]
  · unfold MiniBatch.positions
    simp only [List.mem_flatMap, List.mem_map, List.mem_range]
    constructor
    · rintro ⟨t, ht, i, hi, rfl⟩; exact ⟨i, hi, t, ht, rfl⟩
    · rintro ⟨i, hi, t, ht, rfl⟩; exact ⟨t, ht, i, hi, rfl⟩

/-- The scores of the included words of one sequence of a mini-batch. -/
def ColumnScores (sc : Scorer S) (p : MiniBatch × Nat) (xs : List (Flt S)) : Prop :=
  List.Forall₂ (fun t x => sc.WordScore p.1 t p.2 x)
    ((List.range p.1.steps).filter (fun t => decide (sc.Included p.1 t p.2))) xs

theorem columns_of_batch {P : Parsers} {sc : Scorer S} (h : sc.Proper P) (b : MiniBatch) (hb : b.Valid sc.vocab) :
    ∃ xs cols, sc.IncludedScores b xs ∧ List.Forall₂ (ColumnScores sc) ((List.range b.n).map (fun i => (b, i))) cols ∧
      xs.Perm cols.flatten := by
  obtain ⟨f, hf, -⟩ := targetLogprobs_table h b hb
  refine ⟨(b.positions.filter (fun p => decide (sc.Included b p.1 p.2))).map (fun p => f p.1 p.2),
    (List.range b.n).map (fun i => ((List.range b.steps).filter (fun t => decide (sc.Included b t i))).map (fun t => f t i)), ?_, ?_, ?_⟩
  · unfold Scorer.IncludedScores
    rw [List.forall₂_map_right_iff, List.forall₂_same]
    intro p hp
    obtain ⟨h1, h2⟩ := mem_positions (List.mem_filter.mp hp).1
    exact hf _ _ h1 h2
  · rw [List.forall₂_map_left_iff, List.forall₂_map_right_iff, List.forall₂_same]
    intro i hi
    unfold ColumnScores
    rw [List.forall₂_map_right_iff, List.forall₂_same]
    intro t ht
    exact hf _ _ (List.mem_range.mp (List.mem_filter.mp ht).1) (List.mem_range.mp hi)
  · refine (((positions_perm b).filter _).map _).trans (List.Perm.of_eq ?_)
    rw [List.filter_flatMap, List.map_flatMap, List.flatMap_def]
    congr 1
    refine List.map_congr_left fun i _ => ?_
    rw [List.filter_map, List.map_map]
    rfl

theorem columns_of_batches {P : Parsers} {sc : Scorer S} (h : sc.Proper P) (bs : List MiniBatch) (hb : ∀ b ∈ bs, b.Valid sc.vocab) :
    ∃ scores cols, List.Forall₂ sc.IncludedScores bs scores ∧
      List.Forall₂ (ColumnScores sc) (bs.flatMap (fun b => (List.range b.n).map (fun i => (b, i)))) cols ∧
      scores.flatten.Perm cols.flatten := by
  induction bs with
  | nil => exact ⟨[], [], .nil, .nil, .refl _⟩
  | cons b bs ih =>
    obtain ⟨scores, cols, h1, h2, h3⟩ := ih fun b hb' => hb b (List.mem_cons_of_mem _ hb')
    obtain ⟨xs, cs, g1, g2, g3⟩ := columns_of_batch h b (hb b List.mem_cons_self)
    refine ⟨xs :: scores, cs ++ cols, .cons g1 h1, ?_, ?_⟩
    · rw [List.flatMap_cons]
      exact List.rel_append g2 h2
    · rw [List.flatten_cons, List.flatten_append]
      exact g3.append h3

theorem sentence_positions (ids : List Nat) : (sentenceBatch ids).positions = (List.range (ids.length - 1)).map (fun t => (t, 0)) := by
  unfold MiniBatch.positions sentenceBatch
  simp [List.flatMap_def]
  induction List.range (ids.length - 1) with
  | nil => rfl
  | cons a l ih => simp [ih]

/-- The scores of a sequence of a mini-batch are those of the sequence alone. -/
theorem columnScores_alone {sc : Scorer S} (hi : sc.BatchIndependent) {b : MiniBatch} (hb : b.Valid sc.vocab) {i : Nat}
    (hin : i < b.n) {ids : List Nat} (hv : (sentenceBatch ids).Valid sc.vocab) (hne : ids ≠ []) (hl : ids.length ≤ b.steps + 1)
    (hm : ∀ t, t ≤ b.steps → (b.mask t i = 1 ↔ t < ids.length)) (hw : ∀ t, t < ids.length → b.word t i = ids.getD t 0)
    {xs : List (Flt S)} (h : ColumnScores sc (b, i) xs) : sc.IncludedScores (sentenceBatch ids) xs := by
  have hpos := List.length_pos_iff.mpr hne
  have hnet := hi b (sentenceBatch ids) i 0 (ids.length - 1) hb hv hin (by simp [sentenceBatch]) (by omega)
    (by simp [sentenceBatch]) (by
      intro t ht
      exact ⟨hw t (by omega), (hm t (by omega)).mpr (by omega), rfl⟩)
  have hinc : ∀ t, t < ids.length - 1 → (sc.Included b t i ↔ sc.Included (sentenceBatch ids) t 0) := by
    intro t ht
    unfold Scorer.Included
    rw [hw (t + 1) (by omega)]
    have : b.mask (t + 1) i = 1 := (hm (t + 1) (by omega)).mpr (by omega)
    rw [this]
    exact Iff.rfl
  unfold ColumnScores at h
  unfold Scorer.IncludedScores
  rw [sentence_positions, List.filter_map, List.forall₂_map_left_iff]
  have e1 : (List.range b.steps).filter (fun t => decide (sc.Included b t i)) =
      (List.range (ids.length - 1)).filter (fun t => decide (sc.Included (sentenceBatch ids) t 0)) := by
    obtain ⟨r, hr⟩ : ∃ r, b.steps = (ids.length - 1) + r := ⟨b.steps - (ids.length - 1), by omega⟩
    rw [hr, List.range_add, List.filter_append]
    rw [List.filter_eq_nil_iff (l := List.map _ _).mpr (by
      intro t ht
      obtain ⟨k, hk, rfl⟩ := List.mem_map.mp ht
      rw [List.mem_range] at hk
      simp only [decide_eq_true_eq]
      intro hI
      have := (hm (ids.length - 1 + k + 1) (by omega)).mp hI.1
      omega), List.append_nil]
    refine List.filter_congr fun t ht => ?_
    rw [decide_eq_decide]
    exact hinc t (List.mem_range.mp ht)
  simp only at h
  rw [e1] at h
  have hfun : ((fun p : Nat × Nat => decide (sc.Included (sentenceBatch ids) p.1 p.2)) ∘ fun t => (t, 0)) =
      fun t => decide (sc.Included (sentenceBatch ids) t 0) := rfl
  rw [hfun]
  have hmem : ∀ t ∈ (List.range (ids.length - 1)).filter (fun t => decide (sc.Included (sentenceBatch ids) t 0)), t < ids.length - 1 :=
    fun t ht => List.mem_range.mp (List.mem_filter.mp ht).1
  revert hmem
  generalize (List.range (ids.length - 1)).filter _ = l at h ⊢
  intro hmem
  induction h with
  | nil => exact .nil
  | @cons t x l xs hx _ ih =>
    refine .cons ?_ (ih fun t ht => hmem t (List.mem_cons_of_mem _ ht))
    have ht := hmem t List.mem_cons_self
    have hwe : b.word (t + 1) i = (sentenceBatch ids).word (t + 1) 0 := hw (t + 1) (by omega)
    unfold Scorer.WordScore at hx ⊢
    rw [hwe, hnet t ht] at hx
    exact hx

theorem prepare_of_scoring (v : Vocab) (batches : List (List (List Tok))) (bs : List TextBatch)
    (h : mapE (prepareScoringBatch v false) batches = .ok (bs.map TextBatch.given)) :
    ∃ l, mapE (prepareBatch v false) batches = .ok l ∧ l.map (fun b => (b.1, b.2.2)) = bs.map (fun b => b.1.matrices) := by
  induction batches generalizing bs with
  | nil =>
    cases bs with
    | nil => exact ⟨[], rfl, rfl⟩
    | cons b bs => cases h
  | cons seqs batches ih =>
    rw [mapE, C07_scoring] at h
    cases h1 : prepareBatch v false seqs with
    | error e => rw [h1] at h; cases h
    | ok x =>
      obtain ⟨w, f, m⟩ := x
      rw [h1] at h
      simp only at h
      cases h2 : mapE (prepareScoringBatch v false) batches with
      | error e => rw [h2] at h; cases h
      | ok ys =>
        rw [h2] at h
        simp only [Except.ok.injEq] at h
        cases bs with
        | nil => cases h
        | cons b bs =>
          rw [List.map_cons] at h
          injection h with ha hb'
          obtain ⟨l, g1, g2⟩ := ih bs (by rw [h2, hb'])
          refine ⟨(w, f, m) :: l, by rw [mapE, h1, g1], ?_⟩
          rw [List.map_cons, List.map_cons, g2]
          congr 1
          unfold TextBatch.given at ha
          simp only [Prod.mk.injEq] at ha
          exact Prod.ext ha.1 ha.2.2

end

end TheanoLM
