import Verif.Lemmas.VocabBuild
import Mathlib.Algebra.Order.BigOperators.Group.List
/-!
# Lemmas: word counts, probabilities, and the saved state of a vocabulary
-/
namespace TheanoLM

/-! ## sortByCount -/

theorem insertByCount_perm (x : Str × Nat) (l : List (Str × Nat)) : (insertByCount x l).Perm (x :: l) := by
  induction l with
  | nil => exact List.Perm.refl _
  | cons y ys ih =>
    unfold insertByCount
    split
    · exact List.Perm.refl _
    · exact (List.Perm.cons y ih).trans (List.Perm.swap x y ys)

theorem sortByCount_perm (l : List (Str × Nat)) : (sortByCount l).Perm l := by
  induction l with
  | nil => exact List.Perm.refl _
  | cons x xs ih => exact (insertByCount_perm x _).trans (List.Perm.cons x ih)

theorem insertByCount_sorted (x : Str × Nat) (l : List (Str × Nat)) (h : l.Pairwise (fun a b => a.2 ≤ b.2)) :
    (insertByCount x l).Pairwise (fun a b => a.2 ≤ b.2) := by
  induction l with
  | nil => simp [insertByCount]
  | cons y ys ih =>
    rw [List.pairwise_cons] at h
    unfold insertByCount
    split
    · rename_i hxy
      rw [List.pairwise_cons]
      refine ⟨?_, List.pairwise_cons.mpr h⟩
      intro z hz
      rcases List.mem_cons.mp hz with rfl | hz
      · exact hxy
      · exact Nat.le_trans hxy (h.1 z hz)
    · rename_i hxy
      rw [List.pairwise_cons]
      refine ⟨?_, ih h.2⟩
      intro z hz
      rcases List.mem_cons.mp ((insertByCount_perm x ys).mem_iff.mp hz) with rfl | hz
      · omega
      · exact h.1 z hz

theorem sortByCount_sorted (l : List (Str × Nat)) : (sortByCount l).Pairwise (fun a b => a.2 ≤ b.2) := by
  induction l with
  | nil => simp [sortByCount]
  | cons x xs ih => exact insertByCount_sorted x _ ih

/-! ## wordCountsLoop -/

theorem range_map_mod_append (k n : Nat) : (List.range k).map (· % n) ++ [k % n] = (List.range (k + 1)).map (· % n) := by
  rw [List.range_succ, List.map_append]; rfl

theorem wordCountsLoop_spec (n : Nat) (hn : 0 < n) (cs : List (Str × Nat)) (b : Build Unit)
    (h : BInv b (List.replicate b.words.length 1)) (hco : b.classOf = (List.range b.words.length).map (· % n))
    (hcl : b.classes.length = min b.words.length n) (hnd : (b.words ++ cs.map Prod.fst).Nodup) :
    ∃ b', wordCountsLoop n cs (b.words.length % n) b = .ok b' ∧ b'.words = b.words ++ cs.map Prod.fst ∧
      BInv b' (List.replicate b'.words.length 1) ∧ b'.classOf = (List.range b'.words.length).map (· % n) ∧
      b'.classes.length = min b'.words.length n := by
  induction cs generalizing b with
  | nil => exact ⟨b, rfl, by simp, h, hco, hcl⟩
  | cons wc rest ih =>
    obtain ⟨word, count⟩ := wc
    have hw : word ∉ b.words := by
      rw [List.nodup_append] at hnd
      intro hm
      exact hnd.2.2 word hm word (by simp) rfl
    unfold wordCountsLoop
    simp only [if_neg (Nat.ne_of_gt hn)]
    have hmod : (b.words.length % n + 1) % n = (b.words.length + 1) % n := by simp [Nat.add_mod]
    have hml : b.words.length % n < n := Nat.mod_lt _ hn
    have hrep : List.replicate b.words.length (1 : ℚ) ++ [1] = List.replicate (b.words.length + 1) 1 := by
      rw [List.replicate_succ']
    by_cases hlt : b.words.length % n < b.classes.length
    · rw [if_pos hlt]
      have hkn : n ≤ b.words.length := by
        by_contra hc
        rw [Nat.mod_eq_of_lt (by omega)] at hlt
        omega
      obtain ⟨b', h1, h2, h3⟩ := ih (stepOld b word 1 (b.words.length % n) b.fileIds)
        (by
          have := h.stepOld hw 1 hlt b.fileIds
          rw [hrep] at this
          simpa [stepOld] using this)
        (by
          simp only [stepOld, hco]
          rw [List.length_append, List.length_singleton, ← range_map_mod_append])
        (by simp [stepOld, hcl]; omega)
        (by simpa [stepOld] using hnd)
      refine ⟨b', ?_, by simpa [stepOld] using h2, h3⟩
      rw [hmod]
      rw [← h1]
      simp [stepOld]
    · rw [if_neg hlt]
      have hkn : b.words.length < n := by
        by_contra hc
        omega
      have hk : b.words.length % n = b.words.length := Nat.mod_eq_of_lt hkn
      have hcl' : b.classes.length = b.words.length := by omega
      rw [if_neg (by omega)]
      obtain ⟨b', h1, h2, h3⟩ := ih (stepNew b word 1 b.fileIds)
        (by
          have := h.stepNew hw 1 b.fileIds
          rw [hrep] at this
          simpa [stepNew] using this)
        (by
          simp only [stepNew, hco]
          rw [List.length_append, List.length_singleton, ← range_map_mod_append, hk, hcl'])
        (by simp [stepNew, hcl]; omega)
        (by simpa [stepNew] using hnd)
      refine ⟨b', ?_, by simpa [stepNew] using h2, h3⟩
      rw [hmod]
      rw [← h1]
      simp [stepNew, hk, hcl']

/-! ## compute_probs -/

theorem dictGet?_cons [DecidableEq κ] (k k' : κ) (x : β) (d : List (κ × β)) :
    dictGet? ((k, x) :: d) k' = if k = k' then some x else dictGet? d k' := by
  unfold dictGet?
  rw [List.find?_cons]
  by_cases h : k = k' <;> simp [h]

/-- Count of a word in a table. -/
def countIn (wc : List (Str × Nat)) (w : Str) : Nat := (dictGet? wc w).getD 0

theorem countsById_spec (ws : List Str) (hn : ws.Nodup) (wc : List (Str × Nat)) (hk : (wc.map Prod.fst).Nodup)
    (counts : List Nat) (hc : counts.length = ws.length) :
    (countsById ws wc counts).length = ws.length ∧
    ∀ (i : Nat) (w : Str), ws[i]? = some w →
      (countsById ws wc counts)[i]? = some ((dictGet? wc w).getD (counts.getD i 0)) := by
  induction wc generalizing counts with
  | nil =>
    refine ⟨hc, ?_⟩
    intro i w hw
    have hi := (List.getElem?_eq_some_iff.mp hw).1
    simp [countsById, dictGet?, List.getElem?_eq_getElem (hc ▸ hi)]
  | cons p rest ih =>
    obtain ⟨x, c⟩ := p
    rw [List.map_cons, List.nodup_cons] at hk
    unfold countsById
    cases hx : wordToId ws x with
    | none =>
      obtain ⟨h1, h2⟩ := ih hk.2 counts hc
      refine ⟨h1, ?_⟩
      intro i w hw
      simp only
      rw [h2 i w hw, dictGet?_cons, if_neg]
      intro hxw
      subst hxw
      exact (wordToId_none.mp hx) (List.mem_of_getElem? hw)
    | some j =>
      obtain ⟨h1, h2⟩ := ih hk.2 (counts.set j c) (by simp [hc])
      refine ⟨h1, ?_⟩
      intro i w hw
      simp only
      rw [h2 i w hw, dictGet?_cons]
      have hi := (List.getElem?_eq_some_iff.mp hw).1
      by_cases hxw : x = w
      · subst hxw
        have hij : i = j := getElem?_inj_of_nodup hn hw (wordToId_get hx)
        subst hij
        have : dictGet? rest x = none := (dictGet?_none _ _).mpr hk.1
        rw [this, if_pos rfl]
        simp [List.getD, hc, hi]
      · have hij : j ≠ i := by
          intro hij
          subst hij
          have := wordToId_get hx
          rw [hw] at this
          cases this
          exact hxw rfl
        rw [if_neg hxw]
        simp [List.getD, hij]

theorem countsById_eq (ws : List Str) (hn : ws.Nodup) (wc : List (Str × Nat)) (hk : (wc.map Prod.fst).Nodup) :
    countsById ws wc (List.replicate ws.length 0) = ws.map (countIn wc) := by
  obtain ⟨h1, h2⟩ := countsById_spec ws hn wc hk (List.replicate ws.length 0) (by simp)
  apply List.ext_getElem?
  intro i
  cases hi : ws[i]? with
  | none =>
    rw [List.getElem?_map, hi, Option.map_none]
    rw [List.getElem?_eq_none_iff] at hi ⊢
    omega
  | some w =>
    rw [h2 i w hi, List.getElem?_map, hi]
    have := (List.getElem?_eq_some_iff.mp hi).1
    simp [countIn, List.getD, this]

/-- Membership probabilities from counts. -/
def updProbs (classOf counts : List Nat) : List ℚ :=
  (List.range classOf.length).map (fun i =>
    let ids := idsOf classOf (classOf.getD i 0)
    let total := (ids.map (fun j => counts.getD j 0)).sum
    if 0 < total then (counts.getD i 0 : ℚ) / total else 1 / (ids.length : ℚ))

theorem updProbs_get (classOf counts : List Nat) {i c : Nat} (h : classOf[i]? = some c) :
    (updProbs classOf counts).getD i 0 =
      if 0 < ((idsOf classOf c).map (fun j => counts.getD j 0)).sum then
        (counts.getD i 0 : ℚ) / ((idsOf classOf c).map (fun j => counts.getD j 0)).sum
      else 1 / ((idsOf classOf c).length : ℚ) := by
  have hi : i < classOf.length := by
    by_contra hc; rw [List.getElem?_eq_none (by omega)] at h; cases h
  have hc : classOf.getD i 0 = c := by simp [List.getD, h]
  rw [updProbs, List.getD, List.getElem?_map, List.getElem?_range hi]
  simp only [Option.map_some, Option.getD_some, hc]

theorem updProbs_nonneg (classOf counts : List Nat) : ∀ p ∈ updProbs classOf counts, 0 ≤ p := by
  intro p hp
  unfold updProbs at hp
  obtain ⟨i, _, rfl⟩ := List.mem_map.mp hp
  simp only
  split <;> positivity

theorem sum_cast_map (l : List Nat) (f : Nat → Nat) : (l.map (fun j => (f j : ℚ))).sum = ((l.map f).sum : ℚ) := by
  induction l with
  | nil => simp
  | cons a l ih => simp [ih]

theorem sum_const (l : List Nat) (c : ℚ) : (l.map (fun _ => c)).sum = l.length * c := by
  induction l with
  | nil => simp
  | cons a l ih => simp only [List.map_cons, List.sum_cons, ih, List.length_cons]; push_cast; ring

theorem classSum_updProbs (classOf counts : List Nat) (c : Nat) (hc : c ∈ classOf) :
    classSum classOf (updProbs classOf counts) c = 1 := by
  obtain ⟨i0, hi0⟩ := List.mem_iff_getElem?.mp hc
  have hne : idsOf classOf c ≠ [] := List.ne_nil_of_mem (mem_idsOf.mpr hi0)
  have hlen : ((idsOf classOf c).length : ℚ) ≠ 0 := by
    have := List.length_pos_of_ne_nil hne
    exact_mod_cast (by omega : (idsOf classOf c).length ≠ 0)
  unfold classSum
  by_cases h : 0 < ((idsOf classOf c).map (fun j => counts.getD j 0)).sum
  · have e : (idsOf classOf c).map (fun i => (updProbs classOf counts).getD i 0) =
        (idsOf classOf c).map (fun i => (counts.getD i 0 : ℚ) / ((idsOf classOf c).map (fun j => counts.getD j 0)).sum) := by
      apply List.map_congr_left
      intro i hi
      rw [updProbs_get _ _ (mem_idsOf.mp hi), if_pos h]
    rw [e, sum_map_div, sum_cast_map]
    apply div_self
    exact_mod_cast (by omega)
  · have e : (idsOf classOf c).map (fun i => (updProbs classOf counts).getD i 0) =
        (idsOf classOf c).map (fun _ => 1 / ((idsOf classOf c).length : ℚ)) := by
      apply List.map_congr_left
      intro i hi
      rw [updProbs_get _ _ (mem_idsOf.mp hi), if_neg h]
    rw [e, sum_const]
    field_simp

theorem updateClass_eq (classOf counts : List Nat) (ps : List ℚ) (c : Nat) (hc : c ∈ classOf) :
    updateClass counts ⟨c, (idsOf classOf c).map (fun i => (i, ps.getD i 0))⟩ =
      .ok ⟨c, (idsOf classOf c).map (fun i => (i, (updProbs classOf counts).getD i 0))⟩ := by
  obtain ⟨i0, hi0⟩ := List.mem_iff_getElem?.mp hc
  have hne : idsOf classOf c ≠ [] := List.ne_nil_of_mem (mem_idsOf.mpr hi0)
  unfold updateClass
  have hs : (((idsOf classOf c).map (fun i => (i, ps.getD i 0))).map (fun p => counts.getD p.1 0)) =
      (idsOf classOf c).map (fun j => counts.getD j 0) := by
    rw [List.map_map]; rfl
  simp only [hs]
  split
  · rename_i h
    simp only [List.map_map, Except.ok.injEq, WordClass.mk.injEq, true_and]
    apply List.map_congr_left
    intro i hi
    simp only [Function.comp]
    rw [updProbs_get _ _ (mem_idsOf.mp hi), if_pos h]
  · rename_i h
    rw [if_neg (by simp [hne])]
    simp only [List.map_map, Except.ok.injEq, WordClass.mk.injEq, true_and]
    apply List.map_congr_left
    intro i hi
    simp only [Function.comp, List.length_map]
    rw [updProbs_get _ _ (mem_idsOf.mp hi), if_neg h]

theorem mapE_classList {f : WordClass → Except Err WordClass} {n : Nat} {classOf : List Nat} {ps ps' : List ℚ}
    (h : ∀ c < n, f ⟨c, (idsOf classOf c).map (fun i => (i, ps.getD i 0))⟩ =
      .ok ⟨c, (idsOf classOf c).map (fun i => (i, ps'.getD i 0))⟩) :
    mapE f (classList n classOf ps) = .ok (classList n classOf ps') := by
  have : classList n classOf ps' = (classList n classOf ps).map (fun k =>
      ⟨k.id, (idsOf classOf k.id).map (fun i => (i, ps'.getD i 0))⟩) := by
    simp [classList, List.map_map, Function.comp_def]
  rw [this]
  apply mapE_eq
  intro k hk
  unfold classList at hk
  obtain ⟨c, hc, rfl⟩ := List.mem_map.mp hk
  exact h c (List.mem_range.mp hc)

/-- The unigram probabilities that `compute_probs` computes. -/
def unigramOf (ws : List Str) (wc : List (Str × Nat)) : List ℚ :=
  let counts := countsById ws wc (List.replicate ws.length 0)
  if 0 < counts.sum then counts.map (fun (n : Nat) => (n : ℚ) / counts.sum) else counts.map (fun (n : Nat) => (n : ℚ))

theorem countsById_length (ws : List Str) (wc : List (Str × Nat)) (counts : List Nat) :
    (countsById ws wc counts).length = counts.length := by
  induction wc generalizing counts with
  | nil => rfl
  | cons p rest ih =>
    obtain ⟨x, c⟩ := p
    unfold countsById
    split
    · rw [ih, List.length_set]
    · exact ih _

theorem unigramOf_length (ws : List Str) (wc : List (Str × Nat)) : (unigramOf ws wc).length = ws.length := by
  unfold unigramOf
  simp only
  split <;> rw [List.length_map, countsById_length, List.length_replicate]

theorem VInv.wordToId {v : Vocab} {n : Nat} {ps : List ℚ} (h : VInv v n ps) {t : Str}
    (ht : t = sos ∨ t = eos ∨ t = unk) : ∃ i < v.classOf.length, v.wordToId t = some i ∧ v.idToWord[i]? = some t := by
  have hm := h.special t ht
  obtain ⟨i, hi⟩ := List.mem_iff_getElem?.mp hm
  have hlt : i < v.classOf.length := by
    have := (List.getElem?_eq_some_iff.mp hi).1
    rw [List.length_take] at this
    omega
  rw [List.getElem?_take_of_lt hlt] at hi
  exact ⟨i, hlt, (wordToId_iff h.nodup).mpr hi, hi⟩

theorem computeProbs_spec {v : Vocab} {n : Nat} {ps : List ℚ} (h : VInv v n ps) (wc : List (Str × Nat)) (upd : Bool) :
    ∃ v' ps', computeProbs v wc upd = .ok v' ∧ VInv v' n ps' ∧ v'.idToWord = v.idToWord ∧ v'.classOf = v.classOf ∧
      v'.unigram = some (unigramOf v.idToWord wc) ∧
      (upd = false → ps' = ps ∧ v'.classes = v.classes) ∧ (upd = true → ∀ p ∈ ps', 0 ≤ p) := by
  obtain ⟨i1, _, h1, _⟩ := h.wordToId (.inl rfl)
  obtain ⟨i2, _, h2, _⟩ := h.wordToId (.inr (.inl rfl))
  obtain ⟨i3, _, h3, _⟩ := h.wordToId (.inr (.inr rfl))
  unfold computeProbs
  rw [h1, h2, h3]
  simp only
  have hu : (if 0 < (countsById v.idToWord wc (List.replicate v.numWords 0)).sum then
      (countsById v.idToWord wc (List.replicate v.numWords 0)).map (fun (n : Nat) => (n : ℚ) /
        (countsById v.idToWord wc (List.replicate v.numWords 0)).sum)
      else (countsById v.idToWord wc (List.replicate v.numWords 0)).map (fun (n : Nat) => (n : ℚ))) =
      unigramOf v.idToWord wc := rfl
  simp only [hu]
  cases upd with
  | false =>
    refine ⟨_, ps, rfl, ?_, rfl, rfl, rfl, fun _ => ⟨rfl, rfl⟩, by simp⟩
    exact ⟨h.nodup, h.short, h.plen, h.lt, h.surj, h.cls, h.special, h.sums, h.normal,
      by simp [unigramOf_length]⟩
  | true =>
    rw [if_neg (by simp)]
    generalize hcounts : List.set _ i3 _ = counts
    have hm : mapE (updateClass counts) v.classes = .ok (classList n v.classOf (updProbs v.classOf counts)) := by
      rw [h.cls]
      exact mapE_classList (fun c hc => updateClass_eq _ _ _ _ (h.surj c hc))
    rw [hm]
    refine ⟨_, updProbs v.classOf counts, rfl, ?_, rfl, rfl, rfl, by simp, fun _ => updProbs_nonneg _ _⟩
    refine ⟨h.nodup, h.short, by simp [updProbs], h.lt, h.surj, rfl, h.special, ?_, ?_, by simp [unigramOf_length]⟩
    · intro c hc
      exact classSum_updProbs _ _ _ (h.surj c hc)
    · simp only
      rw [h.normal, h.cls]
      exact numNormal_congr _ _ _ _ _

/-- The counts with which `compute_probs` computes the membership probabilities: the special tokens are counted at least
once. -/
def memberCount (wc : List (Str × Nat)) (w : Str) : Nat :=
  if w = sos ∨ w = eos ∨ w = unk then max (countIn wc w) 1 else countIn wc w

theorem set_getD (l : List Nat) (i j : Nat) (x : Nat) (hi : i < l.length) :
    (l.set i x).getD j 0 = if j = i then x else l.getD j 0 := by
  rw [List.getD_eq_getElem?_getD, List.getD_eq_getElem?_getD, List.getElem?_set]
  by_cases h : j = i
  · subst h; simp [hi]
  · have : ¬ i = j := fun e => h e.symm
    simp [h, this]

theorem computeProbs_update {v : Vocab} {n : Nat} {ps : List ℚ} (h : VInv v n ps) (wc : List (Str × Nat))
    (hk : (wc.map Prod.fst).Nodup) :
    ∃ v' counts, computeProbs v wc true = .ok v' ∧ VInv v' n (updProbs v.classOf counts) ∧
      v'.idToWord = v.idToWord ∧ v'.classOf = v.classOf ∧
      ∀ i w, v.idToWord[i]? = some w → counts.getD i 0 = memberCount wc w := by
  obtain ⟨i1, l1, h1, g1⟩ := h.wordToId (.inl rfl)
  obtain ⟨i2, l2, h2, g2⟩ := h.wordToId (.inr (.inl rfl))
  obtain ⟨i3, l3, h3, g3⟩ := h.wordToId (.inr (.inr rfl))
  have b1 := (List.getElem?_eq_some_iff.mp g1).1
  have b2 := (List.getElem?_eq_some_iff.mp g2).1
  have b3 := (List.getElem?_eq_some_iff.mp g3).1
  unfold computeProbs
  rw [h1, h2, h3]
  simp only
  have hu : (if 0 < (countsById v.idToWord wc (List.replicate v.numWords 0)).sum then
      (countsById v.idToWord wc (List.replicate v.numWords 0)).map (fun (n : Nat) => (n : ℚ) /
        (countsById v.idToWord wc (List.replicate v.numWords 0)).sum)
      else (countsById v.idToWord wc (List.replicate v.numWords 0)).map (fun (n : Nat) => (n : ℚ))) =
      unigramOf v.idToWord wc := rfl
  simp only [hu]
  rw [if_neg (by simp)]
  have hc : countsById v.idToWord wc (List.replicate v.numWords 0) = v.idToWord.map (countIn wc) :=
    countsById_eq _ h.nodup _ hk
  rw [hc]
  generalize hcounts : List.set _ i3 _ = counts
  have hm : mapE (updateClass counts) v.classes = .ok (classList n v.classOf (updProbs v.classOf counts)) := by
    rw [h.cls]
    exact mapE_classList (fun c hc => updateClass_eq _ _ _ _ (h.surj c hc))
  rw [hm]
  refine ⟨_, counts, rfl, ?_, rfl, rfl, ?_⟩
  · refine ⟨h.nodup, h.short, by simp [updProbs], h.lt, h.surj, rfl, h.special, ?_, ?_, by simp [unigramOf_length]⟩
    · intro c hc
      exact classSum_updProbs _ _ _ (h.surj c hc)
    · simp only
      rw [h.normal, h.cls]
      exact numNormal_congr _ _ _ _ _
  · intro i w hw
    have hinj : ∀ j t, v.idToWord[j]? = some t → (i = j ↔ w = t) := by
      intro j t hj
      constructor
      · rintro rfl; rw [hw] at hj; exact Option.some.inj hj
      · rintro rfl; exact getElem?_inj_of_nodup h.nodup hw hj
    have e1 := hinj i1 _ g1
    have e2 := hinj i2 _ g2
    have e3 := hinj i3 _ g3
    have hmap : ∀ j t, v.idToWord[j]? = some t → (v.idToWord.map (countIn wc)).getD j 0 = countIn wc t := by
      intro j t hj
      rw [List.getD_eq_getElem?_getD, List.getElem?_map, hj]; rfl
    have n12 : i2 ≠ i1 := by
      intro e; rw [e, g1] at g2; exact absurd g2 (by decide)
    have n13 : i3 ≠ i1 := by
      intro e; rw [e, g1] at g3; exact absurd g3 (by decide)
    have n23 : i3 ≠ i2 := by
      intro e; rw [e, g2] at g3; exact absurd g3 (by decide)
    rw [← hcounts]
    rw [set_getD _ _ _ _ (by simpa using b3), set_getD _ _ _ _ (by simpa using b2), set_getD _ _ _ _ (by simpa using b1),
      set_getD _ _ _ _ (by simpa using b1), set_getD _ _ _ _ (by simpa using b2), set_getD _ _ _ _ (by simpa using b1),
      hmap _ _ hw, hmap _ _ g1, hmap _ _ g2, hmap _ _ g3]
    unfold memberCount
    rw [if_neg n23, if_neg n13, if_neg n12]
    by_cases w3 : w = unk
    · subst w3; simp [e3.mpr rfl]
    · have : i ≠ i3 := fun e => w3 (e3.mp e)
      rw [if_neg this]
      by_cases w2 : w = eos
      · subst w2; simp [e2.mpr rfl]
      · have : i ≠ i2 := fun e => w2 (e2.mp e)
        rw [if_neg this]
        by_cases w1 : w = sos
        · subst w1; simp [e1.mpr rfl]
        · have : i ≠ i1 := fun e => w1 (e1.mp e)
          rw [if_neg this, if_neg (by simp [w1, w2, w3])]

/-! ## The state -/

theorem dictGet?_map (ids : List Nat) (g : Nat → ℚ) (i : Nat) (h : i ∈ ids) :
    dictGet? (ids.map (fun i => (i, g i))) i = some (g i) := by
  induction ids with
  | nil => simp at h
  | cons a ids ih =>
    rw [List.map_cons, dictGet?_cons]
    by_cases ha : a = i
    · subst ha; simp
    · rw [if_neg ha]
      exact ih (by simpa [Ne.symm ha] using h)

theorem VInv.memberProb {v : Vocab} {n : Nat} {ps : List ℚ} (h : VInv v n ps) {i c : Nat} (hi : v.classOf[i]? = some c) :
    v.memberProb i c = .ok (ps.getD i 0) := by
  have hc := h.lt c (List.mem_of_getElem? hi)
  unfold Vocab.memberProb
  rw [h.cls, classList_get hc]
  simp only [WordClass.getProb]
  rw [dictGet?_map _ (fun i => ps.getD i 0) i (mem_idsOf.mpr hi)]

theorem VInv.getWordProb {v : Vocab} {n : Nat} {ps : List ℚ} (h : VInv v n ps) {i : Nat} (hi : i < v.classOf.length) :
    v.getWordProb i = .ok (ps.getD i 0) := by
  unfold Vocab.getWordProb
  rw [List.getElem?_eq_getElem hi]
  exact h.memberProb (List.getElem?_eq_getElem hi)

theorem VInv.stateProbs {v : Vocab} {n : Nat} {ps : List ℚ} (h : VInv v n ps) :
    mapE (fun p => v.memberProb p.2 p.1) v.classOf.zipIdx = .ok ps := by
  have e : ps = v.classOf.zipIdx.map (fun p => ps.getD p.2 0) := by
    apply List.ext_getElem?
    intro i
    rw [List.getElem?_map, List.getElem?_zipIdx]
    by_cases hi : i < ps.length
    · rw [List.getElem?_eq_getElem hi, List.getElem?_eq_getElem (h.plen ▸ hi)]
      simp [hi]
    · rw [List.getElem?_eq_none (by omega), List.getElem?_eq_none (by rw [← h.plen]; omega)]
      rfl
  conv => rhs; rw [e]
  apply mapE_eq
  rintro ⟨c, i⟩ hp
  rw [List.mem_zipIdx_iff_getElem?] at hp
  exact h.memberProb hp

/-- The classes after the first `k` words have been read from a state. -/
def stateAt (n : Nat) (classOf : List Nat) (ps : List ℚ) (k : Nat) : List (Option WordClass) :=
  (List.range n).map (fun c => if idsOf (classOf.take k) c = [] then none
    else some ⟨c, (idsOf (classOf.take k) c).map (fun i => (i, ps.getD i 0))⟩)

theorem stateAt_get {n : Nat} {classOf : List Nat} {ps : List ℚ} {k c : Nat} (h : c < n) :
    (stateAt n classOf ps k)[c]? = some (if idsOf (classOf.take k) c = [] then none
      else some ⟨c, (idsOf (classOf.take k) c).map (fun i => (i, ps.getD i 0))⟩) := by
  simp [stateAt, h]

theorem stateAt_set {n : Nat} {classOf : List Nat} {ps : List ℚ} {k c : Nat} (hk : classOf[k]? = some c) (hc : c < n)
    (x : WordClass) (hx : x = ⟨c, (idsOf (classOf.take (k + 1)) c).map (fun i => (i, ps.getD i 0))⟩) :
    (stateAt n classOf ps k).set c (some x) = stateAt n classOf ps (k + 1) := by
  have hlt := (List.getElem?_eq_some_iff.mp hk).1
  have htake : classOf.take (k + 1) = classOf.take k ++ [c] := by
    rw [List.take_succ_eq_append_getElem hlt, ← (List.getElem?_eq_some_iff.mp hk).2]
  apply List.ext_getElem?
  intro j
  rw [List.getElem?_set]
  by_cases hj : j < n
  · by_cases hcj : c = j
    · subst hcj
      rw [if_pos rfl, if_pos (by simpa [stateAt] using hj), stateAt_get hj, if_neg, hx]
      rw [htake, idsOf_append, if_pos rfl]; simp
    · rw [if_neg hcj, stateAt_get hj, stateAt_get hj, htake, idsOf_append, if_neg hcj, List.append_nil]
  · rw [List.getElem?_eq_none (l := stateAt n classOf ps (k+1)) (by simp [stateAt]; omega)]
    rw [if_neg (by omega), List.getElem?_eq_none (by simp [stateAt]; omega)]

theorem fromStateLoop_spec (n : Nat) (classOf : List Nat) (ps : List ℚ) (hlen : ps.length = classOf.length)
    (hlt : ∀ c ∈ classOf, c < n) (rest : List ℚ) (k : Nat) (hr : rest = ps.drop k) (hk : k ≤ ps.length) :
    fromStateLoop classOf (rest.zipIdx k) (stateAt n classOf ps k) = .ok (stateAt n classOf ps ps.length) := by
  induction rest generalizing k with
  | nil =>
    have : ps.length ≤ k := by
      have := congrArg List.length hr
      simp at this; omega
    have : k = ps.length := by omega
    subst this
    rfl
  | cons p rest ih =>
    have hkl : k < ps.length := by
      have := congrArg List.length hr
      simp at this; omega
    rw [List.zipIdx_cons]
    unfold fromStateLoop
    have hdk := List.drop_eq_getElem_cons hkl
    rw [hdk] at hr
    injection hr with hp hr
    have hc : classOf[k]? = some classOf[k] := List.getElem?_eq_getElem _
    have hcn : classOf[k] < n := hlt _ (List.getElem_mem _)
    have hids : idsOf (classOf.take (k + 1)) classOf[k] = idsOf (classOf.take k) classOf[k] ++ [k] := by
      rw [List.take_succ_eq_append_getElem (by omega), idsOf_append, if_pos rfl, List.length_take,
        Nat.min_eq_left (by omega)]
    have hpk : ps.getD k 0 = p := by simp [List.getD, hkl, hp]
    rw [hc]
    simp only
    rw [stateAt_get hcn]
    by_cases hnil : idsOf (classOf.take k) classOf[k] = []
    · rw [if_pos hnil]
      simp only
      rw [stateAt_set hc hcn _ (by rw [hids, hnil]; simp [WordClass.new, hkl, hp])]
      exact ih (k + 1) hr hkl
    · rw [if_neg hnil]
      simp only
      rw [stateAt_set hc hcn]
      · exact ih (k + 1) hr hkl
      · rw [hids, WordClass.setProb]
        simp only
        rw [dictSet_new, List.map_append]
        · simp [hkl, hp]
        · intro hm
          rw [List.map_map] at hm
          obtain ⟨i, hi, he⟩ := List.mem_map.mp hm
          have := idsOf_lt hi
          rw [List.length_take] at this
          simp only [Function.comp] at he
          omega

theorem normProbs_id (classOf : List Nat) (ps : List ℚ) (hlen : ps.length = classOf.length) (n : Nat)
    (hlt : ∀ c ∈ classOf, c < n) (h : ∀ c < n, classSum classOf ps c = 1) : normProbs classOf ps = ps := by
  apply List.ext_getElem?
  intro i
  by_cases hi : i < classOf.length
  · have hc : classOf[i]? = some classOf[i] := List.getElem?_eq_getElem hi
    have := normProbs_get classOf ps hc
    rw [h _ (hlt _ (List.getElem_mem hi)), div_one] at this
    have h1 : i < (normProbs classOf ps).length := by simp [normProbs, hi]
    rw [List.getElem?_eq_getElem h1, List.getElem?_eq_getElem (hlen ▸ hi)]
    simpa [List.getD, h1, hlen, hi] using this
  · rw [List.getElem?_eq_none (by simp [normProbs]; omega), List.getElem?_eq_none (by omega)]

theorem max?_of_surj {l : List Nat} {n : Nat} (hlt : ∀ c ∈ l, c < n + 1) (hs : n ∈ l) : l.max? = some n := by
  rw [List.max?_eq_some_iff]
  exact ⟨hs, fun b hb => by have := hlt b hb; omega⟩

theorem VInv.roundTrip {v : Vocab} {n : Nat} {ps : List ℚ} (h : VInv v n ps) :
    vocabFromState (some ⟨some v.idToWord, some v.classOf, some ps, v.unigram⟩) = .ok v := by
  obtain ⟨i1, hi1, _, _⟩ := h.wordToId (.inl rfl)
  have hn : 0 < n := by
    have := h.lt _ (List.getElem_mem hi1)
    omega
  obtain ⟨m, rfl⟩ : ∃ m, n = m + 1 := ⟨n - 1, by omega⟩
  unfold vocabFromState
  simp only
  rw [max?_of_surj h.lt (h.surj m (by omega))]
  simp only
  have hstart : List.replicate (m + 1) none = stateAt (m + 1) v.classOf ps 0 := by
    unfold stateAt
    apply List.ext_getElem?
    intro i
    by_cases hi : i < m + 1
    · simp [hi, idsOf]
    · rw [List.getElem?_eq_none (by simp; omega), List.getElem?_eq_none (by simp; omega)]
  rw [hstart, fromStateLoop_spec (m + 1) v.classOf ps h.plen h.lt ps 0 rfl (Nat.zero_le _)]
  simp only
  have hend : stateAt (m + 1) v.classOf ps ps.length = (classList (m + 1) v.classOf ps).map some := by
    unfold stateAt classList
    rw [List.map_map]
    apply List.map_congr_left
    intro c hc
    rw [h.plen, List.take_length, if_neg]
    · rfl
    · obtain ⟨i, hi⟩ := List.mem_iff_getElem?.mp (h.surj c (List.mem_range.mp hc))
      exact List.ne_nil_of_mem (mem_idsOf.mpr hi)
  have hm : mapE unwrapClass (stateAt (m + 1) v.classOf ps ps.length) = .ok v.classes := by
    rw [hend, h.cls]
    generalize classList (m + 1) v.classOf ps = l
    induction l with
    | nil => rfl
    | cons a l ih =>
      rw [List.map_cons]
      unfold mapE
      simp only [ih, unwrapClass]
  rw [hm]
  simp only
  let b : Build Unit := ⟨v.idToWord.take v.classOf.length, v.classOf, v.classes, []⟩
  have hclen : b.classes.length = m + 1 := by
    show v.classes.length = m + 1
    rw [h.cls, classList_length]
  have hb : BInv b ps := by
    refine ⟨h.nodup.sublist (List.take_sublist _ _), ?_, ?_, ?_, ?_, ?_⟩
    · show v.classOf.length = (v.idToWord.take v.classOf.length).length
      rw [List.length_take]; have := h.short; omega
    · show ps.length = (v.idToWord.take v.classOf.length).length
      rw [List.length_take, h.plen]; have := h.short; omega
    · rw [hclen]; exact h.lt
    · rw [hclen]; exact h.surj
    · rw [hclen]; exact h.cls
  have hnorm : normProbs v.classOf ps = ps := normProbs_id _ _ h.plen _ h.lt h.sums
  have hmk : mkVocab v.idToWord v.classOf v.classes =
      .ok ⟨v.idToWord, v.classOf, v.classes, v.numNormal, none⟩ := by
    rcases mkVocab_eq (ws := v.idToWord) hb (List.take_prefix _ _) h.special with ⟨_, h2⟩ | ⟨⟨c, hc, h0⟩, _⟩
    · rw [hclen] at h2
      show mkVocab v.idToWord b.classOf b.classes = _
      rw [h2]
      simp only [b]
      rw [hnorm, ← h.cls, h.normal]
    · rw [hclen] at hc
      have := h.sums c hc
      unfold classSum at h0
      simp only [b] at h0
      rw [this] at h0
      norm_num at h0
  rw [hmk]
  obtain ⟨ws, co, cl, nn, uni⟩ := v
  cases uni with
  | none => rfl
  | some u =>
    have := h.uni u rfl
    simp only at this
    simp [Vocab.numWords, this]

end TheanoLM
