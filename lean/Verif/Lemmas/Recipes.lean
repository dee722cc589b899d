import Verif.Props.RecipesSpec
import Verif.Lemmas.Statistics
import Verif.Lemmas.VocabConstruct
/-!
# Lemmas about n-gram counts and word class definitions
-/
set_option linter.unusedSectionVars false
namespace TheanoLM

/-! ## Dictionaries -/

theorem lastOf_append {κ β : Type} [DecidableEq κ] (es : List (κ × β)) (e : κ × β) (k : κ) :
    lastOf (es ++ [e]) k = if k = e.1 then some e.2 else lastOf es k := by
  unfold lastOf
  rw [List.filter_append]
  by_cases h : k = e.1
  · subst h; simp
  · rw [if_neg h]
    have : e.1 ≠ k := fun g => h g.symm
    simp [this]

theorem dictFold_get {κ β : Type} [DecidableEq κ] (es : List (κ × β)) (k : κ) :
    dictGet? (es.foldl (fun d e => dictSet d e.1 e.2) []) k = lastOf es k := by
  induction es using List.reverseRecOn with
  | nil => rfl
  | append_singleton es e ih => rw [List.foldl_append, List.foldl_cons, List.foldl_nil, dictGet?_set, ih, lastOf_append]

theorem dictFold_keys {κ β : Type} [DecidableEq κ] (es : List (κ × β)) (d : List (κ × β)) (h : (d.map Prod.fst).Nodup) :
    ((es.foldl (fun d e => dictSet d e.1 e.2) d).map Prod.fst).Nodup := by
  induction es generalizing d with
  | nil => exact h
  | cons e es ih => exact ih _ (dictSet_keys _ _ _ h)

theorem dictSet_map {κ β : Type} [DecidableEq κ] {d : List (κ × β)} {k : κ} (x : β) (hk : k ∈ d.map Prod.fst) :
    dictSet d k x = d.map (fun e => (e.1, if e.1 = k then x else e.2)) := by
  unfold dictSet
  rw [if_pos]
  · apply List.map_congr_left
    intro e _
    by_cases h : e.1 = k
    · rw [if_pos h, if_pos h, ← h]
    · rw [if_neg h, if_neg h]
  · obtain ⟨e, h1, h2⟩ := List.mem_map.mp hk
    rw [List.any_eq_true]
    exact ⟨e, h1, by simpa using h2⟩

/-- Giving a new value to each key of a dictionary, in any order. -/
theorem dictFold_all {κ α β : Type} [DecidableEq κ] (g : κ → β) (ks : List (κ × α)) (d : List (κ × β))
    (hk : ∀ k ∈ ks, k.1 ∈ d.map Prod.fst) :
    ks.foldl (fun d k => dictSet d k.1 (g k.1)) d =
      d.map (fun e => (e.1, if e.1 ∈ ks.map Prod.fst then g e.1 else e.2)) := by
  induction ks generalizing d with
  | nil => simp
  | cons k ks ih =>
    rw [List.foldl_cons, dictSet_map _ (hk k (List.mem_cons_self)), ih]
    · rw [List.map_map]
      apply List.map_congr_left
      intro e _
      simp only [Function.comp, List.map_cons, List.mem_cons]
      by_cases h1 : e.1 = k.1
      · rw [h1]; simp
      · by_cases h2 : e.1 ∈ ks.map Prod.fst
        · rw [if_pos h2, if_pos (.inr h2)]
        · rw [if_neg h2, if_neg h1, if_neg (by tauto)]
    · intro k' hk'
      rw [List.map_map]
      have := hk k' (List.mem_cons_of_mem _ hk')
      simpa [Function.comp] using this

/-! ## n-gram counts -/

theorem findTab_split (a b : Str) (h : '\t' ∉ a) : findTab (a ++ '\t' :: b) = some a.length := by
  induction a with
  | nil => rfl
  | cons c cs ih =>
    rw [List.cons_append]
    have h1 : c ≠ '\t' := by rintro rfl; exact h List.mem_cons_self
    rw [findTab, if_neg h1, ih (fun g => h (List.mem_cons_of_mem _ g))]
    rfl

theorem countFields_split (a b : Str) (h : '\t' ∉ a) : countFields (a ++ '\t' :: b) = (pySplit a, b) := by
  unfold countFields
  rw [findTab_split a b h]
  simp

theorem addWord_increment_get (counts : NGramCounts) (g k : List Str) :
    dictGet? (counts.increment g) k =
      if k = g then some ((dictGet? counts g).getD 0 + 1) else dictGet? counts k := by
  unfold NGramCounts.increment
  cases h : dictGet? counts g with
  | none => simp only; rw [dictGet?_set]; simp
  | some n => simp only; rw [dictGet?_set]; simp

theorem increment_keys {counts : NGramCounts} (g : List Str) (h : (counts.map Prod.fst).Nodup) :
    ((counts.increment g).map Prod.fst).Nodup := by
  unfold NGramCounts.increment
  cases dictGet? counts g <;> exact dictSet_keys _ _ _ h

/-- Incrementing the counts of n-grams that are all different. -/
theorem increments_get (gs : List (List Str)) (hn : gs.Nodup) (counts : NGramCounts) (k : List Str) :
    dictGet? (gs.foldl NGramCounts.increment counts) k =
      if k ∈ gs then some ((dictGet? counts k).getD 0 + 1) else dictGet? counts k := by
  induction gs generalizing counts with
  | nil => simp
  | cons g gs ih =>
    obtain ⟨h1, h2⟩ := List.nodup_cons.mp hn
    rw [List.foldl_cons, ih h2, addWord_increment_get]
    by_cases hk : k = g
    · subst hk; simp [h1]
    · simp [hk]

theorem increments_keys (gs : List (List Str)) {counts : NGramCounts} (h : (counts.map Prod.fst).Nodup) :
    ((gs.foldl NGramCounts.increment counts).map Prod.fst).Nodup := by
  induction gs generalizing counts with
  | nil => exact h
  | cons g gs ih => exact ih (increment_keys g h)

theorem ngramCount_append (g ws : List Str) (w : Str) :
    ngramCount g (ws ++ [w]) = ngramCount g ws + if g <:+ ws ++ [w] then 1 else 0 := by
  unfold ngramCount
  rw [List.length_append, List.length_singleton, List.range_succ, List.filter_append, List.length_append]
  congr 1
  · congr 1
    apply List.filter_congr
    intro k hk
    rw [List.take_append_of_le_length (by simpa [Nat.lt_succ_iff] using hk)]
  · have h0 : (ws ++ [w]).take (ws.length + 1) = ws ++ [w] := List.take_of_length_le (by simp)
    by_cases h : g <:+ ws ++ [w]
    · simp [h0, h]
    · simp [h0, h]

/-- What `from_text` has when it has read the words `ws`. -/
structure TextInv (maxOrder : Nat) (s : List Str × NGramCounts) (ws : List Str) : Prop where
  history : s.1 = ws.drop (ws.length - maxOrder)
  keys : (s.2.map Prod.fst).Nodup
  count : ∀ g, dictGet? s.2 g = if g ≠ [] ∧ g.length ≤ maxOrder ∧ 0 < ngramCount g ws then
    some (ngramCount g ws : ℤ) else none

theorem suffix_drop {α : Type} (g ws : List α) : g <:+ ws ↔ g.length ≤ ws.length ∧ ws.drop (ws.length - g.length) = g := by
  constructor
  · intro h
    exact ⟨h.length_le, (List.suffix_iff_eq_drop.mp h).symm⟩
  · rintro ⟨_, h2⟩
    exact List.suffix_iff_eq_drop.mpr h2.symm

theorem textInv_word {maxOrder : Nat} {s : List Str × NGramCounts} {ws : List Str} (h : TextInv maxOrder s ws) (w : Str) :
    TextInv maxOrder (NGramCounts.addWord maxOrder s w) (ws ++ [w]) := by
  have hist : (NGramCounts.addWord maxOrder s w).1 = (ws ++ [w]).drop ((ws ++ [w]).length - maxOrder) := by
    unfold NGramCounts.addWord
    simp only
    rw [h.history]
    have hlen : (ws.drop (ws.length - maxOrder) ++ [w]).length = min maxOrder ws.length + 1 := by
      simp; omega
    rw [hlen]
    by_cases hm : maxOrder ≤ ws.length
    · rw [if_pos (by omega), List.length_append, List.length_singleton,
        ← List.drop_append_of_le_length (by omega), List.drop_drop]
      congr 1
      omega
    · rw [if_neg (by omega)]
      have h1 : ws.length - maxOrder = 0 := by omega
      have h2 : (ws ++ [w]).length - maxOrder = 0 := by simp; omega
      rw [h1, h2]; rfl
  have hcounts : (NGramCounts.addWord maxOrder s w).2 = ((List.range (min maxOrder (ws.length + 1))).map
      (fun i => (ws ++ [w]).drop ((ws ++ [w]).length - (i + 1)))).foldl NGramCounts.increment s.2 := by
    rw [List.foldl_map]
    have hd : (NGramCounts.addWord maxOrder s w).2 =
        (List.range (min maxOrder (NGramCounts.addWord maxOrder s w).1.length)).foldl
          (fun counts i => counts.increment ((NGramCounts.addWord maxOrder s w).1.drop
            ((NGramCounts.addWord maxOrder s w).1.length - (i + 1)))) s.2 := rfl
    rw [hd, hist]
    have hl : ((ws ++ [w]).drop ((ws ++ [w]).length - maxOrder)).length = min maxOrder (ws.length + 1) := by
      simp; omega
    rw [hl, Nat.min_eq_right (Nat.min_le_left _ _)]
    apply List.foldl_ext
    intro counts i hi
    have hi' := List.mem_range.mp hi
    rw [List.drop_drop]
    congr 2
    simp only [List.length_append, List.length_singleton] at *
    omega
  have hnd : ((List.range (min maxOrder (ws.length + 1))).map
      (fun i => (ws ++ [w]).drop ((ws ++ [w]).length - (i + 1)))).Nodup := by
    apply List.Nodup.map_on _ List.nodup_range
    intro i hi j hj hij
    have := congrArg List.length hij
    have hi' := List.mem_range.mp hi
    have hj' := List.mem_range.mp hj
    simp only [List.length_drop, List.length_append, List.length_singleton] at this
    omega
  refine ⟨hist, ?_, ?_⟩
  · rw [hcounts]; exact increments_keys _ h.keys
  · intro g
    rw [hcounts, increments_get _ hnd, h.count g, ngramCount_append]
    have hmem : g ∈ (List.range (min maxOrder (ws.length + 1))).map
        (fun i => (ws ++ [w]).drop ((ws ++ [w]).length - (i + 1))) ↔ g ≠ [] ∧ g.length ≤ maxOrder ∧ g <:+ ws ++ [w] := by
      rw [List.mem_map, suffix_drop]
      constructor
      · rintro ⟨i, hi, rfl⟩
        have hi' := List.mem_range.mp hi
        have hl : ((ws ++ [w]).drop ((ws ++ [w]).length - (i + 1))).length = i + 1 := by
          simp; omega
        rw [hl]
        refine ⟨?_, by omega, by simp; omega, rfl⟩
        intro hc
        rw [hc] at hl
        simp at hl
      · rintro ⟨h1, h2, h3, h4⟩
        have hpos : 0 < g.length := List.length_pos_iff.mpr h1
        refine ⟨g.length - 1, List.mem_range.mpr ?_, ?_⟩
        · rw [List.length_append, List.length_singleton] at h3; omega
        · rw [Nat.sub_add_cancel hpos]; exact h4
    by_cases hs : g <:+ ws ++ [w]
    · by_cases hb : g ≠ [] ∧ g.length ≤ maxOrder
      · rw [if_pos (hmem.mpr ⟨hb.1, hb.2, hs⟩), if_pos hs]
        have hr : g ≠ [] ∧ g.length ≤ maxOrder ∧ 0 < ngramCount g ws + 1 := ⟨hb.1, hb.2, by omega⟩
        by_cases hz : 0 < ngramCount g ws
        · have hl : g ≠ [] ∧ g.length ≤ maxOrder ∧ 0 < ngramCount g ws := ⟨hb.1, hb.2, hz⟩
          simp only [if_pos hr, if_pos hl]
          simp
        · have hl : ¬ (g ≠ [] ∧ g.length ≤ maxOrder ∧ 0 < ngramCount g ws) := fun hc => hz hc.2.2
          simp only [if_pos hr, if_neg hl]
          have : ngramCount g ws = 0 := by omega
          simp [this]
      · have h1 : ¬ (g ≠ [] ∧ g.length ≤ maxOrder ∧ 0 < ngramCount g ws) := fun hc => hb ⟨hc.1, hc.2.1⟩
        have h2 : ¬ (g ≠ [] ∧ g.length ≤ maxOrder ∧ 0 < ngramCount g ws + 1) := fun hc => hb ⟨hc.1, hc.2.1⟩
        rw [if_neg (fun hc => hb ⟨(hmem.mp hc).1, (hmem.mp hc).2.1⟩), if_pos hs, if_neg h1, if_neg h2]
    · rw [if_neg (fun hc => hs (hmem.mp hc).2.2), if_neg hs, Nat.add_zero]

theorem textInv_words {maxOrder : Nat} (us : List Str) {s : List Str × NGramCounts} {ws : List Str}
    (h : TextInv maxOrder s ws) : TextInv maxOrder (us.foldl (NGramCounts.addWord maxOrder) s) (ws ++ us) := by
  induction us generalizing s ws with
  | nil => simpa using h
  | cons u us ih =>
    have := ih (textInv_word h u)
    rwa [List.append_assoc, List.singleton_append] at this

theorem textInv_lines {maxOrder : Nat} (ls : List Str) {s : List Str × NGramCounts} {ws : List Str}
    (h : TextInv maxOrder s ws) :
    TextInv maxOrder (ls.foldl (fun s line => (pySplit line).foldl (NGramCounts.addWord maxOrder) s) s)
      (ws ++ (ls.map pySplit).flatten) := by
  induction ls generalizing s ws with
  | nil => simpa using h
  | cons l ls ih =>
    have := ih (textInv_words (pySplit l) h)
    rwa [List.append_assoc] at this

theorem ngramCount_nil (g : List Str) (h : g ≠ []) : ngramCount g [] = 0 := by
  unfold ngramCount
  have : ¬ g <:+ ([] : List Str) := by simpa using h
  simp [h]

theorem textInv_empty (maxOrder : Nat) : TextInv maxOrder ([], []) [] := by
  refine ⟨by simp, by simp, ?_⟩
  intro g
  by_cases h : g = []
  · simp [h, dictGet?]
  · simp [ngramCount_nil g h, dictGet?]

/-! ## Word class definitions -/

/-- The probabilities of the words of the classes after the definitions `defs`. -/
structure ClassInv (classes : ClassDefs) (defs : List ((Str × Str) × ℚ)) : Prop where
  names : (classes.map Prod.fst).Nodup
  words : ∀ c ∈ classes, (c.2.map Prod.fst).Nodup
  probs : ∀ name word, (dictGet? classes name).bind (fun c => dictGet? c word) = lastOf defs (name, word)

theorem classInv_add {classes : ClassDefs} {defs : List ((Str × Str) × ℚ)} (h : ClassInv classes defs) (name word : Str)
    (prob : ℚ) : ClassInv (classes.add name word prob) (defs ++ [((name, word), prob)]) := by
  have key : ∃ old : List (Str × ℚ), classes.add name word prob = dictSet classes name (dictSet old word prob) ∧
      (dictGet? classes name).getD [] = old ∧ (old.map Prod.fst).Nodup := by
    unfold ClassDefs.add
    cases hg : dictGet? classes name with
    | none => exact ⟨[], rfl, rfl, by simp⟩
    | some ps => exact ⟨ps, rfl, rfl, h.words _ (dictGet?_mem hg)⟩
  obtain ⟨old, h1, h2, h3⟩ := key
  rw [h1]
  refine ⟨dictSet_keys _ _ _ h.names, ?_, ?_⟩
  · intro c hc
    unfold dictSet at hc
    split at hc
    · obtain ⟨e, he, rfl⟩ := List.mem_map.mp hc
      split
      · exact dictSet_keys _ _ _ h3
      · exact h.words e he
    · rcases List.mem_append.mp hc with hc | hc
      · exact h.words c hc
      · rw [List.mem_singleton.mp hc]; exact dictSet_keys _ _ _ h3
  · intro n w
    rw [dictGet?_set, lastOf_append]
    by_cases hn : n = name
    · subst hn
      rw [if_pos rfl, Option.bind_some, dictGet?_set]
      by_cases hw : w = word
      · subst hw; simp
      · rw [if_neg hw, if_neg (by simp [hw]), ← h.probs n w, ← h2]
        cases dictGet? classes n <;> rfl
    · rw [if_neg hn, if_neg (by simp [hn]), h.probs n w]

/-- The entries of one class among the entries of all classes. -/
theorem filter_class {α : Type} (f : Str × List (Str × ℚ) → List α) (nameOf : α → Str)
    (hf : ∀ c, ∀ a ∈ f c, nameOf a = c.1) (classes : ClassDefs) (hn : (classes.map Prod.fst).Nodup)
    (c : Str × List (Str × ℚ)) (hc : c ∈ classes) :
    (classes.flatMap f).filter (fun a => decide (nameOf a = c.1)) = f c := by
  induction classes with
  | nil => cases hc
  | cons d ds ih =>
    obtain ⟨h1, h2⟩ := List.nodup_cons.mp hn
    rw [List.flatMap_cons, List.filter_append]
    rcases List.mem_cons.mp hc with rfl | hc
    · have e1 : (f c).filter (fun a => decide (nameOf a = c.1)) = f c := by
        rw [List.filter_eq_self]
        intro a ha
        simpa using hf c a ha
      have e2 : (ds.flatMap f).filter (fun a => decide (nameOf a = c.1)) = [] := by
        rw [List.filter_eq_nil_iff]
        intro a ha
        obtain ⟨d, hd, had⟩ := List.mem_flatMap.mp ha
        rw [hf d a had]
        intro he
        apply h1
        rw [← of_decide_eq_true he]
        exact List.mem_map_of_mem hd
      rw [e1, e2, List.append_nil]
    · have e1 : (f d).filter (fun a => decide (nameOf a = c.1)) = [] := by
        rw [List.filter_eq_nil_iff]
        intro a ha he
        apply h1
        have := of_decide_eq_true he
        rw [hf d a ha] at this
        rw [this]
        exact List.mem_map_of_mem hc
      rw [e1, List.nil_append]
      exact ih h2 hc

theorem fixClass_spec (wc : NGramCounts) (probs : List (Str × ℚ)) :
    fixClass wc probs = if (probs.map (fun e => (dictGet? wc [e.1]).getD 0)).sum ≠ 0 then
      probs.map (fun e => (e.1, (((dictGet? wc [e.1]).getD 0 : ℤ) : ℚ) /
        ((probs.map (fun e => (dictGet? wc [e.1]).getD 0)).sum : ℤ))) else probs := by
  unfold fixClass
  simp only [List.map_map]
  have hs : ((fun e : Str × ℤ => e.2) ∘ fun e : Str × ℚ => (e.1, (dictGet? wc [e.1]).getD 0)) =
      fun e : Str × ℚ => (dictGet? wc [e.1]).getD 0 := rfl
  have hs' : (Prod.snd ∘ fun e : Str × ℚ => (e.1, (dictGet? wc [e.1]).getD 0)) =
      fun e : Str × ℚ => (dictGet? wc [e.1]).getD 0 := rfl
  rw [hs']
  split
  · generalize (List.map (fun e => (dictGet? wc [e.1]).getD 0) probs).sum = T
    rw [List.foldl_map]
    have := dictFold_all (fun w => (((dictGet? wc [w]).getD 0 : ℤ) : ℚ) / (T : ℚ)) probs probs
      (fun k hk => List.mem_map_of_mem hk)
    rw [this]
    apply List.map_congr_left
    intro e he
    rw [if_pos (List.mem_map_of_mem he)]
  · rfl

end TheanoLM
