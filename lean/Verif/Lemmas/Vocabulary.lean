import Verif.Model.Vocabulary
import Mathlib.Algebra.BigOperators.Group.List.Basic
import Mathlib.Algebra.BigOperators.Ring.List
import Mathlib.Tactic.FieldSimp
import Mathlib.Tactic.Ring
import Mathlib.Tactic.Linarith
import Mathlib.Data.List.Nodup
import Mathlib.Data.List.Forall2
/-! # Helper lemmas about vocabularies -/
namespace TheanoLM

/-! ## Dictionaries -/

theorem dictSet_new [DecidableEq κ] (d : List (κ × β)) (k : κ) (x : β) (h : k ∉ d.map Prod.fst) :
    dictSet d k x = d ++ [(k, x)] := by
  unfold dictSet
  rw [if_neg]
  rw [List.any_eq_true]
  rintro ⟨p, hp, he⟩
  exact h (List.mem_map.mpr ⟨p, hp, by simpa using he⟩)

theorem dictGet?_append [DecidableEq κ] (d : List (κ × β)) (k k' : κ) (x : β) (h : k ∉ d.map Prod.fst) :
    dictGet? (d ++ [(k, x)]) k' = if k' = k then some x else dictGet? d k' := by
  unfold dictGet?
  rw [List.find?_append]
  by_cases hk : k' = k
  · subst hk
    have : d.find? (fun p => decide (p.1 = k')) = none := by
      rw [List.find?_eq_none]
      intro p hp hc
      exact h (List.mem_map.mpr ⟨p, hp, by simpa using hc⟩)
    simp [this]
  · have : ¬ (k = k') := fun h => hk h.symm
    simp [hk, this]

theorem dictGet?_none [DecidableEq κ] (d : List (κ × β)) (k : κ) : dictGet? d k = none ↔ k ∉ d.map Prod.fst := by
  simp only [dictGet?, Option.map_eq_none_iff, List.find?_eq_none, List.mem_map, not_exists, not_and,
    decide_eq_true_eq]

theorem dictGet?_mem [DecidableEq κ] {d : List (κ × β)} {k : κ} {x : β} (h : dictGet? d k = some x) :
    (k, x) ∈ d := by
  unfold dictGet? at h
  rw [Option.map_eq_some_iff] at h
  obtain ⟨p, hp, rfl⟩ := h
  have h1 := List.mem_of_find?_eq_some hp
  have h2 := List.find?_some hp
  simp at h2
  rw [← h2]
  exact h1

theorem dictGet?_of_mem [DecidableEq κ] {d : List (κ × β)} (hn : (d.map Prod.fst).Nodup) {k : κ} {x : β}
    (h : (k, x) ∈ d) : dictGet? d k = some x := by
  induction d with
  | nil => simp at h
  | cons p d ih =>
    rw [List.map_cons, List.nodup_cons] at hn
    unfold dictGet?
    rw [List.find?_cons]
    rcases List.mem_cons.mp h with rfl | h
    · simp
    · have hne : p.1 ≠ k := by
        intro hc
        apply hn.1
        rw [hc]
        exact List.mem_map.mpr ⟨_, h, rfl⟩
      simp only [hne, decide_false]
      exact ih hn.2 h

/-! ## IDs of the words of a class -/

/-- IDs of the words that are mapped to class `c`. -/
def idsOf (classOf : List Nat) (c : Nat) : List Nat :=
  (List.range classOf.length).filter (fun i => decide (classOf[i]? = some c))

theorem idsOf_append (classOf : List Nat) (c c' : Nat) :
    idsOf (classOf ++ [c']) c = idsOf classOf c ++ if c' = c then [classOf.length] else [] := by
  unfold idsOf
  rw [List.length_append, List.length_singleton, List.range_succ, List.filter_append]
  congr 1
  · apply List.filter_congr
    intro i hi
    rw [List.mem_range] at hi
    rw [List.getElem?_append_left hi]
  · by_cases h : c' = c <;> simp [h]

theorem mem_idsOf {classOf : List Nat} {c i : Nat} : i ∈ idsOf classOf c ↔ classOf[i]? = some c := by
  unfold idsOf
  rw [List.mem_filter, List.mem_range]
  constructor
  · rintro ⟨_, h⟩; simpa using h
  · intro h
    refine ⟨?_, by simpa using h⟩
    by_contra hc
    rw [List.getElem?_eq_none (by omega)] at h
    cases h

theorem idsOf_nodup (classOf : List Nat) (c : Nat) : (idsOf classOf c).Nodup :=
  List.Nodup.filter _ List.nodup_range

/-! ## Building -/

/-- The classes for a mapping of word IDs to class IDs and membership probabilities of words. -/
def classList (n : Nat) (classOf : List Nat) (ps : List ℚ) : List WordClass :=
  (List.range n).map (fun c => ⟨c, (idsOf classOf c).map (fun i => (i, ps.getD i 0))⟩)

theorem classList_length (n : Nat) (classOf : List Nat) (ps : List ℚ) : (classList n classOf ps).length = n := by
  simp [classList]

theorem classList_get {n : Nat} {classOf : List Nat} {ps : List ℚ} {c : Nat} (h : c < n) :
    (classList n classOf ps)[c]? = some ⟨c, (idsOf classOf c).map (fun i => (i, ps.getD i 0))⟩ := by
  simp [classList, h]

/-- `ps` are the membership probabilities of the words, before normalization. -/
structure BInv (b : Build φ) (ps : List ℚ) : Prop where
  nodup : b.words.Nodup
  len : b.classOf.length = b.words.length
  plen : ps.length = b.words.length
  lt : ∀ c ∈ b.classOf, c < b.classes.length
  surj : ∀ c < b.classes.length, c ∈ b.classOf
  cls : b.classes = classList b.classes.length b.classOf ps

theorem BInv.empty : BInv (Build.empty : Build φ) [] := by
  constructor <;> simp [Build.empty, classList]

/-- Adds a word to an existing class. -/
def stepOld (b : Build φ) (word : Str) (prob : ℚ) (c : Nat) (ids : List (φ × Nat)) : Build φ :=
  { words := b.words ++ [word]
    classes := b.classes.modify c (fun k => k.setProb b.words.length prob)
    classOf := b.classOf ++ [c]
    fileIds := ids }

/-- Adds a word to a new class. -/
def stepNew (b : Build φ) (word : Str) (prob : ℚ) (ids : List (φ × Nat)) : Build φ :=
  { words := b.words ++ [word]
    classes := b.classes ++ [WordClass.new b.classes.length b.words.length prob]
    classOf := b.classOf ++ [b.classes.length]
    fileIds := ids }

theorem nodup_append_singleton {l : List α} {a : α} (h : l.Nodup) (ha : a ∉ l) : (l ++ [a]).Nodup := by
  rw [List.nodup_append]
  refine ⟨h, by simp, ?_⟩
  intro x hx y hy
  rw [List.mem_singleton] at hy
  subst hy
  intro hc; subst hc; exact ha hx

theorem idsOf_lt {classOf : List Nat} {c i : Nat} (h : i ∈ idsOf classOf c) : i < classOf.length := by
  rw [mem_idsOf] at h
  by_contra hc
  rw [List.getElem?_eq_none (by omega)] at h
  cases h

theorem map_probs_append (classOf : List Nat) (c : Nat) (ps : List ℚ) (p : ℚ) (h : ps.length = classOf.length) :
    (idsOf classOf c).map (fun i => (i, (ps ++ [p]).getD i 0)) = (idsOf classOf c).map (fun i => (i, ps.getD i 0)) := by
  apply List.map_congr_left
  intro i hi
  have := idsOf_lt hi
  simp only [List.getD, Prod.mk.injEq, true_and]
  rw [List.getElem?_append_left (by omega)]

theorem BInv.stepOld {b : Build φ} {ps : List ℚ} (h : BInv b ps) {word : Str} (hw : word ∉ b.words) (prob : ℚ) {c : Nat}
    (hc : c < b.classes.length) (ids : List (φ × Nat)) : BInv (stepOld b word prob c ids) (ps ++ [prob]) where
  nodup := nodup_append_singleton h.nodup hw
  len := by simp [TheanoLM.stepOld, h.len]
  plen := by simp [TheanoLM.stepOld, h.plen]
  lt := by
    intro c' hc'
    simp only [TheanoLM.stepOld, List.mem_append, List.mem_singleton, List.length_modify] at hc' ⊢
    rcases hc' with hc' | rfl
    · exact h.lt c' hc'
    · exact hc
  surj := by
    intro c' hc'
    simp only [TheanoLM.stepOld, List.length_modify] at hc' ⊢
    exact List.mem_append_left _ (h.surj c' hc')
  cls := by
    show b.classes.modify c _ = classList (b.classes.modify c _).length (b.classOf ++ [c]) (ps ++ [prob])
    rw [List.length_modify]
    apply List.ext_getElem?
    intro j
    rw [List.getElem?_modify]
    by_cases hj : j < b.classes.length
    · rw [classList_get hj, idsOf_append]
      have hcl := h.cls
      generalize hn : b.classes.length = n at *
      rw [hcl, classList_get hj]
      simp only [Option.map_eq_map, Option.map_some, Option.some.injEq]
      rw [List.map_append, map_probs_append _ _ _ _ (by rw [h.plen, h.len])]
      by_cases hcj : c = j
      · subst hcj
        simp only [if_true, WordClass.setProb]
        rw [dictSet_new]
        · simp [h.len, ← h.plen]
        · rw [List.map_map]
          intro hm
          obtain ⟨i, hi, he⟩ := List.mem_map.mp hm
          have := idsOf_lt hi
          simp only [Function.comp] at he
          rw [h.len] at this
          omega
      · simp [hcj]
    · rw [List.getElem?_eq_none (by omega), List.getElem?_eq_none (by rw [classList_length]; omega)]
      rfl

theorem BInv.stepNew {b : Build φ} {ps : List ℚ} (h : BInv b ps) {word : Str} (hw : word ∉ b.words) (prob : ℚ)
    (ids : List (φ × Nat)) : BInv (stepNew b word prob ids) (ps ++ [prob]) where
  nodup := nodup_append_singleton h.nodup hw
  len := by simp [TheanoLM.stepNew, h.len]
  plen := by simp [TheanoLM.stepNew, h.plen]
  lt := by
    intro c' hc'
    simp only [TheanoLM.stepNew, List.mem_append, List.mem_singleton, List.length_append,
      List.length_singleton] at hc' ⊢
    rcases hc' with hc' | rfl
    · have := h.lt c' hc'; omega
    · omega
  surj := by
    intro c' hc'
    simp only [TheanoLM.stepNew, List.length_append, List.length_singleton] at hc' ⊢
    by_cases hlt : c' < b.classes.length
    · exact List.mem_append_left _ (h.surj c' hlt)
    · have : c' = b.classes.length := by omega
      simp [this]
  cls := by
    show b.classes ++ [_] = classList (b.classes ++ [_]).length (b.classOf ++ [b.classes.length]) (ps ++ [prob])
    rw [List.length_append, List.length_singleton]
    apply List.ext_getElem?
    intro j
    by_cases hj : j < b.classes.length
    · rw [List.getElem?_append_left hj, classList_get (by omega), idsOf_append, if_neg (by omega), List.append_nil,
        map_probs_append _ _ _ _ (by rw [h.plen, h.len])]
      have hcl := h.cls
      generalize hn : b.classes.length = n at *
      rw [hcl, classList_get hj]
    · by_cases hj2 : j = b.classes.length
      · subst hj2
        have hnil : idsOf b.classOf b.classes.length = [] := by
          rw [List.eq_nil_iff_forall_not_mem]
          intro i hi
          rw [mem_idsOf] at hi
          have := h.lt _ (List.mem_of_getElem? hi)
          omega
        rw [List.getElem?_append_right (Nat.le_refl _), classList_get (by omega), idsOf_append, hnil]
        simp [WordClass.new, h.len, ← h.plen]
      · rw [List.getElem?_eq_none (by simp; omega), List.getElem?_eq_none (by rw [classList_length]; omega)]

theorem addSpecial_eq (t : Str) (b : Build φ) :
    addSpecial t b = if t ∈ b.words then b else stepNew b t 1 b.fileIds := rfl

theorem BInv.addSpecial {b : Build φ} {ps : List ℚ} (h : BInv b ps) (t : Str) :
    BInv (addSpecial t b) (if t ∈ b.words then ps else ps ++ [1]) := by
  rw [addSpecial_eq]
  split
  · exact h
  · rename_i ht; exact h.stepNew ht _ _

theorem addSpecial_mem (t : Str) (b : Build φ) : t ∈ (addSpecial t b).words := by
  rw [addSpecial_eq]
  split
  · assumption
  · simp [stepNew]

theorem addSpecial_words (t : Str) (b : Build φ) :
    (addSpecial t b).words = if t ∈ b.words then b.words else b.words ++ [t] := by
  rw [addSpecial_eq]; split <;> rfl

theorem addSpecial_mono (t : Str) (b : Build φ) {w : Str} (h : w ∈ b.words) : w ∈ (addSpecial t b).words := by
  rw [addSpecial_eq]
  split
  · exact h
  · simp [stepNew, h]

theorem addWord_eq [DecidableEq φ] (b : Build φ) (fid : Option φ) (p : ℚ) (w : Str) :
    addWord b fid p w = if w ∈ b.words then .error .inputError
      else match fid.bind (dictGet? b.fileIds) with
        | some c => .ok (stepOld b w p c b.fileIds)
        | none => .ok (stepNew b w p (match fid with | some f => dictSet b.fileIds f b.classes.length | none => b.fileIds)) :=
  rfl

/-! ## mapE -/

theorem mapE_ok {f : α → Except Err β} {l : List α} {r : List β} (h : mapE f l = .ok r) :
    List.Forall₂ (fun a b => f a = .ok b) l r := by
  induction l generalizing r with
  | nil => simp [mapE] at h; subst h; exact .nil
  | cons a as ih =>
    unfold mapE at h
    cases hfa : f a with
    | error e => rw [hfa] at h; cases h
    | ok b =>
      rw [hfa] at h
      cases hm : mapE f as with
      | error e => rw [hm] at h; cases h
      | ok bs => rw [hm] at h; cases h; exact .cons hfa (ih hm)

theorem mapE_eq {f : α → Except Err β} {g : α → β} {l : List α} (h : ∀ a ∈ l, f a = .ok (g a)) :
    mapE f l = .ok (l.map g) := by
  induction l with
  | nil => rfl
  | cons a as ih =>
    unfold mapE
    rw [h a (by simp), ih (fun x hx => h x (by simp [hx]))]
    rfl

/-! ## Invariants of vocabularies -/

/-- `n` is the number of classes and `ps` the membership probabilities of the shortlist words. -/
structure VInv (v : Vocab) (n : Nat) (ps : List ℚ) : Prop where
  nodup : v.idToWord.Nodup
  short : v.classOf.length ≤ v.idToWord.length
  plen : ps.length = v.classOf.length
  lt : ∀ c ∈ v.classOf, c < n
  surj : ∀ c < n, c ∈ v.classOf
  cls : v.classes = classList n v.classOf ps
  special : ∀ t, t = sos ∨ t = eos ∨ t = unk → t ∈ v.idToWord.take v.classOf.length
  sums : ∀ c < n, ((idsOf v.classOf c).map (fun i => ps.getD i 0)).sum = 1
  normal : v.numNormal = numNormalClasses v.idToWord v.classes
  uni : ∀ u, v.unigram = some u → u.length = v.idToWord.length

theorem isSpecialClass_congr (ws : List Str) (k k' : WordClass) (h : k.probs.map Prod.fst = k'.probs.map Prod.fst) :
    isSpecialClass ws k = isSpecialClass ws k' := by
  rcases k with ⟨i, ps⟩
  rcases k' with ⟨i', ps'⟩
  simp only at h
  rcases ps with _ | ⟨⟨a, x⟩, _ | ⟨⟨a2, x2⟩, ps⟩⟩ <;> rcases ps' with _ | ⟨⟨a', x'⟩, _ | ⟨⟨a2', x2'⟩, ps'⟩⟩ <;>
    simp_all [isSpecialClass]

theorem dropWhile_length_congr {p : α → Bool} {q : β → Bool} {l : List α} {m : List β}
    (h : List.Forall₂ (fun a b => p a = q b) l m) : (l.dropWhile p).length = (m.dropWhile q).length := by
  induction h with
  | nil => rfl
  | cons h hr ih =>
    rw [List.dropWhile_cons, List.dropWhile_cons, h]
    split
    · exact ih
    · simp [hr.length_eq]

/-- The number of normal classes does not depend on the probabilities. -/
theorem numNormal_congr (ws : List Str) (n : Nat) (classOf : List Nat) (ps ps' : List ℚ) :
    numNormalClasses ws (classList n classOf ps) = numNormalClasses ws (classList n classOf ps') := by
  apply dropWhile_length_congr
  apply List.rel_reverse
  unfold classList
  rw [List.forall₂_map_left_iff, List.forall₂_map_right_iff, List.forall₂_same]
  intro c _
  apply isSpecialClass_congr
  simp [List.map_map, Function.comp_def]

theorem sum_map_div (l : List Nat) (f : Nat → ℚ) (s : ℚ) : (l.map (fun i => f i / s)).sum = (l.map f).sum / s := by
  induction l with
  | nil => simp
  | cons p l ih => simp only [List.map_cons, List.sum_cons, ih]; ring

/-- Sum of the probabilities of a class. -/
def classSum (classOf : List Nat) (ps : List ℚ) (c : Nat) : ℚ := ((idsOf classOf c).map (fun i => ps.getD i 0)).sum

/-- Normalized probabilities. -/
def normProbs (classOf : List Nat) (ps : List ℚ) : List ℚ :=
  (List.range classOf.length).map (fun i => ps.getD i 0 / classSum classOf ps (classOf.getD i 0))

theorem normProbs_get (classOf : List Nat) (ps : List ℚ) {i c : Nat} (h : classOf[i]? = some c) :
    (normProbs classOf ps).getD i 0 = ps.getD i 0 / classSum classOf ps c := by
  have hi : i < classOf.length := by
    by_contra hc; rw [List.getElem?_eq_none (by omega)] at h; cases h
  have hc : classOf.getD i 0 = c := by simp [List.getD, h]
  rw [normProbs, List.getD, List.getElem?_map, List.getElem?_range hi]
  simp only [Option.map_some, Option.getD_some, hc]

theorem normalize_class (classOf : List Nat) (ps : List ℚ) (c : Nat) (hne : c ∈ classOf) :
    WordClass.normalizeProbs ⟨c, (idsOf classOf c).map (fun i => (i, ps.getD i 0))⟩ =
      if classSum classOf ps c = 0 then .error .zeroDivision
      else .ok ⟨c, (idsOf classOf c).map (fun i => (i, (normProbs classOf ps).getD i 0))⟩ := by
  have hids : idsOf classOf c ≠ [] := by
    obtain ⟨i, hi⟩ := List.mem_iff_getElem?.mp hne
    exact List.ne_nil_of_mem (mem_idsOf.mpr hi)
  unfold WordClass.normalizeProbs
  have hs : ((((idsOf classOf c).map (fun i => (i, ps.getD i 0)))).map Prod.snd).sum = classSum classOf ps c := by
    simp [classSum, List.map_map, Function.comp_def]
  simp only [hs]
  by_cases h0 : classSum classOf ps c = 0
  · simp [h0, hids]
  · simp only [h0, and_false, if_false, List.map_map, Except.ok.injEq, WordClass.mk.injEq, true_and]
    apply List.map_congr_left
    intro i hi
    simp only [Function.comp]
    rw [normProbs_get classOf ps (mem_idsOf.mp hi)]

theorem mapE_error {f : α → Except Err β} {l : List α} {a : α} (ha : a ∈ l) {e : Err} (hf : f a = .error e)
    (hall : ∀ x ∈ l, ∀ e', f x = .error e' → e' = e) : mapE f l = .error e := by
  induction l with
  | nil => simp at ha
  | cons x xs ih =>
    unfold mapE
    cases hx : f x with
    | error e' => rw [hall x (by simp) e' hx]
    | ok b =>
      rcases List.mem_cons.mp ha with rfl | ha
      · rw [hf] at hx; cases hx
      · rw [ih ha (fun y hy => hall y (by simp [hy]))]

/-- What the constructor does with lists that have been built correctly. -/
theorem mkVocab_eq {ws : List Str} {b : Build φ} {ps : List ℚ} (h : BInv b ps) (hpre : b.words <+: ws)
    (hs : ∀ t, t = sos ∨ t = eos ∨ t = unk → t ∈ b.words) :
    (∀ c < b.classes.length, classSum b.classOf ps c ≠ 0) ∧
      mkVocab ws b.classOf b.classes = .ok
        { idToWord := ws, classOf := b.classOf
          classes := classList b.classes.length b.classOf (normProbs b.classOf ps)
          numNormal := numNormalClasses ws b.classes, unigram := none } ∨
    (∃ c < b.classes.length, classSum b.classOf ps c = 0) ∧ mkVocab ws b.classOf b.classes = .error .zeroDivision := by
  have hsp : sos ∈ ws ∧ eos ∈ ws ∧ unk ∈ ws :=
    ⟨hpre.subset (hs _ (.inl rfl)), hpre.subset (hs _ (.inr (.inl rfl))), hpre.subset (hs _ (.inr (.inr rfl)))⟩
  unfold mkVocab
  rw [if_neg (fun hc => hc hsp)]
  have hcl := h.cls
  by_cases hz : ∀ c < b.classes.length, classSum b.classOf ps c ≠ 0
  · left
    refine ⟨hz, ?_⟩
    have hm : mapE WordClass.normalizeProbs b.classes =
        .ok (classList b.classes.length b.classOf (normProbs b.classOf ps)) := by
      conv => lhs; rw [hcl]
      have : classList b.classes.length b.classOf (normProbs b.classOf ps) =
          (classList b.classes.length b.classOf ps).map (fun k =>
            ⟨k.id, (idsOf b.classOf k.id).map (fun i => (i, (normProbs b.classOf ps).getD i 0))⟩) := by
        simp [classList, List.map_map, Function.comp_def]
      rw [this]
      apply mapE_eq
      intro k hk
      unfold classList at hk
      obtain ⟨c, hc, rfl⟩ := List.mem_map.mp hk
      rw [List.mem_range] at hc
      rw [normalize_class _ _ _ (h.surj c hc), if_neg (hz c hc)]
    rw [hm]
  · right
    have hz' : ∃ c < b.classes.length, classSum b.classOf ps c = 0 := by
      by_contra hc
      exact hz (fun c h1 h2 => hc ⟨c, h1, h2⟩)
    refine ⟨hz', ?_⟩
    obtain ⟨c, hc, h0⟩ := hz'
    have hm : mapE WordClass.normalizeProbs b.classes = .error .zeroDivision := by
      rw [hcl]
      apply mapE_error (a := ⟨c, (idsOf b.classOf c).map (fun i => (i, ps.getD i 0))⟩)
      · exact List.mem_of_getElem? (classList_get hc)
      · rw [normalize_class _ _ _ (h.surj c hc), if_pos h0]
      · intro k hk e' he'
        unfold classList at hk
        obtain ⟨c', hc', rfl⟩ := List.mem_map.mp hk
        rw [List.mem_range] at hc'
        rw [normalize_class _ _ _ (h.surj c' hc')] at he'
        split at he'
        · cases he'; rfl
        · cases he'
    rw [hm]

theorem classSum_normProbs (classOf : List Nat) (ps : List ℚ) (c : Nat) (h : classSum classOf ps c ≠ 0) :
    classSum classOf (normProbs classOf ps) c = 1 := by
  unfold classSum
  have : (idsOf classOf c).map (fun i => (normProbs classOf ps).getD i 0) =
      (idsOf classOf c).map (fun i => ps.getD i 0 / classSum classOf ps c) := by
    apply List.map_congr_left
    intro i hi
    exact normProbs_get classOf ps (mem_idsOf.mp hi)
  rw [this, sum_map_div]
  exact div_self h

theorem mkVocab_inv {ws : List Str} {b : Build φ} {ps : List ℚ} {v : Vocab} (h : BInv b ps) (hpre : b.words <+: ws)
    (hn : ws.Nodup) (hs : ∀ t, t = sos ∨ t = eos ∨ t = unk → t ∈ b.words) (hv : mkVocab ws b.classOf b.classes = .ok v) :
    VInv v b.classes.length (normProbs b.classOf ps) ∧ v.idToWord = ws ∧ v.classOf = b.classOf ∧ v.unigram = none := by
  rcases mkVocab_eq h hpre hs with ⟨h1, h2⟩ | ⟨_, h2⟩
  · rw [h2] at hv
    cases hv
    refine ⟨⟨hn, ?_, ?_, h.lt, h.surj, rfl, ?_, ?_, ?_, by simp⟩, rfl, rfl, rfl⟩
    · simp only [h.len]; exact hpre.length_le
    · simp [normProbs]
    · intro t ht
      simp only
      rw [h.len, ← List.prefix_iff_eq_take.mp hpre]
      exact hs t ht
    · intro c hc
      exact classSum_normProbs _ _ _ (h1 c hc)
    · simp only
      conv => lhs; rw [h.cls]
      exact numNormal_congr _ _ _ _ _
  · rw [h2] at hv; cases hv

end TheanoLM
