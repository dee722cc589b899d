import Verif.Lemmas.Architecture
/-! Lemmas about reading architecture descriptions. -/
namespace TheanoLM
set_option linter.unusedSectionVars false

theorem splitField_iff (field : Str) (p : Str × Str) : splitField field = .ok p ↔ FieldOf field p := by
  induction field generalizing p with
  | nil => simp [splitField, FieldOf]
  | cons c cs ih =>
    obtain ⟨a, b⟩ := p
    rw [splitField]
    by_cases hc : c = '='
    · rw [if_pos hc]
      subst hc
      constructor
      · intro h; injection h with h; injection h with h1 h2; subst h1; subst h2; exact ⟨rfl, by simp⟩
      · rintro ⟨h1, h2⟩
        cases a with
        | nil => simp only [List.nil_append, List.cons.injEq, true_and] at h1; rw [h1]
        | cons x a =>
          simp only [List.cons_append, List.cons.injEq] at h1
          exact absurd (by rw [← h1.1]; exact List.mem_cons_self) h2
    · rw [if_neg hc]
      constructor
      · intro h
        cases hs : splitField cs with
        | error e => rw [hs] at h; cases h
        | ok q =>
          rw [hs] at h
          simp only [Except.map, Except.ok.injEq, Prod.mk.injEq] at h
          obtain ⟨h1, h2⟩ := (ih q).mp hs
          obtain ⟨rfl, rfl⟩ := h
          refine ⟨by simp [h1], ?_⟩
          simp only [List.mem_cons, not_or]
          exact ⟨fun h => hc h.symm, h2⟩
      · rintro ⟨h1, h2⟩
        cases a with
        | nil => simp only [List.nil_append, List.cons.injEq] at h1; exact absurd h1.1 hc
        | cons x a =>
          simp only [List.cons_append, List.cons.injEq] at h1
          simp only [List.mem_cons, not_or] at h2
          rw [(ih (a, b)).mpr ⟨h1.2, h2.2⟩]
          simp [Except.map, h1.1]

theorem FieldOf.unique {field : Str} {p q : Str × Str} (hp : FieldOf field p) (hq : FieldOf field q) : p = q := by
  have h1 := (splitField_iff field p).mpr hp
  have h2 := (splitField_iff field q).mpr hq
  rw [h1] at h2
  exact Except.ok.inj h2

/-! ## The last value of a variable -/

def lastVal (ps : List (Str × Str)) (k : Str) : Option Str := ps.foldl (fun v p => if p.1 = k then some p.2 else v) none

theorem lastVal_append (ps : List (Str × Str)) (p : Str × Str) (k : Str) :
    lastVal (ps ++ [p]) k = if p.1 = k then some p.2 else lastVal ps k := by
  simp [lastVal]

theorem lastVal_iff (ps : List (Str × Str)) (k s : Str) : lastVal ps k = some s ↔ LastValue ps k s := by
  induction ps using List.reverseRecOn with
  | nil => simp [lastVal, LastValue]
  | append_singleton ps p ih =>
    rw [lastVal_append]
    obtain ⟨a, b⟩ := p
    simp only
    split
    · rename_i h
      subst h
      constructor
      · intro h; injection h with h; subst h; exact ⟨ps, [], rfl, by simp⟩
      · rintro ⟨l, r, h, hr⟩
        rcases List.eq_nil_or_concat r with rfl | ⟨r', q, rfl⟩
        · have h := List.append_inj_right' h rfl
          simp only [List.cons.injEq, Prod.mk.injEq, true_and, and_true] at h
          rw [h]
        · have : ps ++ [(a, b)] = (l ++ (a, s) :: r') ++ [q] := by rw [h]; simp [List.concat_eq_append]
          have h := List.append_inj_right' this rfl
          simp only [List.cons.injEq, and_true] at h
          exact absurd (by rw [← h]) (hr q (by simp [List.concat_eq_append]))
    · rename_i hne
      rw [ih]
      constructor
      · rintro ⟨l, r, rfl, hr⟩
        refine ⟨l, r ++ [(a, b)], by simp, ?_⟩
        intro q hq
        rw [List.mem_append, List.mem_singleton] at hq
        rcases hq with hq | rfl
        · exact hr q hq
        · exact hne
      · rintro ⟨l, r, h, hr⟩
        rcases List.eq_nil_or_concat r with rfl | ⟨r', q, rfl⟩
        · have h := List.append_inj_right' h rfl
          simp only [List.cons.injEq, Prod.mk.injEq, and_true] at h
          exact absurd h.1 hne
        · have : ps ++ [(a, b)] = (l ++ (k, s) :: r') ++ [q] := by rw [h]; simp [List.concat_eq_append]
          have h := List.append_inj_left' this rfl
          exact ⟨l, r', h, fun q hq => hr q (by simp [List.concat_eq_append, hq])⟩

theorem lastVal_isSome (ps : List (Str × Str)) (k : Str) : lastVal ps k ≠ none ↔ ∃ p ∈ ps, p.1 = k := by
  induction ps using List.reverseRecOn with
  | nil => simp [lastVal]
  | append_singleton ps p ih =>
    rw [lastVal_append]
    split
    · rename_i h
      simp only [ne_eq, reduceCtorEq, not_false_eq_true, true_iff]
      exact ⟨p, by simp, h⟩
    · rename_i h
      rw [ih]
      constructor
      · rintro ⟨q, hq, he⟩; exact ⟨q, by simp [hq], he⟩
      · rintro ⟨q, hq, he⟩
        rw [List.mem_append, List.mem_singleton] at hq
        rcases hq with hq | rfl
        · exact ⟨q, hq, he⟩
        · exact absurd he h

theorem mem_iff_get {κ β : Type} [DecidableEq κ] {d : List (κ × β)} (hn : (d.map Prod.fst).Nodup) (k : κ) (x : β) :
    (k, x) ∈ d ↔ dictGet? d k = some x := ⟨dictGet?_of_mem hn, dictGet?_mem⟩

/-! ## Input lines -/

theorem inputFields_iff (fields : List Str) (d d' : ArchDict) :
    inputFields fields d = .ok d' ↔
      ∃ ps, List.Forall₂ FieldOf fields ps ∧ d' = ps.foldl (fun d p => dictSet d p.1 (.one (.str p.2))) d := by
  induction fields generalizing d with
  | nil =>
    simp only [inputFields, Except.ok.injEq]
    constructor
    · rintro rfl; exact ⟨[], .nil, rfl⟩
    · rintro ⟨ps, h, rfl⟩; cases h; rfl
  | cons field fields ih =>
    rw [inputFields]
    cases hs : splitField field with
    | error e =>
      simp only [reduceCtorEq, false_iff]
      rintro ⟨ps, h, _⟩
      cases h with
      | cons h1 _ => rw [(splitField_iff _ _).mpr h1] at hs; cases hs
    | ok p =>
      obtain ⟨a, b⟩ := p
      simp only
      rw [ih]
      constructor
      · rintro ⟨ps, h, rfl⟩; exact ⟨(a, b) :: ps, .cons ((splitField_iff _ _).mp hs) h, rfl⟩
      · rintro ⟨ps, h, rfl⟩
        cases h with
        | cons h1 h2 =>
          rename_i q qs
          have := FieldOf.unique h1 ((splitField_iff _ _).mp hs)
          subst this
          exact ⟨qs, h2, rfl⟩

theorem inputDict_spec (ps : List (Str × Str)) :
    let d : ArchDict := ps.foldl (fun d p => dictSet d p.1 (.one (.str p.2))) []
    (d.map Prod.fst).Nodup ∧ ∀ k, dictGet? d k = (lastVal ps k).map fun s => .one (.str s) := by
  induction ps using List.reverseRecOn with
  | nil => exact ⟨List.nodup_nil, fun k => rfl⟩
  | append_singleton ps p ih =>
    simp only [List.foldl_append, List.foldl_cons, List.foldl_nil]
    refine ⟨dictSet_keys _ _ _ ih.1, fun k => ?_⟩
    rw [dictGet?_set, lastVal_append, ih.2]
    by_cases h : k = p.1
    · rw [if_pos h, if_pos h.symm]; rfl
    · rw [if_neg h, if_neg (fun h' => h h'.symm)]

theorem inputLine_iff (fields : List Str) (d : ArchDict) :
    inputLine fields = .ok d ↔ ∃ ps, List.Forall₂ FieldOf fields ps ∧
      d = ps.foldl (fun d p => dictSet d p.1 (.one (.str p.2))) [] ∧ InputOf ps d := by
  have key : ∀ ps : List (Str × Str), ∀ d : ArchDict, d = ps.foldl (fun d p => dictSet d p.1 (.one (.str p.2))) [] →
      (InputOf ps d ↔ dictGet? d "type".toList ≠ none ∧ dictGet? d "name".toList ≠ none) := by
    rintro ps d rfl
    obtain ⟨h1, h2⟩ := inputDict_spec ps
    rw [h2, h2, Ne, Option.map_eq_none_iff, Ne, Option.map_eq_none_iff, ← Ne, ← Ne, lastVal_isSome, lastVal_isSome]
    constructor
    · intro h; exact ⟨h.type, h.name⟩
    · rintro ⟨ht, hn⟩
      refine ⟨ht, hn, h1, fun k v => ?_⟩
      rw [mem_iff_get h1, h2, Option.map_eq_some_iff]
      constructor
      · rintro ⟨s, hs, rfl⟩; exact ⟨s, rfl, (lastVal_iff _ _ _).mp hs⟩
      · rintro ⟨s, rfl, hs⟩; exact ⟨s, (lastVal_iff _ _ _).mpr hs, rfl⟩
  unfold inputLine
  cases hf : inputFields fields [] with
  | error e =>
    simp only [reduceCtorEq, false_iff]
    rintro ⟨ps, h, rfl, _⟩
    rw [(inputFields_iff _ _ _).mpr ⟨ps, h, rfl⟩] at hf
    cases hf
  | ok d' =>
    obtain ⟨ps, hps, hd⟩ := (inputFields_iff _ _ _).mp hf
    simp only
    have huniq : ∀ qs, List.Forall₂ FieldOf fields qs → qs = ps := by
      intro qs hqs
      have := (inputFields_iff fields [] _).mpr ⟨qs, hqs, rfl⟩
      clear this hf hd
      induction hps generalizing qs with
      | nil => cases hqs; rfl
      | cons h1 _ ih =>
        cases hqs with
        | cons g1 g2 => rw [FieldOf.unique g1 h1, ih _ g2]
    constructor
    · intro h
      split at h
      · cases h
      · rename_i ht
        split at h
        · cases h
        · rename_i hn
          injection h with h
          subst h
          exact ⟨ps, hps, hd, (key ps _ hd).mpr ⟨ht, hn⟩⟩
    · rintro ⟨qs, hqs, he, hi⟩
      have := huniq qs hqs
      subst this
      have : d = d' := by rw [he, hd]
      subst this
      obtain ⟨ht, hn⟩ := (key qs _ he).mp hi
      rw [if_neg ht, if_neg hn]

/-! ## Layer lines -/

/-- The value of a key of the dictionary of a layer. -/
def layerGet (parseInt : Str → Option ℤ) (ps : List (Str × Str)) (k : Str) : Option ArchEntry :=
  if k = "inputs".toList then some (.many (valuesOf ps "input".toList))
  else if k = "devices".toList then some (.many (valuesOf ps "device".toList))
  else if k = "size".toList then (lastVal ps k).bind fun s => (parseInt s).map fun i => .one (.int i)
  else if k = "input".toList ∨ k = "device".toList then none
  else (lastVal ps k).map fun s => .one (.str s)

theorem valuesOf_append (ps : List (Str × Str)) (p : Str × Str) (k : Str) :
    valuesOf (ps ++ [p]) k = valuesOf ps k ++ if p.1 = k then [.str p.2] else [] := by
  unfold valuesOf
  rw [List.filter_append, List.map_append]
  by_cases h : p.1 = k <;> simp [h]

theorem layerGet_append (parseInt : Str → Option ℤ) (ps : List (Str × Str)) (name value k : Str)
    (hi : name ≠ "inputs".toList) (hd : name ≠ "devices".toList) :
    layerGet parseInt (ps ++ [(name, value)]) k =
      if name = "size".toList then
        (if k = name then (parseInt value).map fun i => .one (.int i) else layerGet parseInt ps k)
      else if name = "input".toList then
        (if k = "inputs".toList then some (.many (valuesOf ps "input".toList ++ [.str value])) else layerGet parseInt ps k)
      else if name = "device".toList then
        (if k = "devices".toList then some (.many (valuesOf ps "device".toList ++ [.str value]))
         else layerGet parseInt ps k)
      else if k = name then some (.one (.str value)) else layerGet parseInt ps k := by
  have c1 : ("devices".toList : Str) ≠ "inputs".toList := by decide
  have c2 : ("size".toList : Str) ≠ "inputs".toList := by decide
  have c3 : ("size".toList : Str) ≠ "devices".toList := by decide
  have c4 : ("input".toList : Str) ≠ "size".toList := by decide
  have c5 : ("device".toList : Str) ≠ "size".toList := by decide
  have c6 : ("device".toList : Str) ≠ "input".toList := by decide
  have c7 : ("input".toList : Str) ≠ "inputs".toList := by decide
  have c8 : ("input".toList : Str) ≠ "devices".toList := by decide
  have c9 : ("device".toList : Str) ≠ "inputs".toList := by decide
  have c10 : ("device".toList : Str) ≠ "devices".toList := by decide
  unfold layerGet
  rw [valuesOf_append, valuesOf_append, lastVal_append]
  generalize ("inputs".toList : Str) = kis at *
  generalize ("devices".toList : Str) = kds at *
  generalize ("input".toList : Str) = ki at *
  generalize ("device".toList : Str) = kd at *
  generalize ("size".toList : Str) = ksz at *
  simp only
  by_cases n1 : name = ksz
  · subst n1
    by_cases k1 : k = kis
    · subst k1; simp [Ne.symm c2, Ne.symm c4]
    by_cases k2 : k = kds
    · subst k2; simp [Ne.symm c3, Ne.symm c5, k1]
    by_cases k3 : k = name
    · subst k3; simp [c2, c3]
    · simp [k1, k2, k3, Ne.symm k3]
  by_cases n2 : name = ki
  · subst n2
    by_cases k1 : k = kis
    · subst k1; simp [c4]
    by_cases k2 : k = kds
    · subst k2; simp [k1, c4, Ne.symm c6]
    by_cases k3 : k = ksz
    · subst k3; simp [c2, c3, c4]
    by_cases k4 : k = name
    · subst k4; simp [k1, k2, k3]
    · simp [k1, k2, k3, k4, Ne.symm k4, c4]
  by_cases n3 : name = kd
  · subst n3
    by_cases k1 : k = kis
    · subst k1; simp [c5, c6, Ne.symm c1]
    by_cases k2 : k = kds
    · subst k2; simp [k1, c5, c6]
    by_cases k3 : k = ksz
    · subst k3; simp [c2, c3, c5, c6]
    by_cases k4 : k = name
    · subst k4; simp [k1, k2, k3, c6]
    · simp [k1, k2, k3, k4, Ne.symm k4, c5, c6]
  · by_cases k1 : k = kis
    · subst k1; simp [n1, n2, n3, Ne.symm hi]
    by_cases k2 : k = kds
    · subst k2; simp [k1, n1, n2, n3, Ne.symm hd]
    by_cases k3 : k = ksz
    · subst k3; simp [k1, k2, n1, n2, n3, Ne.symm n1]
    by_cases k4 : k = name
    · subst k4; simp [k1, k2, k3, n2, n3]
    · simp [k1, k2, k3, k4, Ne.symm k4, n1, n2, n3]

theorem layerField_spec (parseInt : Str → Option ℤ) (ps : List (Str × Str)) (d : ArchDict) (name value : Str)
    (h1 : (d.map Prod.fst).Nodup) (h2 : ∀ k, dictGet? d k = layerGet parseInt ps k)
    (hi : name ≠ "inputs".toList) (hd : name ≠ "devices".toList) :
    (name = "size".toList → parseInt value = none → ∃ e, layerField parseInt d name value = .error e) ∧
    ((name = "size".toList → parseInt value ≠ none) → ∃ d', layerField parseInt d name value = .ok d' ∧
      (d'.map Prod.fst).Nodup ∧ ∀ k, dictGet? d' k = layerGet parseInt (ps ++ [(name, value)]) k) := by
  constructor
  · intro hs hp
    unfold layerField
    rw [if_pos hs, hp]
    exact ⟨_, rfl⟩
  · intro hs
    have hap := fun k => layerGet_append parseInt ps name value k hi hd
    by_cases n1 : name = "size".toList
    · simp only [if_pos n1] at hap
      unfold layerField
      rw [if_pos n1]
      cases hp : parseInt value with
      | none => exact absurd hp (hs n1)
      | some i =>
        refine ⟨_, rfl, dictSet_keys _ _ _ h1, fun k => ?_⟩
        rw [hap, dictGet?_set, h2, hp]
        rfl
    · simp only [if_neg n1] at hap
      by_cases n2 : name = "input".toList
      · simp only [if_pos n2] at hap
        have hg : dictGet? d "inputs".toList = some (.many (valuesOf ps "input".toList)) := by
          rw [h2]; exact if_pos rfl
        unfold layerField appendValue
        rw [if_neg n1, if_pos n2, hg]
        refine ⟨_, rfl, dictSet_keys _ _ _ h1, fun k => ?_⟩
        rw [hap, dictGet?_set, h2]
      · simp only [if_neg n2] at hap
        by_cases n3 : name = "device".toList
        · simp only [if_pos n3] at hap
          have hg : dictGet? d "devices".toList = some (.many (valuesOf ps "device".toList)) := by
            rw [h2, layerGet, if_neg (by decide)]; exact if_pos rfl
          unfold layerField appendValue
          rw [if_neg n1, if_neg n2, if_pos n3, hg]
          refine ⟨_, rfl, dictSet_keys _ _ _ h1, fun k => ?_⟩
          rw [hap, dictGet?_set, h2]
        · simp only [if_neg n3] at hap
          unfold layerField
          rw [if_neg n1, if_neg n2, if_neg n3]
          refine ⟨_, rfl, dictSet_keys _ _ _ h1, fun k => ?_⟩
          rw [hap, dictGet?_set, h2]

theorem layerFields_spec (parseInt : Str → Option ℤ) (fields : List Str) (done : List (Str × Str)) (d : ArchDict)
    (h1 : (d.map Prod.fst).Nodup) (h2 : ∀ k, dictGet? d k = layerGet parseInt done k)
    (hn : ∀ field ∈ fields, ∀ p, FieldOf field p → p.1 ≠ "inputs".toList ∧ p.1 ≠ "devices".toList) :
    (∀ ps, List.Forall₂ FieldOf fields ps → (∀ p ∈ ps, p.1 = "size".toList → parseInt p.2 ≠ none) →
      ∃ d', layerFields parseInt fields d = .ok d' ∧ (d'.map Prod.fst).Nodup ∧
        ∀ k, dictGet? d' k = layerGet parseInt (done ++ ps) k) ∧
    (∀ d', layerFields parseInt fields d = .ok d' → ∃ ps, List.Forall₂ FieldOf fields ps ∧
      ∀ p ∈ ps, p.1 = "size".toList → parseInt p.2 ≠ none) := by
  induction fields generalizing done d with
  | nil =>
    refine ⟨fun ps hps _ => ?_, fun d' _ => ⟨[], .nil, by simp⟩⟩
    cases hps
    exact ⟨d, rfl, h1, by simpa using h2⟩
  | cons field fields ih =>
    constructor
    · intro ps hps hsz
      cases hps with
      | cons g1 g2 =>
        rename_i p ps
        obtain ⟨a, b⟩ := p
        obtain ⟨hni, hnd⟩ := hn field List.mem_cons_self _ g1
        obtain ⟨d1, e1, k1, k2⟩ := (layerField_spec parseInt done d a b h1 h2 hni hnd).2 (hsz _ List.mem_cons_self)
        obtain ⟨d2, e2, l1, l2⟩ := (ih (done ++ [(a, b)]) d1 k1 k2
          (fun f hf => hn f (List.mem_cons_of_mem _ hf))).1 ps g2 (fun p hp => hsz p (List.mem_cons_of_mem _ hp))
        refine ⟨d2, ?_, l1, by simpa using l2⟩
        rw [layerFields, (splitField_iff _ _).mpr g1]
        simp only
        rw [e1]
        exact e2
    · intro d' he
      rw [layerFields] at he
      cases hs : splitField field with
      | error e => rw [hs] at he; cases he
      | ok p =>
        obtain ⟨a, b⟩ := p
        have g1 := (splitField_iff _ _).mp hs
        obtain ⟨hni, hnd⟩ := hn field List.mem_cons_self _ g1
        have hsp := layerField_spec parseInt done d a b h1 h2 hni hnd
        rw [hs] at he
        simp only at he
        by_cases hok : a = "size".toList → parseInt b ≠ none
        · obtain ⟨d1, e1, k1, k2⟩ := hsp.2 hok
          rw [e1] at he
          simp only at he
          obtain ⟨ps, q1, q2⟩ := (ih (done ++ [(a, b)]) d1 k1 k2 (fun f hf => hn f (List.mem_cons_of_mem _ hf))).2 d' he
          refine ⟨(a, b) :: ps, .cons g1 q1, ?_⟩
          intro p hp
          rw [List.mem_cons] at hp
          rcases hp with rfl | hp
          · exact hok
          · exact q2 p hp
        · push Not at hok
          obtain ⟨e, e1⟩ := hsp.1 hok.1 hok.2
          rw [e1] at he
          cases he

theorem forall₂_field_unique {fields : List Str} {ps qs : List (Str × Str)}
    (h1 : List.Forall₂ FieldOf fields ps) (h2 : List.Forall₂ FieldOf fields qs) : ps = qs := by
  induction h1 generalizing qs with
  | nil => cases h2; rfl
  | cons g1 _ ih =>
    cases h2 with
    | cons k1 k2 => rw [FieldOf.unique g1 k1, ih k2]

theorem layerItems (parseInt : Str → Option ℤ) (ps : List (Str × Str)) (k : Str) (v : ArchEntry) :
    layerGet parseInt ps k = some v ↔
    (k = "inputs".toList ∧ v = .many (valuesOf ps "input".toList)) ∨
    (k = "devices".toList ∧ v = .many (valuesOf ps "device".toList)) ∨
    (k = "size".toList ∧ ∃ s i, LastValue ps k s ∧ parseInt s = some i ∧ v = .one (.int i)) ∨
    (k ∉ ["inputs".toList, "devices".toList, "size".toList, "input".toList, "device".toList] ∧
      ∃ s, LastValue ps k s ∧ v = .one (.str s)) := by
  have c1 : ("devices".toList : Str) ≠ "inputs".toList := by decide
  have c2 : ("size".toList : Str) ≠ "inputs".toList := by decide
  have c3 : ("size".toList : Str) ≠ "devices".toList := by decide
  simp only [← lastVal_iff]
  unfold layerGet
  generalize ("inputs".toList : Str) = kis at *
  generalize ("devices".toList : Str) = kds at *
  generalize ("input".toList : Str) = ki at *
  generalize ("device".toList : Str) = kd at *
  generalize ("size".toList : Str) = ksz at *
  by_cases k1 : k = kis
  · subst k1; simp [Ne.symm c1, Ne.symm c2, eq_comm]
  by_cases k2 : k = kds
  · subst k2; simp [k1, Ne.symm c3, eq_comm]
  by_cases k3 : k = ksz
  · subst k3
    simp only [k1, k2, if_false, if_true, false_and, false_or, true_and, List.mem_cons, true_or, or_true, not_true,
      or_false, Option.bind_eq_some_iff, Option.map_eq_some_iff]
    constructor
    · rintro ⟨s, h1, i, h2, rfl⟩; exact ⟨s, i, h1, h2, rfl⟩
    · rintro ⟨s, i, h1, h2, rfl⟩; exact ⟨s, h1, i, h2, rfl⟩
  by_cases k4 : k = ki ∨ k = kd
  · simp only [k1, k2, k3, if_false, if_pos k4, reduceCtorEq, false_and, false_or, false_iff, List.mem_cons,
      List.not_mem_nil, or_false]
    rintro ⟨h, _⟩
    exact h k4
  · simp only [k1, k2, k3, if_false, if_neg k4, false_and, false_or, List.mem_cons, List.not_mem_nil, or_false,
      Option.map_eq_some_iff]
    constructor
    · rintro ⟨s, h, rfl⟩; exact ⟨k4, s, h, rfl⟩
    · rintro ⟨_, s, h, rfl⟩; exact ⟨s, h, rfl⟩

theorem valuesOf_ne_nil (ps : List (Str × Str)) (k : Str) : valuesOf ps k ≠ [] ↔ ∃ p ∈ ps, p.1 = k := by
  unfold valuesOf
  rw [Ne, List.map_eq_nil_iff, List.filter_eq_nil_iff]
  push Not
  simp

theorem layerGet_nil (parseInt : Str → Option ℤ) (k : Str) :
    dictGet? ([("inputs".toList, .many []), ("devices".toList, .many [])] : ArchDict) k = layerGet parseInt [] k := by
  have c1 : ("devices".toList : Str) ≠ "inputs".toList := by decide
  unfold layerGet
  generalize ("inputs".toList : Str) = kis at *
  generalize ("devices".toList : Str) = kds at *
  by_cases k1 : k = kis
  · subst k1; simp [dictGet?, valuesOf]
  · by_cases k2 : k = kds
    · subst k2; simp [dictGet?, valuesOf, k1, Ne.symm c1]
    · rw [(dictGet?_none _ _).mpr (by simp [k1, k2])]
      simp [k1, k2, lastVal]

/-- Layer lines whose fields do not have the names of the collected lists. -/
theorem layerLine_sound (parseInt : Str → Option ℤ) (fields : List Str) (d : ArchDict)
    (hn : ∀ field ∈ fields, ∀ p, FieldOf field p → p.1 ≠ "inputs".toList ∧ p.1 ≠ "devices".toList)
    (h : layerLine parseInt fields = .ok d) : ∃ ps, List.Forall₂ FieldOf fields ps ∧ LayerOf parseInt ps d := by
  have hs := layerFields_spec parseInt fields [] [("inputs".toList, .many []), ("devices".toList, .many [])]
    (by decide) (layerGet_nil parseInt) hn
  unfold layerLine at h
  cases hf : layerFields parseInt fields [("inputs".toList, .many []), ("devices".toList, .many [])] with
  | error e => rw [hf] at h; cases h
  | ok d' =>
    obtain ⟨ps, hps, hsz⟩ := hs.2 d' hf
    obtain ⟨d2, e2, hk, hg⟩ := hs.1 ps hps hsz
    rw [hf] at e2
    injection e2 with e2
    subst e2
    rw [hf] at h
    simp only at h
    split at h
    · cases h
    rename_i ht
    split at h
    · cases h
    rename_i hnm
    have hin : dictGet? d' "inputs".toList = some (.many (valuesOf ps "input".toList)) := by
      rw [hg]; exact if_pos rfl
    rw [getKey, hin] at h
    change (if (valuesOf ps "input".toList).isEmpty = true then (.error .inputError : Except Err ArchDict) else .ok d') = .ok d at h
    split at h
    · cases h
    rename_i hfa
    injection h with h
    subst h
    refine ⟨ps, hps, ?_, ?_, ?_, ?_, hk, ?_⟩
    · rw [← lastVal_isSome]
      intro h0
      apply ht
      rw [hg]
      show (if _ then _ else _) = _
      rw [List.nil_append, h0, if_neg (by decide), if_neg (by decide), if_neg (by decide), if_neg (by decide)]
      rfl
    · rw [← lastVal_isSome]
      intro h0
      apply hnm
      rw [hg]
      show (if _ then _ else _) = _
      rw [List.nil_append, h0, if_neg (by decide), if_neg (by decide), if_neg (by decide), if_neg (by decide)]
      rfl
    · rw [← valuesOf_ne_nil]
      simpa using hfa
    · intro p hp hsize
      exact Option.ne_none_iff_exists'.mp (hsz p hp hsize)
    · intro k v
      rw [mem_iff_get hk, hg, List.nil_append, layerItems]

theorem layerLine_complete (parseInt : Str → Option ℤ) (fields : List Str) (ps : List (Str × Str)) (d : ArchDict)
    (hn : ∀ field ∈ fields, ∀ p, FieldOf field p → p.1 ≠ "inputs".toList ∧ p.1 ≠ "devices".toList)
    (hps : List.Forall₂ FieldOf fields ps) (hd : LayerOf parseInt ps d) : ∃ d', layerLine parseInt fields = .ok d' := by
  have hs := layerFields_spec parseInt fields [] [("inputs".toList, .many []), ("devices".toList, .many [])]
    (by decide) (layerGet_nil parseInt) hn
  obtain ⟨d', e, hk, hg⟩ := hs.1 ps hps (fun p hp h => by
    obtain ⟨i, hi⟩ := hd.size p hp h
    rw [hi]; simp)
  refine ⟨d', ?_⟩
  have hval : ∀ k : Str, k ∉ ["inputs".toList, "devices".toList, "size".toList, "input".toList, "device".toList] →
      (∃ p ∈ ps, p.1 = k) → dictGet? d' k ≠ none := by
    intro k hk1 hk2
    rw [← lastVal_isSome] at hk2
    obtain ⟨s, hs⟩ := Option.ne_none_iff_exists'.mp hk2
    have := (layerItems parseInt ps k (.one (.str s))).mpr
      (.inr (.inr (.inr ⟨hk1, s, (lastVal_iff _ _ _).mp hs, rfl⟩)))
    rw [hg, List.nil_append, this]
    simp
  unfold layerLine
  rw [e]
  simp only
  rw [if_neg (hval _ (by decide) hd.type), if_neg (hval _ (by decide) hd.name)]
  have hin : dictGet? d' "inputs".toList = some (.many (valuesOf ps "input".toList)) := by
    rw [hg]; exact if_pos rfl
  rw [getKey, hin]
  show (if (valuesOf ps "input".toList).isEmpty = true then (.error .inputError : Except Err ArchDict) else .ok d') = .ok d'
  rw [if_neg]
  have := (valuesOf_ne_nil ps "input".toList).mpr hd.input
  simpa using this

/-! ## The dictionaries are determined by the lines -/

theorem dict_perm_of_items {d e : ArchDict} (hd : (d.map Prod.fst).Nodup) (he : (e.map Prod.fst).Nodup)
    (h : ∀ k v, (k, v) ∈ d ↔ (k, v) ∈ e) : SameDict d e := by
  refine (List.perm_ext_iff_of_nodup (List.Nodup.of_map _ hd) (List.Nodup.of_map _ he)).mpr ?_
  rintro ⟨k, v⟩
  exact h k v

theorem InputOf.unique {ps : List (Str × Str)} {d e : ArchDict} (hd : InputOf ps d) (he : InputOf ps e) : SameDict d e :=
  dict_perm_of_items hd.keys he.keys fun k v => by rw [hd.items, he.items]

theorem LayerOf.unique {parseInt : Str → Option ℤ} {ps : List (Str × Str)} {d e : ArchDict}
    (hd : LayerOf parseInt ps d) (he : LayerOf parseInt ps e) : SameDict d e :=
  dict_perm_of_items hd.keys he.keys fun k v => by rw [hd.items, he.items]

/-! ## The lines -/

theorem descriptionLines_sound (parseInt : Str → Option ℤ) (lines : List Str) (hn : NoListFields lines)
    (inputs layers inputs' layers' : List ArchDict)
    (h : descriptionLines parseInt lines inputs layers = .ok (inputs', layers')) :
    ∃ is ls, inputs' = inputs ++ is ∧ layers' = layers ++ ls ∧ Describes parseInt lines is ls := by
  induction lines generalizing inputs layers with
  | nil =>
    simp only [descriptionLines, Except.ok.injEq, Prod.mk.injEq] at h
    exact ⟨[], [], by simp [h.1], by simp [h.2], .nil⟩
  | cons line lines ih =>
    have ih := ih fun l hl => hn l (List.mem_cons_of_mem _ hl)
    rw [descriptionLines] at h
    cases hp : pySplit line with
    | nil =>
      rw [hp] at h
      obtain ⟨is, ls, h1, h2, h3⟩ := ih _ _ h
      exact ⟨is, ls, h1, h2, .empty hp h3⟩
    | cons first fields =>
      rw [hp] at h
      simp only at h
      split at h
      · rename_i hc
        obtain ⟨is, ls, h1, h2, h3⟩ := ih _ _ h
        cases first with
        | nil => cases hc
        | cons c w =>
          simp only [List.head?_cons, Option.some.injEq] at hc
          subst hc
          exact ⟨is, ls, h1, h2, .comment hp h3⟩
      · split at h
        · rename_i hfi
          cases hl : inputLine fields with
          | error e => rw [hl] at h; cases h
          | ok d =>
            rw [hl] at h
            obtain ⟨is, ls, h1, h2, h3⟩ := ih _ _ h
            obtain ⟨ps, hps, _, hi⟩ := (inputLine_iff _ _).mp hl
            exact ⟨d :: is, ls, by rw [h1]; simp, h2, .input (by rw [hp, hfi]) hps hi h3⟩
        · split at h
          · rename_i hfl
            cases hl : layerLine parseInt fields with
            | error e => rw [hl] at h; cases h
            | ok d =>
              rw [hl] at h
              obtain ⟨is, ls, h1, h2, h3⟩ := ih _ _ h
              obtain ⟨ps, hps, hi⟩ := layerLine_sound _ _ _ (hn line List.mem_cons_self fields (by rw [hp, hfl])) hl
              exact ⟨is, d :: ls, h1, by rw [h2]; simp, .layer (by rw [hp, hfl]) hps hi h3⟩
          · cases h

theorem descriptionLines_complete (parseInt : Str → Option ℤ) (lines : List Str) (hn : NoListFields lines)
    (inputs layers is ls : List ArchDict) (h : Describes parseInt lines is ls) :
    ∃ is' ls', descriptionLines parseInt lines inputs layers = .ok (inputs ++ is', layers ++ ls') ∧
      List.Forall₂ SameDict is is' ∧ List.Forall₂ SameDict ls ls' := by
  induction h generalizing inputs layers with
  | nil => exact ⟨[], [], by simp [descriptionLines], .nil, .nil⟩
  | empty hp _ ih =>
    obtain ⟨is', ls', h1, h2, h3⟩ := ih (fun l hl => hn l (List.mem_cons_of_mem _ hl)) inputs layers
    refine ⟨is', ls', ?_, h2, h3⟩
    rw [descriptionLines, hp]
    exact h1
  | comment hp _ ih =>
    obtain ⟨is', ls', h1, h2, h3⟩ := ih (fun l hl => hn l (List.mem_cons_of_mem _ hl)) inputs layers
    refine ⟨is', ls', ?_, h2, h3⟩
    rw [descriptionLines, hp]
    simp only [List.head?_cons, if_true]
    exact h1
  | @input line lines _ _ fields ps d hp hps hi _ ih =>
    have hd := (inputLine_iff fields _).mpr ⟨ps, hps, rfl, by
      obtain ⟨h1, h2⟩ := inputDict_spec ps
      refine ⟨hi.type, hi.name, h1, fun k v => ?_⟩
      rw [mem_iff_get h1, h2, Option.map_eq_some_iff]
      constructor
      · rintro ⟨s, hs, rfl⟩; exact ⟨s, rfl, (lastVal_iff _ _ _).mp hs⟩
      · rintro ⟨s, rfl, hs⟩; exact ⟨s, (lastVal_iff _ _ _).mpr hs, rfl⟩⟩
    obtain ⟨qs, hqs, _, hi'⟩ := (inputLine_iff _ _).mp hd
    have := forall₂_field_unique hps hqs
    subst this
    obtain ⟨is', ls', h1, h2, h3⟩ := ih (fun l hl => hn l (List.mem_cons_of_mem _ hl))
      (inputs ++ [ps.foldl (fun d p => dictSet d p.1 (.one (.str p.2))) []]) layers
    refine ⟨_ :: is', ls', ?_, .cons (hi.unique hi') h2, h3⟩
    rw [descriptionLines, hp]
    show (if _ then _ else if "input".toList = "input".toList then _ else _) = _
    rw [if_neg (by decide), if_pos rfl, hd]
    show descriptionLines _ _ _ _ = _
    rw [h1]
    simp
  | @layer line lines _ _ fields ps d hp hps hi _ ih =>
    have hnf := hn line List.mem_cons_self fields hp
    obtain ⟨d', hd⟩ := layerLine_complete parseInt fields ps d hnf hps hi
    obtain ⟨qs, hqs, hi'⟩ := layerLine_sound _ _ _ hnf hd
    have := forall₂_field_unique hps hqs
    subst this
    obtain ⟨is', ls', h1, h2, h3⟩ := ih (fun l hl => hn l (List.mem_cons_of_mem _ hl)) inputs (layers ++ [d'])
    refine ⟨is', d' :: ls', ?_, h2, .cons (hi.unique hi') h3⟩
    rw [descriptionLines, hp]
    show (if _ then _ else if "layer".toList = "input".toList then _ else
      if "layer".toList = "layer".toList then _ else _) = _
    rw [if_neg (by decide), if_neg (by decide), if_pos rfl, hd]
    show descriptionLines _ _ _ _ = _
    rw [h1]
    simp

theorem Describes.layers_of {parseInt : Str → Option ℤ} {lines : List Str} {is ls : List ArchDict}
    (h : Describes parseInt lines is ls) : ∀ d ∈ ls, ∃ ps, LayerOf parseInt ps d := by
  induction h with
  | nil => simp
  | empty _ _ ih => exact ih
  | comment _ _ ih => exact ih
  | input _ _ _ _ ih => exact ih
  | layer _ _ hl _ ih =>
    intro d hd
    rw [List.mem_cons] at hd
    rcases hd with rfl | hd
    · exact ⟨_, hl⟩
    · exact ih d hd

theorem LayerOf.name_get {parseInt : Str → Option ℤ} {ps : List (Str × Str)} {d : ArchDict} (h : LayerOf parseInt ps d) :
    ∃ s, dictGet? d "name".toList = some (.one (.str s)) := by
  have hn := h.name
  rw [← lastVal_isSome] at hn
  obtain ⟨s, hs⟩ := Option.ne_none_iff_exists'.mp hn
  refine ⟨s, dictGet?_of_mem h.keys ?_⟩
  rw [h.items]
  exact .inr (.inr (.inr ⟨by decide, s, (lastVal_iff _ _ _).mp hs, rfl⟩))

end TheanoLM
