import Verif.Model.Parameters
import Verif.Lemmas.Vocabulary
import Verif.Lemmas.Statistics
import Verif.Lemmas.Network
import Verif.Lemmas.NetworkConverse
/-!
# C64: parameters are saved and restored exactly
-/
set_option linter.unusedSectionVars false
namespace TheanoLM

/-! ## Specification -/

section
variable {α : Type}

/-- `p` is obtained by adding the parameters `added` in order to an empty set of parameters. -/
inductive Added : List (Str × Arr α) → Params α → Prop
  | empty : Added [] .empty
  | add {l : List (Str × Arr α)} {p p' : Params α} {path : Str} {value : Arr α} : Added l p → p.add path value = .ok p' →
      Added (l ++ [(path, value)]) p'

/-- A parameter and another one cannot be in the same file if the path of one of them continues the path of the other after a
slash. -/
def Conflict (path path' : Str) : Prop := ∃ rest, path' = path ++ '/' :: rest ∨ path = path' ++ '/' :: rest

/-- The file has the dataset `path` with the given value. -/
def Holds (file : List (Str × Arr α)) (path : Str) (value : Arr α) : Prop := dictGet? file path = some value

/-! ## Helpers -/

theorem Added.vars {l : List (Str × Arr α)} {p : Params α} (h : Added l p) :
    p.vars = l ∧ (l.map Prod.fst).Nodup ∧ p.totalSize = (l.map fun d => d.2.data.length).sum := by
  induction h with
  | empty => exact ⟨rfl, List.nodup_nil, rfl⟩
  | add h1 h2 ih =>
    rename_i l p p' path value
    obtain ⟨e, hn, hs⟩ := ih
    unfold Params.add at h2
    split at h2
    · cases h2
    · rename_i hk
      injection h2 with h2
      subst h2
      have hk' : path ∉ p.vars.map Prod.fst := by
        rw [← dictGet?_none]
        cases hd : dictGet? p.vars path with
        | none => rfl
        | some x => rw [hd] at hk; simp at hk
      refine ⟨?_, ?_, ?_⟩
      · show dictSet p.vars path value = _
        rw [dictSet_new _ _ _ hk', e]
      · rw [List.map_append, List.nodup_append]
        refine ⟨hn, by simp, ?_⟩
        intro a ha b hb hab
        simp at hb
        rw [hab, hb, ← e] at ha
        exact hk' ha
      · rw [List.map_append, List.sum_append, ← hs]
        simp

theorem isAncestor_iff (path other : Str) : isAncestor path other = true ↔ ∃ rest, other = path ++ '/' :: rest := by
  unfold isAncestor
  rw [List.isPrefixOf_iff_prefix]
  constructor
  · rintro ⟨r, hr⟩
    exact ⟨r, by rw [← hr]; simp⟩
  · rintro ⟨r, hr⟩
    exact ⟨r, by rw [hr]; simp⟩

theorem saveParam_get {file file' : List (Str × Arr α)} {d : Str × Arr α} (h : saveParam file d = .ok file') (k : Str) :
    dictGet? file' k = if k = d.1 then some d.2 else dictGet? file k := by
  unfold saveParam at h
  cases hd : dictGet? file d.1 with
  | some old =>
    rw [hd] at h
    simp only at h
    split at h
    · cases h
    · split at h
      · cases h
      · injection h with h
        rw [← h, dictGet?_set]
  | none =>
    rw [hd] at h
    simp only at h
    split at h
    · cases h
    · split at h
      · cases h
      · injection h with h
        rw [← h]
        exact dictGet?_append file d.1 k d.2 ((dictGet?_none _ _).mp hd)

theorem saveParams_get {ds file file' : List (Str × Arr α)} (hn : (ds.map Prod.fst).Nodup) (h : saveParams ds file = .ok file')
    (k : Str) : dictGet? file' k = (dictGet? ds k).or (dictGet? file k) := by
  induction ds generalizing file with
  | nil => injection h with h; rw [← h]; rfl
  | cons d ds ih =>
    rw [saveParams] at h
    cases h1 : saveParam file d with
    | error e => rw [h1] at h; cases h
    | ok f =>
      rw [h1] at h
      simp only at h
      rw [List.map_cons, List.nodup_cons] at hn
      rw [ih hn.2 h, saveParam_get h1 k]
      obtain ⟨p, x⟩ := d
      rw [dictGet?_cons]
      by_cases hk : k = p
      · subst hk
        rw [if_pos rfl, if_pos rfl, (dictGet?_none _ _).mpr hn.1]
        rfl
      · rw [if_neg hk, if_neg fun e => hk e.symm]

theorem saveParams_ok {ds file : List (Str × Arr α)} (hn : (ds.map Prod.fst).Nodup)
    (hc : ds.Pairwise fun d d' => ¬ Conflict d.1 d'.1)
    (hf : ∀ d ∈ ds, (∀ old, dictGet? file d.1 = some old → old.shape = d.2.shape ∧ d.2.shape ≠ []) ∧
      (dictGet? file d.1 = none → ∀ path ∈ file.map Prod.fst, ¬ Conflict d.1 path)) :
    ∃ file', saveParams ds file = .ok file' := by
  induction ds generalizing file with
  | nil => exact ⟨file, rfl⟩
  | cons d ds ih =>
    obtain ⟨h1, h2⟩ := hf d List.mem_cons_self
    have hs : ∃ f, saveParam file d = .ok f ∧ ∀ k, k ∈ f.map Prod.fst → k ∈ file.map Prod.fst ∨ k = d.1 := by
      unfold saveParam
      cases hd : dictGet? file d.1 with
      | some old =>
        obtain ⟨e1, e2⟩ := h1 old hd
        simp only
        rw [if_neg (by rw [e1]; exact e2), if_neg (by simpa using e1)]
        refine ⟨_, rfl, fun k hk => ?_⟩
        by_cases hkd : k = d.1
        · exact .inr hkd
        · left
          by_contra hm
          have : dictGet? (dictSet file d.1 d.2) k = none := by
            rw [dictGet?_set, if_neg hkd]; exact (dictGet?_none _ _).mpr hm
          exact (dictGet?_none _ _).mp this hk
      | none =>
        simp only
        have hcf := h2 hd
        have e1 : isGroup file d.1 = false := by
          rw [isGroup, List.any_eq_false]
          intro x hx hy
          obtain ⟨r, hr⟩ := (isAncestor_iff _ _).mp hy
          exact hcf x.1 (List.mem_map_of_mem hx) ⟨r, .inl hr⟩
        have e2 : (file.any fun e => isAncestor e.1 d.1) = false := by
          rw [List.any_eq_false]
          intro x hx hy
          obtain ⟨r, hr⟩ := (isAncestor_iff _ _).mp hy
          exact hcf x.1 (List.mem_map_of_mem hx) ⟨r, .inr hr⟩
        rw [e1, e2]
        refine ⟨_, rfl, fun k hk => ?_⟩
        rw [List.map_append, List.mem_append] at hk
        simpa using hk
    obtain ⟨f, hs, hkeys⟩ := hs
    rw [List.map_cons, List.nodup_cons] at hn
    rw [List.pairwise_cons] at hc
    rw [saveParams, hs]
    refine ih hn.2 hc.2 fun d' hd' => ?_
    obtain ⟨g1, g2⟩ := hf d' (List.mem_cons_of_mem _ hd')
    have hne : d'.1 ≠ d.1 := fun e => hn.1 (e ▸ List.mem_map_of_mem hd')
    rw [saveParam_get hs, if_neg hne]
    refine ⟨g1, fun hnone path hp => ?_⟩
    rcases hkeys path hp with hp | rfl
    · exact g2 hnone path hp
    · rintro ⟨r, hr⟩
      exact hc.1 d' hd' ⟨r, hr.symm⟩

theorem restore_get {file : List (Str × Arr α)} {vars vars' : List (Str × Arr α)}
    (h : mapE (restoreParam file) vars = .ok vars') (k : Str) :
    dictGet? vars' k = if k ∈ vars.map Prod.fst then dictGet? file k else none := by
  induction vars generalizing vars' with
  | nil => injection h with h; rw [← h]; rfl
  | cons d vars ih =>
    obtain ⟨b, bs, hb, hbs, rfl⟩ := mapE_cons_ok h
    have hb' : dictGet? file d.1 = some b.2 ∧ b.1 = d.1 := by
      unfold restoreParam at hb
      split at hb
      · split at hb <;> cases hb
      · rename_i v hv
        split at hb
        · injection hb with hb
          rw [← hb]
          exact ⟨hv, rfl⟩
        · cases hb
    obtain ⟨p, x⟩ := b
    rw [dictGet?_cons, ih hbs]
    obtain ⟨e1, e2⟩ := hb'
    simp only at e1 e2
    by_cases hk : p = k
    · subst hk
      rw [if_pos rfl, if_pos (by rw [e2]; simp), e2, e1]
    · rw [if_neg hk]
      have : (k ∈ (d :: vars).map Prod.fst) ↔ k ∈ vars.map Prod.fst := by
        rw [List.map_cons, List.mem_cons, ← e2]
        exact ⟨fun h => h.resolve_left fun e => hk e.symm, .inr⟩
      simp only [this]

/-! ## Theorems -/

/-- Adding parameters: a new name gets its value and does not change the others; the same name twice is an error; the total size is
the number of elements. -/
theorem C64_add {added : List (Str × Arr α)} {p : Params α} (h : Added added p) (path : Str) (value : Arr α) :
    (path ∈ added.map Prod.fst → p.add path value = .error .valueError) ∧
    (path ∉ added.map Prod.fst → ∃ p', p.add path value = .ok p' ∧ p'.get path = .ok value ∧
      (∀ other, other ≠ path → p'.get other = p.get other) ∧ p'.totalSize = p.totalSize + value.data.length) ∧
    p.totalSize = (added.map fun d => d.2.data.length).sum ∧
    (∀ v, p.get path = .ok v ↔ (path, v) ∈ added) ∧ (path ∉ added.map Prod.fst → p.get path = .error .keyError) := by
  obtain ⟨e, hn, hs⟩ := h.vars
  refine ⟨fun hm => ?_, fun hm => ?_, hs, fun v => ?_, fun hm => ?_⟩
  · unfold Params.add
    rw [if_pos]
    cases hd : dictGet? p.vars path with
    | none => rw [dictGet?_none, e] at hd; exact absurd hm hd
    | some x => rfl
  · have hd : dictGet? p.vars path = none := by rw [dictGet?_none, e]; exact hm
    unfold Params.add
    rw [hd, if_neg (by simp)]
    refine ⟨_, rfl, ?_, fun other ho => ?_, rfl⟩
    · unfold Params.get
      simp only
      rw [dictGet?_set, if_pos rfl]
    · unfold Params.get
      simp only
      rw [dictGet?_set, if_neg ho]
  · unfold Params.get
    rw [e]
    constructor
    · intro hg
      cases hd : dictGet? added path with
      | none => rw [hd] at hg; cases hg
      | some x =>
        rw [hd] at hg
        injection hg with hg
        rw [← hg]
        exact dictGet?_mem hd
    · intro hm
      rw [dictGet?_of_mem hn hm]
  · unfold Params.get
    rw [e, (dictGet?_none _ _).mpr hm]

/-- If saving the parameters of `p` to a file (which may have other content) succeeds, restoring from that file to parameters `q`
that have some of the names of `p`, with the same numbers of dimensions, succeeds, and every parameter of `q` has then the value that
it has in `p`.  What else was in the file is still there. -/
theorem C64 {added added' : List (Str × Arr α)} {p q : Params α} (hp : Added added p) (hq : Added added' q)
    (hsame : ∀ d' ∈ added', ∃ d ∈ added, d.1 = d'.1 ∧ d.2.shape.length = d'.2.shape.length)
    {file file' : List (Str × Arr α)} (hsave : saveParams p.vars file = .ok file') :
    (∃ q', q.restore file' = .ok q' ∧ (∀ d' ∈ added', q'.get d'.1 = p.get d'.1) ∧
      (∀ path, path ∉ added'.map Prod.fst → q'.get path = .error .keyError)) ∧
    ∀ path value, path ∉ added.map Prod.fst → (Holds file' path value ↔ Holds file path value) := by
  obtain ⟨e, hn, -⟩ := hp.vars
  obtain ⟨e', hn', -⟩ := hq.vars
  rw [e] at hsave
  have hget := saveParams_get hn hsave
  refine ⟨?_, fun path value hm => ?_⟩
  · have hr : ∃ vars', mapE (restoreParam file') q.vars = .ok vars' := by
      refine mapE_all fun d' hd' => ?_
      rw [e'] at hd'
      obtain ⟨d, hd, hd1, hd2⟩ := hsame d' hd'
      have hg : dictGet? file' d'.1 = some d.2 := by
        rw [hget, ← hd1, dictGet?_of_mem hn (x := d.2) hd]
        rfl
      refine ⟨(d'.1, d.2), ?_⟩
      unfold restoreParam
      rw [hg]
      simp only
      rw [if_pos hd2]
    obtain ⟨vars', hr⟩ := hr
    refine ⟨⟨vars', q.totalSize⟩, by unfold Params.restore; rw [hr], fun d' hd' => ?_, fun path hm => ?_⟩
    · obtain ⟨d, hd, hd1, hd2⟩ := hsame d' hd'
      unfold Params.get
      simp only
      rw [restore_get hr, e', if_pos (List.mem_map_of_mem hd'), hget, ← hd1, e, dictGet?_of_mem hn (x := d.2) hd]
      rfl
    · unfold Params.get
      simp only
      rw [restore_get hr, e', if_neg hm]
  · unfold Holds
    rw [hget, (dictGet?_none _ _).mpr hm]
    rfl

/-- Restoring from a file in which a parameter is missing is an error; the error is `IncompatibleStateError` if the parameters that
were added before it can be restored. -/
theorem C64_missing {added : List (Str × Arr α)} {q : Params α} (hq : Added added q) {file : List (Str × Arr α)} {path : Str}
    (hm : path ∈ added.map Prod.fst) (hf : path ∉ file.map Prod.fst) :
    (∃ err, q.restore file = .error err) ∧
    ∀ before value after, added = before ++ (path, value) :: after → (∀ other ∈ file.map Prod.fst, ¬ Conflict path other) →
      (∀ d ∈ before, ∃ v, Holds file d.1 v ∧ v.shape.length = d.2.shape.length) → q.restore file = .error .incompatibleState := by
  obtain ⟨e, hn, -⟩ := hq.vars
  have hnone := (dictGet?_none _ _).mpr hf
  refine ⟨?_, fun before value after ha hc hb => ?_⟩
  · unfold Params.restore
    cases hr : mapE (restoreParam file) q.vars with
    | error err => exact ⟨err, rfl⟩
    | ok vars =>
      exfalso
      obtain ⟨d, hd, rfl⟩ := List.mem_map.mp hm
      rw [← e] at hd
      clear hn hm hq e
      generalize q.vars = l at hr hd
      induction l generalizing vars with
      | nil => simp at hd
      | cons a l ih =>
        obtain ⟨b, bs, h1, h2, -⟩ := mapE_cons_ok hr
        rcases List.mem_cons.mp hd with rfl | hd
        · unfold restoreParam at h1
          rw [hnone] at h1
          simp only at h1
          split at h1 <;> cases h1
        · exact ih _ h2 hd
  · unfold Params.restore
    rw [e, ha]
    have : mapE (restoreParam file) (before ++ (path, value) :: after) = .error .incompatibleState := by
      clear ha
      induction before with
      | nil =>
        rw [List.nil_append, mapE]
        unfold restoreParam
        simp only
        rw [hnone]
        simp only
        rw [if_neg]
        rw [Bool.not_eq_true, isGroup, List.any_eq_false]
        intro x hx hy
        obtain ⟨r, hr⟩ := (isAncestor_iff _ _).mp hy
        exact hc x.1 (List.mem_map_of_mem hx) ⟨r, .inl hr⟩
      | cons d before ih =>
        obtain ⟨v, hv, hs⟩ := hb d List.mem_cons_self
        rw [List.cons_append, mapE, ih fun d hd => hb d (List.mem_cons_of_mem _ hd)]
        have : restoreParam file d = .ok (d.1, v) := by
          unfold restoreParam
          rw [show dictGet? file d.1 = some v from hv]
          simp only
          rw [if_pos hs]
        rw [this]
    rw [this]

/-- Saving succeeds if no parameter is inside another one, and every parameter that is already in the file is not a scalar and has
the same shape. -/
theorem C64_saves {added : List (Str × Arr α)} {p : Params α} (hp : Added added p)
    (hc : added.Pairwise fun d d' => ¬ Conflict d.1 d'.1) {file : List (Str × Arr α)}
    (hf : ∀ d ∈ added, (∃ old, Holds file d.1 old ∧ old.shape = d.2.shape ∧ d.2.shape ≠ []) ∨
      (d.1 ∉ file.map Prod.fst ∧ ∀ path ∈ file.map Prod.fst, ¬ Conflict d.1 path)) :
    ∃ file', saveParams p.vars file = .ok file' := by
  obtain ⟨e, hn, -⟩ := hp.vars
  rw [e]
  refine saveParams_ok hn hc fun d hd => ?_
  rcases hf d hd with ⟨old, h1, h2⟩ | ⟨h1, h2⟩
  · refine ⟨fun o ho => ?_, fun hno => ?_⟩
    · rw [Holds, ho] at h1
      injection h1 with h1
      rw [h1]
      exact h2
    · rw [Holds, hno] at h1; cases h1
  · exact ⟨fun o ho => (by rw [(dictGet?_none _ _).mpr h1] at ho; cases ho), fun _ => h2⟩

/-- A scalar parameter (the time step of the Adam optimizer is one) can be saved to a file only once: saving again, to the same
file, raises an exception. -/
theorem C64_scalar_again {added : List (Str × Arr α)} {p : Params α} (hp : Added added p) {path : Str} {x : α}
    (hs : (path, ⟨[], [x]⟩) ∈ added) {file file' : List (Str × Arr α)} (h : saveParams p.vars file = .ok file') :
    ∃ err, saveParams p.vars file' = .error err := by
  obtain ⟨e, hn, -⟩ := hp.vars
  rw [e] at h ⊢
  have hg : dictGet? file' path = some ⟨[], [x]⟩ := by
    rw [saveParams_get hn h, dictGet?_of_mem hn hs]
    rfl
  clear h hp e
  induction added generalizing file' with
  | nil => simp at hs
  | cons d added ih =>
    rw [saveParams]
    cases h1 : saveParam file' d with
    | error err => exact ⟨err, rfl⟩
    | ok f =>
      simp only
      rw [List.map_cons, List.nodup_cons] at hn
      rcases List.mem_cons.mp hs with rfl | hm
      · unfold saveParam at h1
        simp only at h1
        rw [hg] at h1
        simp at h1
      · refine ih hm hn.2 ?_
        rw [saveParam_get h1, if_neg, hg]
        intro hp
        exact hn.1 (hp ▸ List.mem_map_of_mem (f := Prod.fst) hm)

end

/-! ## Examples -/

/-- Parameters of two layers. -/
def exampleParams : List (Str × Arr ℚ) :=
  [("layers/hidden/W".toList, ⟨[2, 2], [1, 2, 3, 4]⟩), ("layers/hidden/b".toList, ⟨[2], [5, 6]⟩),
   ("layers/output/W/dev0".toList, ⟨[1, 2], [7, 8]⟩)]

/-- The same names, other values and one more dataset in the file. -/
def exampleRestored : List (Str × Arr ℚ) :=
  [("layers/output/W/dev0".toList, ⟨[1, 2], [0, 0]⟩), ("layers/hidden/W".toList, ⟨[1, 2], [0, 0]⟩)]

def paramsOf (l : List (Str × Arr ℚ)) : Params ℚ := ⟨l, (l.map fun d => d.2.data.length).sum⟩

theorem exampleParams_added : Added exampleParams (paramsOf exampleParams) :=
  .add (.add (.add .empty rfl) rfl) rfl

theorem exampleRestored_added : Added exampleRestored (paramsOf exampleRestored) :=
  .add (.add .empty rfl) rfl

instance (path path' : Str) : Decidable (Conflict path path') :=
  decidable_of_iff (isAncestor path path' = true ∨ isAncestor path' path = true) (by
    rw [isAncestor_iff, isAncestor_iff]
    exact ⟨fun h => h.elim (fun ⟨r, h⟩ => ⟨r, .inl h⟩) (fun ⟨r, h⟩ => ⟨r, .inr h⟩),
      fun ⟨r, h⟩ => h.elim (fun h => .inl ⟨r, h⟩) (fun h => .inr ⟨r, h⟩)⟩)

/-- The hypotheses of `C64_saves` and `C64`, for a file with earlier values of two of the parameters and something else. -/
example : (exampleParams.Pairwise fun d d' => ¬ Conflict d.1 d'.1) ∧
    (∀ d' ∈ exampleRestored, ∃ d ∈ exampleParams, d.1 = d'.1 ∧ d.2.shape.length = d'.2.shape.length) ∧
    ∃ file', saveParams (paramsOf exampleParams).vars
        [("layers/hidden/b".toList, ⟨[2], [0, 0]⟩), ("layers/other".toList, ⟨[], [9]⟩)] = .ok file' ∧
      (paramsOf exampleRestored).restore file' =
        .ok ⟨[("layers/output/W/dev0".toList, ⟨[1, 2], [7, 8]⟩), ("layers/hidden/W".toList, ⟨[2, 2], [1, 2, 3, 4]⟩)], 4⟩ := by
  refine ⟨by decide, by decide, _, rfl, rfl⟩

example : (paramsOf exampleRestored).restore (exampleParams.take 2) = .error .incompatibleState := by rfl

/-- A parameter inside another one. -/
example : ∃ err, saveParams [("a".toList, (⟨[1], [0]⟩ : Arr ℚ)), ("a/b".toList, ⟨[1], [0]⟩)] [] = .error err := ⟨_, rfl⟩

/-- Saving the time step of the Adam optimizer twice. -/
example : Added [("optimizer/timestep".toList, (⟨[], [0]⟩ : Arr ℚ))] (paramsOf [("optimizer/timestep".toList, ⟨[], [0]⟩)]) ∧
    ∃ file, saveParams [("optimizer/timestep".toList, (⟨[], [0]⟩ : Arr ℚ))] [] = .ok file ∧
      saveParams [("optimizer/timestep".toList, (⟨[], [0]⟩ : Arr ℚ))] file = .error .typeError :=
  ⟨.add .empty rfl, _, rfl, rfl⟩

end TheanoLM
