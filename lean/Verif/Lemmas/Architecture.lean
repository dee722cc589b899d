import Verif.Props.ArchitectureSpec
import Verif.Lemmas.Vocabulary
import Verif.Lemmas.Statistics
import Mathlib.Data.List.Induction
/-! Lemmas about the states of architectures. -/
namespace TheanoLM
set_option linter.unusedSectionVars false

/-! ## Decimal numbers -/

theorem digit_toNat {d : Nat} (h : d < 10) : (Char.ofNat (48 + d)).toNat = 48 + d := by
  have : ∀ d < 10, (Char.ofNat (48 + d)).toNat = 48 + d := by decide
  exact this d h

theorem foldl_digits (l : List Nat) (h : ∀ d ∈ l, d < 10) (n : Nat) :
    (l.map fun d => Char.ofNat (48 + d)).foldl (fun n c => 10 * n + (c.toNat - 48)) n =
    l.foldl (fun n d => 10 * n + d) n := by
  induction l generalizing n with
  | nil => rfl
  | cons d l ih =>
    rw [List.map_cons, List.foldl_cons, List.foldl_cons, digit_toNat (h d List.mem_cons_self), Nat.add_sub_cancel_left]
    exact ih (fun x hx => h x (List.mem_cons_of_mem _ hx)) _

theorem foldl_reverse_ofDigits (l : List Nat) : l.reverse.foldl (fun n d => 10 * n + d) 0 = Nat.ofDigits 10 l := by
  rw [List.foldl_reverse]
  induction l with
  | nil => rfl
  | cons d l ih => rw [List.foldr_cons, ih, Nat.ofDigits_cons]; simp [add_comm]

theorem strNat_natStr (n : Nat) : strNat (natStr n) = some n := by
  unfold natStr
  split
  · next h => subst h; decide
  · next h =>
    have hd : ∀ d ∈ (Nat.digits 10 n).reverse, d < 10 := fun d hd =>
      Nat.digits_lt_base (by norm_num) (List.mem_reverse.mp hd)
    unfold strNat
    rw [if_pos]
    · rw [foldl_digits _ hd, foldl_reverse_ofDigits, Nat.ofDigits_digits]
    · refine ⟨?_, ?_⟩
      · simpa using Nat.digits_ne_nil_iff_ne_zero.mpr h
      · rw [List.all_eq_true]
        intro c hc
        obtain ⟨d, hd', rfl⟩ := List.mem_map.mp hc
        have := hd d hd'
        rw [digit_toNat this]
        simp; omega

theorem natStr_inj {m n : Nat} (h : natStr m = natStr n) : m = n := by
  have := congrArg strNat h
  rw [strNat_natStr, strNat_natStr] at this
  exact Option.some.inj this

/-! ## Dictionaries -/

theorem foldl_dictSet_new {κ β : Type} [DecidableEq κ] (l d : List (κ × β)) (h : (d.map Prod.fst ++ l.map Prod.fst).Nodup) :
    l.foldl (fun d x => dictSet d x.1 x.2) d = d ++ l := by
  induction l generalizing d with
  | nil => simp
  | cons x l ih =>
    rw [List.foldl_cons, dictSet_new]
    · rw [ih]
      · simp
      · simpa using h
    · rw [List.map_cons, List.nodup_append] at h
      intro hx
      exact h.2.2 _ hx _ List.mem_cons_self rfl

/-- Items numbered from zero. -/
def numbered {β : Type} (l : List β) : List (Str × β) := l.zipIdx.map fun x => (natStr x.2, x.1)

theorem numbered_keys {β : Type} (l : List β) : (numbered l).map Prod.fst = (List.range l.length).map natStr := by
  unfold numbered
  rw [List.map_map]
  have : (Prod.fst ∘ fun x : β × Nat => (natStr x.2, x.1)) = natStr ∘ Prod.snd := rfl
  rw [this, ← List.map_map, List.zipIdx_map_snd, List.range_eq_range']

theorem natStr_nodup {l : List Nat} (h : l.Nodup) : (l.map natStr).Nodup :=
  List.Nodup.map (fun _ _ h => natStr_inj h) h

theorem numbered_nodup {β : Type} (l : List β) : ((numbered l).map Prod.fst).Nodup := by
  rw [numbered_keys]; exact natStr_nodup List.nodup_range

theorem numbered_get {β : Type} (l : List β) (i : Nat) : dictGet? (numbered l) (natStr i) = l[i]? := by
  cases h : l[i]? with
  | none =>
    rw [dictGet?_none, numbered_keys]
    intro hm
    obtain ⟨j, hj, he⟩ := List.mem_map.mp hm
    have := natStr_inj he
    subst this
    rw [List.mem_range] at hj
    rw [List.getElem?_eq_none_iff] at h
    omega
  | some x =>
    apply dictGet?_of_mem (numbered_nodup l)
    exact List.mem_map.mpr ⟨(x, i), by rw [List.mk_mem_zipIdx_iff_getElem?]; exact h, rfl⟩

theorem foldl_numbered (l : List ArchVal) :
    l.zipIdx.foldl (fun attrs v => dictSet attrs (natStr v.2) v.1) [] = numbered l := by
  have := foldl_dictSet_new (numbered l) [] (by simpa using numbered_nodup l)
  rw [List.nil_append] at this
  rw [← this]
  unfold numbered
  rw [List.foldl_map]

/-- A sorted list of the numbers as strings is a list of the numbers in some order. -/
theorem sorted_numbered {β : Type} (l : List β) : ∃ σ : List Nat, σ.Perm (List.range l.length) ∧
    sortedKeys (numbered l) = σ.map natStr := by
  have hp : (sortedKeys (numbered l)).Perm ((List.range l.length).map natStr) := by
    unfold sortedKeys
    rw [numbered_keys]
    exact List.perm_insertionSort _ _
  refine ⟨(sortedKeys (numbered l)).filterMap strNat, ?_, ?_⟩
  · refine (hp.filterMap strNat).trans ?_
    rw [List.filterMap_map]
    have : (strNat ∘ natStr) = some := funext strNat_natStr
    rw [this, List.filterMap_some]
  · have : ∀ x ∈ sortedKeys (numbered l), ∃ n, x = natStr n := by
      intro x hx
      obtain ⟨n, _, rfl⟩ := List.mem_map.mp (hp.subset hx)
      exact ⟨n, rfl⟩
    generalize sortedKeys (numbered l) = s at this
    induction s with
    | nil => rfl
    | cons x s ih =>
      obtain ⟨n, rfl⟩ := this x List.mem_cons_self
      rw [List.filterMap_cons, strNat_natStr, List.map_cons, ← ih fun y hy => this y (List.mem_cons_of_mem _ hy)]

theorem sorted_numbered_small {β : Type} (l : List β) (h : l.length ≤ 10) :
    sortedKeys (numbered l) = (List.range l.length).map natStr := by
  unfold sortedKeys
  rw [numbered_keys]
  generalize l.length = n at h
  have : ∀ n ≤ 10, ((List.range n).map natStr).insertionSort (fun a b => strLe a b = true) =
      (List.range n).map natStr := by decide +kernel
  exact this n h

theorem filterMap_range {β : Type} (l : List β) : (List.range l.length).filterMap (fun i => l[i]?) = l := by
  induction l using List.reverseRecOn with
  | nil => rfl
  | append_singleton l x ih =>
    rw [List.length_append, List.length_singleton, List.range_succ, List.filterMap_append]
    have : (List.range l.length).filterMap (fun i => (l ++ [x])[i]?) = (List.range l.length).filterMap (fun i => l[i]?) := by
      apply List.filterMap_congr
      intro i hi
      rw [List.getElem?_append_left (List.mem_range.mp hi)]
    rw [this, ih]
    simp

theorem readH5Values_perm (vs : List ArchVal) : vs.Perm (readH5Values (numbered vs)) := by
  obtain ⟨σ, hσ, h⟩ := sorted_numbered vs
  unfold readH5Values
  rw [h, List.filterMap_map]
  have : (dictGet? (numbered vs) ∘ natStr) = fun i => vs[i]? := funext (numbered_get vs)
  rw [this]
  have := hσ.filterMap (fun i => vs[i]?)
  rw [filterMap_range] at this
  exact this.symm

theorem readH5Values_small (vs : List ArchVal) (h : vs.length ≤ 10) : readH5Values (numbered vs) = vs := by
  unfold readH5Values
  rw [sorted_numbered_small vs h, List.filterMap_map]
  have : (dictGet? (numbered vs) ∘ natStr) = fun i => vs[i]? := funext (numbered_get vs)
  rw [this, filterMap_range]

/-! ## Writing a dictionary -/

def scalarsOf (d : ArchDict) : H5Attrs := d.filterMap fun e => match e.2 with | .one v => some (e.1, v) | .many _ => none
def listsOf (d : ArchDict) : List (Str × H5Attrs) :=
  d.filterMap fun e => match e.2 with | .one _ => none | .many vs => some (e.1, numbered vs)

theorem scalarsOf_keys (d : ArchDict) : List.Sublist ((scalarsOf d).map Prod.fst) (d.map Prod.fst) := by
  induction d with
  | nil => exact List.Sublist.slnil
  | cons e d ih =>
    obtain ⟨k, v⟩ := e
    cases v with
    | one v => exact ih.cons_cons _
    | many vs => exact ih.cons _

theorem listsOf_keys (d : ArchDict) : List.Sublist ((listsOf d).map Prod.fst) (d.map Prod.fst) := by
  induction d with
  | nil => exact List.Sublist.slnil
  | cons e d ih =>
    obtain ⟨k, v⟩ := e
    cases v with
    | one v => exact ih.cons _
    | many vs => exact ih.cons_cons _

theorem mem_scalarsOf {d : ArchDict} {k : Str} {v : ArchVal} : (k, v) ∈ scalarsOf d ↔ (k, ArchEntry.one v) ∈ d := by
  unfold scalarsOf
  rw [List.mem_filterMap]
  constructor
  · rintro ⟨⟨k', e⟩, he, h⟩
    cases e with
    | one w => simp only [Option.some.injEq, Prod.mk.injEq] at h; obtain ⟨rfl, rfl⟩ := h; exact he
    | many ws => cases h
  · intro h; exact ⟨_, h, rfl⟩

theorem mem_listsOf {d : ArchDict} {k : Str} {a : H5Attrs} :
    (k, a) ∈ listsOf d ↔ ∃ vs, a = numbered vs ∧ (k, ArchEntry.many vs) ∈ d := by
  unfold listsOf
  rw [List.mem_filterMap]
  constructor
  · rintro ⟨⟨k', e⟩, he, h⟩
    cases e with
    | one w => cases h
    | many ws => simp only [Option.some.injEq, Prod.mk.injEq] at h; obtain ⟨rfl, rfl⟩ := h; exact ⟨ws, rfl, he⟩
  · rintro ⟨vs, rfl, h⟩; exact ⟨_, h, rfl⟩

theorem writeH5Dict_append (d : ArchDict) (g : H5Dict)
    (ha : (g.attrs.map Prod.fst ++ d.map Prod.fst).Nodup) (hg : (g.groups.map Prod.fst ++ d.map Prod.fst).Nodup) :
    writeH5Dict g d = ⟨g.attrs ++ scalarsOf d, g.groups ++ listsOf d⟩ := by
  induction d generalizing g with
  | nil => simp [writeH5Dict, scalarsOf, listsOf]
  | cons e d ih =>
    obtain ⟨k, v⟩ := e
    have ha' := ha
    have hg' := hg
    rw [List.map_cons, List.nodup_append] at ha hg
    have hka : k ∉ g.attrs.map Prod.fst := fun h => ha.2.2 _ h _ List.mem_cons_self rfl
    have hkg : k ∉ g.groups.map Prod.fst := fun h => hg.2.2 _ h _ List.mem_cons_self rfl
    cases v with
    | one v =>
      have : writeH5Dict g ((k, .one v) :: d) = writeH5Dict ⟨g.attrs ++ [(k, v)], g.groups⟩ d := by
        unfold writeH5Dict
        rw [List.foldl_cons]
        unfold writeH5Entry
        simp only
        rw [dictSet_new _ _ _ hka]
      rw [this, ih]
      · simp [scalarsOf, listsOf]
      · simpa using ha'
      · rw [List.nodup_append]
        exact ⟨hg.1, (List.nodup_cons.mp hg.2.1).2, fun a h b hb => hg.2.2 a h b (List.mem_cons_of_mem _ hb)⟩
    | many vs =>
      have : writeH5Dict g ((k, .many vs) :: d) = writeH5Dict ⟨g.attrs, g.groups ++ [(k, numbered vs)]⟩ d := by
        unfold writeH5Dict
        rw [List.foldl_cons]
        unfold writeH5Entry
        simp only
        rw [(dictGet?_none _ _).mpr hkg, Option.getD_none, foldl_numbered, dictSet_new _ _ _ hkg]
      rw [this, ih]
      · simp [scalarsOf, listsOf]
      · rw [List.nodup_append]
        exact ⟨ha.1, (List.nodup_cons.mp ha.2.1).2, fun a h b hb => ha.2.2 a h b (List.mem_cons_of_mem _ hb)⟩
      · simpa using hg'

theorem writeH5Dict_new {d : ArchDict} (h : (d.map Prod.fst).Nodup) :
    writeH5Dict ⟨[], []⟩ d = ⟨scalarsOf d, listsOf d⟩ := by
  rw [writeH5Dict_append d ⟨[], []⟩ (by simpa using h) (by simpa using h)]; rfl

theorem writeH5List_new {l : List ArchDict} (h : ∀ d ∈ l, (d.map Prod.fst).Nodup) :
    writeH5List none l = numbered (l.map fun d => ⟨scalarsOf d, listsOf d⟩) := by
  have key : ∀ (l : List ArchDict) (k : Nat) (g : List (Str × H5Dict)), (∀ d ∈ l, (d.map Prod.fst).Nodup) →
      (∀ i, k ≤ i → natStr i ∉ g.map Prod.fst) →
      (l.zipIdx k).foldl (fun g x => dictSet g (natStr x.2)
        (writeH5Dict ((dictGet? g (natStr x.2)).getD ⟨[], []⟩) x.1)) g =
      g ++ (l.zipIdx k).map fun x => (natStr x.2, ⟨scalarsOf x.1, listsOf x.1⟩) := by
    intro l
    induction l with
    | nil => intro k g _ _; simp
    | cons d l ih =>
      intro k g hd hg
      rw [List.zipIdx_cons, List.foldl_cons]
      simp only
      rw [(dictGet?_none _ _).mpr (hg k le_rfl), Option.getD_none, writeH5Dict_new (hd d List.mem_cons_self),
        dictSet_new _ _ _ (hg k le_rfl), ih]
      · simp
      · exact fun d' h' => hd d' (List.mem_cons_of_mem _ h')
      · intro i hi hm
        rw [List.map_append, List.mem_append] at hm
        rcases hm with hm | hm
        · exact hg i (by omega) hm
        · simp only [List.map_cons, List.map_nil, List.mem_singleton] at hm
          have := natStr_inj hm
          omega
  unfold writeH5List
  rw [Option.getD_none, key l 0 [] h (by simp), List.nil_append]
  unfold numbered
  rw [List.zipIdx_map, List.map_map]
  rfl

/-! ## Reading a dictionary -/

theorem foldl_map_dictSet {α β : Type} (l : List (Str × α)) (f : α → β) (d : List (Str × β))
    (h : (d.map Prod.fst ++ l.map Prod.fst).Nodup) :
    l.foldl (fun r x => dictSet r x.1 (f x.2)) d = d ++ l.map fun x => (x.1, f x.2) := by
  have := foldl_dictSet_new (l.map fun x => (x.1, f x.2)) d (by simpa [Function.comp_def] using h)
  rw [← this, List.foldl_map]

theorem scalars_lists_nodup {d : ArchDict} (h : (d.map Prod.fst).Nodup) :
    ((scalarsOf d).map Prod.fst ++ (listsOf d).map Prod.fst).Nodup := by
  rw [List.nodup_append]
  refine ⟨h.sublist (scalarsOf_keys d), h.sublist (listsOf_keys d), ?_⟩
  rintro a ha b hb rfl
  obtain ⟨⟨k, v⟩, hv, rfl⟩ := List.mem_map.mp ha
  obtain ⟨⟨k', w⟩, hw, he⟩ := List.mem_map.mp hb
  simp only at he
  subst he
  rw [mem_scalarsOf] at hv
  obtain ⟨vs, _, hw⟩ := mem_listsOf.mp hw
  have h1 := dictGet?_of_mem h hv
  have h2 := dictGet?_of_mem h hw
  rw [h1] at h2
  cases h2

theorem readH5Dict_written {d : ArchDict} (h : (d.map Prod.fst).Nodup) :
    readH5Dict ⟨scalarsOf d, listsOf d⟩ =
    ((scalarsOf d).map fun x => (x.1, ArchEntry.one x.2)) ++
    (listsOf d).map fun x => (x.1, ArchEntry.many (readH5Values x.2)) := by
  unfold readH5Dict
  simp only
  rw [foldl_map_dictSet _ ArchEntry.one [] (by simpa using h.sublist (scalarsOf_keys d)), List.nil_append,
    foldl_map_dictSet (listsOf d) (fun a => ArchEntry.many (readH5Values a))]
  simpa [Function.comp_def] using scalars_lists_nodup h

theorem readH5Dict_values {d : ArchDict} (h : (d.map Prod.fst).Nodup) :
    SameDictValues d (readH5Dict ⟨scalarsOf d, listsOf d⟩) := by
  rw [readH5Dict_written h]
  clear h
  refine ⟨d.map fun e => (e.1, match e.2 with
    | .one v => .one v
    | .many vs => .many (readH5Values (numbered vs))), ?_, ?_⟩
  · induction d with
    | nil => exact List.Perm.nil
    | cons e d ih =>
      obtain ⟨k, v⟩ := e
      cases v with
      | one v => exact ih.cons _
      | many vs => exact (ih.cons (k, ArchEntry.many (readH5Values (numbered vs)))).trans List.perm_middle.symm
  · rw [List.forall₂_map_right_iff, List.forall₂_same]
    rintro ⟨k, v⟩ _
    cases v with
    | one v => exact ⟨rfl, .one v⟩
    | many vs => exact ⟨rfl, .many _ _ (readH5Values_perm vs)⟩

theorem readH5Dict_same {d : ArchDict} (h : (d.map Prod.fst).Nodup) (hl : ListsAtMost 10 d) :
    SameDict d (readH5Dict ⟨scalarsOf d, listsOf d⟩) := by
  rw [readH5Dict_written h]
  clear h
  unfold SameDict
  induction d with
  | nil => exact List.Perm.nil
  | cons e d ih =>
    obtain ⟨k, v⟩ := e
    have ih := ih fun k vs hk => hl k vs (List.mem_cons_of_mem _ hk)
    cases v with
    | one v => exact ih.cons _
    | many vs =>
      refine (ih.cons (k, ArchEntry.many vs)).trans ?_
      have : readH5Values (numbered vs) = vs := readH5Values_small vs (hl k vs List.mem_cons_self)
      have e : (listsOf ((k, ArchEntry.many vs) :: d)).map (fun x => (x.1, ArchEntry.many (readH5Values x.2))) =
          (k, ArchEntry.many vs) :: (listsOf d).map (fun x => (x.1, ArchEntry.many (readH5Values x.2))) := by
        show (k, ArchEntry.many (readH5Values (numbered vs))) :: _ = _
        rw [this]
        rfl
      rw [e]
      exact List.perm_middle.symm

/-! ## Reading the lists -/

theorem map_getElem_range {β γ : Type} (l : List β) (f : β → γ) (g : Nat → γ) (h : ∀ i x, l[i]? = some x → g i = f x) :
    (List.range l.length).map g = l.map f := by
  apply List.ext_getElem?
  intro i
  rw [List.getElem?_map, List.getElem?_map]
  by_cases hi : i < l.length
  · rw [List.getElem?_range hi, List.getElem?_eq_getElem hi]
    simp only [Option.map_some]
    rw [h i l[i] (List.getElem?_eq_getElem hi)]
  · rw [List.getElem?_eq_none (by simpa using hi), List.getElem?_eq_none (by simpa using hi)]; rfl

/-- The value of key `natStr i`, for indices that exist. -/
def nthDict (l : List H5Dict) (i : Nat) : ArchDict := readH5Dict (l.getD i ⟨[], []⟩)

theorem getKey_numbered (l : List H5Dict) {i : Nat} (hi : i < l.length) :
    (getKey (numbered l) (natStr i)).map readH5Dict = .ok (nthDict l i) := by
  unfold getKey nthDict
  rw [numbered_get, List.getElem?_eq_getElem hi, List.getD_eq_getElem?_getD, List.getElem?_eq_getElem hi]
  rfl

theorem mapE_numbered (l : List H5Dict) (σ : List Nat) (h : ∀ i ∈ σ, i < l.length) :
    mapE (fun k => (getKey (numbered l) k).map readH5Dict) (σ.map natStr) = .ok (σ.map (nthDict l)) := by
  induction σ with
  | nil => rfl
  | cons i σ ih =>
    rw [List.map_cons, mapE, getKey_numbered l (h i List.mem_cons_self), ih fun j hj => h j (List.mem_cons_of_mem _ hj)]
    rfl

theorem mapE_numbered' (l : List H5Dict) (σ : List Nat) (h : ∀ i ∈ σ, i < l.length) :
    mapE (fun i => (getKey (numbered l) (natStr i)).map readH5Dict) σ = .ok (σ.map (nthDict l)) := by
  induction σ with
  | nil => rfl
  | cons i σ ih =>
    rw [mapE, getKey_numbered l (h i List.mem_cons_self), ih fun j hj => h j (List.mem_cons_of_mem _ hj)]
    rfl

theorem mapE_strNat (σ : List Nat) :
    mapE intKey (σ.map natStr) = .ok σ := by
  induction σ with
  | nil => rfl
  | cons i σ ih =>
    rw [List.map_cons, mapE, intKey, strNat_natStr]
    simp only
    rw [ih]

theorem map_nthDict_range (l : List ArchDict) :
    (List.range l.length).map (nthDict (l.map fun d => ⟨scalarsOf d, listsOf d⟩)) =
    l.map fun d => readH5Dict ⟨scalarsOf d, listsOf d⟩ := by
  apply map_getElem_range
  intro i x hx
  unfold nthDict
  rw [List.getD_eq_getElem?_getD, List.getElem?_map, hx]
  rfl

theorem insertionSort_range (n : Nat) : (List.range n).insertionSort (· ≤ ·) = List.range n := by
  apply List.Pairwise.insertionSort_eq
  have := List.pairwise_lt_range (n := n)
  exact this.imp fun h => le_of_lt h

/-- Reading a written architecture: the inputs are in the order of the decimal numbers as strings. -/
theorem fromState_getState {a : Architecture} (ha : a.Valid) (σ : List Nat)
    (hs : sortedKeys (numbered (a.inputs.map fun d => (⟨scalarsOf d, listsOf d⟩ : H5Dict))) = σ.map natStr)
    (hσ : σ.Perm (List.range a.inputs.length)) :
    Architecture.fromState (some (a.getState none)) =
    .ok ⟨σ.map (nthDict (a.inputs.map fun d => ⟨scalarsOf d, listsOf d⟩)),
      a.layers.map fun d => readH5Dict ⟨scalarsOf d, listsOf d⟩, a.outputLayer⟩ := by
  have hi : writeH5List none a.inputs = numbered (a.inputs.map fun d => ⟨scalarsOf d, listsOf d⟩) :=
    writeH5List_new fun d hd => ha.keys d (List.mem_append_left _ hd)
  have hl : writeH5List none a.layers = numbered (a.layers.map fun d => ⟨scalarsOf d, listsOf d⟩) :=
    writeH5List_new fun d hd => ha.keys d (List.mem_append_right _ hd)
  unfold Architecture.fromState Architecture.getState
  simp only [Option.getD_none]
  rw [hi, hl, hs, mapE_numbered _ _ (fun i hi => by
    have := hσ.subset hi
    rw [List.length_map]
    exact List.mem_range.mp this)]
  simp only
  rw [numbered_keys, mapE_strNat]
  simp only
  rw [insertionSort_range, mapE_numbered' _ _ (fun i hi => List.mem_range.mp hi)]
  simp only
  rw [List.length_map, map_nthDict_range]
  unfold mkArchitecture
  rw [if_neg]
  · have : ∃ x, (a.layers.map fun d => readH5Dict ⟨scalarsOf d, listsOf d⟩).getLast? = some x := by
      cases h : (a.layers.map fun d => readH5Dict ⟨scalarsOf d, listsOf d⟩).getLast? with
      | some x => exact ⟨x, rfl⟩
      | none =>
        rw [List.getLast?_eq_none_iff, List.map_eq_nil_iff] at h
        exact absurd h ha.layers
    obtain ⟨x, hx⟩ := this
    rw [hx]
  · intro h
    have := hσ.length_eq
    rw [List.map_eq_nil_iff] at h
    rw [h, List.length_nil, List.length_range] at this
    exact ha.inputs (List.length_eq_zero_iff.mp this.symm)

/-! ## Checking -/

theorem checkH5Values_iff (ws : List ArchVal) (vs : List ArchVal) (k : Nat) :
    checkH5Values (numbered ws) (vs.zipIdx k) = .ok () ↔ ∀ i x, vs[i]? = some x → ws[k + i]? = some x := by
  induction vs generalizing k with
  | nil => simp [checkH5Values]
  | cons v vs ih =>
    rw [List.zipIdx_cons, checkH5Values]
    unfold getKey
    rw [numbered_get]
    cases hw : ws[k]? with
    | none =>
      simp only [reduceCtorEq, false_iff]
      intro h
      have := h 0 v rfl
      rw [Nat.add_zero, hw] at this
      cases this
    | some w =>
      simp only
      by_cases hv : v = w
      · rw [if_neg (by simpa using hv), ih]
        subst hv
        constructor
        · intro h i x hx
          cases i with
          | zero => simp only [List.getElem?_cons_zero, Option.some.injEq] at hx; subst hx; simpa using hw
          | succ i => rw [show k + (i + 1) = k + 1 + i from by omega]; exact h i x (by simpa using hx)
        · intro h i x hx
          have := h (i + 1) x (by simpa using hx)
          rwa [show k + (i + 1) = k + 1 + i from by omega] at this
      · rw [if_pos hv]
        simp only [reduceCtorEq, false_iff]
        intro h
        have := h 0 v rfl
        rw [Nat.add_zero, hw] at this
        exact hv (Option.some.inj this).symm

theorem prefix_iff_getElem? {α : Type} (vs ws : List α) : vs <+: ws ↔ ∀ (i : Nat) (x : α), vs[i]? = some x → ws[i]? = some x := by
  constructor
  · rintro ⟨t, rfl⟩ i x h
    rw [List.getElem?_append_left (List.getElem?_eq_some_iff.mp h).1]
    exact h
  · intro h
    induction vs generalizing ws with
    | nil => exact List.nil_prefix
    | cons v vs ih =>
      cases ws with
      | nil => exact absurd (h 0 v rfl) (by simp)
      | cons w ws =>
        have h0 := h 0 v rfl
        simp only [List.getElem?_cons_zero, Option.some.injEq] at h0
        subst h0
        exact (List.prefix_cons_inj w).mpr (ih ws fun i x hx => by simpa using h (i + 1) x (by simpa using hx))

theorem checkH5Entry_iff {e : ArchDict} (he : (e.map Prod.fst).Nodup) (k : Str) (v : ArchEntry) :
    checkH5Entry ⟨scalarsOf e, listsOf e⟩ (k, v) = .ok () ↔
      match v with
      | .one v => (k, ArchEntry.one v) ∈ e
      | .many vs => (∃ ws, (k, ArchEntry.many ws) ∈ e ∧ vs <+: ws) ∨
          (k = "devices".toList ∧ vs = [] ∧ ∀ ws, (k, ArchEntry.many ws) ∉ e) := by
  have hsn := he.sublist (scalarsOf_keys e)
  have hln := he.sublist (listsOf_keys e)
  cases v with
  | one v =>
    simp only [checkH5Entry, getKey]
    cases hg : dictGet? (scalarsOf e) k with
    | none =>
      simp only [reduceCtorEq, false_iff]
      intro h
      rw [dictGet?_of_mem hsn (mem_scalarsOf.mpr h)] at hg
      cases hg
    | some w =>
      simp only
      have hw := mem_scalarsOf.mp (dictGet?_mem hg)
      by_cases hv : v = w
      · subst hv; simp [hw]
      · rw [if_pos hv]
        simp only [reduceCtorEq, false_iff]
        intro h
        have h1 := dictGet?_of_mem hsn (mem_scalarsOf.mpr h)
        rw [hg] at h1
        exact hv (Option.some.inj h1).symm
  | many vs =>
    simp only [checkH5Entry]
    cases hg : dictGet? (listsOf e) k with
    | none =>
      have hno : ∀ ws, (k, ArchEntry.many ws) ∉ e := by
        intro ws h
        rw [dictGet?_of_mem hln (mem_listsOf.mpr ⟨ws, rfl, h⟩)] at hg
        cases hg
      by_cases hd : k = "devices".toList
      · by_cases hv : vs = []
        · rw [if_pos ⟨hd, rfl, hv⟩]
          exact iff_of_true rfl (.inr ⟨hd, hv, hno⟩)
        · rw [if_neg (fun h => hv h.2.2), if_pos ⟨hd, rfl⟩]
          simp only [reduceCtorEq, false_iff]
          rintro (⟨ws, h, _⟩ | ⟨_, h, _⟩)
          · exact hno ws h
          · exact hv h
      · rw [if_neg (fun h => hd h.1), if_neg (fun h => hd h.1), getKey, hg]
        simp only [reduceCtorEq, false_iff]
        rintro (⟨ws, h, _⟩ | ⟨h, _, _⟩)
        · exact hno ws h
        · exact hd h
    | some a =>
      obtain ⟨ws, rfl, hws⟩ := mem_listsOf.mp (dictGet?_mem hg)
      rw [if_neg (by simp), if_neg (by simp), getKey, hg]
      simp only
      rw [checkH5Values_iff]
      simp only [Nat.zero_add]
      rw [← prefix_iff_getElem?]
      constructor
      · intro h; exact .inl ⟨ws, hws, h⟩
      · rintro (⟨ws', h', hp⟩ | ⟨_, _, h⟩)
        · have h1 := dictGet?_of_mem he h'
          rw [dictGet?_of_mem he hws] at h1
          simp only [Option.some.injEq, ArchEntry.many.injEq] at h1
          rw [h1]; exact hp
        · exact absurd hws (h ws)

theorem checkH5Dict_iff {e : ArchDict} (he : (e.map Prod.fst).Nodup) (d : ArchDict) :
    checkH5Dict ⟨scalarsOf e, listsOf e⟩ d = .ok () ↔ SubDict d e := by
  have h1 : checkH5Dict ⟨scalarsOf e, listsOf e⟩ d = .ok () ↔
      ∀ x ∈ d, checkH5Entry ⟨scalarsOf e, listsOf e⟩ x = .ok () := by
    induction d with
    | nil => simp [checkH5Dict]
    | cons x d ih =>
      rw [checkH5Dict, List.forall_mem_cons, ← ih]
      cases hx : checkH5Entry ⟨scalarsOf e, listsOf e⟩ x with
      | error err => simp
      | ok u => simp
  rw [h1]
  constructor
  · intro h k
    refine ⟨fun v hv => ?_, fun vs hv => ?_⟩
    · exact (checkH5Entry_iff he k (.one v)).mp (h _ hv)
    · exact (checkH5Entry_iff he k (.many vs)).mp (h _ hv)
  · rintro h ⟨k, v⟩ hx
    rw [checkH5Entry_iff he]
    cases v with
    | one v => exact (h k).1 v hx
    | many vs => exact (h k).2 vs hx

theorem checkH5List_iff {l : List ArchDict} (hl : ∀ d ∈ l, (d.map Prod.fst).Nodup) (ds : List ArchDict) (k : Nat) :
    checkH5List (numbered (l.map fun d => (⟨scalarsOf d, listsOf d⟩ : H5Dict))) (ds.zipIdx k) = .ok () ↔
      ∃ p, p <+: l.drop k ∧ List.Forall₂ SubDict ds p := by
  induction ds generalizing k with
  | nil =>
    simp only [List.zipIdx_nil, checkH5List, true_iff]
    exact ⟨[], List.nil_prefix, .nil⟩
  | cons d ds ih =>
    rw [List.zipIdx_cons, checkH5List]
    unfold getKey
    rw [numbered_get, List.getElem?_map]
    cases hk : l[k]? with
    | none =>
      simp only [Option.map_none, reduceCtorEq, false_iff]
      rintro ⟨p, hp, hf⟩
      have : l.drop k = [] := List.drop_eq_nil_iff.mpr (List.getElem?_eq_none_iff.mp hk)
      rw [this, List.prefix_nil] at hp
      subst hp
      cases hf
    | some e =>
      obtain ⟨hlt, he⟩ := List.getElem?_eq_some_iff.mp hk
      have hdrop : l.drop k = e :: l.drop (k + 1) := by rw [← he]; exact List.drop_eq_getElem_cons hlt
      have hn := hl e (by rw [← he]; exact List.getElem_mem hlt)
      simp only [Option.map_some]
      cases hc : checkH5Dict ⟨scalarsOf e, listsOf e⟩ d with
      | error err =>
        simp only [reduceCtorEq, false_iff]
        rintro ⟨p, hp, hf⟩
        cases hf with
        | cons h1 h2 =>
          rename_i q qs
          rw [hdrop, List.cons_prefix_cons] at hp
          rw [hp.1] at h1
          rw [(checkH5Dict_iff hn d).mpr h1] at hc
          cases hc
      | ok u =>
        simp only
        rw [ih (k + 1), hdrop]
        have hsub := (checkH5Dict_iff hn d).mp hc
        constructor
        · rintro ⟨p, hp, hf⟩
          exact ⟨e :: p, (List.prefix_cons_inj e).mpr hp, .cons hsub hf⟩
        · rintro ⟨p, hp, hf⟩
          cases hf with
          | cons h1 h2 =>
            rename_i q qs
            rw [List.cons_prefix_cons] at hp
            exact ⟨qs, hp.2, h2⟩

/-! ## Writing again -/

theorem dictSet_same {κ β : Type} [DecidableEq κ] {d : List (κ × β)} {k : κ} {x : β} (hn : (d.map Prod.fst).Nodup)
    (h : (k, x) ∈ d) : dictSet d k x = d := by
  unfold dictSet
  rw [if_pos (List.any_eq_true.mpr ⟨(k, x), h, by simp⟩)]
  conv => rhs; rw [← List.map_id d]
  apply List.map_congr_left
  rintro ⟨k', x'⟩ hp
  simp only [id]
  split
  · rename_i he
    subst he
    have h1 := dictGet?_of_mem hn h
    rw [dictGet?_of_mem hn hp] at h1
    injection h1 with h1
    rw [h1]
  · rfl

theorem foldl_fixed {α β : Type} (f : β → α → β) (l : List α) (b : β) (h : ∀ x ∈ l, f b x = b) : l.foldl f b = b := by
  induction l with
  | nil => rfl
  | cons a l ih => rw [List.foldl_cons, h a List.mem_cons_self, ih fun x hx => h x (List.mem_cons_of_mem _ hx)]

theorem mem_numbered {β : Type} (l : List β) (x : β × Nat) (h : x ∈ l.zipIdx) : (natStr x.2, x.1) ∈ numbered l := by
  unfold numbered
  exact List.mem_map.mpr ⟨x, h, rfl⟩

theorem writeH5Dict_again {d : ArchDict} (h : (d.map Prod.fst).Nodup) :
    writeH5Dict ⟨scalarsOf d, listsOf d⟩ d = ⟨scalarsOf d, listsOf d⟩ := by
  apply foldl_fixed
  rintro ⟨k, v⟩ hv
  have hsn := h.sublist (scalarsOf_keys d)
  have hln := h.sublist (listsOf_keys d)
  unfold writeH5Entry
  cases v with
  | one v =>
    simp only
    rw [dictSet_same hsn (mem_scalarsOf.mpr hv)]
  | many vs =>
    have hm := mem_listsOf.mpr ⟨vs, rfl, hv⟩
    simp only
    rw [dictGet?_of_mem hln hm, Option.getD_some, foldl_fixed, dictSet_same hln hm]
    intro x hx
    exact dictSet_same (numbered_nodup vs) (mem_numbered vs x hx)

theorem writeH5List_again {l : List ArchDict} (h : ∀ d ∈ l, (d.map Prod.fst).Nodup) :
    writeH5List (some (numbered (l.map fun d => ⟨scalarsOf d, listsOf d⟩))) l =
    numbered (l.map fun d => ⟨scalarsOf d, listsOf d⟩) := by
  unfold writeH5List
  rw [Option.getD_some]
  apply foldl_fixed
  rintro ⟨d, i⟩ hx
  have hd : l[i]? = some d := by simpa using List.mem_zipIdx_iff_getElem?.mp hx
  simp only
  rw [numbered_get, List.getElem?_map, hd, Option.map_some, Option.getD_some,
    writeH5Dict_again (h d (List.mem_of_getElem? hd))]
  apply dictSet_same (numbered_nodup _)
  apply dictGet?_mem
  rw [numbered_get, List.getElem?_map, hd]
  rfl

end TheanoLM
