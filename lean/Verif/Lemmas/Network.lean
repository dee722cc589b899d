import Verif.Model.Network
import Verif.Lemmas.Vocabulary
/-!
# Lemmas about the evaluation of networks: time steps
-/
namespace TheanoLM
set_option linter.unusedSectionVars false

theorem mapE_cons_ok {α β : Type} {f : α → Except Err β} {a : α} {l : List α} {r : List β} (h : mapE f (a :: l) = .ok r) :
    ∃ b bs, f a = .ok b ∧ mapE f l = .ok bs ∧ r = b :: bs := by
  rw [mapE] at h
  cases ha : f a with
  | error e => rw [ha] at h; cases h
  | ok b =>
    rw [ha] at h
    simp only at h
    cases hl : mapE f l with
    | error e => rw [hl] at h; cases h
    | ok bs =>
      rw [hl] at h
      injection h with h
      exact ⟨b, bs, rfl, rfl, h.symm⟩

theorem mapE_cons_eq {α β : Type} {f : α → Except Err β} {a : α} {l : List α} {b : β} {bs : List β} (ha : f a = .ok b)
    (hl : mapE f l = .ok bs) : mapE f (a :: l) = .ok (b :: bs) := by
  rw [mapE, ha]
  simp only
  rw [hl]

theorem mapE_take {α β : Type} {f : α → Except Err β} {l : List α} {r : List β} (h : mapE f l = .ok r) (n : Nat) :
    mapE f (l.take n) = .ok (r.take n) := by
  induction l generalizing r n with
  | nil => injection h with h; subst h; simp [mapE]
  | cons a l ih =>
    obtain ⟨b, bs, ha, hl, rfl⟩ := mapE_cons_ok h
    cases n with
    | zero => rfl
    | succ n => exact mapE_cons_eq ha (ih hl n)

theorem mapE_drop {α β : Type} {f : α → Except Err β} {l : List α} {r : List β} (h : mapE f l = .ok r) (n : Nat) :
    mapE f (l.drop n) = .ok (r.drop n) := by
  induction l generalizing r n with
  | nil => injection h with h; subst h; simp [mapE]
  | cons a l ih =>
    obtain ⟨b, bs, ha, hl, rfl⟩ := mapE_cons_ok h
    cases n with
    | zero => exact mapE_cons_eq ha hl
    | succ n => exact ih hl n

theorem mapE_length {α β : Type} {f : α → Except Err β} {l : List α} {r : List β} (h : mapE f l = .ok r) :
    r.length = l.length := by
  induction l generalizing r with
  | nil => injection h with h; subst h; rfl
  | cons a l ih =>
    obtain ⟨b, bs, ha, hl, rfl⟩ := mapE_cons_ok h
    simp [ih hl]

theorem mapE_getElem? {α β : Type} {f : α → Except Err β} {l : List α} {r : List β} (h : mapE f l = .ok r) (i : Nat) :
    r[i]? = (l[i]?).bind fun x => (f x).toOption := by
  induction l generalizing r i with
  | nil => injection h with h; subst h; simp
  | cons a l ih =>
    obtain ⟨b, bs, ha, hl, rfl⟩ := mapE_cons_ok h
    cases i with
    | zero => simp [ha, Except.toOption]
    | succ i => simpa using ih hl i

theorem mapE_congr {α β : Type} {f g : α → Except Err β} {l : List α} (h : ∀ a ∈ l, f a = g a) : mapE f l = mapE g l := by
  induction l with
  | nil => rfl
  | cons a l ih =>
    rw [mapE, mapE, h a List.mem_cons_self, ih fun x hx => h x (List.mem_cons_of_mem _ hx)]

theorem mapE_map_of {α β γ : Type} {f : β → Except Err γ} {g : α → β} {l : List α} :
    mapE f (l.map g) = mapE (fun x => f (g x)) l := by
  induction l with
  | nil => rfl
  | cons a l ih => rw [List.map_cons, mapE, mapE, ih]

variable {S : Type} [Add S] [Mul S] [Sub S] [Div S] [Zero S] [One S]

theorem pointRow_cons_ok {f : Nat → Pos S → Except Err (Elem S)} {seq : Nat} {p : Pos S} {l : List (Pos S)} {r : List (Elem S)}
    (h : pointRow f seq (p :: l) = .ok r) : ∃ b bs, f seq p = .ok b ∧ pointRow f (seq + 1) l = .ok bs ∧ r = b :: bs := by
  rw [pointRow] at h
  cases ha : f seq p with
  | error e => rw [ha] at h; cases h
  | ok b =>
    rw [ha] at h
    simp only at h
    cases hl : pointRow f (seq + 1) l with
    | error e => rw [hl] at h; cases h
    | ok bs =>
      rw [hl] at h
      injection h with h
      exact ⟨b, bs, rfl, rfl, h.symm⟩

theorem pointRows_cons_ok {f : Nat → Nat → Pos S → Except Err (Elem S)} {time : Nat} {p : List (Pos S)} {l : List (List (Pos S))}
    {r : List (List (Elem S))} (h : pointRows f time (p :: l) = .ok r) :
    ∃ b bs, pointRow (f time) 0 p = .ok b ∧ pointRows f (time + 1) l = .ok bs ∧ r = b :: bs := by
  rw [pointRows] at h
  cases ha : pointRow (f time) 0 p with
  | error e => rw [ha] at h; cases h
  | ok b =>
    rw [ha] at h
    simp only at h
    cases hl : pointRows f (time + 1) l with
    | error e => rw [hl] at h; cases h
    | ok bs =>
      rw [hl] at h
      injection h with h
      exact ⟨b, bs, rfl, rfl, h.symm⟩

theorem pointRows_cons_eq {f : Nat → Nat → Pos S → Except Err (Elem S)} {time : Nat} {p : List (Pos S)} {l : List (List (Pos S))}
    {b : List (Elem S)} {bs : List (List (Elem S))} (h1 : pointRow (f time) 0 p = .ok b) (h2 : pointRows f (time + 1) l = .ok bs) :
    pointRows f time (p :: l) = .ok (b :: bs) := by
  rw [pointRows, h1]
  simp only
  rw [h2]

theorem pointRows_take {f : Nat → Nat → Pos S → Except Err (Elem S)} {time : Nat} {g : List (List (Pos S))}
    {r : List (List (Elem S))} (h : pointRows f time g = .ok r) (n : Nat) : pointRows f time (g.take n) = .ok (r.take n) := by
  induction g generalizing r n time with
  | nil => injection h with h; subst h; simp [pointRows]
  | cons p l ih =>
    obtain ⟨b, bs, ha, hl, rfl⟩ := pointRows_cons_ok h
    cases n with
    | zero => rfl
    | succ n => exact pointRows_cons_eq ha (ih hl n)

theorem pointRows_getElem? {f : Nat → Nat → Pos S → Except Err (Elem S)} {time : Nat} {g : List (List (Pos S))}
    {r : List (List (Elem S))} (h : pointRows f time g = .ok r) (i : Nat) :
    r[i]? = (g[i]?).bind fun row => (pointRow (f (time + i)) 0 row).toOption := by
  induction g generalizing r i time with
  | nil => injection h with h; subst h; simp
  | cons p l ih =>
    obtain ⟨b, bs, ha, hl, rfl⟩ := pointRows_cons_ok h
    cases i with
    | zero => simp [ha, Except.toOption]
    | succ i =>
      have := ih hl i
      rw [show time + 1 + i = time + (i + 1) by omega] at this
      simpa using this

theorem pointRow_length {f : Nat → Pos S → Except Err (Elem S)} {seq : Nat} {l : List (Pos S)} {r : List (Elem S)}
    (h : pointRow f seq l = .ok r) : r.length = l.length := by
  induction l generalizing r seq with
  | nil => injection h with h; subst h; rfl
  | cons p l ih =>
    obtain ⟨b, bs, ha, hl, rfl⟩ := pointRow_cons_ok h
    simp [ih hl]

theorem scan_length {α β : Type} (step : α → β → β) (st : β) (xs : List α) : (scan step st xs).length = xs.length := by
  induction xs generalizing st with
  | nil => rfl
  | cons x xs ih => simp [scan, ih]

theorem scan_take {α β : Type} (step : α → β → β) (st : β) (xs : List α) (n : Nat) :
    (scan step st xs).take n = scan step st (xs.take n) := by
  induction xs generalizing st n with
  | nil => simp [scan]
  | cons x xs ih =>
    cases n with
    | zero => rfl
    | succ n => simp [scan, ih]

theorem numSequences_take {α : Type} (g : List (List α)) (n : Nat) (hn : n ≠ 0) : numSequences (g.take n) = numSequences g := by
  cases g with
  | nil => simp [numSequences]
  | cons r g =>
    cases n with
    | zero => exact absurd rfl hn
    | succ n => rfl

/-- A recurrent layer from left to right. -/
theorem recurrentLayer_take {act : Act S} {kind : CellKind} {b : Basic S} {g : List (List (Pos S))}
    {r : List (List (SeqState S))} (h : recurrentLayer act kind b false g = .ok r) (n : Nat) :
    recurrentLayer act kind b false (g.take n) = .ok (r.take n) := by
  unfold recurrentLayer at h ⊢
  cases hm : mapE (preactRow b) g with
  | error e => rw [hm] at h; cases h
  | ok rows =>
    rw [hm] at h
    rw [mapE_take hm n]
    simp only at h ⊢
    cases hp : getParam "step_input/W".toList none b.weights with
    | error e => rw [hp] at h; cases h
    | ok hw =>
      rw [hp] at h
      simp only at h ⊢
      rw [if_neg (by simp)] at h ⊢
      injection h with h
      rw [← h, scan_take]
      by_cases hn : n = 0
      · subst hn; simp [scan]
      · rw [numSequences_take g n hn]

theorem windows_take {α : Type} (k : Nat) (hk : k ≠ 0) (pad xs : List α) (hp : pad.length = k - 1) (n : Nat) :
    (windows k (pad ++ xs)).take n = windows k (pad ++ xs.take n) := by
  unfold windows
  rw [← List.map_take, List.take_range]
  have e1 : min n ((pad ++ xs).length + 1 - k) = (pad ++ xs.take n).length + 1 - k := by
    simp only [List.length_append, hp, List.length_take]
    omega
  rw [e1]
  apply List.map_congr_left
  intro t ht
  have ht' : t < n := by
    have := List.mem_range.mp ht
    simp only [List.length_append, hp, List.length_take] at this
    omega
  apply List.ext_getElem?
  intro j
  simp only [List.getElem?_take, List.getElem?_drop]
  split
  · rw [List.getElem?_append, List.getElem?_append]
    split
    · rfl
    · rw [List.getElem?_take, if_pos (by omega)]
  · rfl

theorem gluLayer_take {act : Act S} {b : Basic S} {k i : Nat} {filters : ParamDict (List (List S))} {g : List (List (Pos S))}
    {r : List (List (Elem S))} (h : gluLayer act b k i filters g = .ok r) (n : Nat) :
    gluLayer act b k i filters (g.take n) = .ok (r.take n) := by
  unfold gluLayer at h ⊢
  by_cases hk : k = 0
  · rw [if_pos hk] at h; cases h
  · rw [if_neg hk] at h ⊢
    cases hm : mapE gluInputRow g with
    | error e => rw [hm] at h; cases h
    | ok xs =>
      rw [hm] at h
      rw [mapE_take hm n]
      simp only at h ⊢
      have ht := mapE_take h n
      rw [windows_take k hk _ xs (by simp) n] at ht
      by_cases hn : n = 0
      · subst hn
        have hw : ∀ m, windows k (List.replicate (k - 1) (List.replicate m (List.replicate i (0 : S))) ++ List.take 0 xs) = [] := by
          intro m
          unfold windows
          simp
          omega
        rw [hw]
        simp [mapE]
      · rw [numSequences_take g n hn]
        exact ht

/-- A layer that is not bidirectional: the outputs of the first time steps are those of the mini-batch of the first time steps. -/
theorem evalLayer_take {act : Act S} {opts : EvalOptions} {layer : Layer S} {k : Nat} {g : List (List (Pos S))}
    {r : List (List (Elem S))} (hl : ∀ kind f b, layer ≠ .bidirectional kind f b) (h : evalLayer act opts layer k g = .ok r)
    (n : Nat) : evalLayer act opts layer k (g.take n) = .ok (r.take n) := by
  cases layer with
  | recurrent kind b =>
    unfold evalLayer at h ⊢
    simp only at h ⊢
    cases hr : recurrentLayer act kind b false g with
    | error e => rw [hr] at h; cases h
    | ok sts =>
      rw [hr] at h
      rw [recurrentLayer_take hr n]
      injection h with h
      rw [← h, ← List.map_take]
  | bidirectional kind f b => exact absurd rfl (hl kind f b)
  | glu b fs is filters => exact gluLayer_take h n
  | _ => exact pointRows_take h n

theorem gather_take (inputs : List Nat) (table : List (List (Entry S))) (n : Nat) :
    gather inputs (table.take n) = (gather inputs table).take n := List.map_take

theorem evalLayers_take {act : Act S} {opts : EvalOptions} {k : Nat} {layers : List (Layer S)} {table r : List (List (Entry S))}
    (hl : ∀ layer ∈ layers, ∀ kind f b, layer ≠ .bidirectional kind f b) (h : evalLayers act opts k layers table = .ok r)
    (n : Nat) : evalLayers act opts k layers (table.take n) = .ok (r.take n) := by
  induction layers generalizing table k with
  | nil => rw [evalLayers] at h ⊢; injection h with h; rw [h]
  | cons layer layers ih =>
    rw [evalLayers] at h ⊢
    cases he : evalLayer act opts layer k (gather layer.inputs table) with
    | error e => rw [he] at h; cases h
    | ok outs =>
      rw [he] at h
      simp only at h
      rw [gather_take, evalLayer_take (hl layer List.mem_cons_self) he n]
      simp only
      rw [← List.take_zipWith]
      exact ih (fun l hm => hl l (List.mem_cons_of_mem _ hm)) h

end TheanoLM
