import Verif.Lemmas.Network
/-!
# Lemmas about the evaluation of networks: sequences of a mini-batch
-/
namespace TheanoLM
set_option linter.unusedSectionVars false

/-- The sequences number `a`, …, `a + b - 1` of one time step. -/
def sel {α : Type} (a b : Nat) (row : List α) : List α := (row.drop a).take b

theorem sel_map {α β : Type} (a b : Nat) (f : α → β) (row : List α) : sel a b (row.map f) = (sel a b row).map f := by
  simp [sel, List.map_drop, List.map_take]

theorem sel_zipWith {α β γ : Type} (a b : Nat) (f : α → β → γ) (x : List α) (y : List β) :
    sel a b (List.zipWith f x y) = List.zipWith f (sel a b x) (sel a b y) := by
  simp [sel, List.drop_zipWith, List.take_zipWith]

theorem sel_replicate {α : Type} (a b n : Nat) (x : α) : sel a b (List.replicate n x) = List.replicate (min b (n - a)) x := by
  simp [sel]

theorem sel_length {α : Type} (a b : Nat) (x : List α) : (sel a b x).length = min b (x.length - a) := by
  simp [sel]

theorem sel_mapE {α β : Type} {f : α → Except Err β} {l : List α} {r : List β} (a b : Nat) (h : mapE f l = .ok r) :
    mapE f (sel a b l) = .ok (sel a b r) := mapE_take (mapE_drop h a) b

theorem sel_getElem? {α : Type} (a b : Nat) (x : List α) {i : Nat} (hi : i < b) : (sel a b x)[i]? = x[a + i]? := by
  simp [sel, List.getElem?_drop, hi]

theorem mapE_map_sel {α β : Type} {f : List α → Except Err (List β)} {l : List (List α)} {r : List (List β)} (a b : Nat)
    (hf : ∀ x y, f x = .ok y → f (sel a b x) = .ok (sel a b y)) (h : mapE f l = .ok r) :
    mapE f (l.map (sel a b)) = .ok (r.map (sel a b)) := by
  induction l generalizing r with
  | nil => injection h with h; subst h; rfl
  | cons x l ih =>
    obtain ⟨y, ys, h1, h2, rfl⟩ := mapE_cons_ok h
    exact mapE_cons_eq (hf x y h1) (ih h2)

theorem numSequences_sel {α : Type} (a b : Nat) (g : List (List α)) :
    numSequences (g.map (sel a b)) = min b (numSequences g - a) := by
  cases g with
  | nil => simp [numSequences]
  | cons r g => simp [numSequences, sel_length]

theorem scan_sel {α β : Type} (step : List α → List β → List β) (a b : Nat)
    (hs : ∀ x st, sel a b (step x st) = step (sel a b x) (sel a b st)) (st : List β) (xs : List (List α)) :
    (scan step st xs).map (sel a b) = scan step (sel a b st) (xs.map (sel a b)) := by
  induction xs generalizing st with
  | nil => rfl
  | cons x xs ih =>
    show sel a b (step x st) :: (scan step (step x st) xs).map (sel a b) = _
    rw [ih, hs]
    rfl

variable {S : Type} [Add S] [Mul S] [Sub S] [Div S] [Zero S] [One S]

theorem rowStep_sel (act : Act S) (kind : CellKind) (bl : Basic S) (hw : List (List S)) (a b : Nat)
    (row : List (Bool × List S)) (sts : List (SeqState S)) :
    sel a b (rowStep act kind bl hw row sts) = rowStep act kind bl hw (sel a b row) (sel a b sts) := sel_zipWith _ _ _ _ _

theorem preactRow_sel {bl : Basic S} (a b : Nat) {row : List (Pos S)} {r : List (Bool × List S)} (h : preactRow bl row = .ok r) :
    preactRow bl (sel a b row) = .ok (sel a b r) := sel_mapE a b h

theorem shiftLeft_sel (a b : Nat) (xs : List (List (List S))) :
    (shiftLeft xs).map (sel a b) = shiftLeft (xs.map (sel a b)) := by
  unfold shiftLeft
  rw [List.map_append, List.map_replicate, List.map_drop, sel_map]
  congr 2
  cases xs with
  | nil => simp [sel]
  | cons x xs => rfl

theorem backwardRows_sel (a b : Nat) (rows : List (List (Bool × List S))) :
    (backwardRows rows).map (sel a b) = backwardRows (rows.map (sel a b)) := by
  unfold backwardRows
  simp only
  rw [List.map_zipWith]
  have e1 : (rows.map (sel a b)).map (fun row => row.map Prod.fst) = (rows.map fun row => row.map Prod.fst).map (sel a b) := by
    rw [List.map_map, List.map_map]
    apply List.map_congr_left
    intro r _
    simp [sel_map]
  have e2 : (rows.map (sel a b)).map (fun row => row.map Prod.snd) = (rows.map fun row => row.map Prod.snd).map (sel a b) := by
    rw [List.map_map, List.map_map]
    apply List.map_congr_left
    intro r _
    simp [sel_map]
  rw [e1, e2, ← shiftLeft_sel]
  generalize (rows.map fun row => row.map Prod.fst) = ms
  generalize (shiftLeft (rows.map fun row => row.map Prod.snd)) = ps
  rw [← List.map_reverse, ← List.map_reverse, List.zipWith_map]
  congr 1
  funext m x
  exact sel_zipWith a b Prod.mk m x

theorem recurrentLayer_sel {act : Act S} {kind : CellKind} {bl : Basic S} {rev : Bool} {g : List (List (Pos S))}
    {r : List (List (SeqState S))} (a b : Nat) (h : recurrentLayer act kind bl rev g = .ok r) :
    recurrentLayer act kind bl rev (g.map (sel a b)) = .ok (r.map (sel a b)) := by
  unfold recurrentLayer at h ⊢
  cases hm : mapE (preactRow bl) g with
  | error e => rw [hm] at h; cases h
  | ok rows =>
    rw [hm] at h
    rw [mapE_map_sel (f := preactRow bl) a b (fun x y => preactRow_sel a b) hm]
    simp only at h ⊢
    cases hp : getParam "step_input/W".toList none bl.weights with
    | error e => rw [hp] at h; cases h
    | ok hw =>
      rw [hp] at h
      simp only at h ⊢
      rw [numSequences_sel, ← sel_replicate]
      cases rev with
      | true =>
        rw [if_pos rfl] at h ⊢
        injection h with h
        rw [← h, List.map_reverse, scan_sel _ a b (rowStep_sel act kind bl hw a b), backwardRows_sel]
      | false =>
        rw [if_neg (by simp)] at h ⊢
        injection h with h
        rw [← h, scan_sel _ a b (rowStep_sel act kind bl hw a b)]

theorem windows_map {α β : Type} (k : Nat) (f : α → β) (xs : List α) : windows k (xs.map f) = (windows k xs).map (List.map f) := by
  unfold windows
  rw [List.length_map, List.map_map]
  apply List.map_congr_left
  intro t _
  simp [List.map_drop, List.map_take]

theorem column_sel {α : Type} (a b : Nat) {seq : Nat} (h : seq < b) (xs : List (List α)) :
    column seq (xs.map (sel a b)) = column (a + seq) xs := by
  unfold column
  rw [List.filterMap_map]
  congr 1
  funext row
  exact sel_getElem? a b row h

theorem sel_range (a b n : Nat) : sel a b (List.range n) = (List.range (min b (n - a))).map (a + ·) := by
  apply List.ext_getElem?
  intro i
  simp only [sel, List.getElem?_take, List.getElem?_drop, List.getElem?_map]
  by_cases h : i < b
  · rw [if_pos h]
    by_cases h2 : a + i < n
    · rw [List.getElem?_range h2, List.getElem?_range (by omega)]
      rfl
    · rw [List.getElem?_eq_none (by simpa using h2), List.getElem?_eq_none (by rw [List.length_range]; omega)]
      rfl
  · rw [if_neg h, List.getElem?_eq_none (by rw [List.length_range]; omega)]
    rfl

theorem gluLayer_sel {act : Act S} {bl : Basic S} {k i : Nat} {filters : ParamDict (List (List S))} {g : List (List (Pos S))}
    {r : List (List (Elem S))} (a b : Nat) (h : gluLayer act bl k i filters g = .ok r) :
    gluLayer act bl k i filters (g.map (sel a b)) = .ok (r.map (sel a b)) := by
  unfold gluLayer at h ⊢
  by_cases hk : k = 0
  · rw [if_pos hk] at h; cases h
  · rw [if_neg hk] at h ⊢
    cases hm : mapE gluInputRow g with
    | error e => rw [hm] at h; cases h
    | ok xs =>
      rw [hm] at h
      rw [mapE_map_sel (f := gluInputRow) a b (fun x y => sel_mapE a b) hm]
      simp only at h ⊢
      rw [numSequences_sel]
      have e : List.replicate (k - 1) (List.replicate (min b (numSequences g - a)) (List.replicate i (0 : S))) ++
          xs.map (sel a b) =
          (List.replicate (k - 1) (List.replicate (numSequences g) (List.replicate i (0 : S))) ++ xs).map (sel a b) := by
        rw [List.map_append, List.map_replicate, sel_replicate]
      rw [e, windows_map]
      generalize windows k (List.replicate (k - 1) (List.replicate (numSequences g) (List.replicate i (0 : S))) ++ xs) = ws at h ⊢
      rw [mapE_map_of]
      clear e hm
      induction ws generalizing r with
      | nil => injection h with h; subst h; rfl
      | cons w ws ih =>
        obtain ⟨y, ys, h1, h2, rfl⟩ := mapE_cons_ok h
        refine mapE_cons_eq ?_ (ih h2)
        have h3 := sel_mapE a b h1
        rw [sel_range, mapE_map_of] at h3
        rw [← h3]
        apply mapE_congr
        intro seq hs
        have := List.mem_range.mp hs
        rw [column_sel a b (by omega)]

theorem pointRow_sel {f : Nat → Pos S → Except Err (Elem S)} (hf : ∀ s s' p, f s p = f s' p) (a b : Nat) {seq : Nat}
    {row : List (Pos S)} {r : List (Elem S)} (h : pointRow f seq row = .ok r) (seq' : Nat) :
    pointRow f seq' (sel a b row) = .ok (sel a b r) := by
  have hm : ∀ (s : Nat) (l : List (Pos S)), pointRow f s l = mapE (f 0) l := by
    intro s l
    induction l generalizing s with
    | nil => rfl
    | cons p l ih =>
      rw [pointRow, mapE, ih, hf s 0]
      cases f 0 p with
      | error e => rfl
      | ok b =>
        cases mapE (f 0) l with
        | error e => rfl
        | ok bs => rfl
  rw [hm] at h ⊢
  exact sel_mapE a b h

theorem pointRows_sel {f : Nat → Nat → Pos S → Except Err (Elem S)} (hf : ∀ t s s' p, f t s p = f t s' p) (a b : Nat) {time : Nat}
    {g : List (List (Pos S))} {r : List (List (Elem S))} (h : pointRows f time g = .ok r) :
    pointRows f time (g.map (sel a b)) = .ok (r.map (sel a b)) := by
  induction g generalizing r time with
  | nil => injection h with h; subst h; rfl
  | cons p l ih =>
    obtain ⟨x, xs, h1, h2, rfl⟩ := pointRows_cons_ok h
    exact pointRows_cons_eq (pointRow_sel (hf time) a b h1 0) (ih h2)

/-- Without training the random numbers are not used. -/
theorem pointFun_indep {act : Act S} {opts : EvalOptions} (ht : opts.training = false) (layer : Layer S) (k t s t' s' : Nat)
    (p : Pos S) : pointFun act opts layer k t s p = pointFun act opts layer k t' s' p := by
  cases layer <;> try rfl
  case dropout b scale =>
    simp only [pointFun, pointElem, dropoutElem, ht]
    rfl

theorem evalLayer_sel {act : Act S} {opts : EvalOptions} (ht : opts.training = false) {layer : Layer S} {k : Nat}
    {g : List (List (Pos S))} {r : List (List (Elem S))} (a b : Nat) (h : evalLayer act opts layer k g = .ok r) :
    evalLayer act opts layer k (g.map (sel a b)) = .ok (r.map (sel a b)) := by
  cases layer with
  | recurrent kind bl =>
    unfold evalLayer at h ⊢
    simp only at h ⊢
    cases hr : recurrentLayer act kind bl false g with
    | error e => rw [hr] at h; cases h
    | ok sts =>
      rw [hr] at h
      rw [recurrentLayer_sel a b hr]
      injection h with h
      rw [← h]
      simp only [List.map_map]
      congr 2
      funext row
      simp [hiddenOutput, sel_map]
  | bidirectional kind f bl =>
    unfold evalLayer at h ⊢
    simp only at h ⊢
    cases hr : recurrentLayer act kind f false g with
    | error e => rw [hr] at h; cases h
    | ok fs =>
      rw [hr] at h
      rw [recurrentLayer_sel a b hr]
      simp only at h ⊢
      cases hr2 : recurrentLayer act kind bl true g with
      | error e => rw [hr2] at h; cases h
      | ok bs =>
        rw [hr2] at h
        rw [recurrentLayer_sel a b hr2]
        injection h with h
        rw [← h]
        simp only
        rw [List.map_zipWith, List.zipWith_map]
        congr 2
        funext x y
        exact (sel_zipWith a b _ x y).symm
  | glu bl fs is filters => exact gluLayer_sel a b h
  | _ => exact pointRows_sel (fun t s s' p => pointFun_indep ht _ _ t s t s' p) a b h

theorem gather_sel (inputs : List Nat) (table : List (List (Entry S))) (a b : Nat) :
    gather inputs (table.map (sel a b)) = (gather inputs table).map (sel a b) := by
  unfold gather
  rw [List.map_map, List.map_map]
  apply List.map_congr_left
  intro row _
  exact (sel_map a b _ row).symm

/-- Without training, the outputs for some of the sequences are those of the mini-batch of those sequences. -/
theorem evalLayers_sel {act : Act S} {opts : EvalOptions} (ht : opts.training = false) {k : Nat} {layers : List (Layer S)}
    {table r : List (List (Entry S))} (a b : Nat) (h : evalLayers act opts k layers table = .ok r) :
    evalLayers act opts k layers (table.map (sel a b)) = .ok (r.map (sel a b)) := by
  induction layers generalizing table k with
  | nil => rw [evalLayers] at h ⊢; injection h with h; rw [h]
  | cons layer layers ih =>
    rw [evalLayers] at h ⊢
    cases he : evalLayer act opts layer k (gather layer.inputs table) with
    | error e => rw [he] at h; cases h
    | ok outs =>
      rw [he] at h
      simp only at h
      rw [gather_sel, evalLayer_sel ht a b he]
      simp only
      have := ih h
      rw [List.map_zipWith] at this
      rw [List.zipWith_map, ← this]
      congr 2
      funext x y
      exact (sel_zipWith a b _ x y).symm

end TheanoLM
