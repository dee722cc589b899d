import Verif.Lemmas.Network
/-!
# Lemmas about the evaluation of networks: every position gets the output of every layer
-/
namespace TheanoLM
set_option linter.unusedSectionVars false

variable {S : Type} [Add S] [Mul S] [Sub S] [Div S] [Zero S] [One S]

theorem numSequences_rect {α : Type} {n : Nat} {g : List (List α)} (hn : ∀ row ∈ g, row.length = n) (hg : g ≠ []) :
    numSequences g = n := by
  cases g with
  | nil => exact absurd rfl hg
  | cons row g => exact hn row List.mem_cons_self

theorem mapE_mem {α β : Type} {f : α → Except Err β} {l : List α} {r : List β} (h : mapE f l = .ok r) {b : β} (hb : b ∈ r) :
    ∃ a ∈ l, f a = .ok b := by
  induction l generalizing r with
  | nil => injection h with h; subst h; cases hb
  | cons a l ih =>
    obtain ⟨b', bs, h1, h2, rfl⟩ := mapE_cons_ok h
    rcases List.mem_cons.mp hb with rfl | hb
    · exact ⟨a, List.mem_cons_self, h1⟩
    · obtain ⟨a', ha', h'⟩ := ih h2 hb
      exact ⟨a', List.mem_cons_of_mem _ ha', h'⟩

theorem scan_mem_length {α β : Type} (step : List α → List β → List β) (n : Nat)
    (hs : ∀ x st, x.length = n → st.length = n → (step x st).length = n) {st : List β} (hst : st.length = n) {xs : List (List α)}
    (hx : ∀ x ∈ xs, x.length = n) : ∀ r ∈ scan step st xs, r.length = n := by
  induction xs generalizing st with
  | nil => intro r hr; cases hr
  | cons x xs ih =>
    intro r hr
    rw [scan] at hr
    have h1 := hs x st (hx x List.mem_cons_self) hst
    rcases List.mem_cons.mp hr with rfl | hr
    · exact h1
    · exact ih h1 (fun y hy => hx y (List.mem_cons_of_mem _ hy)) r hr

theorem rowStep_length (act : Act S) (kind : CellKind) (b : Basic S) (hw : List (List S)) (n : Nat) (x : List (Bool × List S))
    (st : List (SeqState S)) (hx : x.length = n) (hs : st.length = n) : (rowStep act kind b hw x st).length = n := by
  unfold rowStep
  rw [List.length_zipWith, hx, hs, Nat.min_self]

theorem shiftLeft_length_ge (xs : List (List (List S))) : xs.length ≤ (shiftLeft xs).length := by
  unfold shiftLeft
  rw [List.length_append, List.length_drop, List.length_replicate]
  omega

theorem shiftLeft_mem {n : Nat} {xs : List (List (List S))} (hx : ∀ x ∈ xs, x.length = n) (hne : xs ≠ []) :
    ∀ x ∈ shiftLeft xs, x.length = n := by
  intro x hm
  unfold shiftLeft at hm
  rcases List.mem_append.mp hm with hm | hm
  · exact hx x (List.mem_of_mem_drop hm)
  · rw [List.eq_of_mem_replicate hm, List.length_map]
    cases xs with
    | nil => exact absurd rfl hne
    | cons y xs => exact hx y List.mem_cons_self

theorem backwardRows_length (rows : List (List (Bool × List S))) : (backwardRows rows).length = rows.length := by
  unfold backwardRows
  simp only [List.length_zipWith, List.length_reverse, List.length_map]
  have := shiftLeft_length_ge (rows.map fun row => row.map Prod.snd)
  rw [List.length_map] at this
  omega

theorem mem_zipWith {α β γ : Type} {f : α → β → γ} {x : List α} {y : List β} {c : γ} (h : c ∈ List.zipWith f x y) :
    ∃ a ∈ x, ∃ b ∈ y, c = f a b := by
  obtain ⟨i, hi, rfl⟩ := List.getElem_of_mem h
  rw [List.length_zipWith] at hi
  exact ⟨x[i]'(by omega), List.getElem_mem _, y[i]'(by omega), List.getElem_mem _, by rw [List.getElem_zipWith]⟩

theorem backwardRows_mem {n : Nat} {rows : List (List (Bool × List S))} (hr : ∀ row ∈ rows, row.length = n) :
    ∀ row ∈ backwardRows rows, row.length = n := by
  intro row hrow
  by_cases hne : rows = []
  · subst hne
    have := backwardRows_length ([] : List (List (Bool × List S)))
    rw [List.length_nil] at this
    rw [List.eq_nil_of_length_eq_zero this] at hrow
    cases hrow
  · unfold backwardRows at hrow
    obtain ⟨m, hm, x, hx, rfl⟩ := mem_zipWith hrow
    rw [List.mem_reverse] at hm hx
    obtain ⟨r, hr', rfl⟩ := List.mem_map.mp hm
    have hxl := shiftLeft_mem (n := n) (xs := rows.map fun row => row.map Prod.snd) (by
      intro y hy
      obtain ⟨r', hr'', rfl⟩ := List.mem_map.mp hy
      rw [List.length_map, hr r' hr'']) (by simpa using hne) x hx
    rw [List.length_zip, List.length_map, hr r hr', hxl, Nat.min_self]

theorem recurrentLayer_shape {act : Act S} {kind : CellKind} {b : Basic S} {rev : Bool} {n : Nat} {g : List (List (Pos S))}
    {sts : List (List (SeqState S))} (h : recurrentLayer act kind b rev g = .ok sts) (hn : ∀ row ∈ g, row.length = n) :
    sts.length = g.length ∧ ∀ row ∈ sts, row.length = n := by
  unfold recurrentLayer at h
  cases hm : mapE (preactRow b) g with
  | error e => rw [hm] at h; cases h
  | ok rows =>
    rw [hm] at h
    simp only at h
    cases hw : getParam "step_input/W".toList none b.weights with
    | error e => rw [hw] at h; cases h
    | ok hWeights =>
      rw [hw] at h
      simp only at h
      have hl : rows.length = g.length := mapE_length hm
      have hrows : ∀ row ∈ rows, row.length = n := by
        intro row hrow
        obtain ⟨p, hp, hpr⟩ := mapE_mem hm hrow
        rw [mapE_length hpr, hn p hp]
      have key : ∀ xs : List (List (Bool × List S)), xs.length = g.length → (∀ x ∈ xs, x.length = n) →
          (scan (rowStep act kind b hWeights) (List.replicate (numSequences g) (zeroState kind b.size)) xs).length = g.length ∧
          ∀ row ∈ scan (rowStep act kind b hWeights) (List.replicate (numSequences g) (zeroState kind b.size)) xs,
            row.length = n := by
        intro xs hxl hx
        refine ⟨by rw [scan_length, hxl], ?_⟩
        by_cases hg : g = []
        · subst hg
          rw [List.eq_nil_of_length_eq_zero hxl]
          intro row hrow
          cases hrow
        · exact scan_mem_length _ n (rowStep_length act kind b hWeights n)
            (by rw [List.length_replicate, numSequences_rect hn hg]) hx
      cases rev with
      | true =>
        rw [if_pos rfl] at h
        injection h with h
        subst h
        obtain ⟨h1, h2⟩ := key (backwardRows rows) (by rw [backwardRows_length, hl]) (backwardRows_mem hrows)
        exact ⟨by rw [List.length_reverse, h1], fun row hrow => h2 row (List.mem_reverse.mp hrow)⟩
      | false =>
        rw [if_neg (by simp)] at h
        injection h with h
        subst h
        exact key rows hl hrows

theorem pointRows_shape {f : Nat → Nat → Pos S → Except Err (Elem S)} {time n : Nat} {g : List (List (Pos S))}
    {outs : List (List (Elem S))} (h : pointRows f time g = .ok outs) (hn : ∀ row ∈ g, row.length = n) :
    outs.length = g.length ∧ ∀ row ∈ outs, row.length = n := by
  induction g generalizing outs time with
  | nil => injection h with h; subst h; exact ⟨rfl, fun row hrow => by cases hrow⟩
  | cons p g ih =>
    obtain ⟨b, bs, h1, h2, rfl⟩ := pointRows_cons_ok h
    obtain ⟨i1, i2⟩ := ih h2 (fun row hrow => hn row (List.mem_cons_of_mem _ hrow))
    refine ⟨by simp [i1], fun row hrow => ?_⟩
    rcases List.mem_cons.mp hrow with rfl | hrow
    · rw [pointRow_length h1, hn p List.mem_cons_self]
    · exact i2 row hrow

theorem gluLayer_shape {act : Act S} {b : Basic S} {k i n : Nat} {filters : ParamDict (List (List S))} {g : List (List (Pos S))}
    {outs : List (List (Elem S))} (h : gluLayer act b k i filters g = .ok outs) (hn : ∀ row ∈ g, row.length = n) :
    outs.length = g.length ∧ ∀ row ∈ outs, row.length = n := by
  unfold gluLayer at h
  by_cases hk : k = 0
  · rw [if_pos hk] at h; cases h
  · rw [if_neg hk] at h
    cases hm : mapE gluInputRow g with
    | error e => rw [hm] at h; cases h
    | ok xs =>
      rw [hm] at h
      simp only at h
      have hl : outs.length = g.length := by
        rw [mapE_length h]
        unfold windows
        rw [List.length_map, List.length_range, List.length_append, List.length_replicate, mapE_length hm]
        omega
      refine ⟨hl, fun row hrow => ?_⟩
      obtain ⟨w, _, hw⟩ := mapE_mem h hrow
      rw [mapE_length hw, List.length_range]
      apply numSequences_rect hn
      rintro rfl
      rw [List.length_nil] at hl
      rw [List.eq_nil_of_length_eq_zero hl] at hrow
      cases hrow

theorem evalLayer_shape {act : Act S} {opts : EvalOptions} {layer : Layer S} {k n : Nat} {g : List (List (Pos S))}
    {outs : List (List (Elem S))} (h : evalLayer act opts layer k g = .ok outs) (hn : ∀ row ∈ g, row.length = n) :
    outs.length = g.length ∧ ∀ row ∈ outs, row.length = n := by
  cases layer with
  | recurrent kind b =>
    unfold evalLayer at h
    simp only at h
    cases hr : recurrentLayer act kind b false g with
    | error e => rw [hr] at h; cases h
    | ok sts =>
      rw [hr] at h
      injection h with h
      obtain ⟨h1, h2⟩ := recurrentLayer_shape hr hn
      subst h
      refine ⟨by rw [List.length_map, h1], fun row hrow => ?_⟩
      obtain ⟨st, hst, rfl⟩ := List.mem_map.mp hrow
      unfold hiddenOutput
      rw [List.length_map, h2 st hst]
  | bidirectional kind f b =>
    unfold evalLayer at h
    simp only at h
    cases hf : recurrentLayer act kind f false g with
    | error e => rw [hf] at h; cases h
    | ok fs =>
      rw [hf] at h
      simp only at h
      cases hb : recurrentLayer act kind b true g with
      | error e => rw [hb] at h; cases h
      | ok bs =>
        rw [hb] at h
        injection h with h
        subst h
        obtain ⟨f1, f2⟩ := recurrentLayer_shape hf hn
        obtain ⟨b1, b2⟩ := recurrentLayer_shape hb hn
        refine ⟨by rw [List.length_zipWith, f1, b1, Nat.min_self], fun row hrow => ?_⟩
        obtain ⟨x, hx, y, hy, rfl⟩ := mem_zipWith hrow
        rw [List.length_zipWith, f2 x hx, b2 y hy, Nat.min_self]
  | glu b fs is filters => exact gluLayer_shape h hn
  | _ => exact pointRows_shape h hn

theorem gather_rect {n : Nat} {inputs : List Nat} {table : List (List (Entry S))} (hn : ∀ row ∈ table, row.length = n) :
    ∀ row ∈ gather inputs table, row.length = n := by
  intro row hrow
  obtain ⟨r, hr, rfl⟩ := List.mem_map.mp hrow
  unfold gatherRow
  rw [List.length_map, hn r hr]

theorem addOutputs_rect {n : Nat} {table : List (List (Entry S))} {outs : List (List (Elem S))}
    (hn : ∀ row ∈ table, row.length = n) (ho : ∀ row ∈ outs, row.length = n) :
    ∀ row ∈ List.zipWith addOutputs table outs, row.length = n := by
  intro row hrow
  obtain ⟨x, hx, y, hy, rfl⟩ := mem_zipWith hrow
  unfold addOutputs
  rw [List.length_zipWith, hn x hx, ho y hy, Nat.min_self]

theorem addOutputs_map {γ : Type} (f : Entry S → γ) (g : Entry S → γ) (row : List (Entry S)) (outs : List (Elem S))
    (hl : outs.length = row.length) (hf : ∀ e x, f ⟨e.cell, e.outs ++ [x]⟩ = g e) : (addOutputs row outs).map f = row.map g := by
  unfold addOutputs
  induction row generalizing outs with
  | nil => simp
  | cons e row ih =>
    cases outs with
    | nil => cases hl
    | cons x outs =>
      rw [List.zipWith_cons_cons, List.map_cons, List.map_cons, hf, ih outs (by simpa using hl)]

theorem entries_map {γ : Type} (f : Entry S → γ) (g : Entry S → γ) (n : Nat) (table : List (List (Entry S)))
    (outs : List (List (Elem S))) (hl : outs.length = table.length) (hn : ∀ row ∈ table, row.length = n)
    (ho : ∀ row ∈ outs, row.length = n) (hf : ∀ e x, f ⟨e.cell, e.outs ++ [x]⟩ = g e) :
    (List.zipWith addOutputs table outs).map (fun row => row.map f) = table.map (fun row => row.map g) := by
  induction table generalizing outs with
  | nil => simp
  | cons e row ih =>
    cases outs with
    | nil => cases hl
    | cons x outs =>
      rw [List.zipWith_cons_cons, List.map_cons, List.map_cons,
        addOutputs_map f g e x (by rw [ho x List.mem_cons_self, hn e List.mem_cons_self]) hf,
        ih outs (by simpa using hl) (fun r hr => hn r (List.mem_cons_of_mem _ hr)) (fun r hr => ho r (List.mem_cons_of_mem _ hr))]

/-- Every position is kept and gets an output from every layer. -/
theorem evalLayers_shape {act : Act S} {opts : EvalOptions} {layers : List (Layer S)} {k n : Nat} {table r : List (List (Entry S))}
    (h : evalLayers act opts k layers table = .ok r) (hn : ∀ row ∈ table, row.length = n) :
    r.map (fun row => row.map Entry.cell) = table.map (fun row => row.map Entry.cell) ∧
    r.map (fun row => row.map fun e => e.outs.length) = table.map (fun row => row.map fun e => e.outs.length + layers.length) := by
  induction layers generalizing k table with
  | nil =>
    rw [evalLayers] at h
    injection h with h
    subst h
    exact ⟨rfl, rfl⟩
  | cons layer layers ih =>
    rw [evalLayers] at h
    cases he : evalLayer act opts layer k (gather layer.inputs table) with
    | error e => rw [he] at h; cases h
    | ok outs =>
      rw [he] at h
      simp only at h
      obtain ⟨s1, s2⟩ := evalLayer_shape he (gather_rect hn)
      have s1' : outs.length = table.length := by rw [s1]; exact List.length_map ..
      obtain ⟨i1, i2⟩ := ih h (addOutputs_rect hn s2)
      refine ⟨?_, ?_⟩
      · rw [i1]
        exact entries_map _ _ n table outs s1' hn s2 (fun e x => rfl)
      · rw [i2]
        apply entries_map _ _ n table outs s1' hn s2
        intro e x
        simp only [List.length_append, List.length_cons, List.length_nil]
        omega

end TheanoLM
