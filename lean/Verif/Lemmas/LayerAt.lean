import Verif.Lemmas.LayerEquations
/-!
# Lemmas about the outputs of one layer of a network
-/
set_option linter.unusedSectionVars false
namespace TheanoLM

section
variable {S : Type} [Add S] [Mul S] [Sub S] [Div S] [Zero S] [One S]

theorem posAt_zipWith_addOutputs {table : List (List (Entry S))} {outs : List (List (Elem S))} (t s : Nat) :
    posAt (List.zipWith addOutputs table outs) t s =
      (posAt table t s).bind fun e => (posAt outs t s).map fun x => ⟨e.cell, e.outs ++ [x]⟩ := by
  unfold posAt
  rw [List.getElem?_zipWith]
  cases h1 : table[t]? with
  | none => rfl
  | some row =>
    cases h2 : outs[t]? with
    | none =>
      simp only [Option.bind_none, Option.map_none, Option.bind_some]
      cases row[s]? <;> rfl
    | some o =>
      simp only [Option.bind_some]
      unfold addOutputs
      rw [List.getElem?_zipWith]
      cases row[s]? with
      | none => rfl
      | some e => cases o[s]? <;> rfl

theorem posAt_gather {inputs : List Nat} {table : List (List (Entry S))} (t s : Nat) :
    posAt (gather inputs table) t s = (posAt table t s).map fun e => (e.cell, inputs.map fun k => e.outs[k]?) := by
  unfold posAt gather
  rw [List.getElem?_map]
  cases table[t]? with
  | none => rfl
  | some row =>
    simp only [Option.map_some, Option.bind_some]
    unfold gatherRow
    rw [List.getElem?_map]

/-- A position of a table is defined by the shape of the table. -/
theorem posAt_isSome {α : Type} {n : Nat} {table : List (List α)} (h : Rect n table) (t s : Nat) :
    (posAt table t s).isSome ↔ t < table.length ∧ s < n := by
  unfold posAt
  by_cases ht : t < table.length
  · rw [List.getElem?_eq_getElem ht]
    simp only [Option.bind_some]
    have := h _ (List.getElem_mem ht)
    by_cases hs : s < n
    · rw [List.getElem?_eq_getElem (by omega)]
      simp [ht, hs]
    · rw [List.getElem?_eq_none (by omega)]
      simp [hs]
  · rw [List.getElem?_eq_none (by omega)]
    simp [ht]

theorem evalLayers_extends {act : Act S} {opts : EvalOptions} {layers : List (Layer S)} {i n : Nat} {table r : List (List (Entry S))}
    (hn : Rect n table) (h : evalLayers act opts i layers table = .ok r) :
    r.length = table.length ∧ Rect n r ∧ ∀ t s e, posAt r t s = some e → ∃ e0, posAt table t s = some e0 ∧ e0.cell = e.cell ∧
      e0.outs <+: e.outs := by
  induction layers generalizing i table with
  | nil =>
    rw [evalLayers] at h
    injection h with h
    subst h
    exact ⟨rfl, hn, fun t s e he => ⟨e, he, rfl, List.prefix_rfl⟩⟩
  | cons layer layers ih =>
    rw [evalLayers] at h
    cases he : evalLayer act opts layer i (gather layer.inputs table) with
    | error e => rw [he] at h; cases h
    | ok outs =>
      rw [he] at h
      simp only at h
      obtain ⟨s1, s2⟩ := evalLayer_shape he (gather_rect hn)
      have s1' : outs.length = table.length := by rw [s1]; exact List.length_map ..
      obtain ⟨i1, i2, i3⟩ := ih (addOutputs_rect hn s2) h
      refine ⟨by rw [i1, List.length_zipWith, s1', Nat.min_self], i2, fun t s e hpos => ?_⟩
      obtain ⟨e0, h0, hc, hp⟩ := i3 t s e hpos
      rw [posAt_zipWith_addOutputs] at h0
      cases hx : posAt table t s with
      | none => rw [hx] at h0; cases h0
      | some e1 =>
        rw [hx] at h0
        simp only [Option.bind_some] at h0
        cases hy : posAt outs t s with
        | none => rw [hy] at h0; cases h0
        | some x =>
          rw [hy] at h0
          simp only [Option.map_some, Option.some.injEq] at h0
          subst h0
          exact ⟨e1, rfl, hc, (List.prefix_append _ _).trans hp⟩

/-- The evaluation of one of the layers. -/
theorem evalLayers_layer {act : Act S} {opts : EvalOptions} {layers : List (Layer S)} {i n m j : Nat} {layer : Layer S}
    {table r : List (List (Entry S))} (hn : Rect n table) (hm : ∀ t s e, posAt table t s = some e → e.outs.length = m)
    (h : evalLayers act opts i layers table = .ok r) (hj : layers[j]? = some layer) :
    ∃ g outs, evalLayer act opts layer (i + j) g = .ok outs ∧ Rect n g ∧ g.length = r.length ∧
      ∀ t s e, posAt r t s = some e → e.outs[m + j]? = posAt outs t s ∧ (posAt outs t s).isSome ∧
        posAt g t s = some (e.cell, layer.inputs.map fun k => (e.outs.take (m + j))[k]?) := by
  induction layers generalizing i m j table with
  | nil => simp at hj
  | cons l layers ih =>
    rw [evalLayers] at h
    cases he : evalLayer act opts l i (gather l.inputs table) with
    | error e => rw [he] at h; cases h
    | ok outs =>
      rw [he] at h
      simp only at h
      obtain ⟨s1, s2⟩ := evalLayer_shape he (gather_rect hn)
      have s1' : outs.length = table.length := by rw [s1]; exact List.length_map ..
      have hext := evalLayers_extends (addOutputs_rect hn s2) h
      cases j with
      | zero =>
        simp only [List.getElem?_cons_zero, Option.some.injEq] at hj
        subst hj
        refine ⟨_, outs, he, gather_rect hn, ?_, ?_⟩
        · rw [hext.1, List.length_zipWith, s1', Nat.min_self]
          exact List.length_map ..
        · intro t s e hpos
          obtain ⟨e0, h0, hc, suffix, hp⟩ := hext.2.2 t s e hpos
          rw [posAt_zipWith_addOutputs] at h0
          cases hx : posAt table t s with
          | none => rw [hx] at h0; cases h0
          | some e1 =>
            rw [hx] at h0
            simp only [Option.bind_some] at h0
            cases hy : posAt outs t s with
            | none => rw [hy] at h0; cases h0
            | some x =>
              rw [hy] at h0
              simp only [Option.map_some, Option.some.injEq] at h0
              subst h0
              have hl := hm t s e1 hx
              simp only at hp hc
              refine ⟨?_, rfl, ?_⟩
              · rw [← hp, Nat.add_zero, List.append_assoc, List.getElem?_append_right (by omega), hl, Nat.sub_self]
                rfl
              · rw [posAt_gather, hx, ← hp, ← hc, Nat.add_zero, List.append_assoc, ← hl, List.take_left]
                rfl
      | succ j =>
        simp only [List.getElem?_cons_succ] at hj
        obtain ⟨g, outs', h1, h2, h3, h4⟩ := ih (m := m + 1) (addOutputs_rect hn s2) (by
          intro t s e hpos
          rw [posAt_zipWith_addOutputs] at hpos
          cases hx : posAt table t s with
          | none => rw [hx] at hpos; cases hpos
          | some e1 =>
            rw [hx] at hpos
            simp only [Option.bind_some] at hpos
            cases hy : posAt outs t s with
            | none => rw [hy] at hpos; cases hpos
            | some x =>
              rw [hy] at hpos
              simp only [Option.map_some, Option.some.injEq] at hpos
              subst hpos
              simp [hm t s e1 hx]) h hj
        refine ⟨g, outs', by rwa [show i + 1 + j = i + (j + 1) by omega] at h1, h2, h3, ?_⟩
        intro t s e hpos
        have := h4 t s e hpos
        rwa [show m + 1 + j = m + (j + 1) by omega] at this

/-- The evaluation of layer `k` of a network. -/
theorem evalNetwork_layer {act : Act S} {opts : EvalOptions} {layers : List (Layer S)} {n k : Nat} {layer : Layer S}
    {batch : List (List InputCell)} {out : List (List (Entry S))} (hn : Rect n batch)
    (h : evalNetwork act opts layers batch = .ok out) (hk : layers[k]? = some layer) :
    ∃ g outs, evalLayer act opts layer k g = .ok outs ∧ Rect n g ∧ Rect n out ∧ g.length = out.length ∧
      ∀ t s e, posAt out t s = some e → e.outs[k]? = posAt outs t s ∧ (posAt outs t s).isSome ∧
        posAt g t s = some (e.cell, layer.inputs.map fun i => (e.outs.take k)[i]?) := by
  unfold evalNetwork at h
  have hn' : Rect n (batch.map fun row => row.map fun c => (⟨c, []⟩ : Entry S)) := by
    intro row hrow
    obtain ⟨r, hr, rfl⟩ := List.mem_map.mp hrow
    rw [List.length_map]
    exact hn r hr
  obtain ⟨g, outs, h1, h2, h3, h4⟩ := evalLayers_layer (m := 0) hn' (by
    intro t s e he
    unfold posAt at he
    rw [List.getElem?_map] at he
    cases hb : batch[t]? with
    | none => rw [hb] at he; cases he
    | some row =>
      rw [hb] at he
      simp only [Option.map_some, Option.bind_some, List.getElem?_map] at he
      cases hc : row[s]? with
      | none => rw [hc] at he; cases he
      | some c =>
        rw [hc] at he
        simp only [Option.map_some, Option.some.injEq] at he
        subst he
        rfl) h hk
  rw [Nat.zero_add] at h1
  refine ⟨g, outs, h1, h2, (evalLayers_extends hn' h).2.1, h3, fun t s e he => ?_⟩
  have := h4 t s e he
  rwa [Nat.zero_add] at this

/-- The input vectors are outputs of earlier layers in the same position. -/
theorem layerInputs_of_vectors {e : Entry S} {inputs : List Nat} {k : Nat} {xs : List (List S)}
    (h : InputVectors (inputs.map fun i => (e.outs.take k)[i]?) xs) : LayerInputs e inputs xs := by
  unfold InputVectors at h
  unfold LayerInputs
  induction inputs generalizing xs with
  | nil =>
    cases xs with
    | nil => exact .nil
    | cons x xs => simp at h
  | cons i inputs ih =>
    cases xs with
    | nil => simp at h
    | cons x xs =>
      rw [List.map_cons, List.map_cons] at h
      injection h with h1 h2
      refine .cons ?_ (ih h2)
      rw [List.getElem?_take] at h1
      split at h1
      · exact h1
      · cases h1

theorem pointRow_at {f : Nat → Pos S → Except Err (Elem S)} {seq : Nat} {row : List (Pos S)} {r : List (Elem S)}
    (h : pointRow f seq row = .ok r) {s : Nat} {p : Pos S} (hp : row[s]? = some p) : ∃ x, f (seq + s) p = .ok x ∧ r[s]? = some x := by
  induction row generalizing r seq s with
  | nil => simp at hp
  | cons q row ih =>
    obtain ⟨x, xs, h1, h2, rfl⟩ := pointRow_cons_ok h
    cases s with
    | zero =>
      simp only [List.getElem?_cons_zero, Option.some.injEq] at hp
      subst hp
      exact ⟨x, h1, rfl⟩
    | succ s =>
      simp only [List.getElem?_cons_succ] at hp ⊢
      have := ih h2 hp
      rwa [show seq + 1 + s = seq + (s + 1) by omega] at this

theorem pointRows_at {f : Nat → Nat → Pos S → Except Err (Elem S)} {time : Nat} {g : List (List (Pos S))} {outs : List (List (Elem S))}
    (h : pointRows f time g = .ok outs) {t : Nat} {row : List (Pos S)} (hp : g[t]? = some row) :
    ∃ x, pointRow (f (time + t)) 0 row = .ok x ∧ outs[t]? = some x := by
  induction g generalizing outs time t with
  | nil => simp at hp
  | cons q g ih =>
    obtain ⟨x, xs, h1, h2, rfl⟩ := pointRows_cons_ok h
    cases t with
    | zero =>
      simp only [List.getElem?_cons_zero, Option.some.injEq] at hp
      subst hp
      exact ⟨x, h1, rfl⟩
    | succ t =>
      simp only [List.getElem?_cons_succ] at hp ⊢
      have := ih h2 hp
      rwa [show time + 1 + t = time + (t + 1) by omega] at this

theorem posAt_some {α : Type} {table : List (List α)} {t s : Nat} {x : α} :
    posAt table t s = some x ↔ ∃ row, table[t]? = some row ∧ row[s]? = some x := by
  unfold posAt
  exact Option.bind_eq_some_iff

/-- The output of a pointwise layer in one position. -/
theorem pointRows_posAt {f : Nat → Nat → Pos S → Except Err (Elem S)} {g : List (List (Pos S))} {outs : List (List (Elem S))}
    (h : pointRows f 0 g = .ok outs) {t s : Nat} {p : Pos S} (hp : posAt g t s = some p) :
    ∃ x, f t s p = .ok x ∧ posAt outs t s = some x := by
  obtain ⟨row, h1, h2⟩ := posAt_some.mp hp
  obtain ⟨r, h3, h4⟩ := pointRows_at h h1
  obtain ⟨x, h5, h6⟩ := pointRow_at h3 h2
  rw [Nat.zero_add, Nat.zero_add] at h5
  exact ⟨x, h5, posAt_some.mpr ⟨r, h4, h6⟩⟩

/-- The output of `mapE` over the positions. -/
theorem mapE_posAt {α β : Type} {f : α → Except Err β} {g : List (List α)} {r : List (List β)} (h : mapE (mapE f) g = .ok r)
    {t s : Nat} {p : α} (hp : posAt g t s = some p) : ∃ x, f p = .ok x ∧ posAt r t s = some x := by
  obtain ⟨row, h1, h2⟩ := posAt_some.mp hp
  have e1 := mapE_getElem? h t
  have hl := mapE_length h
  have ht := (List.getElem?_eq_some_iff.mp h1).1
  rw [h1, List.getElem?_eq_getElem (by omega)] at e1
  simp only [Option.bind_some] at e1
  cases hm : mapE f row with
  | error e => rw [hm] at e1; cases e1
  | ok r' =>
    rw [hm] at e1
    simp only [Except.toOption, Option.some.injEq] at e1
    have e2 := mapE_getElem? hm s
    have hl' := mapE_length hm
    have hs := (List.getElem?_eq_some_iff.mp h2).1
    rw [h2, List.getElem?_eq_getElem (by omega)] at e2
    simp only [Option.bind_some] at e2
    cases hf : f p with
    | error e => rw [hf] at e2; cases e2
    | ok x =>
      rw [hf] at e2
      simp only [Except.toOption, Option.some.injEq] at e2
      refine ⟨x, rfl, posAt_some.mpr ⟨r', ?_, ?_⟩⟩
      · rw [← e1]; exact List.getElem?_eq_getElem (by omega)
      · rw [← e2]; exact List.getElem?_eq_getElem (by omega)

/-- The input of the layers in the positions. -/
def InputsAt (g : List (List (Pos S))) (X : Nat → Nat → List (List S)) : Prop :=
  ∀ t s p, posAt g t s = some p → InputVectors p.2 (X t s)

theorem preactRows_at {b : Basic S} {W : List (List S)} {bias : List S} {g : List (List (Pos S))} {rows : List (List (Bool × List S))}
    (ha : HasAffine b "layer_input".toList W bias) (h : mapE (preactRow b) g = .ok rows) :
    ∃ X, InputsAt g X ∧ ∀ t s p, posAt g t s = some p → posAt rows t s =
      some (p.1.mask, List.zipWith (fun w c => (List.zipWith (· * ·) (X t s).flatten w).sum + c) W bias) := by
  have key : ∀ t s p, posAt g t s = some p → ∃ xs, InputVectors p.2 xs ∧ posAt rows t s =
      some (p.1.mask, List.zipWith (fun w c => (List.zipWith (· * ·) xs.flatten w).sum + c) W bias) := by
    intro t s p hp
    obtain ⟨x, h1, h2⟩ := mapE_posAt h hp
    unfold inputPreact at h1
    cases hc : concatInputs p.2 with
    | error e => rw [hc] at h1; cases h1
    | ok v =>
      rw [hc] at h1
      simp only at h1
      rw [tensorPreact_affine ha] at h1
      injection h1 with h1
      obtain ⟨xs, h3, rfl⟩ := concatInputs_vectors hc
      exact ⟨xs, h3, by rw [h2, ← h1]⟩
  have key' : ∀ t s, ∃ xs, ∀ p, posAt g t s = some p → InputVectors p.2 xs ∧ posAt rows t s =
      some (p.1.mask, List.zipWith (fun w c => (List.zipWith (· * ·) xs.flatten w).sum + c) W bias) := by
    intro t s
    cases hp : posAt g t s with
    | none => exact ⟨[], fun p h => by cases h⟩
    | some q =>
      obtain ⟨xs, hxs⟩ := key t s q hp
      exact ⟨xs, fun p h => by injection h with h; subst h; exact hxs⟩
  choose X hX using key'
  exact ⟨X, fun t s p hp => (hX t s p hp).1, fun t s p hp => (hX t s p hp).2⟩

/-- The loop over the inputs of an addition layer. -/
theorem additionLoop_ok {b : Basic S} {V : Nat → List (List S)} {xs : List (List S)} {sizes : List Nat} (m : Nat) (f : Nat → Nat → S)
    {acc : Option (List S)} {r : Option (List S)} (hlen : sizes.length = xs.length)
    (hV : ∀ (i sz : Nat), sizes[i]? = some sz → sz ≠ b.size → HasWeights b ("input".toList ++ (toString (m + i)).toList) (V (m + i)) ∧
      (V (m + i)).length = b.size)
    (hx : ∀ (i sz : Nat) (x : List S), sizes[i]? = some sz → xs[i]? = some x → x.length = sz)
    (hf : ∀ (i sz : Nat) (x : List S), sizes[i]? = some sz → xs[i]? = some x → ∀ j, f (m + i) j = if sz = b.size then x.getD j 0 else unitDot (V (m + i)) x j)
    (hacc : ∀ y, acc = some y → 0 < m ∧ Units b.size y fun j => leftSum (fun i => f i j) (m - 1)) (hnone : acc = none → m = 0)
    (h : additionLoop b m ((xs.map fun x => some (.vec x)).zip sizes) acc = .ok r) :
    ∀ y, r = some y → 0 < m + xs.length ∧ Units b.size y fun j => leftSum (fun i => f i j) (m + xs.length - 1) := by
  induction xs generalizing sizes m acc with
  | nil =>
    rw [List.map_nil, List.zip_nil_left, additionLoop] at h
    injection h with h
    subst h
    exact hacc
  | cons x xs ih =>
    cases sizes with
    | nil => simp at hlen
    | cons sz sizes =>
      rw [List.map_cons, List.zip_cons_cons, additionLoop] at h
      simp only [elemVec] at h
      have hxl := hx 0 sz x rfl rfl
      have hy : ∃ y, (if sz = b.size then .ok x else tensorPreact b.devices b.weights b.biases
          ("input".toList ++ (toString m).toList) false x) = (.ok y : Except Err (List S)) ∧ Units b.size y (f m) := by
        by_cases hs : sz = b.size
        · refine ⟨x, if_pos hs, ?_⟩
          refine (units_self (by omega)).congr fun j hj => ?_
          have := hf 0 sz x rfl rfl j
          rw [if_pos hs] at this
          exact this.symm
        · obtain ⟨h1, h2⟩ := hV 0 sz rfl hs
          rw [Nat.add_zero] at h1 h2
          refine ⟨_, (if_neg hs).trans (tensorPreact_weights h1 x), ?_⟩
          refine (dot_units h2 x).congr fun j hj => ?_
          have := hf 0 sz x rfl rfl j
          rw [if_neg hs] at this
          exact this.symm
      obtain ⟨y, e1, e2⟩ := hy
      rw [e1] at h
      simp only at h
      have step : ∀ acc', (∀ y, acc' = some y → 0 < m + 1 ∧ Units b.size y fun j => leftSum (fun i => f i j) (m + 1 - 1)) →
          (acc' = none → m + 1 = 0) →
          additionLoop b (m + 1) ((xs.map fun x => some (.vec x)).zip sizes) acc' = .ok r →
          ∀ y, r = some y → 0 < m + (xs.length + 1) ∧ Units b.size y fun j => leftSum (fun i => f i j) (m + (xs.length + 1) - 1) := by
        intro acc' h1 h2 h3
        have := ih (m + 1) (sizes := sizes) (acc := acc') (by simpa using hlen)
          (fun i sz' hi hne => by
            have := hV (i + 1) sz' hi hne
            rwa [show m + (i + 1) = m + 1 + i by omega] at this)
          (fun i sz' x' hi hxi => hx (i + 1) sz' x' hi hxi)
          (fun i sz' x' hi hxi j => by
            have := hf (i + 1) sz' x' hi hxi j
            rwa [show m + (i + 1) = m + 1 + i by omega] at this)
          h1 h2 h3
        rwa [show m + 1 + xs.length = m + (xs.length + 1) by omega] at this
      cases acc with
      | none =>
        simp only at h
        have hm := hnone rfl
        subst hm
        refine step (some y) ?_ (fun h => by cases h) h
        intro y' hy'
        injection hy' with hy'
        subst hy'
        exact ⟨by omega, e2⟩
      | some sum =>
        simp only at h
        obtain ⟨hm, hu⟩ := hacc sum rfl
        refine step (some (vadd sum y)) ?_ (fun h => by cases h) h
        intro y' hy'
        injection hy' with hy'
        subst hy'
        refine ⟨by omega, (hu.zip e2 (· + ·)).congr fun j hj => ?_⟩
        obtain ⟨m', rfl⟩ : ∃ m', m = m' + 1 := ⟨m - 1, by omega⟩
        rfl

theorem additionInputs_vectors {b : Basic S} {m : Nat} {ins : List (Option (Elem S))} {sizes : List Nat} {acc r : Option (List S)}
    (hlen : sizes.length = ins.length) (h : additionLoop b m (ins.zip sizes) acc = .ok r) : ∃ xs, InputVectors ins xs := by
  induction ins generalizing m sizes acc with
  | nil => exact ⟨[], rfl⟩
  | cons e ins ih =>
    cases sizes with
    | nil => simp at hlen
    | cons sz sizes =>
      rw [List.zip_cons_cons, additionLoop] at h
      cases he : elemVec e with
      | error err => rw [he] at h; cases h
      | ok x =>
        rw [he] at h
        simp only at h
        have e1 : e = some (.vec x) := by
          unfold elemVec at he
          split at he
          · injection he with he; rw [he]
          · cases he
          · cases he
          · cases he
        split at h
        · cases h
        · split at h
          · obtain ⟨xs, hxs⟩ := ih (by simpa using hlen) h
            exact ⟨x :: xs, by unfold InputVectors at *; rw [hxs, e1, List.map_cons]⟩
          · obtain ⟨xs, hxs⟩ := ih (by simpa using hlen) h
            exact ⟨x :: xs, by unfold InputVectors at *; rw [hxs, e1, List.map_cons]⟩

theorem units_eq_range {n : Nat} {x : List S} {f : Nat → S} (h : Units n x f) : x = (List.range n).map f := by
  apply List.ext_getElem?
  intro j
  rw [List.getElem?_map]
  by_cases hj : j < n
  · rw [h.2 j hj, List.getElem?_range hj]
    rfl
  · rw [List.getElem?_eq_none (by rw [h.1]; omega), List.getElem?_eq_none (by simpa using hj)]
    rfl

theorem normalize_units {n : Nat} {x : List S} {f : Nat → S} (h : Units n x f) : Units n (normalize x) fun j => f j / unitSum n f := by
  unfold normalize unitSum
  rw [← units_eq_range h]
  exact h.map _

theorem softmax_units (act : Act S) {n : Nat} {W : List (List S)} {bias : List S} (hW : W.length = n) (hb : bias.length = n)
    (x : List S) : Units n (normalize ((vadd (W.map (dot x)) bias).map act.exp)) fun j =>
      act.exp (unitPreact W bias x j) / unitSum n fun j => act.exp (unitPreact W bias x j) := by
  apply normalize_units
  unfold vadd
  rw [List.zipWith_map_left]
  exact (preact_units hW hb x).map act.exp

theorem flatten_const_length {α : Type} {m : Nat} {l : List (List α)} (h : ∀ r ∈ l, r.length = m) :
    l.flatten.length = l.length * m := by
  induction l with
  | nil => simp
  | cons r l ih =>
    rw [List.flatten_cons, List.length_append, h r List.mem_cons_self, ih fun x hx => h x (List.mem_cons_of_mem _ hx),
      List.length_cons, Nat.add_mul, Nat.one_mul, Nat.add_comm]

theorem flatten_const_getElem? {α : Type} {m i j : Nat} {l : List (List α)} (h : ∀ r ∈ l, r.length = m) (hj : j < m) :
    l.flatten[i * m + j]? = (l[i]?).bind fun r => r[j]? := by
  induction l generalizing i with
  | nil => simp
  | cons r l ih =>
    have hr := h r List.mem_cons_self
    cases i with
    | zero =>
      rw [Nat.zero_mul, Nat.zero_add, List.flatten_cons, List.getElem?_append_left (by omega)]
      rfl
    | succ i =>
      rw [List.flatten_cons, List.getElem?_append_right (by rw [hr, Nat.add_mul]; omega), hr, Nat.add_mul, Nat.one_mul,
        show i * m + m + j - m = i * m + j by omega, ih fun x hx => h x (List.mem_cons_of_mem _ hx)]
      rfl

theorem column_at {α : Type} {n s : Nat} {w : List (List α)} (hw : Rect n w) (hs : s < n) (i : Nat) :
    (column s w)[i]? = posAt w i s := by
  unfold column
  induction w generalizing i with
  | nil => simp [posAt]
  | cons row w ih =>
    have hr := hw row List.mem_cons_self
    have e : row[s]? = some (row[s]'(by omega)) := List.getElem?_eq_getElem (by omega)
    rw [List.filterMap_cons, e]
    cases i with
    | zero => simp [posAt, e]
    | succ i =>
      rw [List.getElem?_cons_succ, ih (fun r hr => hw r (List.mem_cons_of_mem _ hr))]
      rfl

theorem conv_units {b : Basic S} {filters : ParamDict (List (List S))} {F : List (List (List S))} {bias : List S} {m : Nat}
    (hp : HasFilters b filters F bias) (hF : F.length = m) (hb : bias.length = m) (region : List (List S)) :
    ∃ z, tensorConv1d b.devices filters b.biases "input".toList region = .ok z ∧ Units m z (unitConv F bias region) := by
  obtain ⟨parts, hparts, rfl, hne, hbias⟩ := hp
  have e : mapE (fun device => getParam ("input".toList ++ "/W".toList) device filters) b.devices = .ok parts := mapE_forall₂ hparts
  have hparts0 : parts ≠ [] := by
    rintro rfl
    cases hd : b.devices with
    | nil => exact hne hd
    | cons a l => rw [hd] at hparts; cases hparts
  refine ⟨List.zipWith (· + ·) (parts.flatten.map (dot2 region)) bias, ?_, ?_⟩
  · unfold tensorConv1d
    rw [e]
    simp only
    rw [concatResults_eq _ (by simpa using hparts0)]
    simp only
    rw [show ("input".toList ++ "/b".toList : Str) = "input/b".toList by decide, hbias, List.map_flatten]
  · refine ⟨by rw [List.length_zipWith, List.length_map, hF, hb, Nat.min_self], fun j hj => ?_⟩
    have h1 : parts.flatten[j]? = some (parts.flatten[j]'(by omega)) := List.getElem?_eq_getElem (by omega)
    have h2 : bias[j]? = some (bias[j]'(by omega)) := List.getElem?_eq_getElem (by omega)
    rw [List.getElem?_zipWith, List.getElem?_map, h1, h2]
    simp only [Option.map_some, unitConv, List.getD_eq_getElem?_getD, h1, h2, Option.getD_some]
    rfl

theorem gluLayer_at {act : Act S} {b : Basic S} {filterSize inputSize n : Nat} {filters : ParamDict (List (List S))}
    {F : List (List (List S))} {bias : List S} {g : List (List (Pos S))} {outs : List (List (Elem S))}
    (hp : HasFilters b filters F bias) (hF : F.length = 2 * b.size) (hb : bias.length = 2 * b.size) (hn : Rect n g)
    (h : gluLayer act b filterSize inputSize filters g = .ok outs) :
    ∃ X : Nat → Nat → List S, ∀ t s p, posAt g t s = some p → p.2 = [some (.vec (X t s))] ∧
      ∃ region y, region.length = filterSize ∧
        (∀ i < filterSize, region[i]? =
          some (if t + i + 1 < filterSize then List.replicate inputSize 0 else X (t + i + 1 - filterSize) s)) ∧
        posAt outs t s = some (.vec y) ∧
        Units b.size y fun j => unitConv F bias region j * act.sigmoid (unitConv F bias region (b.size + j)) := by
  unfold gluLayer at h
  by_cases hk : filterSize = 0
  · rw [if_pos hk] at h; cases h
  · rw [if_neg hk] at h
    cases hm : mapE gluInputRow g with
    | error e => rw [hm] at h; cases h
    | ok xs =>
      rw [hm] at h
      simp only at h
      have hxl : xs.length = g.length := mapE_length hm
      have hxr : Rect n xs := by
        intro row hrow
        obtain ⟨p, hp, hpr⟩ := mapE_mem hm hrow
        rw [mapE_length hpr, hn p hp]
      refine ⟨fun t s => (posAt xs t s).getD [], fun t s p hpos => ?_⟩
      have hdef := (posAt_isSome hn t s).mp (by rw [hpos]; rfl)
      obtain ⟨ht, hs⟩ := hdef
      have hg : g ≠ [] := by rintro rfl; simp at ht
      rw [numSequences_rect hn hg] at h
      constructor
      · obtain ⟨x, x1, x2⟩ := mapE_posAt hm hpos
        simp only [x2, Option.getD_some]
        split at x1
        · rename_i e he
          rw [he]
          unfold elemVec at x1
          split at x1
          · injection x1 with x1; rw [x1]
          · cases x1
          · cases x1
          · cases x1
        · cases x1
      · let padded := List.replicate (filterSize - 1) (List.replicate n (List.replicate inputSize (0 : S))) ++ xs
        have hpadr : Rect n padded := by
          intro row hrow
          rcases List.mem_append.mp hrow with hrow | hrow
          · rw [List.eq_of_mem_replicate hrow, List.length_replicate]
          · exact hxr row hrow
        have hpadl : padded.length = filterSize - 1 + g.length := by
          show (_ ++ xs).length = _
          rw [List.length_append, List.length_replicate, hxl]
        have hpad : ∀ i, posAt padded i s = if i < filterSize - 1 then some (List.replicate inputSize 0)
            else posAt xs (i - (filterSize - 1)) s := by
          intro i
          unfold posAt
          show ((_ ++ xs)[i]?).bind _ = _
          by_cases hi : i < filterSize - 1
          · rw [if_pos hi, List.getElem?_append_left (by rw [List.length_replicate]; exact hi), List.getElem?_replicate, if_pos hi]
            simp only [Option.bind_some]
            rw [List.getElem?_replicate, if_pos hs]
          · rw [if_neg hi, List.getElem?_append_right (by rw [List.length_replicate]; omega), List.length_replicate]
        have hwin : (windows filterSize padded)[t]? = some ((padded.drop t).take filterSize) := by
          unfold windows
          rw [List.getElem?_map, List.getElem?_range (by omega)]
          rfl
        have hwr : Rect n ((padded.drop t).take filterSize) := fun row hrow =>
          hpadr row (List.mem_of_mem_drop (List.mem_of_mem_take hrow))
        have hcol : ∀ i, (column s ((padded.drop t).take filterSize))[i]? =
            if i < filterSize then posAt padded (t + i) s else none := by
          intro i
          rw [column_at hwr hs]
          unfold posAt
          rw [List.getElem?_take]
          split
          · rw [List.getElem?_drop]
          · rfl
        obtain ⟨z, z1, z2⟩ := conv_units hp hF hb (column s ((padded.drop t).take filterSize))
        have hcl : (column s ((padded.drop t).take filterSize)).length = filterSize := by
          apply Nat.le_antisymm
          · by_contra hc
            have := hcol filterSize
            rw [if_neg (by omega), List.getElem?_eq_none_iff] at this
            omega
          · by_contra hc
            have := hcol (filterSize - 1)
            rw [if_pos (by omega), hpad, if_neg (by omega), List.getElem?_eq_none (by omega)] at this
            have h3 := (posAt_isSome hxr (t + (filterSize - 1) - (filterSize - 1)) s).mpr ⟨by omega, hs⟩
            rw [← this] at h3
            cases h3
        refine ⟨_, vmul (submatrix z 0 b.size) ((submatrix z 1 b.size).map act.sigmoid), hcl, fun i hi => ?_, ?_, ?_⟩
        · rw [hcol, if_pos hi, hpad]
          by_cases hlt : t + i + 1 < filterSize
          · rw [if_pos (by omega), if_pos hlt]
          · rw [if_neg (by omega), if_neg hlt, show t + i - (filterSize - 1) = t + i + 1 - filterSize by omega]
            have h3 := (posAt_isSome hxr (t + i + 1 - filterSize) s).mpr ⟨by omega, hs⟩
            obtain ⟨v, hv⟩ := Option.isSome_iff_exists.mp h3
            simp only [hv, Option.getD_some]
        · have e1 := mapE_getElem? h t
          change outs[t]? = ((windows filterSize padded)[t]?).bind _ at e1
          rw [hwin] at e1
          simp only [Option.bind_some] at e1
          have hol : t < outs.length := by
            rw [mapE_length h]
            exact (List.getElem?_eq_some_iff.mp hwin).1
          rw [List.getElem?_eq_getElem hol] at e1
          cases hrow : mapE (fun seq => gluElem act b filters (column seq ((padded.drop t).take filterSize))) (List.range n) with
          | error e => rw [hrow] at e1; cases e1
          | ok row =>
            rw [hrow] at e1
            simp only [Except.toOption, Option.some.injEq] at e1
            have e2 := mapE_getElem? hrow s
            rw [List.getElem?_range hs] at e2
            simp only [Option.bind_some] at e2
            refine posAt_some.mpr ⟨row, by rw [← e1]; exact List.getElem?_eq_getElem hol, ?_⟩
            rw [e2]
            unfold gluElem
            rw [z1]
            rfl
        · have hl := submatrix_units (i := 0) (n := b.size) z2 (by omega)
          have hg := (submatrix_units (i := 1) (n := b.size) z2 (by omega)).map act.sigmoid
          refine (hl.zip hg (· * ·)).congr fun j hj => ?_
          simp only [Nat.zero_mul, Nat.zero_add, Nat.one_mul]

end

end TheanoLM
