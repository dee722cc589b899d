import Verif.Lemmas.NetworkStep
/-!
# Lemmas about the evaluation of networks: if every time step can be evaluated, the mini-batch can be evaluated
-/
namespace TheanoLM
set_option linter.unusedSectionVars false

variable {S : Type} [Add S] [Mul S] [Sub S] [Div S] [Zero S] [One S]

theorem mapE_all {α β : Type} {f : α → Except Err β} {l : List α} (h : ∀ a ∈ l, ∃ b, f a = .ok b) : ∃ r, mapE f l = .ok r := by
  induction l with
  | nil => exact ⟨[], rfl⟩
  | cons a as ih =>
    obtain ⟨b, hb⟩ := h a List.mem_cons_self
    obtain ⟨r, hr⟩ := ih fun x hx => h x (List.mem_cons_of_mem _ hx)
    exact ⟨b :: r, by rw [mapE, hb]; simp only; rw [hr]⟩

theorem pointRows_all {f : Nat → Nat → Pos S → Except Err (Elem S)} {g : List (List (Pos S))} {time : Nat}
    (h : ∀ (t : Nat) (row : List (Pos S)), g[t]? = some row → ∃ out, pointRow (f (time + t)) 0 row = .ok out) :
    ∃ outs, pointRows f time g = .ok outs := by
  induction g generalizing time with
  | nil => exact ⟨[], rfl⟩
  | cons row g ih =>
    obtain ⟨out, ho⟩ := h 0 row rfl
    obtain ⟨outs, hs⟩ := ih (time := time + 1) fun t r hr => by
      have := h (t + 1) r hr
      rwa [show time + (t + 1) = time + 1 + t by omega] at this
    exact ⟨out :: outs, by rw [pointRows, show f time = f (time + 0) from rfl, ho]; simp only; rw [hs]⟩

/-- A layer can be evaluated for the mini-batch if it can be evaluated in each of the time steps, whatever the states are. -/
theorem evalLayer_of_steps {act : Act S} {opts : EvalOptions} {layer : Layer S} {k : Nat} {g : List (List (Pos S))}
    (hg : g ≠ []) (h : ∀ (t : Nat) (row : List (Pos S)), g[t]? = some row →
      ∃ state index r, stepLayer act opts layer k t state index row = .ok r) : ∃ outs, evalLayer act opts layer k g = .ok outs := by
  have hpoint : ∀ (l : Layer S), (∀ state index t row, stepLayer act opts l k t state index row =
      match pointRow (pointFun act opts l k t) 0 row with
      | .error e => .error e
      | .ok outs => .ok (outs, [])) → (∀ (t : Nat) (row : List (Pos S)), g[t]? = some row →
      ∃ state index r, stepLayer act opts l k t state index row = .ok r) → ∃ outs, pointRows (pointFun act opts l k) 0 g = .ok outs := by
    intro l hstep hl
    apply pointRows_all
    intro t row hrow
    obtain ⟨state, index, r, hr⟩ := hl t row hrow
    rw [hstep] at hr
    rw [Nat.zero_add]
    cases hp : pointRow (pointFun act opts l k t) 0 row with
    | error e => rw [hp] at hr; cases hr
    | ok o => exact ⟨o, rfl⟩
  cases layer with
  | recurrent kind b =>
    have key : ∀ (t : Nat) (row : List (Pos S)), g[t]? = some row →
        (∃ x, preactRow b row = .ok x) ∧ ∃ w, getParam "step_input/W".toList none b.weights = .ok w := by
      intro t row hrow
      obtain ⟨state, index, r, hr⟩ := h t row hrow
      unfold stepLayer at hr
      simp only at hr
      cases hp : preactRow b row with
      | error e => rw [hp] at hr; cases hr
      | ok x =>
        rw [hp] at hr
        simp only at hr
        cases hw : getParam "step_input/W".toList none b.weights with
        | error e => rw [hw] at hr; cases hr
        | ok w => exact ⟨⟨x, rfl⟩, w, rfl⟩
    obtain ⟨rows, hrows⟩ : ∃ rows, mapE (preactRow b) g = .ok rows := by
      apply mapE_all
      intro row hrow
      obtain ⟨t, ht, rfl⟩ := List.getElem_of_mem hrow
      exact (key t g[t] (List.getElem?_eq_getElem ht)).1
    obtain ⟨w, hw⟩ : ∃ w, getParam "step_input/W".toList none b.weights = .ok w := by
      cases g with
      | nil => exact absurd rfl hg
      | cons row g => exact (key 0 row rfl).2
    refine ⟨(scan (rowStep act kind b w) (List.replicate (numSequences g) (zeroState kind b.size)) rows).map hiddenOutput, ?_⟩
    unfold evalLayer
    simp only
    unfold recurrentLayer
    rw [hrows]
    simp only
    rw [hw]
    simp only
    rw [if_neg (by simp)]
  | bidirectional kind f b =>
    cases g with
    | nil => exact absurd rfl hg
    | cons row g => obtain ⟨_, _, r, hr⟩ := h 0 row rfl; cases hr
  | glu b fs is filters =>
    cases g with
    | nil => exact absurd rfl hg
    | cons row g => obtain ⟨_, _, r, hr⟩ := h 0 row rfl; cases hr
  | _ => exact hpoint _ (fun _ _ _ _ => rfl) h

theorem stepLayer_state_length {act : Act S} {opts : EvalOptions} {layer : Layer S} {k t index : Nat} {state new : List (Arr3 S)}
    {row : List (Pos S)} {out : List (Elem S)} (h : stepLayer act opts layer k t state index row = .ok (out, new)) :
    new.length = layer.stateSizes.length := by
  have hpoint : ∀ (l : Layer S), (stepLayer act opts l k t state index row =
      match pointRow (pointFun act opts l k t) 0 row with
      | .error e => .error e
      | .ok outs => .ok (outs, [])) → l.stateSizes = [] → stepLayer act opts l k t state index row = .ok (out, new) →
      new.length = l.stateSizes.length := by
    intro l hstep hsz hl
    rw [hstep] at hl
    cases hp : pointRow (pointFun act opts l k t) 0 row with
    | error e => rw [hp] at hl; cases hl
    | ok o => rw [hp] at hl; injection hl with hl; injection hl with _ hl; rw [← hl, hsz]; rfl
  cases layer with
  | recurrent kind b =>
    unfold stepLayer at h
    simp only at h
    cases hp : preactRow b row with
    | error e => rw [hp] at h; cases h
    | ok x =>
      rw [hp] at h
      simp only at h
      cases hw : getParam "step_input/W".toList none b.weights with
      | error e => rw [hw] at h; cases h
      | ok w =>
        rw [hw] at h
        simp only at h
        cases hr : readStates kind state index with
        | error e => rw [hr] at h; cases h
        | ok sts =>
          rw [hr] at h
          injection h with h
          injection h with _ h
          rw [← h]
          cases kind <;> rfl
  | bidirectional kind f b => cases h
  | glu b fs is filters => cases h
  | _ => exact hpoint _ rfl rfl h

/-- The layers can be evaluated for the mini-batch if all time steps can be evaluated, starting from zero states. -/
theorem evalLayers_of_steps {act : Act S} {opts : EvalOptions} {layers : List (Layer S)} {k index n : Nat}
    {table : List (List (Entry S))} (hl : ∀ layer ∈ layers, Steppable layer) (hne : table ≠ [])
    (hn : ∀ row ∈ table, row.length = n) {s pre post : Nat → List (Arr3 S)}
    (hz : s 0 = (networkStateSizes layers).map (Arr3.zeros 1 n)) (hpre : ∀ t, (pre t).length = index)
    (h : ∀ (t : Nat) (row : List (Entry S)), table[t]? = some row →
      ∃ r, stepLayers act opts t (pre t ++ (s t ++ post t)) k index layers row = .ok (r, s (t + 1))) :
    ∃ r, evalLayers act opts k layers table = .ok r := by
  induction layers generalizing k index table s pre post with
  | nil => exact ⟨table, rfl⟩
  | cons layer layers ih =>
    have hgne : gather layer.inputs table ≠ [] := by simpa [gather] using hne
    have hg : ∀ row ∈ gather layer.inputs table, row.length = n := by
      intro row hrow
      obtain ⟨r', hr', rfl⟩ := List.mem_map.mp hrow
      simp only [gatherRow, List.length_map]
      exact hn r' hr'
    have hgl : (gather layer.inputs table).length = table.length := List.length_map ..
    -- what each step does
    have hsplit : ∀ (t : Nat) (row : List (Entry S)), table[t]? = some row →
        ∃ out new r new', stepLayer act opts layer k t (pre t ++ (s t ++ post t)) index (gatherRow layer.inputs row) = .ok (out, new) ∧
          stepLayers act opts t (pre t ++ (s t ++ post t)) (k + 1) (index + layer.stateSizes.length) layers (addOutputs row out) =
            .ok (r, new') ∧ s (t + 1) = new ++ new' ∧ new.length = layer.stateSizes.length := by
      intro t row hrow
      obtain ⟨r, hr⟩ := h t row hrow
      rw [stepLayers] at hr
      cases h1 : stepLayer act opts layer k t (pre t ++ (s t ++ post t)) index (gatherRow layer.inputs row) with
      | error e => rw [h1] at hr; cases hr
      | ok x =>
        obtain ⟨out, new⟩ := x
        rw [h1] at hr
        simp only at hr
        cases h2 : stepLayers act opts t (pre t ++ (s t ++ post t)) (k + 1) (index + layer.stateSizes.length) layers
            (addOutputs row out) with
        | error e => rw [h2] at hr; cases hr
        | ok y =>
          obtain ⟨r', new'⟩ := y
          rw [h2] at hr
          injection hr with hr
          injection hr with _ hr
          exact ⟨out, new, r', new', rfl, h2, hr.symm, stepLayer_state_length h1⟩
    obtain ⟨outs, houts⟩ : ∃ outs, evalLayer act opts layer k (gather layer.inputs table) = .ok outs := by
      apply evalLayer_of_steps hgne
      intro t row hrow
      unfold gather at hrow
      rw [List.getElem?_map] at hrow
      cases ht : table[t]? with
      | none => rw [ht] at hrow; cases hrow
      | some row' =>
        rw [ht] at hrow
        injection hrow with hrow
        obtain ⟨out, new, _, _, h1, _⟩ := hsplit t row' ht
        exact ⟨_, _, _, hrow ▸ h1⟩
    obtain ⟨s1, hz1, hs1, ho1, hr1, hstep1⟩ := stepLayer_eq (hl layer List.mem_cons_self) houts hg
    rw [hgl] at hs1 ho1
    -- the first part of the state is that of this layer
    let c := layer.stateSizes.length
    have hfirst : ∀ t, t ≤ table.length → (s t).take c = s1 t ∧ c ≤ (s t).length := by
      intro t
      induction t with
      | zero =>
        intro _
        rw [hz, hz1, networkStateSizes, List.flatMap_cons, List.map_append]
        refine ⟨?_, ?_⟩
        · rw [List.take_append_of_le_length (by simp [c])]
          exact List.take_of_length_le (by simp [c])
        · simp [c]
      | succ t iht =>
        intro ht
        obtain ⟨e1, e2⟩ := iht (by omega)
        have hrow := List.getElem?_eq_getElem (show t < table.length by omega)
        obtain ⟨out, new, r, new', h1, _, h3, h4⟩ := hsplit t _ hrow
        obtain ⟨out1, _, hst1⟩ := hstep1 t (gatherRow layer.inputs table[t]) (by
          unfold gather; rw [List.getElem?_map, hrow]; rfl)
        have a1 := hst1 (pre t) ((s t).drop c ++ post t)
        rw [← e1, ← List.append_assoc ((s t).take c), List.take_append_drop, hpre, h1] at a1
        injection a1 with a1
        injection a1 with _ a1
        rw [h3, ← a1]
        exact ⟨by rw [List.take_append_of_le_length (by omega)]; exact List.take_of_length_le (by omega),
          by rw [List.length_append]; omega⟩
    have htl : (List.zipWith addOutputs table outs).length = table.length := by
      rw [List.length_zipWith, ho1, Nat.min_self]
    have hn2 : ∀ row ∈ List.zipWith addOutputs table outs, row.length = n := by
      intro row hrow
      obtain ⟨t, ht, rfl⟩ := List.getElem_of_mem hrow
      rw [List.getElem_zipWith, addOutputs_length, hn _ (List.getElem_mem _), hr1 _ (List.getElem_mem _), Nat.min_self]
    -- the state may be extended arbitrarily after the last time step
    let s' : Nat → List (Arr3 S) := fun t => if t ≤ table.length then s t else s 0
    have hs' : ∀ t, t ≤ table.length → s' t = s t := fun t ht => if_pos ht
    have hc' : ∀ t, c ≤ (s' t).length := by
      intro t
      by_cases ht : t ≤ table.length
      · rw [hs' t ht]; exact (hfirst t ht).2
      · rw [show s' t = s 0 from if_neg ht]; exact (hfirst 0 (by omega)).2
    obtain ⟨r, hr⟩ := ih (k := k + 1) (index := index + c) (table := List.zipWith addOutputs table outs)
      (fun l hm => hl l (List.mem_cons_of_mem _ hm))
      (by intro hc; rw [hc] at htl; exact hne (List.length_eq_zero_iff.mp htl.symm)) hn2
      (s := fun t => (s' t).drop c) (pre := fun t => pre t ++ (s' t).take c) (post := post)
      (by
        show (s' 0).drop c = _
        rw [hs' 0 (by omega), hz, networkStateSizes, List.flatMap_cons, List.map_append]
        rw [List.drop_append_of_le_length (by simp [c]), List.drop_of_length_le (by simp [c])]
        rfl)
      (fun t => by rw [List.length_append, hpre, List.length_take, Nat.min_eq_left (hc' t)])
      (fun t row hrow => by
        rw [List.getElem?_zipWith] at hrow
        cases ht : table[t]? with
        | none => rw [ht] at hrow; cases hrow
        | some row' =>
          have htt := (List.getElem?_eq_some_iff.mp ht).1
          obtain ⟨out, new, r, new', h1, h2, h3, h4⟩ := hsplit t row' ht
          obtain ⟨out1, hout1, hst1⟩ := hstep1 t (gatherRow layer.inputs row') (by
            unfold gather; rw [List.getElem?_map, ht]; rfl)
          have a1 := hst1 (pre t) ((s t).drop c ++ post t)
          rw [← (hfirst t (by omega)).1, ← List.append_assoc ((s t).take c), List.take_append_drop, hpre, h1] at a1
          injection a1 with a1
          injection a1 with a1 _
          rw [ht, hout1] at hrow
          injection hrow with hrow
          refine ⟨r, ?_⟩
          show stepLayers act opts t (pre t ++ (s' t).take c ++ ((s' t).drop c ++ post t)) _ _ _ _ = .ok (r, (s' (t + 1)).drop c)
          have e1 : (s (t + 1)).drop c = new' := by
            rw [h3, List.drop_append_of_le_length (by omega), List.drop_of_length_le (by omega), List.nil_append]
          have e2 : pre t ++ (s t).take c ++ ((s t).drop c ++ post t) = pre t ++ (s t ++ post t) := by
            rw [List.append_assoc, ← List.append_assoc ((s t).take c), List.take_append_drop]
          rw [hs' t (by omega), hs' (t + 1) (by omega), e1, e2, ← hrow, ← a1]
          exact h2)
    exact ⟨r, by rw [evalLayers, houts]; exact hr⟩

end TheanoLM
