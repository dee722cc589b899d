import Verif.Lemmas.NetworkStep
import Verif.Lemmas.NetworkBatch
/-!
# Lemmas about evaluating one time step for several sequences at once
-/
namespace TheanoLM
set_option linter.unusedSectionVars false

section
variable {S : Type} [Add S] [Mul S] [Sub S] [Div S] [Zero S] [One S]

/-- The state variables of some sequences: for each sequence, the vector of each variable. -/
def allVars (sizes : List Nat) (xss : List (List (List S))) : List (Arr3 S) :=
  sizes.mapIdx fun j size => ⟨1, xss.length, size, [xss.map fun xs => xs.getD j []]⟩

theorem allVars_getElem? (sizes : List Nat) (xss : List (List (List S))) {j : Nat} (hj : j < sizes.length) :
    (allVars sizes xss)[j]? = some ⟨1, xss.length, sizes[j], [xss.map fun xs => xs.getD j []]⟩ := by
  unfold allVars
  rw [List.getElem?_mapIdx, List.getElem?_eq_getElem hj]
  rfl

theorem allVars_append (s1 s2 : List Nat) (rs : List (List (List S) × List (List S))) (h : ∀ r ∈ rs, r.1.length = s1.length) :
    allVars s1 (rs.map Prod.fst) ++ allVars s2 (rs.map Prod.snd) = allVars (s1 ++ s2) (rs.map fun r => r.1 ++ r.2) := by
  unfold allVars
  rw [List.mapIdx_append]
  congr 1
  · apply List.ext_getElem (by simp)
    intro j h1 h2
    simp only [List.getElem_mapIdx, List.length_map, List.map_map]
    congr 2
    apply List.map_congr_left
    intro r hr
    have hj : j < r.1.length := by rw [h r hr]; simpa using h1
    simp [List.getD, List.getElem?_append_left hj]
  · apply List.ext_getElem (by simp)
    intro j h1 h2
    simp only [List.getElem_mapIdx, List.length_map, List.map_map]
    congr 2
    apply List.map_congr_left
    intro r hr
    simp only [Function.comp_apply, List.getD]
    rw [List.getElem?_append_right (by rw [h r hr]; omega), h r hr]
    congr 2
    omega

theorem stateInput_all (sizes : List Nat) (xss : List (List (List S))) {j : Nat} (hj : j < sizes.length) :
    stateInput (allVars sizes xss) j = .ok (xss.map fun xs => xs.getD j []) := by
  unfold stateInput
  rw [allVars_getElem? sizes xss hj]

/-- The state of a sequence in a layer whose first variable has the given index. -/
def seqAt (kind : CellKind) (index : Nat) (xs : List (List S)) : SeqState S :=
  match kind with
  | .lstm => ⟨xs.getD index [], xs.getD (index + 1) []⟩
  | .gru => ⟨[], xs.getD index []⟩

/-- The vectors of the variables of a state. -/
def seqVecs (kind : CellKind) (st : SeqState S) : List (List S) :=
  match kind with
  | .lstm => [st.c, st.h]
  | .gru => [st.h]

theorem readStates_all (kind : CellKind) (b : Basic S) (sizes : List Nat) (xss : List (List (List S))) {index : Nat}
    (hi : index + (Layer.recurrent kind b).stateSizes.length ≤ sizes.length) :
    readStates kind (allVars sizes xss) index = .ok (xss.map (seqAt kind index)) := by
  cases kind with
  | lstm =>
    simp only [Layer.stateSizes, List.length_cons, List.length_nil] at hi
    unfold readStates
    simp only
    rw [stateInput_all sizes xss (show index < _ by omega)]
    simp only
    rw [stateInput_all sizes xss (show index + 1 < _ by omega)]
    simp only [List.zipWith_map, List.zipWith_self]
    rfl
  | gru =>
    simp only [Layer.stateSizes, List.length_cons, List.length_nil] at hi
    unfold readStates
    simp only
    rw [stateInput_all sizes xss (show index < _ by omega)]
    simp only [List.map_map]
    rfl

theorem writeStates_all (kind : CellKind) (b : Basic S) (sts : List (SeqState S)) :
    writeStates kind b.size sts = allVars (Layer.recurrent kind b).stateSizes (sts.map (seqVecs kind)) := by
  cases kind with
  | lstm =>
    simp only [writeStates, Layer.stateSizes, allVars, List.mapIdx_cons, List.mapIdx_nil, List.length_map, List.map_map]
    rfl
  | gru =>
    simp only [writeStates, Layer.stateSizes, allVars, List.mapIdx_cons, List.mapIdx_nil, List.length_map, List.map_map]
    rfl

theorem mapE_of_forall₂ {α β : Type} {f : α → Except Err β} {l : List α} {r : List β} (h : List.Forall₂ (fun a b => f a = .ok b) l r) :
    mapE f l = .ok r := by
  induction h with
  | nil => rfl
  | cons h1 _ ih => exact mapE_cons_eq h1 ih

theorem pointRow_of_forall₂ {f : Nat → Pos S → Except Err (Elem S)} (hf : ∀ s s' p, f s p = f s' p) {l : List (Pos S)} {r : List (Elem S)}
    (h : List.Forall₂ (fun a b => f 0 a = .ok b) l r) (seq : Nat) : pointRow f seq l = .ok r := by
  induction h generalizing seq with
  | nil => rfl
  | cons h1 _ ih =>
    unfold pointRow
    rw [hf seq 0, h1]
    simp only
    rw [ih]

theorem pointRow_one {f : Nat → Pos S → Except Err (Elem S)} {p : Pos S} {outs : List (Elem S)} (h : pointRow f 0 [p] = .ok outs) :
    ∃ o, f 0 p = .ok o ∧ outs = [o] := by
  unfold pointRow at h
  cases hf : f 0 p with
  | error e => rw [hf] at h; cases h
  | ok o =>
    rw [hf] at h
    unfold pointRow at h
    cases h
    exact ⟨o, rfl, rfl⟩

/-- The step of a pointwise layer for several sequences. -/
theorem stepLayer_point {act : Act S} {opts : EvalOptions} (ht : opts.training = false) {layer : Layer S} {k t index : Nat}
    {sizes : List Nat}
    {tokens : List (List (List S) × Pos S)} {rs : List (List (Elem S) × List (Arr3 S))}
    (h : List.Forall₂ (fun x r => stepLayer act opts layer k t (allVars sizes [x.1]) index [x.2] = .ok r) tokens rs)
    (hstep : ∀ state row, stepLayer act opts layer k t state index row =
      match pointRow (pointFun act opts layer k t) 0 row with
      | .error e => .error e
      | .ok outs => .ok (outs, [])) (hsz : layer.stateSizes = []) :
    ∃ outs : List (Elem S × List (List S)),
      List.Forall₂ (fun r o => r = ([o.1], allVars layer.stateSizes [o.2]) ∧ o.2.length = layer.stateSizes.length) rs outs ∧
      stepLayer act opts layer k t (allVars sizes (tokens.map Prod.fst)) index (tokens.map Prod.snd) =
        .ok (outs.map Prod.fst, allVars layer.stateSizes (outs.map Prod.snd)) := by
  have hf : ∀ s s' p, pointFun act opts layer k t s p = pointFun act opts layer k t s' p := fun s s' p =>
    pointFun_indep ht layer k t s t s' p
  have key : ∃ os : List (Elem S), List.Forall₂ (fun (x : List (List S) × Pos S) o => pointFun act opts layer k t 0 x.2 = .ok o) tokens os ∧
      List.Forall₂ (fun r o => r = ([o], [])) rs os := by
    induction h with
    | nil => exact ⟨[], .nil, .nil⟩
    | @cons x r l l' h1 _ ih =>
      obtain ⟨os, g1, g2⟩ := ih
      rw [hstep] at h1
      cases hp : pointRow (pointFun act opts layer k t) 0 [x.2] with
      | error e => rw [hp] at h1; cases h1
      | ok outs =>
        rw [hp] at h1
        obtain ⟨o, ho, rfl⟩ := pointRow_one hp
        cases h1
        exact ⟨o :: os, .cons ho g1, .cons rfl g2⟩
  obtain ⟨os, g1, g2⟩ := key
  refine ⟨os.map fun o => (o, []), ?_, ?_⟩
  · rw [List.forall₂_map_right_iff]
    exact g2.imp fun r o hr => ⟨by rw [hr, hsz]; rfl, by rw [hsz]; rfl⟩
  · rw [hstep, pointRow_of_forall₂ hf (l := tokens.map Prod.snd) (r := os) (by rw [List.forall₂_map_left_iff]; exact g1)]
    simp only [List.map_map]
    rw [hsz]
    have : (os.map (Prod.fst ∘ fun o => (o, ([] : List (List S))))) = os := by
      rw [show (Prod.fst ∘ fun o : Elem S => (o, ([] : List (List S)))) = id from rfl, List.map_id]
    rw [this]
    rfl

/-- The step of a layer for several sequences is the step for each. -/
theorem stepLayer_tokens {act : Act S} {opts : EvalOptions} (ht : opts.training = false) {layer : Layer S} {k t index : Nat}
    {sizes : List Nat} (hi : index + layer.stateSizes.length ≤ sizes.length)
    {tokens : List (List (List S) × Pos S)} (hne : tokens ≠ []) {rs : List (List (Elem S) × List (Arr3 S))}
    (h : List.Forall₂ (fun x r => stepLayer act opts layer k t (allVars sizes [x.1]) index [x.2] = .ok r) tokens rs) :
    ∃ outs : List (Elem S × List (List S)),
      List.Forall₂ (fun r o => r = ([o.1], allVars layer.stateSizes [o.2]) ∧ o.2.length = layer.stateSizes.length) rs outs ∧
      stepLayer act opts layer k t (allVars sizes (tokens.map Prod.fst)) index (tokens.map Prod.snd) =
        .ok (outs.map Prod.fst, allVars layer.stateSizes (outs.map Prod.snd)) := by
  cases layer with
  | recurrent kind b =>
    have key : ∃ hW, getParam "step_input/W".toList none b.weights = .ok hW ∧ ∃ zs : List (Bool × List S),
        List.Forall₂ (fun (x : List (List S) × Pos S) z => (match inputPreact b "layer_input".toList x.2.2 with
          | .error e => .error e
          | .ok y => .ok (x.2.1.mask, y)) = (.ok z : Except Err (Bool × List S))) tokens zs ∧
        List.Forall₂ (fun r (xz : (List (List S) × Pos S) × (Bool × List S)) =>
          r = ([.vec (cellStep act kind b hW xz.2.1 xz.2.2 (seqAt kind index xz.1.1)).h],
            allVars (Layer.recurrent kind b).stateSizes [seqVecs kind (cellStep act kind b hW xz.2.1 xz.2.2 (seqAt kind index xz.1.1))]))
          rs (tokens.zip zs) := by
      have one : ∀ (x : List (List S) × Pos S) r, stepLayer act opts (.recurrent kind b) k t (allVars sizes [x.1]) index [x.2] = .ok r →
          ∃ hW, getParam "step_input/W".toList none b.weights = .ok hW ∧ ∃ z : Bool × List S,
            (match inputPreact b "layer_input".toList x.2.2 with
              | .error e => .error e
              | .ok y => .ok (x.2.1.mask, y)) = (.ok z : Except Err (Bool × List S)) ∧
            r = ([.vec (cellStep act kind b hW z.1 z.2 (seqAt kind index x.1)).h],
              allVars (Layer.recurrent kind b).stateSizes [seqVecs kind (cellStep act kind b hW z.1 z.2 (seqAt kind index x.1))]) := by
        intro x r hx
        unfold stepLayer at hx
        simp only at hx
        cases hp : preactRow b [x.2] with
        | error e => rw [hp] at hx; cases hx
        | ok zs =>
          rw [hp] at hx
          simp only at hx
          unfold preactRow at hp
          obtain ⟨z, zs', hz, hzs, rfl⟩ := mapE_cons_ok hp
          cases hzs
          cases hg : getParam "step_input/W".toList none b.weights with
          | error e => rw [hg] at hx; cases hx
          | ok hW =>
            rw [hg, readStates_all kind b sizes [x.1] hi] at hx
            simp only [rowStep, List.map_cons, List.map_nil, List.zipWith_cons_cons, List.zipWith_nil_left, hiddenOutput] at hx
            cases hx
            refine ⟨hW, rfl, z, hz, ?_⟩
            rw [writeStates_all]
            rfl
      induction h with
      | nil => exact absurd rfl hne
      | @cons x r l l' h1 h2 ih =>
        obtain ⟨hW, g1, z, g2, g3⟩ := one x r h1
        by_cases hl : l = []
        · subst hl
          cases h2
          exact ⟨hW, g1, [z], .cons g2 .nil, .cons g3 .nil⟩
        · obtain ⟨hW', g1', zs, g2', g3'⟩ := ih hl
          rw [g1] at g1'
          cases g1'
          exact ⟨hW, g1, z :: zs, .cons g2 g2', .cons g3 g3'⟩
    obtain ⟨hW, g1, zs, g2, g3⟩ := key
    have hlen := g2.length_eq
    refine ⟨(tokens.zip zs).map fun xz => (.vec (cellStep act kind b hW xz.2.1 xz.2.2 (seqAt kind index xz.1.1)).h,
      seqVecs kind (cellStep act kind b hW xz.2.1 xz.2.2 (seqAt kind index xz.1.1))), ?_, ?_⟩
    · rw [List.forall₂_map_right_iff]
      refine g3.imp fun r o hr => ⟨hr, ?_⟩
      cases kind <;> rfl
    · unfold stepLayer
      simp only
      have hp : preactRow b (tokens.map Prod.snd) = .ok zs := by
        unfold preactRow
        apply mapE_of_forall₂
        rw [List.forall₂_map_left_iff]
        exact g2
      rw [hp]
      simp only
      rw [g1]
      simp only
      rw [readStates_all kind b sizes _ hi]
      simp only
      have hrow : rowStep act kind b hW zs ((tokens.map Prod.fst).map (seqAt kind index)) =
          (tokens.zip zs).map fun xz => cellStep act kind b hW xz.2.1 xz.2.2 (seqAt kind index xz.1.1) := by
        unfold rowStep
        apply List.ext_getElem (by simp [hlen])
        intro i h1 h2
        simp
      rw [hrow, writeStates_all]
      simp only [hiddenOutput, List.map_map]
      rfl
  | bidirectional kind f b' =>
    exfalso
    cases h with
    | nil => exact hne rfl
    | cons h1 _ => cases h1
  | glu b' n' m fs =>
    exfalso
    cases h with
    | nil => exact hne rfl
    | cons h1 _ => cases h1
  | _ => exact stepLayer_point ht h (fun _ _ => rfl) rfl

/-- The step of the layers for several sequences is the step for each. -/
theorem stepLayers_tokens {act : Act S} {opts : EvalOptions} (ht : opts.training = false) {t : Nat} {sizes : List Nat} :
    ∀ (layers : List (Layer S)) (k index : Nat), index + (networkStateSizes layers).length ≤ sizes.length →
    ∀ (tokens : List (List (List S) × Entry S)), tokens ≠ [] → ∀ (rs : List (List (Entry S) × List (Arr3 S))),
    List.Forall₂ (fun x r => stepLayers act opts t (allVars sizes [x.1]) k index layers [x.2] = .ok r) tokens rs →
    ∃ outs : List (Entry S × List (List S)),
      List.Forall₂ (fun r o => r = ([o.1], allVars (networkStateSizes layers) [o.2]) ∧ o.2.length = (networkStateSizes layers).length)
        rs outs ∧
      stepLayers act opts t (allVars sizes (tokens.map Prod.fst)) k index layers (tokens.map Prod.snd) =
        .ok (outs.map Prod.fst, allVars (networkStateSizes layers) (outs.map Prod.snd)) := by
  intro layers
  induction layers with
  | nil =>
    intro k index _ tokens hne rs h
    refine ⟨tokens.map fun x => (x.2, []), ?_, ?_⟩
    · rw [List.forall₂_map_right_iff]
      clear hne
      induction h with
      | nil => exact .nil
      | cons h1 _ ih =>
        cases h1
        exact .cons ⟨rfl, rfl⟩ ih
    · unfold stepLayers
      simp only [List.map_map]
      rfl
  | cons layer layers ih =>
    intro k index hi tokens hne rs h
    have hsz : networkStateSizes (layer :: layers) = layer.stateSizes ++ networkStateSizes layers := rfl
    rw [hsz, List.length_append] at hi
    -- the steps of the first layer
    have key : ∃ (os : List (List (Elem S) × List (Arr3 S))) (rs' : List (List (Entry S) × List (Arr3 S))),
        List.Forall₂ (fun x o => stepLayer act opts layer k t (allVars sizes [x.1]) index [x.2] = .ok o)
          (tokens.map fun x => (x.1, (x.2.cell, layer.inputs.map fun j => x.2.outs[j]?))) os ∧
        List.Forall₂ (fun (xo : (List (List S) × Entry S) × (List (Elem S) × List (Arr3 S))) r' =>
          stepLayers act opts t (allVars sizes [xo.1.1]) (k + 1) (index + layer.stateSizes.length) layers (addOutputs [xo.1.2] xo.2.1) =
            .ok r') (tokens.zip os) rs' ∧
        List.Forall₂ (fun r (x : (List (Elem S) × List (Arr3 S)) × (List (Entry S) × List (Arr3 S))) => r = (x.2.1, x.1.2 ++ x.2.2)) rs
          (os.zip rs') := by
      clear hne
      induction h with
      | nil => exact ⟨[], [], .nil, .nil, .nil⟩
      | @cons x r l l' h1 _ ih2 =>
        obtain ⟨os, rs', g1, g2, g3⟩ := ih2
        unfold stepLayers at h1
        cases hs : stepLayer act opts layer k t (allVars sizes [x.1]) index (gatherRow layer.inputs [x.2]) with
        | error e => rw [hs] at h1; cases h1
        | ok o =>
          rw [hs] at h1
          simp only at h1
          cases hs2 : stepLayers act opts t (allVars sizes [x.1]) (k + 1) (index + layer.stateSizes.length) layers
              (addOutputs [x.2] o.1) with
          | error e => rw [hs2] at h1; cases h1
          | ok r' =>
            rw [hs2] at h1
            cases h1
            exact ⟨o :: os, r' :: rs', .cons hs g1, .cons hs2 g2, .cons rfl g3⟩
    obtain ⟨os, rs', g1, g2, g3⟩ := key
    obtain ⟨outs, f1, f2⟩ := stepLayer_tokens ht (by omega) (by simpa using hne) g1
    have l1 : tokens.length = os.length := by have := g1.length_eq; simpa using this
    have l2 : os.length = outs.length := f1.length_eq
    have l3 : os.length = rs'.length := by have := g2.length_eq; simp at this; omega
    -- the steps of the rest of the layers
    have h2 : List.Forall₂ (fun x r => stepLayers act opts t (allVars sizes [x.1]) (k + 1) (index + layer.stateSizes.length) layers [x.2] =
        .ok r) ((tokens.zip outs).map fun xo => (xo.1.1, (⟨xo.1.2.cell, xo.1.2.outs ++ [xo.2.1]⟩ : Entry S))) rs' := by
      rw [List.forall₂_map_left_iff, List.forall₂_iff_get]
      refine ⟨by simp; omega, fun i h1 h2 => ?_⟩
      simp only [List.get_eq_getElem, List.getElem_zip]
      have i1 : i < os.length := by omega
      have e1 := (List.forall₂_iff_get.mp g2).2 i (by simp; omega) h2
      have e2 := (List.forall₂_iff_get.mp f1).2 i i1 (by omega)
      simp only [List.get_eq_getElem, List.getElem_zip] at e1 e2
      rw [e2.1] at e1
      exact e1
    obtain ⟨outs', e1, e2⟩ := ih (k + 1) (index + layer.stateSizes.length) (by omega) _ (by
      intro he
      have := congrArg List.length he
      rw [List.length_map, List.length_zip, List.length_nil] at this
      have hp := List.length_pos_iff.mpr hne
      omega) rs' h2
    have l4 : rs'.length = outs'.length := e1.length_eq
    refine ⟨(outs.zip outs').map fun oo => (oo.2.1, oo.1.2 ++ oo.2.2), ?_, ?_⟩
    · rw [List.forall₂_map_right_iff, List.forall₂_iff_get]
      have l5 : rs.length = (os.zip rs').length := g3.length_eq
      simp only [List.length_zip] at l5
      refine ⟨by simp; omega, fun i h1 h2 => ?_⟩
      simp only [List.get_eq_getElem, List.getElem_zip]
      have a1 := (List.forall₂_iff_get.mp g3).2 i h1 (by simp; omega)
      have a2 := (List.forall₂_iff_get.mp f1).2 i (by omega) (by omega)
      have a3 := (List.forall₂_iff_get.mp e1).2 i (by omega) (by omega)
      simp only [List.get_eq_getElem, List.getElem_zip] at a1 a2 a3
      refine ⟨?_, by rw [List.length_append, a2.2, a3.2, hsz, List.length_append]⟩
      rw [a1, a2.1, a3.1]
      simp only
      rw [hsz]
      have := allVars_append layer.stateSizes (networkStateSizes layers) [((outs[i]'(by omega)).2, (outs'[i]'(by omega)).2)] (by simpa using a2.2)
      simp only [List.map_cons, List.map_nil] at this
      rw [this]
    · unfold stepLayers
      have hg : gatherRow layer.inputs (tokens.map Prod.snd) =
          (tokens.map fun x => (x.1, ((x.2.cell, layer.inputs.map fun j => x.2.outs[j]?) : Pos S))).map Prod.snd := by
        simp [gatherRow, Function.comp_def]
      have hx : tokens.map Prod.fst = (tokens.map fun x => (x.1, ((x.2.cell, layer.inputs.map fun j => x.2.outs[j]?) : Pos S))).map Prod.fst := by
        simp [Function.comp_def]
      rw [hg]
      rw [hx, f2]
      simp only
      have hadd : addOutputs (tokens.map Prod.snd) (outs.map Prod.fst) =
          ((tokens.zip outs).map fun xo => (xo.1.1, (⟨xo.1.2.cell, xo.1.2.outs ++ [xo.2.1]⟩ : Entry S))).map Prod.snd := by
        unfold addOutputs
        apply List.ext_getElem (by simp)
        intro i h1 h2
        simp
      have hst : (tokens.map fun x => (x.1, ((x.2.cell, layer.inputs.map fun j => x.2.outs[j]?) : Pos S))).map Prod.fst =
          ((tokens.zip outs).map fun xo => (xo.1.1, (⟨xo.1.2.cell, xo.1.2.outs ++ [xo.2.1]⟩ : Entry S))).map Prod.fst := by
        apply List.ext_getElem (by simp; omega)
        intro i h1 h2
        simp
      rw [hadd, hst, e2]
      simp only [List.map_map]
      have l6 : outs.length = outs'.length := by omega
      have hcomb := allVars_append layer.stateSizes (networkStateSizes layers) ((outs.zip outs').map fun oo => (oo.1.2, oo.2.2)) (by
        intro r hr
        obtain ⟨oo, hoo, rfl⟩ := List.mem_map.mp hr
        obtain ⟨o, ho⟩ := List.mem_iff_getElem.mp hoo
        obtain ⟨ho1, ho2⟩ := ho
        have a2 := (List.forall₂_iff_get.mp f1).2 o (by simp at ho1; omega) (by simp at ho1; omega)
        simp only [List.get_eq_getElem] at a2
        rw [List.getElem_zip] at ho2
        rw [← ho2]
        exact a2.2)
      have c1 : ((outs.zip outs').map fun oo => (oo.1.2, oo.2.2)).map Prod.fst = outs.map Prod.snd := by
        apply List.ext_getElem (by simp; omega)
        intro i h1 h2
        simp
      have c2 : ((outs.zip outs').map fun oo => (oo.1.2, oo.2.2)).map Prod.snd = outs'.map Prod.snd := by
        apply List.ext_getElem (by simp; omega)
        intro i h1 h2
        simp
      have c3 : (outs.zip outs').map (Prod.fst ∘ fun oo => (oo.2.1, oo.1.2 ++ oo.2.2)) = outs'.map Prod.fst := by
        apply List.ext_getElem (by simp; omega)
        intro i h1 h2
        simp
      rw [c1, c2] at hcomb
      rw [hcomb, c3, hsz]
      simp only [List.map_map]
      rfl

end

end TheanoLM
