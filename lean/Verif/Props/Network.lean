import Verif.Lemmas.NetworkBatch
import Verif.Lemmas.NetworkStep
import Verif.Lemmas.NetworkConverse
import Verif.Lemmas.NetworkFuture
import Mathlib.Tactic.Linarith
import Mathlib.Tactic.NormNum
import Mathlib.Tactic.Positivity
import Mathlib.Algebra.Order.Field.Rat
/-!
# Properties of the evaluation of networks: C57, C58, C59, C60
-/
namespace TheanoLM
set_option linter.unusedSectionVars false

section
variable {S : Type} [Add S] [Mul S] [Sub S] [Div S] [Zero S] [One S]

/-! ## C57: no dependence on later words -/

/-- C57.  In a network without bidirectional layers the outputs of all layers at a time step (also the output probabilities) are
the same for any two mini-batches that are the same up to that time step. -/
theorem C57 {act : Act S} {opts : EvalOptions} {layers : List (Layer S)} {batch1 batch2 : List (List InputCell)}
    {out1 out2 : List (List (Entry S))} (hl : ∀ layer ∈ layers, layer.Forward)
    (h1 : evalNetwork act opts layers batch1 = .ok out1) (h2 : evalNetwork act opts layers batch2 = .ok out2)
    (t : Nat) (hb : batch1.take (t + 1) = batch2.take (t + 1)) : out1[t]? = out2[t]? := by
  unfold evalNetwork at h1 h2
  have e1 := evalLayers_take hl h1 (t + 1)
  have e2 := evalLayers_take hl h2 (t + 1)
  rw [← List.map_take, hb, List.map_take, e2] at e1
  injection e1 with e1
  have := congrArg (fun l => l[t]?) e1
  rw [List.getElem?_take_of_lt (by omega), List.getElem?_take_of_lt (by omega)] at this
  exact this.symm

/-- C57.  The output of the network has every position of the mini-batch, and in it an output from every layer. -/
theorem C57_complete {act : Act S} {opts : EvalOptions} {layers : List (Layer S)} {n : Nat} {batch : List (List InputCell)}
    {out : List (List (Entry S))} (hn : Rect n batch) (h : evalNetwork act opts layers batch = .ok out) :
    out.map (fun row => row.map Entry.cell) = batch ∧ ∀ row ∈ out, ∀ e ∈ row, e.outs.length = layers.length := by
  have hn' : ∀ row ∈ (batch.map fun row => row.map fun c => (⟨c, []⟩ : Entry S)), row.length = n := by
    intro row hrow
    obtain ⟨r, hr, rfl⟩ := List.mem_map.mp hrow
    rw [List.length_map, hn r hr]
  obtain ⟨h1, h2⟩ := evalLayers_shape h hn'
  refine ⟨?_, ?_⟩
  · rw [h1, List.map_map]
    conv_rhs => rw [← List.map_id batch]
    apply List.map_congr_left
    intro row _
    show (row.map _).map _ = row
    rw [List.map_map]
    exact List.map_id row
  · intro row hrow e he
    have m1 : (row.map fun e => e.outs.length) ∈ out.map fun row => row.map fun e => e.outs.length :=
      List.mem_map.mpr ⟨row, hrow, rfl⟩
    rw [h2] at m1
    obtain ⟨r, hr, hre⟩ := List.mem_map.mp m1
    obtain ⟨b, hb, rfl⟩ := List.mem_map.mp hr
    have m2 : e.outs.length ∈ row.map fun e => e.outs.length := List.mem_map.mpr ⟨e, he, rfl⟩
    rw [← hre, List.map_map] at m2
    obtain ⟨c, _, hc⟩ := List.mem_map.mp m2
    rw [← hc]
    simp

/-! ## C58: bidirectional layers -/

/-- C58.  If the inputs of every bidirectional layer are computed from each word alone, and the outputs of bidirectional layers are
not used by recurrent, convolution, or other bidirectional layers, the outputs of all layers at a time step are the same for any two
mini-batches that only differ in the words of the next time step.

What is missing: other networks with bidirectional layers, for which this does not hold (`C58_violated`). -/
theorem C58_partial {act : Act S} {opts : EvalOptions} {layers : List (Layer S)} {n : Nat} {batch1 batch2 : List (List InputCell)}
    {out1 out2 : List (List (Entry S))} {seen : List Sees} (hs : networkSees layers [] = some seen)
    (hn1 : Rect n batch1) (hn2 : Rect n batch2)
    (h1 : evalNetwork act opts layers batch1 = .ok out1) (h2 : evalNetwork act opts layers batch2 = .ok out2)
    (t : Nat) (hl : batch1.length = batch2.length)
    (hm : (batch1.map fun row => row.map InputCell.mask) = batch2.map fun row => row.map InputCell.mask)
    (hb : ∀ i, i ≠ t + 1 → batch1[i]? = batch2[i]?) : out1[t]? = out2[t]? := by
  have rect : ∀ batch : List (List InputCell), Rect n batch →
      ∀ row ∈ (batch.map fun row => row.map fun c => (⟨c, []⟩ : Entry S)), row.length = n := by
    intro batch hn row hrow
    obtain ⟨r, hr, rfl⟩ := List.mem_map.mp hrow
    rw [List.length_map, hn r hr]
  have outs : ∀ batch : List (List InputCell),
      ∀ row ∈ (batch.map fun row => row.map fun c => (⟨c, []⟩ : Entry S)), ∀ e ∈ row, e.outs.length = ([] : List Sees).length := by
    intro batch row hrow e he
    obtain ⟨r, _, rfl⟩ := List.mem_map.mp hrow
    obtain ⟨c, _, rfl⟩ := List.mem_map.mp he
    rfl
  have hA : Agree t n [] (batch1.map fun row => row.map fun c => (⟨c, []⟩ : Entry S))
      (batch2.map fun row => row.map fun c => (⟨c, []⟩ : Entry S)) := by
    refine ⟨by rw [List.length_map, List.length_map, hl], rect _ hn1, rect _ hn2, outs _, outs _, ?_, ?_, ?_⟩
    · simpa [Function.comp_def] using hm
    · intro i hi
      rw [List.getElem?_map, List.getElem?_map, hb i hi]
    · intro k x hk
      simp at hk
  have hB := evalLayers_agree hA hs h1 h2
  have hc := hB.cells t (by omega)
  by_cases hlt : t < out1.length
  swap
  · rw [List.getElem?_eq_none (by omega), List.getElem?_eq_none (by have := hB.length; omega)]
  have hlt2 : t < out2.length := by rw [← hB.length]; exact hlt
  rw [List.getElem?_eq_getElem hlt, List.getElem?_eq_getElem hlt2] at hc ⊢
  simp only [Option.map_some, Option.some.injEq] at hc ⊢
  have hlen : out1[t].length = out2[t].length := by simpa using congrArg List.length hc
  apply List.ext_getElem hlen
  intro i i1 i2
  have e1 : out1[t][i].cell = out2[t][i].cell := by
    have := congrArg (fun l => l[i]?) hc
    simpa [i1, i2] using this
  have l1 := hB.outs1 _ (List.getElem_mem hlt) _ (List.getElem_mem i1)
  have l2 := hB.outs2 _ (List.getElem_mem hlt2) _ (List.getElem_mem i2)
  have e2 : out1[t][i].outs = out2[t][i].outs := by
    apply List.ext_getElem?
    intro k
    cases hk : seen[k]? with
    | none =>
      have := List.getElem?_eq_none_iff.mp hk
      rw [List.getElem?_eq_none (by omega), List.getElem?_eq_none (by omega)]
    | some x =>
      have := hB.columns k x hk t (by cases x <;> simp [Sees.rows])
      rw [List.getElem?_eq_getElem hlt, List.getElem?_eq_getElem hlt2] at this
      simp only [Option.map_some, Option.some.injEq] at this
      have := congrArg (fun l => l[i]?) this
      simpa [i1, i2] using this
  cases h : out1[t][i]
  cases h' : out2[t][i]
  rw [h, h'] at e1 e2
  simp only at e1 e2
  rw [e1, e2]

/-! ## C59: independence of the rest of the mini-batch -/

theorem map_sel_eq {α : Type} {s1 s2 : Nat} {B1 B2 : List (List α)} {ws : List α} (hl1 : B1.length = ws.length)
    (hl2 : B2.length = ws.length) (h1 : ∀ t, t < ws.length → posAt B1 t s1 = ws[t]?)
    (h2 : ∀ t, t < ws.length → posAt B2 t s2 = ws[t]?) : B1.map (sel s1 1) = B2.map (sel s2 1) := by
  apply List.ext_getElem (by simp [hl1, hl2])
  intro t i1 i2
  rw [List.length_map] at i1 i2
  rw [List.getElem_map, List.getElem_map]
  have e1 := h1 t (by omega)
  have e2 := h2 t (by omega)
  unfold posAt at e1 e2
  rw [List.getElem?_eq_getElem i1, Option.bind_some] at e1
  rw [List.getElem?_eq_getElem i2, Option.bind_some] at e2
  have hsel : ∀ (row : List α) (s : Nat), sel s 1 row = row[s]?.toList := by
    intro row s
    unfold sel
    by_cases hs : s < row.length
    · rw [List.getElem?_eq_getElem hs, List.drop_eq_getElem_cons hs, List.take_succ_cons, List.take_zero]
      rfl
    · rw [List.drop_eq_nil_of_le (by omega), List.getElem?_eq_none (by omega)]
      rfl
  rw [hsel, hsel, e1, e2]

theorem posAt_map_sel {α : Type} {s : Nat} (B : List (List α)) (t : Nat) : posAt (B.map (sel s 1)) t 0 = posAt B t s := by
  unfold posAt
  rw [List.getElem?_map]
  cases B[t]? with
  | none => rfl
  | some row =>
    simp only [Option.map_some, Option.bind_some]
    rw [sel_getElem? s 1 row (by omega), Nat.add_zero]

theorem posAt_take {α : Type} {m t s : Nat} (h : t < m) (B : List (List α)) : posAt (B.take m) t s = posAt B t s := by
  unfold posAt
  rw [List.getElem?_take_of_lt h]

/-- C59.  In two mini-batches of the same length that contain the same sequence, the outputs in the positions of that sequence are
the same, whatever the other sequences are and how many there are.  This holds for all networks. -/
theorem C59_batch {act : Act S} {opts : EvalOptions} {layers : List (Layer S)} {batch1 batch2 : List (List InputCell)}
    {out1 out2 : List (List (Entry S))} {s1 s2 : Nat} {ws : List InputCell} (ht : opts.training = false)
    (h1 : evalNetwork act opts layers batch1 = .ok out1) (h2 : evalNetwork act opts layers batch2 = .ok out2)
    (hl1 : batch1.length = ws.length) (hl2 : batch2.length = ws.length)
    (hs1 : SequenceAt batch1 s1 ws) (hs2 : SequenceAt batch2 s2 ws) (t : Nat) :
    posAt out1 t s1 = posAt out2 t s2 := by
  unfold evalNetwork at h1 h2
  have e1 := evalLayers_sel ht s1 1 h1
  have e2 := evalLayers_sel ht s2 1 h2
  have hb := map_sel_eq hl1 hl2 hs1 hs2
  have hmap : ∀ (s : Nat) (batch : List (List InputCell)),
      (batch.map fun row => row.map fun c => (⟨c, []⟩ : Entry S)).map (sel s 1) =
        (batch.map (sel s 1)).map fun row => row.map fun c => ⟨c, []⟩ := by
    intro s batch
    rw [List.map_map, List.map_map]
    apply List.map_congr_left
    intro row _
    exact sel_map s 1 _ row
  rw [hmap, hb, ← hmap, e2] at e1
  injection e1 with e1
  rw [← posAt_map_sel out1 t, ← posAt_map_sel out2 t, e1]

/-- C59.  In a network without bidirectional layers, the outputs in the positions of a sequence are the same in any two mini-batches
that contain it, whatever the other sequences are, how many there are, and how many time steps of whatever input follow the
sequence.

What is missing: networks with bidirectional layers when the mini-batches have different lengths; then the outputs may differ
(`C59_violated`). -/
theorem C59_partial {act : Act S} {opts : EvalOptions} {layers : List (Layer S)} {batch1 batch2 : List (List InputCell)}
    {out1 out2 : List (List (Entry S))} {s1 s2 : Nat} {ws : List InputCell} (hl : ∀ layer ∈ layers, layer.Forward)
    (ht : opts.training = false)
    (h1 : evalNetwork act opts layers batch1 = .ok out1) (h2 : evalNetwork act opts layers batch2 = .ok out2)
    (hs1 : SequenceAt batch1 s1 ws) (hs2 : SequenceAt batch2 s2 ws) (t : Nat) (htw : t < ws.length) :
    posAt out1 t s1 = posAt out2 t s2 := by
  have cut : ∀ {batch : List (List InputCell)} {out : List (List (Entry S))} {s : Nat},
      evalNetwork act opts layers batch = .ok out → SequenceAt batch s ws →
      evalNetwork act opts layers (batch.take ws.length) = .ok (out.take ws.length) ∧ (batch.take ws.length).length = ws.length ∧
      SequenceAt (batch.take ws.length) s ws := by
    intro batch out s h hs
    refine ⟨?_, ?_, ?_⟩
    · unfold evalNetwork at h ⊢
      rw [List.map_take]
      exact evalLayers_take hl h ws.length
    · rw [List.length_take]
      have := hs (ws.length - 1) (by omega)
      unfold posAt at this
      rw [List.getElem?_eq_getElem (by omega : ws.length - 1 < ws.length)] at this
      have : ws.length - 1 < batch.length := by
        by_contra hc
        rw [List.getElem?_eq_none (by omega)] at this
        cases this
      omega
    · intro t htw
      rw [posAt_take htw]
      exact hs t htw
  obtain ⟨a1, b1, c1⟩ := cut h1 hs1
  obtain ⟨a2, b2, c2⟩ := cut h2 hs2
  have := C59_batch ht a1 a2 b1 b2 c1 c2 t
  rwa [posAt_take htw, posAt_take htw] at this

/-! ## C60: one time step at a time -/

theorem RecState.set_ok {st : RecState S} {vars : List (Arr3 S)} (h : VarsShape st.numSequences vars st.sizes) :
    st.set vars = .ok ⟨st.sizes, st.numSequences, vars⟩ := by
  unfold RecState.set
  rw [if_neg (by rw [h.length_eq]; simp), if_pos]
  rw [List.all_eq_true]
  intro x hx
  have : ∀ (v : List (Arr3 S)) (s : List Nat), VarsShape st.numSequences v s → ∀ x ∈ v.zip s, stateShapeOk st.numSequences x = true := by
    intro v s hv
    induction hv with
    | nil => intro x hx; cases hx
    | cons hh _ ih =>
      intro x hx
      rw [List.zip_cons_cons] at hx
      rcases List.mem_cons.mp hx with rfl | hx
      · unfold stateShapeOk
        simp [hh.1, hh.2.1, hh.2.2]
      · exact ih x hx
  exact this _ _ h x hx

/-- C60.  If the network has no bidirectional and convolution layers, evaluating a mini-batch without masked positions one time step
at a time, starting from a new recurrent state and passing the state from each call to the next, gives the same outputs as
evaluating the whole mini-batch at once. -/
theorem C60 {act : Act S} {opts : EvalOptions} {layers : List (Layer S)} {n : Nat} {batch : List (List InputCell)}
    {out : List (List (Entry S))} {st : RecState S}
    (hl : ∀ layer ∈ layers, layer.Forward ∧ ∀ b k i filters, layer ≠ .glu b k i filters)
    (hn : Rect n batch) (hm : ∀ row ∈ batch, ∀ c ∈ row, c.mask = true)
    (h : evalNetwork act opts layers batch = .ok out) (hst : mkRecState (networkStateSizes layers) n none = .ok st) :
    ∃ st', stepsNetwork act opts layers 0 st batch = .ok (out, st') := by
  have hn' : ∀ row ∈ (batch.map fun row => row.map fun c => (⟨c, []⟩ : Entry S)), row.length = n := by
    intro row hrow
    obtain ⟨r, hr, rfl⟩ := List.mem_map.mp hrow
    rw [List.length_map, hn r hr]
  obtain ⟨s, hs0, hshape, hlen, hstep⟩ := stepLayers_eq hl h hn'
  rw [List.length_map] at hshape hlen
  have hst0 : st = ⟨networkStateSizes layers, n, s 0⟩ := by
    unfold mkRecState RecState.reset at hst
    injection hst with hst
    rw [← hst, hs0]
  have key : ∀ (rest : List (List InputCell)) (t : Nat), batch.drop t = rest → t ≤ batch.length →
      ∃ st', stepsNetwork act opts layers t ⟨networkStateSizes layers, n, s t⟩ rest = .ok (out.drop t, st') := by
    intro rest
    induction rest with
    | nil =>
      intro t hd htl
      have : batch.length ≤ t := by
        have := congrArg List.length hd
        rw [List.length_drop, List.length_nil] at this
        omega
      refine ⟨⟨networkStateSizes layers, n, s t⟩, ?_⟩
      rw [stepsNetwork, List.drop_eq_nil_of_le (by omega)]
    | cons cells rest ih =>
      intro t hd htl
      have htlt : t < batch.length := by
        have := congrArg List.length hd
        rw [List.length_drop, List.length_cons] at this
        omega
      rw [List.drop_eq_getElem_cons htlt] at hd
      injection hd with hc hr
      obtain ⟨st', hst'⟩ := ih (t + 1) hr htlt
      refine ⟨st', ?_⟩
      have hcells : (cells.map fun c => (⟨{ c with mask := true }, []⟩ : Entry S)) = cells.map fun c => ⟨c, []⟩ := by
        apply List.map_congr_left
        intro c hcm
        have := hm cells (hc ▸ List.getElem_mem htlt) c hcm
        cases c
        simp only at this
        rw [this]
      obtain ⟨o, ho, hso⟩ := hstep t (cells.map fun c => ⟨c, []⟩) (by
        rw [List.getElem?_map, List.getElem?_eq_getElem htlt, hc]
        rfl)
      have hso' := hso [] []
      rw [List.nil_append, List.append_nil, List.length_nil] at hso'
      rw [stepsNetwork, stepNetwork, hcells]
      simp only
      rw [hso']
      simp only
      rw [RecState.set_ok (st := ⟨networkStateSizes layers, n, s t⟩) (hshape (t + 1) htlt)]
      simp only
      rw [hst']
      simp only
      have hot := List.getElem?_eq_some_iff.mp ho
      obtain ⟨hoi, hoe⟩ := hot
      rw [List.drop_eq_getElem_cons hoi, hoe]
  obtain ⟨st', hk⟩ := key batch 0 rfl (Nat.zero_le _)
  rw [hst0]
  exact ⟨st', by simpa using hk⟩

theorem stepLayers_steppable {act : Act S} {opts : EvalOptions} {layers : List (Layer S)} {time k index : Nat}
    {state : List (Arr3 S)} {es : List (Entry S)} {r : List (Entry S) × List (Arr3 S)}
    (h : stepLayers act opts time state k index layers es = .ok r) : ∀ layer ∈ layers, Steppable layer := by
  induction layers generalizing es k index r with
  | nil => intro l hl; cases hl
  | cons layer layers ih =>
    rw [stepLayers] at h
    cases h1 : stepLayer act opts layer k time state index (gatherRow layer.inputs es) with
    | error e => rw [h1] at h; cases h
    | ok o =>
      rw [h1] at h
      simp only at h
      cases h2 : stepLayers act opts time state (k + 1) (index + layer.stateSizes.length) layers (addOutputs es o.1) with
      | error e => rw [h2] at h; cases h
      | ok o2 =>
        intro l hl
        rcases List.mem_cons.mp hl with rfl | hl
        · refine ⟨fun kind f b he => ?_, fun b k i filters he => ?_⟩ <;> subst he <;> cases h1
        · exact ih h2 l hl

/-- C60.  A network that has a bidirectional or a convolution layer cannot be evaluated one time step at a time. -/
theorem C60_rejects {act : Act S} {opts : EvalOptions} {layers : List (Layer S)} {time : Nat} {cells : List InputCell}
    {st st' : RecState S} {row : List (Entry S)} (h : stepNetwork act opts layers time st cells = .ok (row, st')) :
    ∀ layer ∈ layers, layer.Forward ∧ ∀ b k i filters, layer ≠ .glu b k i filters := by
  unfold stepNetwork at h
  cases hs : stepLayers act opts time st.vars 0 0 layers (cells.map fun c => ⟨{ c with mask := true }, []⟩) with
  | error e => rw [hs] at h; cases h
  | ok r => exact stepLayers_steppable hs

theorem setState_ok {st st' : RecState S} {vars : List (Arr3 S)} (h : st.set vars = .ok st') :
    st' = ⟨st.sizes, st.numSequences, vars⟩ := by
  unfold RecState.set at h
  split at h
  · cases h
  · split at h
    · injection h with h
      exact h.symm
    · cases h

/-- The states and outputs of the steps. -/
theorem stepsNetwork_states {act : Act S} {opts : EvalOptions} {layers : List (Layer S)} {batch : List (List InputCell)}
    {out : List (List (Entry S))} {time : Nat} {st st' : RecState S}
    (h : stepsNetwork act opts layers time st batch = .ok (out, st')) :
    ∃ s : Nat → List (Arr3 S), s 0 = st.vars ∧ ∀ (t : Nat) (row : List InputCell), batch[t]? = some row →
      ∃ r, stepLayers act opts (time + t) (s t) 0 0 layers (row.map fun c => ⟨{ c with mask := true }, []⟩) = .ok (r, s (t + 1)) := by
  induction batch generalizing time st out with
  | nil => exact ⟨fun _ => st.vars, rfl, fun t row hrow => by cases hrow⟩
  | cons cells rest ih =>
    rw [stepsNetwork] at h
    cases h1 : stepNetwork act opts layers time st cells with
    | error e => rw [h1] at h; cases h
    | ok x =>
      obtain ⟨row, st1⟩ := x
      rw [h1] at h
      simp only at h
      cases h2 : stepsNetwork act opts layers (time + 1) st1 rest with
      | error e => rw [h2] at h; cases h
      | ok y =>
        obtain ⟨rows, st2⟩ := y
        rw [h2] at h
        injection h with h
        injection h with _ h
        subst h
        obtain ⟨s, hs0, hs⟩ := ih h2
        unfold stepNetwork at h1
        cases h3 : stepLayers act opts time st.vars 0 0 layers (cells.map fun c => ⟨{ c with mask := true }, []⟩) with
        | error e => rw [h3] at h1; cases h1
        | ok z =>
          obtain ⟨r, new⟩ := z
          rw [h3] at h1
          simp only at h1
          cases h4 : st.set new with
          | error e => rw [h4] at h1; cases h1
          | ok st3 =>
            rw [h4] at h1
            injection h1 with h1
            injection h1 with _ h1
            have hv : new = st1.vars := by rw [← h1, setState_ok h4]
            refine ⟨fun t => match t with | 0 => st.vars | t + 1 => s t, rfl, ?_⟩
            intro t row' hrow
            cases t with
            | zero =>
              injection hrow with hrow
              subst hrow
              refine ⟨r, ?_⟩
              show stepLayers act opts time st.vars 0 0 layers _ = .ok (r, s 0)
              rw [h3, hs0, hv]
            | succ t =>
              obtain ⟨r', hr'⟩ := hs t row' hrow
              refine ⟨r', ?_⟩
              show stepLayers act opts (time + (t + 1)) (s t) 0 0 layers _ = .ok (r', s (t + 1))
              rw [← hr', show time + (t + 1) = time + 1 + t by omega]

/-- C60, the other direction.  Whenever all time steps can be evaluated one at a time, starting from the initial state, the
mini-batch can be evaluated and has the same outputs. -/
theorem C60_converse {act : Act S} {opts : EvalOptions} {layers : List (Layer S)} {n : Nat} {batch : List (List InputCell)}
    {out : List (List (Entry S))} {st st' : RecState S} (hne : batch ≠ [])
    (hn : Rect n batch) (hm : ∀ row ∈ batch, ∀ c ∈ row, c.mask = true)
    (hst : mkRecState (networkStateSizes layers) n none = .ok st)
    (h : stepsNetwork act opts layers 0 st batch = .ok (out, st')) : evalNetwork act opts layers batch = .ok out := by
  obtain ⟨s, hs0, hs⟩ := stepsNetwork_states h
  have hl : ∀ layer ∈ layers, Steppable layer := by
    cases batch with
    | nil => exact absurd rfl hne
    | cons row rest =>
      obtain ⟨r, hr⟩ := hs 0 row rfl
      exact stepLayers_steppable hr
  have hn' : ∀ row ∈ (batch.map fun row => row.map fun c => (⟨c, []⟩ : Entry S)), row.length = n := by
    intro row hrow
    obtain ⟨r, hr, rfl⟩ := List.mem_map.mp hrow
    rw [List.length_map, hn r hr]
  obtain ⟨r, hr⟩ := evalLayers_of_steps (act := act) (opts := opts) (k := 0) (index := 0) hl
    (table := batch.map fun row => row.map fun c => (⟨c, []⟩ : Entry S)) (by simpa using hne) hn'
    (s := s) (pre := fun _ => []) (post := fun _ => [])
    (by
      unfold mkRecState RecState.reset at hst
      injection hst with hst
      rw [hs0, ← hst])
    (fun _ => rfl)
    (fun t row hrow => by
      rw [List.getElem?_map] at hrow
      cases hb : batch[t]? with
      | none => rw [hb] at hrow; cases hrow
      | some cells =>
        rw [hb] at hrow
        injection hrow with hrow
        obtain ⟨r, hr⟩ := hs t cells hb
        refine ⟨r, ?_⟩
        rw [List.nil_append, List.append_nil, ← hrow, ← hr, Nat.zero_add]
        congr 1
        apply List.map_congr_left
        intro c hc
        have := hm cells (List.mem_of_getElem? hb) c hc
        cases c
        simp only at this
        subst this
        rfl)
  have he : evalNetwork act opts layers batch = .ok r := hr
  obtain ⟨st'', h2⟩ := C60 hl hn hm he hst
  rw [h2] at h
  injection h with h
  injection h with h _
  rw [he, h]

end

/-! ## Bidirectional layers: counterexamples, and networks that meet the hypotheses -/

section
variable {S : Type} [Add S] [Mul S] [Sub S] [Div S] [Zero S] [One S]

/-- A projection of two words to zero and one. -/
def exampleProjection : Basic S := ⟨[0], [none], 1, .tanh, [("W".toList, [[0, 1]])], []⟩

/-- Parameters of a recurrent layer of one unit, where only the candidate depends on the input. -/
def exampleGru (inputs : List Nat) (w : List S) : Basic S :=
  ⟨inputs, [none], 1, .tanh,
    [("layer_input/W".toList, [w.map fun _ => 0, w.map fun _ => 0, w]), ("step_input/W".toList, [[0], [0], [0]])],
    [("layer_input/b".toList, [0, 0, 0])]⟩

/-- A bidirectional layer on top of a projection layer. -/
def exampleBidirectional : List (Layer S) :=
  [.wordInput, .projection exampleProjection, .bidirectional .gru (exampleGru [1] [1]) (exampleGru [1] [1])]

/-- Two bidirectional layers. -/
def exampleStacked : List (Layer S) :=
  [.wordInput, .projection exampleProjection, .bidirectional .gru (exampleGru [1] [1]) (exampleGru [1] [1]),
    .bidirectional .gru (exampleGru [2] [1, 1]) (exampleGru [2] [1, 1])]

def notTraining : EvalOptions := ⟨false, false, fun _ _ _ => []⟩

theorem exampleGru_preactRow (inputs : List Nat) (w : List S) (c : InputCell) (ins : List (Option (Elem S))) :
    preactRow (exampleGru inputs w) [(c, ins)] =
      match concatInputs ins with
      | .error e => .error e
      | .ok x => .ok [(c.mask, [dot x (w.map fun _ => 0) + 0, dot x (w.map fun _ => 0) + 0, dot x w + 0])] := by
  unfold preactRow
  rw [mapE, inputPreact]
  cases concatInputs ins <;> rfl

theorem exampleGru_weights (inputs : List Nat) (w : List S) :
    getParam ['s', 't', 'e', 'p', '_', 'i', 'n', 'p', 'u', 't', '/', 'W'] none (exampleGru inputs w).weights =
      .ok [[0], [0], [0]] := rfl

theorem exampleGru_inputs (inputs : List Nat) (w : List S) : (exampleGru inputs w).inputs = inputs := rfl

theorem exampleGru_size (inputs : List Nat) (w : List S) : (exampleGru inputs w).size = 1 := rfl

theorem exampleProjection_inputs : (exampleProjection : Basic S).inputs = [0] := rfl

theorem exampleProjection_zero : projectionElem (exampleProjection : Basic S) [some (.id 0)] = .ok (.vec [0]) := rfl

theorem exampleProjection_one : projectionElem (exampleProjection : Basic S) [some (.id 1)] = .ok (.vec [1]) := rfl

end

theorem realAct_tanh_zero : realAct.tanh 0 = 0 := by simp [realAct]

theorem realAct_sigmoid_zero : realAct.sigmoid 0 = 1 / 2 := by
  simp only [realAct]
  norm_num

theorem realAct_tanh_pos {x : ℝ} (h : 0 < x) : 0 < realAct.tanh x := by
  have h1 : Real.exp (-x) < Real.exp x := Real.exp_lt_exp.mpr (by linarith)
  have h2 := Real.exp_pos (-x)
  show 0 < (Real.exp x - Real.exp (-x)) / (Real.exp x + Real.exp (-x))
  exact div_pos (by linarith) (by linarith)

/-- One step of the example layer, for one sequence. -/
theorem exampleGru_step (inputs : List Nat) (w : List ℝ) (m : Bool) (c h : ℝ) :
    rowStep realAct .gru (exampleGru inputs w) [[0], [0], [0]] [(m, [0, 0, c])] [⟨[], [h]⟩] =
      [⟨[], if m then [(1 - 1 / 2) * h + 1 / 2 * realAct.tanh c] else [h]⟩] := by
  have h0 := realAct_sigmoid_zero
  simp [rowStep, cellStep, gruStep, submatrix, vadd, vmul, oneMinus, dot, exampleGru, h0]

/-- C59 does not hold for networks with bidirectional layers: padding after a sequence, although it is masked, enters the backward
layer, since the input (but not the mask) is shifted by two time steps.  The witness uses the real functions. -/
theorem C59_violated : ∃ (layers : List (Layer ℝ)) (batch1 batch2 : List (List InputCell)) (out1 out2 : List (List (Entry ℝ)))
    (ws : List InputCell), evalNetwork realAct notTraining layers batch1 = .ok out1 ∧
      evalNetwork realAct notTraining layers batch2 = .ok out2 ∧ SequenceAt batch1 0 ws ∧ SequenceAt batch2 0 ws ∧
      (∀ c ∈ ws, c.mask = true) ∧ (∀ row ∈ batch1.drop ws.length, ∀ c ∈ row, c.mask = false) ∧
      (∀ row ∈ batch2.drop ws.length, ∀ c ∈ row, c.mask = false) ∧ 0 < ws.length ∧ posAt out1 0 0 ≠ posAt out2 0 0 := by
  have h0 := realAct_tanh_zero
  obtain ⟨out1, h1, p1⟩ : ∃ out, evalNetwork realAct notTraining exampleBidirectional [[⟨0, 0, true⟩]] = .ok out ∧
      posAt out 0 0 = some ⟨⟨0, 0, true⟩, [.id 0, .vec [0], .vec [0, 0]]⟩ := by
    simp [evalNetwork, evalLayers, evalLayer, exampleBidirectional, gather, gatherRow, Layer.inputs, pointRows, pointRow, pointFun,
      pointElem, inputElem, addOutputs, exampleProjection_zero, exampleGru_inputs, exampleGru_size, exampleProjection_inputs,
      recurrentLayer, mapE, exampleGru_preactRow, exampleGru_weights, concatInputs, elemVec, dot, numSequences, scan, backwardRows,
      shiftLeft, zeroState, exampleGru_step, h0, posAt]
  obtain ⟨out2, h2, p2⟩ : ∃ out, evalNetwork realAct notTraining exampleBidirectional
      [[⟨0, 0, true⟩], [⟨1, 0, false⟩], [⟨1, 0, false⟩]] = .ok out ∧
      posAt out 0 0 = some ⟨⟨0, 0, true⟩, [.id 0, .vec [0], .vec [0, 1 / 2 * realAct.tanh 1]]⟩ := by
    simp [evalNetwork, evalLayers, evalLayer, exampleBidirectional, gather, gatherRow, Layer.inputs, pointRows, pointRow, pointFun,
      pointElem, inputElem, addOutputs, exampleProjection_zero, exampleProjection_one, exampleGru_inputs, exampleGru_size,
      exampleProjection_inputs, recurrentLayer, mapE, exampleGru_preactRow, exampleGru_weights, concatInputs, elemVec, dot,
      numSequences, scan, backwardRows, shiftLeft, zeroState, exampleGru_step, h0, posAt]
  refine ⟨exampleBidirectional, _, _, out1, out2, [⟨0, 0, true⟩], h1, h2, ?_, ?_, by simp, by simp, by simp, by simp, ?_⟩
  · intro t ht
    match t, ht with
    | 0, _ => rfl
  · intro t ht
    match t, ht with
    | 0, _ => rfl
  · rw [p1, p2]
    have := realAct_tanh_pos (x := 1) (by norm_num)
    intro hc
    simp only [Option.some.injEq, Entry.mk.injEq, List.cons.injEq, Elem.vec.injEq] at hc
    linarith [hc.2.2.2.1.2.1]

/-- C58 does not hold for two bidirectional layers on top of each other: the second one reads, from the second next time step on,
outputs of the first one that depend on the next word.  The mini-batches of the witness only differ in the word of time step 1, and
the outputs of time step 0 differ.  The witness uses the real functions. -/
theorem C58_violated : ∃ (layers : List (Layer ℝ)) (batch1 batch2 : List (List InputCell)) (out1 out2 : List (List (Entry ℝ))),
    evalNetwork realAct notTraining layers batch1 = .ok out1 ∧ evalNetwork realAct notTraining layers batch2 = .ok out2 ∧
      Rect 1 batch1 ∧ Rect 1 batch2 ∧ batch1.length = batch2.length ∧
      (batch1.map fun row => row.map InputCell.mask) = (batch2.map fun row => row.map InputCell.mask) ∧
      (∀ i, i ≠ 0 + 1 → batch1[i]? = batch2[i]?) ∧ out1[0]? ≠ out2[0]? := by
  have h0 := realAct_tanh_zero
  obtain ⟨out1, h1, p1⟩ : ∃ out, evalNetwork realAct notTraining exampleStacked [[⟨0, 0, true⟩], [⟨0, 0, true⟩], [⟨0, 0, true⟩]] =
      .ok out ∧ out[0]? = some [⟨⟨0, 0, true⟩, [.id 0, .vec [0], .vec [0, 0], .vec [0, 0]]⟩] := by
    simp [evalNetwork, evalLayers, evalLayer, exampleStacked, gather, gatherRow, Layer.inputs, pointRows, pointRow, pointFun,
      pointElem, inputElem, addOutputs, exampleProjection_zero, exampleGru_inputs, exampleGru_size, exampleProjection_inputs,
      recurrentLayer, mapE, exampleGru_preactRow, exampleGru_weights, concatInputs, elemVec, dot, numSequences, scan, backwardRows,
      shiftLeft, zeroState, exampleGru_step, h0]
  obtain ⟨out2, x, h2, p2, hx⟩ : ∃ out x, evalNetwork realAct notTraining exampleStacked
      [[⟨0, 0, true⟩], [⟨1, 0, true⟩], [⟨0, 0, true⟩]] = .ok out ∧
      out[0]? = some [⟨⟨0, 0, true⟩, [.id 0, .vec [0], .vec [0, 0], .vec [0, 1 / 2 * realAct.tanh x]]⟩] ∧ 0 < x := by
    have h1 := realAct_tanh_pos (x := 1) (by norm_num)
    suffices h : ∃ out, evalNetwork realAct notTraining exampleStacked
        [[⟨0, 0, true⟩], [⟨1, 0, true⟩], [⟨0, 0, true⟩]] = .ok out ∧
        out[0]? = some [⟨⟨0, 0, true⟩, [.id 0, .vec [0], .vec [0, 0],
          .vec [0, 1 / 2 * realAct.tanh (1 / 2 * (1 / 2 * realAct.tanh 1))]]⟩] by
      obtain ⟨out, ho, hp⟩ := h
      exact ⟨out, _, ho, hp, by positivity⟩
    simp [evalNetwork, evalLayers, evalLayer, exampleStacked, gather, gatherRow, Layer.inputs, pointRows, pointRow, pointFun,
      pointElem, inputElem, addOutputs, exampleProjection_zero, exampleProjection_one, exampleGru_inputs, exampleGru_size,
      exampleProjection_inputs, recurrentLayer, mapE, exampleGru_preactRow, exampleGru_weights, concatInputs, elemVec, dot,
      numSequences, scan, backwardRows, shiftLeft, zeroState, exampleGru_step, h0]
    norm_num
  refine ⟨exampleStacked, _, _, out1, out2, h1, h2, by simp [Rect], by simp [Rect], rfl, rfl, ?_, ?_⟩
  · intro i hi
    match i, hi with
    | 0, _ => rfl
    | 2, _ => rfl
    | i + 3, _ => rfl
  · rw [p1, p2]
    have := realAct_tanh_pos hx
    intro hc
    simp only [Option.some.injEq, Entry.mk.injEq, List.cons.injEq, Elem.vec.injEq] at hc
    linarith [hc.1.2.2.2.2.1.2.1]

/-- Used in examples. -/
instance decidableIsOk {α : Type} {r : Except Err α} : Decidable (∃ v, r = .ok v) :=
  match r with
  | .error _ => .isFalse (by rintro ⟨v, h⟩; cases h)
  | .ok v => .isTrue ⟨v, rfl⟩

/-- Rational functions, for computing the examples. -/
def ratAct : Act ℚ where
  tanh x := x / (1 + |x|)
  sigmoid x := 1 / 2 + x / (2 + 2 * |x|)
  relu x := max 0 x
  leakyRelu x := max (3 / 10 * x) x
  exp x := if 0 ≤ x then 1 + x else 1 / (1 - x)

/-- Parameters with the given names. -/
def exampleBasic (inputs : List Nat) (size : Nat) (weights : List (String × List (List ℚ))) (biases : List (String × List ℚ)) : Basic ℚ :=
  ⟨inputs, [none], size, .tanh, weights.map fun p => (p.1.toList, p.2), biases.map fun p => (p.1.toList, p.2)⟩

/-- A network with one layer of each kind that can be evaluated one time step at a time, and a convolution layer if wanted. -/
def exampleForward (convolution : Bool) : List (Layer ℚ) :=
  [.wordInput,
    .projection (exampleBasic [0] 1 [("W", [[1, 2, -1]])] []),
    .recurrent .lstm (exampleBasic [1] 1 [("layer_input/W", [[1], [2], [3], [4]]), ("step_input/W", [[1], [-1], [2], [1]])]
      [("layer_input/b", [0, 1, 0, 1])]),
    .recurrent .gru (exampleBasic [2, 1] 1 [("layer_input/W", [[1, 0], [2, 1], [3, 1]]), ("step_input/W", [[1], [-1], [2]])]
      [("layer_input/b", [0, 1, 0])]),
    .highway (exampleBasic [3] 1 [("input/W", [[2], [1]])] [("input/b", [1, -1])]),
    .fullyConnected (exampleBasic [4, 2] 2 [("input/W", [[2, 1], [1, 1]])] [("input/b", [1, -1])]),
    .addition (exampleBasic [5, 4] 2 [("input1/W", [[2], [1]])] []) [2, 1],
    .dropout (exampleBasic [6] 2 [] []) 2] ++
  (if convolution then [.glu (exampleBasic [7] 1 [] [("input/b", [0, 1])]) 2 2
      [("input/W".toList, [[[1, 2], [3, 4]], [[-1, 0], [1, -1]]])]]
    else [.fullyConnected (exampleBasic [7] 1 [("input/W", [[2, 1]])] [("input/b", [1])])]) ++
  [.softmax (exampleBasic [8] 3 [("input/W", [[1], [0], [-1]])] [("input/b", [0, 1, 0])]) 2]

theorem exampleForward_forward (convolution : Bool) : ∀ layer ∈ exampleForward convolution, layer.Forward := by
  intro layer hl kind f b he
  subst he
  cases convolution <;> simp [exampleForward] at hl

/-- The hypotheses of C57 and C59: a sequence of two words with another one of three words, and with padding only. -/
example : (∃ out, evalNetwork ratAct notTraining (exampleForward true)
      [[⟨0, 0, true⟩, ⟨1, 0, true⟩], [⟨2, 0, true⟩, ⟨1, 0, true⟩], [⟨0, 0, false⟩, ⟨2, 0, true⟩]] = .ok out) ∧
    (∃ out, evalNetwork ratAct notTraining (exampleForward true) [[⟨0, 0, true⟩], [⟨2, 0, true⟩]] = .ok out) := by decide +kernel

/-- The outputs do depend on the words: not all outputs are the same. -/
example : evalNetwork ratAct notTraining (exampleForward true) [[⟨0, 0, true⟩], [⟨2, 0, true⟩]] ≠
    evalNetwork ratAct notTraining (exampleForward true) [[⟨0, 0, true⟩], [⟨1, 0, true⟩]] := by decide +kernel

/-- C58: the hypotheses, with a network that has a bidirectional layer and a recurrent layer next to each other. -/
example : networkSees (exampleBidirectional ++ [Layer.recurrent .gru (exampleGru [1] [(1 : ℚ)]),
      .fullyConnected (exampleBasic [2, 3] 1 [("input/W", [[2, 1, 3]])] [("input/b", [1])])]) [] =
    some [.here, .here, .around, .past, .around] := by decide

example : ∃ out, evalNetwork ratAct notTraining (exampleBidirectional ++ [Layer.recurrent .gru (exampleGru [1] [(1 : ℚ)]),
      .fullyConnected (exampleBasic [2, 3] 1 [("input/W", [[2, 1, 3]])] [("input/b", [1])])])
      [[⟨0, 0, true⟩], [⟨1, 0, true⟩], [⟨0, 0, true⟩]] = .ok out := by decide +kernel

/-- The network of `C58_violated` is not one of those in `C58_partial`. -/
example : networkSees (exampleStacked : List (Layer ℚ)) [] = none := by decide

/-- C60: the hypotheses. -/
example : (∀ layer ∈ exampleForward false, layer.Forward ∧ ∀ b k i filters, layer ≠ .glu b k i filters) ∧
    (∃ out, evalNetwork ratAct notTraining (exampleForward false)
      [[⟨0, 0, true⟩, ⟨1, 0, true⟩], [⟨2, 0, true⟩, ⟨1, 0, true⟩], [⟨0, 0, true⟩, ⟨2, 0, true⟩]] = .ok out) := by
  refine ⟨fun layer hl => ⟨exampleForward_forward false layer hl, ?_⟩, by decide +kernel⟩
  intro b k i filters he
  subst he
  simp [exampleForward] at hl

/-- C60, computed. -/
example : ∃ st out st', mkRecState (networkStateSizes (exampleForward false)) 1 none = .ok st ∧
    evalNetwork ratAct notTraining (exampleForward false) [[⟨0, 0, true⟩], [⟨2, 0, true⟩], [⟨1, 0, true⟩]] = .ok out ∧
    stepsNetwork ratAct notTraining (exampleForward false) 0 st [[⟨0, 0, true⟩], [⟨2, 0, true⟩], [⟨1, 0, true⟩]] = .ok (out, st') := by
  have hn : Rect 1 [[(⟨0, 0, true⟩ : InputCell)], [⟨2, 0, true⟩], [⟨1, 0, true⟩]] := by simp [Rect]
  obtain ⟨out, hout⟩ : ∃ out, evalNetwork ratAct notTraining (exampleForward false)
      [[⟨0, 0, true⟩], [⟨2, 0, true⟩], [⟨1, 0, true⟩]] = .ok out := by decide +kernel
  obtain ⟨st', h⟩ := C60 (fun layer hl => ⟨exampleForward_forward false layer hl, fun b k i filters he => by
    subst he; simp [exampleForward] at hl⟩) hn (by simp) hout (st := RecState.reset ⟨networkStateSizes (exampleForward false), 1, []⟩) rfl
  exact ⟨_, out, st', rfl, hout, h⟩

end TheanoLM
