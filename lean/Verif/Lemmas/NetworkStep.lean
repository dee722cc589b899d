import Verif.Lemmas.Network
import Mathlib.Data.List.Forall2
/-!
# Lemmas about the evaluation of networks: one time step at a time
-/
namespace TheanoLM
set_option linter.unusedSectionVars false

theorem scan_getElem? {α β : Type} (step : α → β → β) (st : β) (xs : List α) {t : Nat} (ht : t < xs.length) :
    (scan step st xs)[t]? = some ((xs.take (t + 1)).foldl (fun s x => step x s) st) := by
  induction xs generalizing st t with
  | nil => simp at ht
  | cons x xs ih =>
    cases t with
    | zero => simp [scan]
    | succ t =>
      have := ih (step x st) (t := t) (by simpa using ht)
      simpa [scan] using this

theorem foldl_take_succ {α β : Type} (step : α → β → β) (st : β) (xs : List α) {t : Nat} {x : α} (hx : xs[t]? = some x) :
    (xs.take (t + 1)).foldl (fun s x => step x s) st = step x ((xs.take t).foldl (fun s x => step x s) st) := by
  rw [List.take_add_one, hx, List.foldl_append]
  rfl

variable {S : Type} [Add S] [Mul S] [Sub S] [Div S] [Zero S] [One S]

/-- The states of a layer of the given kind. -/
def KindStates (kind : CellKind) (sts : List (SeqState S)) : Prop := kind = .gru → ∀ st ∈ sts, st.c = []

theorem getElem?_prefix {α : Type} (pre x post : List α) (i : Nat) : (pre ++ (x ++ post))[pre.length + i]? = (x ++ post)[i]? := by
  rw [List.getElem?_append_right (by omega)]
  congr 1
  omega

theorem zipWith_mk (sts : List (SeqState S)) :
    List.zipWith SeqState.mk (sts.map SeqState.c) (sts.map SeqState.h) = sts := by
  induction sts with
  | nil => rfl
  | cons st sts ih => simp [ih]

theorem readStates_writeStates (kind : CellKind) (size : Nat) (sts : List (SeqState S)) (hk : KindStates kind sts)
    (pre post : List (Arr3 S)) : readStates kind (pre ++ (writeStates kind size sts ++ post)) pre.length = .ok sts := by
  cases kind with
  | lstm =>
    have h0 := getElem?_prefix pre (writeStates .lstm size sts) post 0
    have h1 := getElem?_prefix pre (writeStates .lstm size sts) post 1
    have e0 : stateInput (pre ++ (writeStates .lstm size sts ++ post)) pre.length = .ok (sts.map SeqState.c) := by
      unfold stateInput
      rw [Nat.add_zero] at h0
      rw [h0]
      rfl
    have e1 : stateInput (pre ++ (writeStates .lstm size sts ++ post)) (pre.length + 1) = .ok (sts.map SeqState.h) := by
      unfold stateInput
      rw [h1]
      rfl
    unfold readStates
    simp only
    rw [e0]
    simp only
    rw [e1]
    simp only
    rw [zipWith_mk]
  | gru =>
    have h0 := getElem?_prefix pre (writeStates .gru size sts) post 0
    have e0 : stateInput (pre ++ (writeStates .gru size sts ++ post)) pre.length = .ok (sts.map SeqState.h) := by
      unfold stateInput
      rw [Nat.add_zero] at h0
      rw [h0]
      rfl
    unfold readStates
    simp only
    rw [e0]
    simp only
    congr 1
    rw [List.map_map]
    conv_rhs => rw [← List.map_id sts]
    apply List.map_congr_left
    intro st hst
    have := hk rfl st hst
    cases st
    simp only at this
    subst this
    rfl

theorem rowStep_kind (act : Act S) (kind : CellKind) (b : Basic S) (hw : List (List S)) (row : List (Bool × List S))
    (sts : List (SeqState S)) : KindStates kind (rowStep act kind b hw row sts) := by
  rintro rfl st hst
  unfold rowStep at hst
  rw [List.mem_iff_getElem] at hst
  obtain ⟨i, hi, rfl⟩ := hst
  rw [List.getElem_zipWith]
  rfl

/-- The shapes of the state variables. -/
def VarsShape (n : Nat) (vars : List (Arr3 S)) (sizes : List Nat) : Prop :=
  List.Forall₂ (fun a s => a.d0 = 1 ∧ a.d1 = n ∧ a.d2 = s) vars sizes

theorem VarsShape.append {n : Nat} {v w : List (Arr3 S)} {s t : List Nat} (h1 : VarsShape n v s) (h2 : VarsShape n w t) :
    VarsShape n (v ++ w) (s ++ t) := by
  unfold VarsShape at *
  induction h1 with
  | nil => exact h2
  | cons h _ ih => exact .cons h ih

theorem writeStates_shape (kind : CellKind) (b : Basic S) (sts : List (SeqState S)) :
    VarsShape sts.length (writeStates kind b.size sts) (Layer.stateSizes (.recurrent kind b)) := by
  cases kind
  · exact .cons ⟨rfl, rfl, rfl⟩ (.cons ⟨rfl, rfl, rfl⟩ .nil)
  · exact .cons ⟨rfl, rfl, rfl⟩ .nil

/-- A layer that can be evaluated one time step at a time. -/
def Steppable (layer : Layer S) : Prop :=
  (∀ kind f b, layer ≠ .bidirectional kind f b) ∧ ∀ b k i filters, layer ≠ .glu b k i filters

/-- One layer: evaluating it one time step at a time gives the outputs of the mini-batch. -/
theorem stepLayer_eq {act : Act S} {opts : EvalOptions} {layer : Layer S} {k n : Nat} {g : List (List (Pos S))}
    {outs : List (List (Elem S))} (hl : Steppable layer) (h : evalLayer act opts layer k g = .ok outs)
    (hn : ∀ row ∈ g, row.length = n) :
    ∃ s : Nat → List (Arr3 S), s 0 = layer.stateSizes.map (Arr3.zeros 1 n) ∧
      (∀ t, t ≤ g.length → VarsShape n (s t) layer.stateSizes) ∧ outs.length = g.length ∧ (∀ row ∈ outs, row.length = n) ∧
      ∀ (t : Nat) (row : List (Pos S)), g[t]? = some row → ∃ out, outs[t]? = some out ∧
        ∀ pre post, stepLayer act opts layer k t (pre ++ (s t ++ post)) pre.length row = .ok (out, s (t + 1)) := by
  have hpoint : ∀ (l : Layer S), (∀ state index t row, stepLayer act opts l k t state index row =
      match pointRow (pointFun act opts l k t) 0 row with
      | .error e => .error e
      | .ok outs => .ok (outs, [])) → l.stateSizes = [] → pointRows (pointFun act opts l k) 0 g = .ok outs →
      ∃ s : Nat → List (Arr3 S), s 0 = l.stateSizes.map (Arr3.zeros 1 n) ∧
      (∀ t, t ≤ g.length → VarsShape n (s t) l.stateSizes) ∧ outs.length = g.length ∧ (∀ row ∈ outs, row.length = n) ∧
      ∀ (t : Nat) (row : List (Pos S)), g[t]? = some row → ∃ out, outs[t]? = some out ∧
        ∀ pre post, stepLayer act opts l k t (pre ++ (s t ++ post)) pre.length row = .ok (out, s (t + 1)) := by
    intro l hstep hsz hp
    have hlen : outs.length = g.length := by
      clear hn h
      generalize 0 = time at hp
      induction g generalizing outs time with
      | nil => injection hp with hp; subst hp; rfl
      | cons p g ih =>
        obtain ⟨b, bs, _, h2, rfl⟩ := pointRows_cons_ok hp
        simp [ih _ h2]
    have hout : ∀ (t : Nat) (row : List (Pos S)), g[t]? = some row →
        ∃ out, outs[t]? = some out ∧ pointRow (pointFun act opts l k t) 0 row = .ok out := by
      intro t row hrow
      have hg := pointRows_getElem? hp t
      rw [hrow, Option.bind_some, Nat.zero_add] at hg
      have ht : t < outs.length := by
        have := (List.getElem?_eq_some_iff.mp hrow).1
        omega
      refine ⟨outs[t], List.getElem?_eq_getElem ht, ?_⟩
      rw [List.getElem?_eq_getElem ht] at hg
      cases hr : pointRow (pointFun act opts l k t) 0 row with
      | error e => rw [hr] at hg; cases hg
      | ok o => rw [hr] at hg; injection hg with hg; rw [hg]
    refine ⟨fun _ => [], by rw [hsz]; rfl, fun t _ => by rw [hsz]; exact .nil, hlen, ?_, ?_⟩
    · intro row hrow
      obtain ⟨t, ht, rfl⟩ := List.getElem_of_mem hrow
      have htg : t < g.length := by omega
      obtain ⟨out, ho, hp'⟩ := hout t g[t] (List.getElem?_eq_getElem htg)
      rw [List.getElem?_eq_getElem ht] at ho
      injection ho with ho
      rw [ho, pointRow_length hp', hn _ (List.getElem_mem htg)]
    · intro t row hrow
      obtain ⟨out, ho, hp'⟩ := hout t row hrow
      refine ⟨out, ho, fun pre post => ?_⟩
      rw [hstep, hp']
  cases layer with
  | recurrent kind b =>
    unfold evalLayer at h
    simp only at h
    cases hr : recurrentLayer act kind b false g with
    | error e => rw [hr] at h; cases h
    | ok sts =>
      rw [hr] at h
      injection h with h
      unfold recurrentLayer at hr
      cases hm : mapE (preactRow b) g with
      | error e => rw [hm] at hr; cases hr
      | ok rows =>
        rw [hm] at hr
        simp only at hr
        cases hw : getParam "step_input/W".toList none b.weights with
        | error e => rw [hw] at hr; cases hr
        | ok hWeights =>
          rw [hw] at hr
          simp only at hr
          rw [if_neg (by simp)] at hr
          injection hr with hr
          have hrl : rows.length = g.length := mapE_length hm
          have hrow : ∀ (t : Nat) (p : List (Pos S)), g[t]? = some p → ∃ x, rows[t]? = some x ∧ preactRow b p = .ok x ∧ x.length = n := by
            intro t p hp
            have hg := mapE_getElem? hm t
            rw [hp, Option.bind_some] at hg
            have htg := (List.getElem?_eq_some_iff.mp hp).1
            have ht : t < rows.length := by omega
            rw [List.getElem?_eq_getElem ht] at hg
            cases hx : preactRow b p with
            | error e => rw [hx] at hg; cases hg
            | ok x =>
              rw [hx] at hg
              injection hg with hg
              refine ⟨x, by rw [List.getElem?_eq_getElem ht, hg], rfl, ?_⟩
              rw [mapE_length hx]
              exact hn p (List.mem_of_getElem? hp)
          let init : List (SeqState S) := List.replicate n (zeroState kind b.size)
          let σ : Nat → List (SeqState S) := fun t =>
            (rows.take t).foldl (fun s x => rowStep act kind b hWeights x s) init
          have hσ0 : σ 0 = init := rfl
          have hσs : ∀ (t : Nat) (x : List (Bool × List S)), rows[t]? = some x → σ (t + 1) = rowStep act kind b hWeights x (σ t) := by
            intro t x hx
            exact foldl_take_succ (fun x s => rowStep act kind b hWeights x s) init rows hx
          have hσl : ∀ t, t ≤ g.length → (σ t).length = n := by
            intro t
            induction t with
            | zero => intro _; rw [hσ0]; exact List.length_replicate
            | succ t ih =>
              intro ht
              obtain ⟨x, hx, _, hxl⟩ := hrow t g[t] (List.getElem?_eq_getElem (by omega))
              rw [hσs t x hx]
              unfold rowStep
              rw [List.length_zipWith, hxl, ih (by omega), Nat.min_self]
          have hσk : ∀ t, t ≤ g.length → KindStates kind (σ t) := by
            intro t ht
            cases t with
            | zero =>
              rintro rfl st hst
              rw [hσ0] at hst
              rw [List.eq_of_mem_replicate hst]
              rfl
            | succ t =>
              obtain ⟨x, hx, _, _⟩ := hrow t g[t] (List.getElem?_eq_getElem (by omega))
              rw [hσs t x hx]
              exact rowStep_kind _ _ _ _ _ _
          have hinit : g ≠ [] → List.replicate (numSequences g) (zeroState kind b.size) = init := by
            intro hne
            cases g with
            | nil => exact absurd rfl hne
            | cons row g =>
              have : numSequences (row :: g) = n := hn row List.mem_cons_self
              rw [this]
          have hsts : ∀ t, t < g.length → sts[t]? = some (σ (t + 1)) := by
            intro t ht
            rw [← hr, hinit (by rintro rfl; simp at ht)]
            exact scan_getElem? (rowStep act kind b hWeights) init rows (by omega)
          have hstl : sts.length = g.length := by rw [← hr, scan_length, hrl]
          refine ⟨fun t => writeStates kind b.size (σ t), ?_, ?_, ?_, ?_, ?_⟩
          · show writeStates kind b.size init = _
            cases kind <;> simp [writeStates, init, Layer.stateSizes, Arr3.zeros, zeroState]
          · intro t ht
            have := writeStates_shape kind b (σ t)
            rwa [hσl t ht] at this
          · rw [← h, List.length_map, hstl]
          · intro row hrow'
            rw [← h] at hrow'
            obtain ⟨st, hst, rfl⟩ := List.mem_map.mp hrow'
            obtain ⟨t, ht, rfl⟩ := List.getElem_of_mem hst
            have := hsts t (by omega)
            rw [List.getElem?_eq_getElem ht] at this
            injection this with this
            rw [this]
            simp only [hiddenOutput, List.length_map]
            exact hσl (t + 1) (by omega)
          · intro t row hp
            have htg := (List.getElem?_eq_some_iff.mp hp).1
            obtain ⟨x, hx, hpx, _⟩ := hrow t row hp
            refine ⟨hiddenOutput (σ (t + 1)), ?_, ?_⟩
            · rw [← h, List.getElem?_map, hsts t htg]
              rfl
            · intro pre post
              unfold stepLayer
              simp only
              rw [hpx]
              simp only
              rw [hw]
              simp only
              rw [readStates_writeStates kind b.size (σ t) (hσk t (by omega)) pre post]
              simp only
              rw [hσs t x hx]
  | bidirectional kind f b => exact absurd rfl (hl.1 kind f b)
  | glu b fs is filters => exact absurd rfl (hl.2 b fs is filters)
  | _ => exact hpoint _ (fun _ _ _ _ => rfl) rfl h

theorem addOutputs_length (row : List (Entry S)) (outs : List (Elem S)) :
    (addOutputs row outs).length = min row.length outs.length := List.length_zipWith

/-- All layers. -/
theorem stepLayers_eq {act : Act S} {opts : EvalOptions} {layers : List (Layer S)} {k n : Nat} {table r : List (List (Entry S))}
    (hl : ∀ layer ∈ layers, Steppable layer) (h : evalLayers act opts k layers table = .ok r)
    (hn : ∀ row ∈ table, row.length = n) :
    ∃ s : Nat → List (Arr3 S), s 0 = (networkStateSizes layers).map (Arr3.zeros 1 n) ∧
      (∀ t, t ≤ table.length → VarsShape n (s t) (networkStateSizes layers)) ∧ r.length = table.length ∧
      ∀ (t : Nat) (row : List (Entry S)), table[t]? = some row → ∃ out, r[t]? = some out ∧
        ∀ pre post, stepLayers act opts t (pre ++ (s t ++ post)) k pre.length layers row = .ok (out, s (t + 1)) := by
  induction layers generalizing k table with
  | nil =>
    rw [evalLayers] at h
    injection h with h
    subst h
    exact ⟨fun _ => [], rfl, fun _ _ => .nil, rfl, fun t row hrow => ⟨row, hrow, fun _ _ => rfl⟩⟩
  | cons layer layers ih =>
    rw [evalLayers] at h
    cases he : evalLayer act opts layer k (gather layer.inputs table) with
    | error e => rw [he] at h; cases h
    | ok outs =>
      rw [he] at h
      simp only at h
      have hg : ∀ row ∈ gather layer.inputs table, row.length = n := by
        intro row hrow
        obtain ⟨r', hr', rfl⟩ := List.mem_map.mp hrow
        simp only [gatherRow, List.length_map]
        exact hn r' hr'
      have hgl : (gather layer.inputs table).length = table.length := List.length_map ..
      obtain ⟨s1, hz1, hs1, ho1, hr1, hstep1⟩ := stepLayer_eq (hl layer List.mem_cons_self) he hg
      rw [hgl] at hs1 ho1
      have htl : (List.zipWith addOutputs table outs).length = table.length := by
        rw [List.length_zipWith, ho1, Nat.min_self]
      have hn2 : ∀ row ∈ List.zipWith addOutputs table outs, row.length = n := by
        intro row hrow
        obtain ⟨t, ht, rfl⟩ := List.getElem_of_mem hrow
        rw [List.getElem_zipWith, addOutputs_length, hn _ (List.getElem_mem _), hr1 _ (List.getElem_mem _), Nat.min_self]
      obtain ⟨s2, hz2, hs2, ho2, hstep2⟩ := ih (fun l hm => hl l (List.mem_cons_of_mem _ hm)) h hn2
      rw [htl] at hs2 ho2
      refine ⟨fun t => s1 t ++ s2 t, ?_, ?_, ho2, ?_⟩
      · show s1 0 ++ s2 0 = _
        rw [hz1, hz2, networkStateSizes, networkStateSizes, List.flatMap_cons, List.map_append]
      · intro t ht
        exact (hs1 t ht).append (hs2 t ht)
      · intro t row hrow
        obtain ⟨out1, hout1, hst1⟩ := hstep1 t (gatherRow layer.inputs row) (by
          unfold gather; rw [List.getElem?_map, hrow]; rfl)
        obtain ⟨out2, hout2, hst2⟩ := hstep2 t (addOutputs row out1) (by
          rw [List.getElem?_zipWith, hrow, hout1])
        refine ⟨out2, hout2, fun pre post => ?_⟩
        rw [stepLayers]
        have a1 := hst1 pre (s2 t ++ post)
        have a2 := hst2 (pre ++ s1 t) post
        have e1 : pre ++ (s1 t ++ s2 t ++ post) = pre ++ (s1 t ++ (s2 t ++ post)) := by simp
        have e2 : pre ++ s1 t ++ (s2 t ++ post) = pre ++ (s1 t ++ (s2 t ++ post)) := by simp
        rw [e2] at a2
        rw [e1, a1]
        simp only
        have htt : t ≤ table.length := le_of_lt (List.getElem?_eq_some_iff.mp hrow).1
        have hlen : (pre ++ s1 t).length = pre.length + layer.stateSizes.length := by
          rw [List.length_append, (hs1 t htt).length_eq]
        rw [hlen] at a2
        rw [a2]

end TheanoLM
