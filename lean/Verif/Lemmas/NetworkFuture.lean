import Verif.Lemmas.NetworkShape
import Verif.Props.NetworkSpec
/-!
# Lemmas about the evaluation of networks: what an output depends on, in a network with bidirectional layers
-/
namespace TheanoLM
set_option linter.unusedSectionVars false

variable {S : Type} [Add S] [Mul S] [Sub S] [Div S] [Zero S] [One S]

/-- The time steps where the output of a layer cannot depend on the input of time step `t + 1`. -/
def Sees.rows (t : Nat) : Sees → Nat → Prop
  | .here, i => i ≠ t + 1
  | .past, i => i ≤ t
  | .around, i => i = t

theorem Sees.rows_join_left {t i : Nat} {a b : Sees} (h : (a.join b).rows t i) : a.rows t i := by
  cases a <;> cases b <;> simp only [Sees.join, Sees.rows] at h ⊢ <;> omega

theorem Sees.rows_join_right {t i : Nat} {a b : Sees} (h : (a.join b).rows t i) : b.rows t i := by
  cases a <;> cases b <;> simp only [Sees.join, Sees.rows] at h ⊢ <;> omega

theorem Sees.rows_foldr {t i : Nat} {l : List Sees} (h : (l.foldr Sees.join .here).rows t i) : i ≠ t + 1 ∧ ∀ a ∈ l, a.rows t i := by
  induction l with
  | nil => exact ⟨h, fun a ha => by cases ha⟩
  | cons b l ih =>
    rw [List.foldr_cons] at h
    obtain ⟨h1, h2⟩ := ih (Sees.rows_join_right h)
    refine ⟨h1, fun a ha => ?_⟩
    rcases List.mem_cons.mp ha with rfl | ha
    · exact Sees.rows_join_left h
    · exact h2 a ha

/-- Two tables that differ only where the input of time step `t + 1` can make a difference. -/
structure Agree (t n : Nat) (seen : List Sees) (T1 T2 : List (List (Entry S))) : Prop where
  length : T1.length = T2.length
  rect1 : ∀ row ∈ T1, row.length = n
  rect2 : ∀ row ∈ T2, row.length = n
  outs1 : ∀ row ∈ T1, ∀ e ∈ row, e.outs.length = seen.length
  outs2 : ∀ row ∈ T2, ∀ e ∈ row, e.outs.length = seen.length
  masks : T1.map (fun row => row.map fun e => e.cell.mask) = T2.map (fun row => row.map fun e => e.cell.mask)
  cells : ∀ i, i ≠ t + 1 → (T1[i]?).map (fun row => row.map Entry.cell) = (T2[i]?).map (fun row => row.map Entry.cell)
  columns : ∀ (k : Nat) (x : Sees), seen[k]? = some x → ∀ i, x.rows t i →
    (T1[i]?).map (fun row => row.map fun e => e.outs[k]?) = (T2[i]?).map (fun row => row.map fun e => e.outs[k]?)

theorem gatherRow_congr {inputs : List Nat} {r1 r2 : List (Entry S)} (hc : r1.map Entry.cell = r2.map Entry.cell)
    (ho : ∀ k ∈ inputs, (r1.map fun e => e.outs[k]?) = r2.map fun e => e.outs[k]?) : gatherRow inputs r1 = gatherRow inputs r2 := by
  have hl : r1.length = r2.length := by simpa using congrArg List.length hc
  apply List.ext_getElem (by simp [gatherRow, hl])
  intro i h1 h2
  have i1 : i < r1.length := by simpa [gatherRow] using h1
  have i2 : i < r2.length := by omega
  simp only [gatherRow, List.getElem_map]
  have hc' : r1[i].cell = r2[i].cell := by
    have := congrArg (fun l => l[i]?) hc
    simpa [i1, i2] using this
  rw [hc']
  congr 1
  apply List.map_congr_left
  intro k hk
  have := congrArg (fun l => l[i]?) (ho k hk)
  simpa [i1, i2] using this

/-- The inputs of a layer agree on the rows where all its input layers agree. -/
theorem Agree.gather {t n : Nat} {seen : List Sees} {T1 T2 : List (List (Entry S))} (h : Agree t n seen T1 T2) {inputs : List Nat}
    {i : Nat} (hi : ((inputs.map fun k => seen[k]?.getD .here).foldr Sees.join .here).rows t i) :
    (gather inputs T1)[i]? = (gather inputs T2)[i]? := by
  obtain ⟨hne, hrows⟩ := Sees.rows_foldr hi
  unfold TheanoLM.gather
  rw [List.getElem?_map, List.getElem?_map]
  have hc := h.cells i hne
  by_cases hlt : i < T1.length
  · have hlt2 : i < T2.length := by rw [← h.length]; exact hlt
    rw [List.getElem?_eq_getElem hlt, List.getElem?_eq_getElem hlt2] at hc ⊢
    simp only [Option.map_some, Option.some.injEq] at hc ⊢
    apply gatherRow_congr hc
    intro k hk
    cases hs : seen[k]? with
    | none =>
      have hk' : seen.length ≤ k := List.getElem?_eq_none_iff.mp hs
      have e1 : (T1[i].map fun e => e.outs[k]?) = T1[i].map fun _ => none := by
        apply List.map_congr_left
        intro e he
        have := h.outs1 _ (List.getElem_mem hlt) e he
        exact List.getElem?_eq_none (by omega)
      have e2 : (T2[i].map fun e => e.outs[k]?) = T2[i].map fun _ => none := by
        apply List.map_congr_left
        intro e he
        have := h.outs2 _ (List.getElem_mem hlt2) e he
        exact List.getElem?_eq_none (by omega)
      rw [e1, e2, List.map_const', List.map_const', h.rect1 _ (List.getElem_mem hlt), h.rect2 _ (List.getElem_mem hlt2)]
    | some x =>
      have hx := hrows x (List.mem_map.mpr ⟨k, hk, by rw [hs]; rfl⟩)
      have := h.columns k x hs i hx
      rw [List.getElem?_eq_getElem hlt, List.getElem?_eq_getElem hlt2] at this
      simpa using this
  · rw [List.getElem?_eq_none (by omega), List.getElem?_eq_none (by rw [← h.length]; omega)]

theorem take_eq_of_getElem? {α : Type} {l1 l2 : List α} {m : Nat} (h : ∀ i, i < m → l1[i]? = l2[i]?) : l1.take m = l2.take m := by
  apply List.ext_getElem?
  intro i
  by_cases hi : i < m
  · rw [List.getElem?_take_of_lt hi, List.getElem?_take_of_lt hi, h i hi]
  · rw [List.getElem?_take_eq_none (by omega), List.getElem?_take_eq_none (by omega)]

theorem drop_eq_of_getElem? {α : Type} {l1 l2 : List α} {m : Nat} (h : ∀ i, m ≤ i → l1[i]? = l2[i]?) : l1.drop m = l2.drop m := by
  apply List.ext_getElem?
  intro i
  rw [List.getElem?_drop, List.getElem?_drop, h (m + i) (by omega)]

/-- The outputs of a forward layer agree up to `t` if its inputs do. -/
theorem evalLayer_past {act : Act S} {opts : EvalOptions} {layer : Layer S} {k t : Nat} {g1 g2 : List (List (Pos S))}
    {o1 o2 : List (List (Elem S))} (hl : ∀ kind f b, layer ≠ .bidirectional kind f b) (h1 : evalLayer act opts layer k g1 = .ok o1)
    (h2 : evalLayer act opts layer k g2 = .ok o2) (hg : ∀ i, i ≤ t → g1[i]? = g2[i]?) {i : Nat} (hi : i ≤ t) : o1[i]? = o2[i]? := by
  have ht : g1.take (t + 1) = g2.take (t + 1) := take_eq_of_getElem? (fun i hi => hg i (by omega))
  have e1 := evalLayer_take hl h1 (t + 1)
  have e2 := evalLayer_take hl h2 (t + 1)
  rw [ht, e2] at e1
  injection e1 with e1
  have := congrArg (fun l => l[i]?) e1
  rw [List.getElem?_take_of_lt (by omega), List.getElem?_take_of_lt (by omega)] at this
  exact this.symm

theorem shiftLeft_drop {t : Nat} {x1 x2 : List (List (List S))} (hl : x1.length = x2.length)
    (hx : ∀ i, i ≠ t + 1 → x1[i]? = x2[i]?) : (shiftLeft x1).drop t = (shiftLeft x2).drop t := by
  have hh : x1.headD [] = x2.headD [] := by
    have := hx 0 (by omega)
    cases x1 <;> cases x2 <;> simp_all
  have hd : (x1.drop 2).drop t = (x2.drop 2).drop t := by
    rw [List.drop_drop, List.drop_drop]
    exact drop_eq_of_getElem? (fun i hi => hx i (by omega))
  unfold shiftLeft
  rw [List.drop_append, List.drop_append, hd, hh, List.length_drop, List.length_drop, hl]

/-- The rows that the backward layer reads before it gives the output of time step `t`. -/
theorem backwardRows_take {t : Nat} {r1 r2 : List (List (Bool × List S))} (hl : r1.length = r2.length)
    (hm : (r1.map fun row => row.map Prod.fst) = r2.map fun row => row.map Prod.fst)
    (hx : ∀ i, i ≠ t + 1 → r1[i]? = r2[i]?) :
    (backwardRows r1).take (r1.length - t) = (backwardRows r2).take (r1.length - t) := by
  unfold backwardRows
  simp only
  rw [List.take_zipWith, List.take_zipWith, hm]
  congr 1
  have hd := shiftLeft_drop (t := t) (x1 := r1.map fun row => row.map Prod.snd) (x2 := r2.map fun row => row.map Prod.snd)
    (by rw [List.length_map, List.length_map, hl]) (by
      intro i hi
      rw [List.getElem?_map, List.getElem?_map, hx i hi])
  have hlen : (shiftLeft (r1.map fun row => row.map Prod.snd)).length = (shiftLeft (r2.map fun row => row.map Prod.snd)).length := by
    unfold shiftLeft
    simp [hl]
  have hge := shiftLeft_length_ge (r1.map fun row => row.map Prod.snd)
  rw [List.length_map] at hge
  rw [List.take_reverse, List.take_reverse, hlen]
  congr 1
  by_cases ht : t ≤ r1.length
  · have : ∃ j, (shiftLeft (r2.map fun row => row.map Prod.snd)).length - (r1.length - t) = t + j := by
      refine ⟨(shiftLeft (r2.map fun row => row.map Prod.snd)).length - (r1.length - t) - t, ?_⟩
      rw [← hlen]
      omega
    obtain ⟨j, hj⟩ := this
    rw [hj, ← List.drop_drop, ← List.drop_drop, hd]
  · rw [List.drop_eq_nil_of_le (by omega), List.drop_eq_nil_of_le (by omega)]

theorem preactRow_masks {b : Basic S} {row : List (Pos S)} {x : List (Bool × List S)} (h : preactRow b row = .ok x) :
    x.map Prod.fst = row.map fun p => p.1.mask := by
  unfold preactRow at h
  induction row generalizing x with
  | nil => injection h with h; subst h; rfl
  | cons p row ih =>
    obtain ⟨y, ys, h1, h2, rfl⟩ := mapE_cons_ok h
    rw [List.map_cons, List.map_cons, ih h2]
    congr 1
    cases hp : inputPreact b "layer_input".toList p.2 with
    | error e => rw [hp] at h1; cases h1
    | ok v => rw [hp] at h1; injection h1 with h1; rw [← h1]

theorem preactRows_masks {b : Basic S} {g : List (List (Pos S))} {rows : List (List (Bool × List S))}
    (h : mapE (preactRow b) g = .ok rows) : (rows.map fun row => row.map Prod.fst) = g.map fun row => row.map fun p => p.1.mask := by
  induction g generalizing rows with
  | nil => injection h with h; subst h; rfl
  | cons p g ih =>
    obtain ⟨y, ys, h1, h2, rfl⟩ := mapE_cons_ok h
    rw [List.map_cons, List.map_cons, ih h2, preactRow_masks h1]

/-- The output of the backward layer at time step `t` does not depend on the input of time step `t + 1`. -/
theorem backward_agree {act : Act S} {kind : CellKind} {b : Basic S} {t n : Nat} {g1 g2 : List (List (Pos S))}
    {o1 o2 : List (List (SeqState S))} (h1 : recurrentLayer act kind b true g1 = .ok o1) (h2 : recurrentLayer act kind b true g2 = .ok o2)
    (hl : g1.length = g2.length) (hn1 : ∀ row ∈ g1, row.length = n) (hn2 : ∀ row ∈ g2, row.length = n)
    (hm : (g1.map fun row => row.map fun p => p.1.mask) = g2.map fun row => row.map fun p => p.1.mask)
    (hg : ∀ i, i ≠ t + 1 → g1[i]? = g2[i]?) : o1[t]? = o2[t]? := by
  have s1 := (recurrentLayer_shape h1 hn1).1
  have s2 := (recurrentLayer_shape h2 hn2).1
  by_cases ht : t < g1.length
  swap
  · rw [List.getElem?_eq_none (by omega), List.getElem?_eq_none (by omega)]
  have hns : numSequences g1 = numSequences g2 := by
    rw [numSequences_rect hn1 (by rintro rfl; simp at ht), numSequences_rect hn2 (by rintro rfl; simp at hl; simp [hl] at ht)]
  unfold recurrentLayer at h1 h2
  cases hm1 : mapE (preactRow b) g1 with
  | error e => rw [hm1] at h1; cases h1
  | ok r1 =>
    cases hm2 : mapE (preactRow b) g2 with
    | error e => rw [hm2] at h2; cases h2
    | ok r2 =>
      rw [hm1] at h1
      rw [hm2] at h2
      simp only at h1 h2
      cases hw : getParam "step_input/W".toList none b.weights with
      | error e => rw [hw] at h1; cases h1
      | ok hWeights =>
        rw [hw] at h1 h2
        simp only [if_true] at h1 h2
        injection h1 with h1
        injection h2 with h2
        have l1 := mapE_length hm1
        have l2 := mapE_length hm2
        have hr : ∀ i, i ≠ t + 1 → r1[i]? = r2[i]? := by
          intro i hi
          have e1 := mapE_getElem? hm1 i
          have e2 := mapE_getElem? hm2 i
          rw [← hg i hi] at e2
          rw [e1, e2]
        have hk := backwardRows_take (t := t) (r1 := r1) (r2 := r2) (by omega)
          (by rw [preactRows_masks hm1, preactRows_masks hm2, hm]) hr
        rw [← h1, ← h2, hns]
        generalize (List.replicate (numSequences g2) (zeroState kind b.size) : List (SeqState S)) = init
        have q1 : (scan (rowStep act kind b hWeights) init (backwardRows r1)).length = r1.length := by
          rw [scan_length, backwardRows_length]
        have q2 : (scan (rowStep act kind b hWeights) init (backwardRows r2)).length = r1.length := by
          rw [scan_length, backwardRows_length]
          omega
        rw [List.getElem?_reverse (by omega), List.getElem?_reverse (by omega), q1, q2]
        have e1 := scan_take (rowStep act kind b hWeights) init (backwardRows r1) (r1.length - t)
        have e2 := scan_take (rowStep act kind b hWeights) init (backwardRows r2) (r1.length - t)
        rw [hk, ← e2] at e1
        have := congrArg (fun l => l[r1.length - 1 - t]?) e1
        rw [List.getElem?_take_of_lt (by omega), List.getElem?_take_of_lt (by omega)] at this
        exact this

/-- One layer: its outputs agree on the rows of what it depends on. -/
theorem evalLayer_agree {act : Act S} {opts : EvalOptions} {layer : Layer S} {k t n : Nat} {seen : List Sees} {x : Sees}
    {T1 T2 : List (List (Entry S))} {o1 o2 : List (List (Elem S))} (h : Agree t n seen T1 T2)
    (hx : layer.sees ((layer.inputs.map fun k => seen[k]?.getD .here).foldr Sees.join .here) = some x)
    (h1 : evalLayer act opts layer k (gather layer.inputs T1) = .ok o1)
    (h2 : evalLayer act opts layer k (gather layer.inputs T2) = .ok o2) {i : Nat} (hi : x.rows t i) : o1[i]? = o2[i]? := by
  have hin : ∀ i, ((layer.inputs.map fun k => seen[k]?.getD .here).foldr Sees.join .here).rows t i →
      (gather layer.inputs T1)[i]? = (gather layer.inputs T2)[i]? := fun i hi => h.gather hi
  have r1 := gather_rect (inputs := layer.inputs) h.rect1
  have r2 := gather_rect (inputs := layer.inputs) h.rect2
  have hl : (gather layer.inputs T1).length = (gather layer.inputs T2).length := by
    unfold gather
    rw [List.length_map, List.length_map, h.length]
  have hm : ((gather layer.inputs T1).map fun row => row.map fun p => p.1.mask) =
      (gather layer.inputs T2).map fun row => row.map fun p => p.1.mask := by
    unfold gather gatherRow
    rw [List.map_map, List.map_map]
    have := h.masks
    simpa [Function.comp_def] using this
  generalize (layer.inputs.map fun k => seen[k]?.getD .here).foldr Sees.join .here = m at hx hin
  generalize gather layer.inputs T1 = g1 at *
  generalize gather layer.inputs T2 = g2 at *
  have hpoint : ∀ l : Layer S, some m = some x → pointRows (pointFun act opts l k) 0 g1 = .ok o1 →
      pointRows (pointFun act opts l k) 0 g2 = .ok o2 → o1[i]? = o2[i]? := by
    intro l hmx p1 p2
    injection hmx with hmx
    subst hmx
    rw [pointRows_getElem? p1 i, pointRows_getElem? p2 i, hin i hi]
  have hpast : (∀ kind f b, layer ≠ .bidirectional kind f b) → m ≠ .around → x = .past → o1[i]? = o2[i]? := by
    intro hb hma hxp
    subst hxp
    refine evalLayer_past (t := t) hb h1 h2 (fun j hj => hin j ?_) hi
    cases m
    · show j ≠ t + 1
      omega
    · exact hj
    · exact absurd rfl hma
  cases layer with
  | recurrent kind b =>
    cases m <;> simp only [Layer.sees] at hx
    · exact hpast (by intros; simp) (by simp) (by injection hx with hx; exact hx.symm)
    · exact hpast (by intros; simp) (by simp) (by injection hx with hx; exact hx.symm)
    · cases hx
  | glu b fs is filters =>
    cases m <;> simp only [Layer.sees] at hx
    · exact hpast (by intros; simp) (by simp) (by injection hx with hx; exact hx.symm)
    · exact hpast (by intros; simp) (by simp) (by injection hx with hx; exact hx.symm)
    · cases hx
  | bidirectional kind f b =>
    cases m <;> simp only [Layer.sees] at hx
    · injection hx with hx
      subst hx
      have hit : i = t := hi
      subst hit
      have hg : ∀ j, j ≠ i + 1 → g1[j]? = g2[j]? := fun j hj => hin j hj
      unfold evalLayer at h1 h2
      simp only at h1 h2
      cases hf1 : recurrentLayer act kind f false g1 with
      | error e => rw [hf1] at h1; cases h1
      | ok f1 =>
        cases hf2 : recurrentLayer act kind f false g2 with
        | error e => rw [hf2] at h2; cases h2
        | ok f2 =>
          rw [hf1] at h1
          rw [hf2] at h2
          simp only at h1 h2
          cases hb1 : recurrentLayer act kind b true g1 with
          | error e => rw [hb1] at h1; cases h1
          | ok b1 =>
            cases hb2 : recurrentLayer act kind b true g2 with
            | error e => rw [hb2] at h2; cases h2
            | ok b2 =>
              rw [hb1] at h1
              rw [hb2] at h2
              injection h1 with h1
              injection h2 with h2
              have hbk := backward_agree hb1 hb2 hl r1 r2 hm hg
              have hfk : f1[i]? = f2[i]? := by
                have ht : g1.take (i + 1) = g2.take (i + 1) := take_eq_of_getElem? (fun j hj => hg j (by omega))
                have e1 := recurrentLayer_take hf1 (i + 1)
                have e2 := recurrentLayer_take hf2 (i + 1)
                rw [ht, e2] at e1
                injection e1 with e1
                have := congrArg (fun l => l[i]?) e1
                rw [List.getElem?_take_of_lt (by omega), List.getElem?_take_of_lt (by omega)] at this
                exact this.symm
              rw [← h1, ← h2, List.getElem?_zipWith, List.getElem?_zipWith, hfk, hbk]
    · cases hx
    · cases hx
  | _ => exact hpoint _ hx h1 h2

theorem zipWith_addOutputs_get {table : List (List (Entry S))} {outs : List (List (Elem S))} (i : Nat) :
    (List.zipWith addOutputs table outs)[i]? =
      match table[i]?, outs[i]? with
      | some row, some o => some (addOutputs row o)
      | _, _ => none := by
  rw [List.getElem?_zipWith]
  cases table[i]? <;> cases outs[i]? <;> rfl

theorem addOutputs_new {row : List (Entry S)} {o : List (Elem S)} {m : Nat} (hr : ∀ e ∈ row, e.outs.length = m)
    (hl : o.length = row.length) : (addOutputs row o).map (fun e => e.outs[m]?) = o.map some := by
  unfold addOutputs
  induction row generalizing o with
  | nil => cases o with
    | nil => rfl
    | cons => cases hl
  | cons e row ih =>
    cases o with
    | nil => cases hl
    | cons x o =>
      rw [List.zipWith_cons_cons, List.map_cons, List.map_cons, ih (fun e he => hr e (List.mem_cons_of_mem _ he)) (by simpa using hl)]
      congr 1
      have := hr e List.mem_cons_self
      simp [← this]

theorem addOutputs_old {row : List (Entry S)} {o : List (Elem S)} {m k : Nat} (hr : ∀ e ∈ row, e.outs.length = m) (hk : k < m)
    (hl : o.length = row.length) : (addOutputs row o).map (fun e => e.outs[k]?) = row.map fun e => e.outs[k]? := by
  unfold addOutputs
  induction row generalizing o with
  | nil => cases o with
    | nil => rfl
    | cons => cases hl
  | cons e row ih =>
    cases o with
    | nil => cases hl
    | cons x o =>
      rw [List.zipWith_cons_cons, List.map_cons, List.map_cons, ih (fun e he => hr e (List.mem_cons_of_mem _ he)) (by simpa using hl)]
      congr 1
      have := hr e List.mem_cons_self
      exact List.getElem?_append_left (by omega)

/-- The tables still agree after adding the outputs of a layer. -/
theorem Agree.add {t n : Nat} {seen : List Sees} {x : Sees} {T1 T2 : List (List (Entry S))} {o1 o2 : List (List (Elem S))}
    (h : Agree t n seen T1 T2) (l1 : o1.length = T1.length) (l2 : o2.length = T2.length) (r1 : ∀ row ∈ o1, row.length = n)
    (r2 : ∀ row ∈ o2, row.length = n) (ho : ∀ i, x.rows t i → o1[i]? = o2[i]?) :
    Agree t n (seen ++ [x]) (List.zipWith addOutputs T1 o1) (List.zipWith addOutputs T2 o2) := by
  have outs : ∀ (T : List (List (Entry S))) (o : List (List (Elem S))), (∀ row ∈ T, ∀ e ∈ row, e.outs.length = seen.length) →
      ∀ row ∈ List.zipWith addOutputs T o, ∀ e ∈ row, e.outs.length = (seen ++ [x]).length := by
    intro T o hT row hrow e he
    obtain ⟨a, ha, b, hb, rfl⟩ := mem_zipWith hrow
    obtain ⟨a', ha', b', hb', rfl⟩ := mem_zipWith he
    simp [hT a ha a' ha']
  have cells1 := entries_map Entry.cell Entry.cell n T1 o1 l1 h.rect1 r1 (fun _ _ => rfl)
  have cells2 := entries_map Entry.cell Entry.cell n T2 o2 l2 h.rect2 r2 (fun _ _ => rfl)
  have masks1 := entries_map (fun e => e.cell.mask) (fun e => e.cell.mask) n T1 o1 l1 h.rect1 r1 (fun _ _ => rfl)
  have masks2 := entries_map (fun e => e.cell.mask) (fun e => e.cell.mask) n T2 o2 l2 h.rect2 r2 (fun _ _ => rfl)
  refine ⟨?_, addOutputs_rect h.rect1 r1, addOutputs_rect h.rect2 r2, outs T1 o1 h.outs1, outs T2 o2 h.outs2, ?_, ?_, ?_⟩
  · rw [List.length_zipWith, List.length_zipWith, l1, l2, h.length]
  · rw [masks1, masks2, h.masks]
  · intro i hi
    have e1 := congrArg (fun l => l[i]?) cells1
    have e2 := congrArg (fun l => l[i]?) cells2
    simp only [List.getElem?_map] at e1 e2
    rw [e1, e2]
    exact h.cells i hi
  · intro k y hy i hi
    by_cases hlt : i < T1.length
    swap
    · rw [List.getElem?_eq_none (by rw [List.length_zipWith]; omega),
        List.getElem?_eq_none (by rw [List.length_zipWith]; have := h.length; omega)]
    have hlt2 : i < T2.length := by rw [← h.length]; exact hlt
    have i1 : i < o1.length := by omega
    have i2 : i < o2.length := by omega
    rw [zipWith_addOutputs_get, zipWith_addOutputs_get, List.getElem?_eq_getElem hlt, List.getElem?_eq_getElem hlt2,
      List.getElem?_eq_getElem i1, List.getElem?_eq_getElem i2]
    simp only [Option.map_some, Option.some.injEq]
    have q1 : o1[i].length = T1[i].length := by rw [r1 _ (List.getElem_mem i1), h.rect1 _ (List.getElem_mem hlt)]
    have q2 : o2[i].length = T2[i].length := by rw [r2 _ (List.getElem_mem i2), h.rect2 _ (List.getElem_mem hlt2)]
    have u1 := h.outs1 _ (List.getElem_mem hlt)
    have u2 := h.outs2 _ (List.getElem_mem hlt2)
    by_cases hk : k < seen.length
    · rw [List.getElem?_append_left hk] at hy
      rw [addOutputs_old u1 hk q1, addOutputs_old u2 hk q2]
      have := h.columns k y hy i hi
      rw [List.getElem?_eq_getElem hlt, List.getElem?_eq_getElem hlt2] at this
      simpa using this
    · have hk' : k = seen.length := by
        have := (List.getElem?_eq_some_iff.mp hy).1
        rw [List.length_append, List.length_singleton] at this
        omega
      subst hk'
      rw [List.getElem?_append_right (le_refl _), Nat.sub_self] at hy
      injection hy with hy
      subst hy
      rw [addOutputs_new u1 q1, addOutputs_new u2 q2]
      have := ho i hi
      rw [List.getElem?_eq_getElem i1, List.getElem?_eq_getElem i2] at this
      injection this with this
      rw [this]

/-- All layers. -/
theorem evalLayers_agree {act : Act S} {opts : EvalOptions} {layers : List (Layer S)} {k t n : Nat} {seen seen' : List Sees}
    {T1 T2 r1 r2 : List (List (Entry S))} (h : Agree t n seen T1 T2) (hs : networkSees layers seen = some seen')
    (h1 : evalLayers act opts k layers T1 = .ok r1) (h2 : evalLayers act opts k layers T2 = .ok r2) : Agree t n seen' r1 r2 := by
  induction layers generalizing k seen T1 T2 with
  | nil =>
    rw [evalLayers] at h1 h2
    rw [networkSees] at hs
    injection h1 with h1
    injection h2 with h2
    injection hs with hs
    subst h1 h2 hs
    exact h
  | cons layer layers ih =>
    rw [evalLayers] at h1 h2
    rw [networkSees] at hs
    cases hx : layer.sees ((layer.inputs.map fun k => seen[k]?.getD .here).foldr Sees.join .here) with
    | none => rw [hx] at hs; cases hs
    | some x =>
      rw [hx] at hs
      cases he1 : evalLayer act opts layer k (TheanoLM.gather layer.inputs T1) with
      | error e => rw [he1] at h1; cases h1
      | ok o1 =>
        cases he2 : evalLayer act opts layer k (TheanoLM.gather layer.inputs T2) with
        | error e => rw [he2] at h2; cases h2
        | ok o2 =>
          rw [he1] at h1
          rw [he2] at h2
          simp only at h1 h2 hs
          obtain ⟨a1, b1⟩ := evalLayer_shape he1 (gather_rect h.rect1)
          obtain ⟨a2, b2⟩ := evalLayer_shape he2 (gather_rect h.rect2)
          have a1' : o1.length = T1.length := by rw [a1]; exact List.length_map ..
          have a2' : o2.length = T2.length := by rw [a2]; exact List.length_map ..
          exact ih (h.add a1' a2' b1 b2 (fun i hi => evalLayer_agree h hx he1 he2 hi)) hs h1 h2

end TheanoLM
