import Verif.Lemmas.ScoreBound
/-!
# Lemmas for C109: bounds of the layers that read several time steps, and of networks
-/
namespace TheanoLM

/-! ## Recurrent layers -/

theorem mix_within (u h c : List ℝ) (hu : ∀ x ∈ u, 0 ≤ x ∧ x ≤ 1) (hh : WithinAbs 1 h) (hc : WithinAbs 1 c) :
    WithinAbs 1 (vadd (vmul (oneMinus u) h) (vmul u c)) := by
  induction u generalizing h c with
  | nil => intro v hv; simp [vadd, vmul, oneMinus] at hv
  | cons a u ih =>
    cases h with
    | nil => intro v hv; simp [vadd, vmul, oneMinus] at hv
    | cons b h =>
      cases c with
      | nil => intro v hv; simp [vadd, vmul, oneMinus] at hv
      | cons d c =>
        intro v hv
        have e : vadd (vmul (oneMinus (a :: u)) (b :: h)) (vmul (a :: u) (d :: c)) =
            ((1 - a) * b + a * d) :: vadd (vmul (oneMinus u) h) (vmul u c) := rfl
        rw [e] at hv
        rcases List.mem_cons.mp hv with rfl | hv
        · obtain ⟨a0, a1⟩ := hu a List.mem_cons_self
          have hb := abs_le.mp (hh b List.mem_cons_self)
          have hd := abs_le.mp (hc d List.mem_cons_self)
          rw [abs_le]
          constructor <;> nlinarith
        · exact ih h c (fun x hx => hu x (List.mem_cons_of_mem _ hx)) (fun x hx => hh x (List.mem_cons_of_mem _ hx))
            (fun x hx => hc x (List.mem_cons_of_mem _ hx)) v hv

/-- The bound of the hidden state after `n` time steps. -/
def hiddenBound (kind : CellKind) (b : Basic ℝ) (n : Nat) : ℝ :=
  if kind = .gru ∨ b.activation = .tanh then 1 else n

/-- The bounds of a state after `n` time steps. -/
def StateWithin (kind : CellKind) (b : Basic ℝ) (n : Nat) (st : SeqState ℝ) : Prop :=
  WithinAbs n st.c ∧ WithinAbs (hiddenBound kind b n) st.h

theorem hiddenBound_mono (kind : CellKind) (b : Basic ℝ) {n m : Nat} (h : n ≤ m) : hiddenBound kind b n ≤ hiddenBound kind b m := by
  unfold hiddenBound
  split
  · exact le_refl _
  · exact_mod_cast h

theorem cellStep_within {kind : CellKind} {b : Basic ℝ} (hW : List (List ℝ)) (mask : Bool) (x : List ℝ) {n : Nat} {st : SeqState ℝ}
    (h : StateWithin kind b n st) : StateWithin kind b (n + 1) (cellStep realAct kind b hW mask x st) := by
  obtain ⟨h1, h2⟩ := h
  have h1' : WithinAbs ((n + 1 : Nat) : ℝ) st.c := h1.mono (by push_cast; linarith)
  have h2' := h2.mono (hiddenBound_mono kind b (Nat.le_succ n))
  cases kind with
  | gru =>
    refine ⟨?_, ?_⟩
    · intro v hv
      cases hv
    cases mask with
    | false => exact h2'
    | true =>
      have e : ∀ m, hiddenBound .gru b m = 1 := fun m => by simp [hiddenBound]
      rw [e] at h2 ⊢
      refine mix_within _ _ _ (fun y hy => ?_) h2 (map_within tanh_abs _)
      obtain ⟨z, _, rfl⟩ := List.mem_map.mp hy
      exact ⟨(sigmoid_pos z).le, (sigmoid_lt z).le⟩
  | lstm =>
    cases mask with
    | false => exact ⟨h1', h2'⟩
    | true =>
      simp only [cellStep, lstmStep, if_true]
      generalize submatrix (vadd (hW.map (dot st.h)) x) 0 b.size = pi
      generalize submatrix (vadd (hW.map (dot st.h)) x) 1 b.size = pf
      generalize submatrix (vadd (hW.map (dot st.h)) x) 2 b.size = po
      generalize submatrix (vadd (hW.map (dot st.h)) x) 3 b.size = pc
      have hc : WithinAbs ((n + 1 : Nat) : ℝ) (vadd (vmul (pf.map realAct.sigmoid) st.c) (vmul (pi.map realAct.sigmoid) (pc.map realAct.tanh))) := by
        have := vadd_within (vmul_within zero_le_one (map_within sigmoid_abs pf) h1)
          (vmul_within zero_le_one (map_within sigmoid_abs pi) (map_within tanh_abs pc))
        exact this.mono (by push_cast; linarith)
      refine ⟨hc, ?_⟩
      generalize vadd (vmul (pf.map realAct.sigmoid) st.c) (vmul (pi.map realAct.sigmoid) (pc.map realAct.tanh)) = c at hc
      unfold hiddenBound
      by_cases ha : b.activation = .tanh
      · rw [if_pos (.inr ha), ha]
        have := vmul_within zero_le_one (map_within sigmoid_abs po) (map_within tanh_abs c)
        exact this.mono (by norm_num)
      · rw [if_neg (by simp [ha])]
        have := vmul_within zero_le_one (map_within sigmoid_abs po) (activation_within (a := b.activation) hc)
        refine this.mono ?_
        rw [one_mul]
        refine max_le ?_ (le_refl _)
        push_cast
        have : (0 : ℝ) ≤ n := Nat.cast_nonneg n
        linarith

theorem scan_within {α β : Type} (step : α → β → β) (P : Nat → β → Prop) (hs : ∀ n x st, P n st → P (n + 1) (step x st)) (n : Nat) (st : β)
    (h : P n st) (xs : List α) : ∀ y ∈ scan step st xs, ∃ m, m ≤ n + xs.length ∧ P m y := by
  induction xs generalizing n st with
  | nil => intro y hy; cases hy
  | cons x xs ih =>
    intro y hy
    rcases List.mem_cons.mp hy with rfl | hy
    · exact ⟨n + 1, by simp, hs n x st h⟩
    · obtain ⟨m, h1, h2⟩ := ih (n + 1) _ (hs n x st h) y hy
      exact ⟨m, by simp at h1 ⊢; omega, h2⟩

theorem recurrentLayer_within {kind : CellKind} {b : Basic ℝ} {reverseTime : Bool} {g : List (List (Pos ℝ))} {sts : List (List (SeqState ℝ))}
    (h : recurrentLayer realAct kind b reverseTime g = .ok sts) : ∀ row ∈ sts, ∀ st ∈ row, WithinAbs (hiddenBound kind b g.length) st.h := by
  have zero : ∀ st ∈ List.replicate (numSequences g) (zeroState (S := ℝ) kind b.size), StateWithin kind b 0 st := by
    intro st hst
    rw [List.eq_of_mem_replicate hst]
    have hz : ∀ (B : ℝ), 0 ≤ B → WithinAbs B (List.replicate b.size (0 : ℝ)) := by
      intro B hB v hv
      rw [List.eq_of_mem_replicate hv, abs_zero]
      exact hB
    refine ⟨?_, hz _ ?_⟩
    · cases kind with
      | lstm => exact hz _ (by simp)
      | gru => intro v hv; cases hv
    · unfold hiddenBound
      split <;> simp
  have step : ∀ (hW : List (List ℝ)) (n : Nat) (x : List (Bool × List ℝ)) (s : List (SeqState ℝ)), (∀ st ∈ s, StateWithin kind b n st) →
      ∀ st ∈ rowStep realAct kind b hW x s, StateWithin kind b (n + 1) st := by
    intro hW n x s hs st hst
    obtain ⟨p, _, st', h1, rfl⟩ := zipWith_from hst
    exact cellStep_within hW p.1 p.2 (hs st' h1)
  unfold recurrentLayer at h
  cases hm : mapE (preactRow b) g with
  | error e => rw [hm] at h; cases h
  | ok rows =>
    rw [hm] at h
    simp only at h
    have hlen := mapE_length hm
    cases hw : getParam "step_input/W".toList none b.weights with
    | error e => rw [hw] at h; cases h
    | ok hW =>
      rw [hw] at h
      simp only at h
      intro row hrow st hst
      cases reverseTime with
      | false =>
        injection h with h
        subst h
        obtain ⟨m, h1, h2⟩ := scan_within (rowStep realAct kind b hW) (fun n s => ∀ st ∈ s, StateWithin kind b n st) (step hW) 0 _ zero rows row hrow
        exact (h2 st hst).2.mono (hiddenBound_mono kind b (by omega))
      | true =>
        injection h with h
        subst h
        obtain ⟨m, h1, h2⟩ := scan_within (rowStep realAct kind b hW) (fun n s => ∀ st ∈ s, StateWithin kind b n st) (step hW) 0 _ zero
          (backwardRows rows) row (List.mem_reverse.mp hrow)
        have hb : (backwardRows rows).length ≤ rows.length := by simp [backwardRows]
        exact (h2 st hst).2.mono (hiddenBound_mono kind b (by omega))

/-! ## Convolution layer -/

theorem dot2_within {B : ℝ} (hB : 0 ≤ B) (f : List (List ℝ)) : ∃ B', 0 ≤ B' ∧ ∀ r, (∀ x ∈ r, WithinAbs B x) → |dot2 r f| ≤ B' := by
  induction f with
  | nil => exact ⟨0, le_refl 0, fun x _ => by simp [dot2]⟩
  | cons a w ih =>
    obtain ⟨C, h0, h⟩ := ih
    obtain ⟨D, d0, d⟩ := dot_within hB a
    refine ⟨D + C, by positivity, fun x hx => ?_⟩
    cases x with
    | nil => simp [dot2]; positivity
    | cons b x =>
      have : dot2 (b :: x) (a :: w) = dot b a + dot2 x w := by simp [dot2]
      rw [this]
      exact (abs_add_le _ _).trans (add_le_add (d b (hx b List.mem_cons_self)) (h x fun v hv => hx v (List.mem_cons_of_mem _ hv)))

theorem tensorConv1d_within {B : ℝ} (hB : 0 ≤ B) (devices : List (Option Str)) (weights : ParamDict (List (List ℝ))) (biases : ParamDict ℝ)
    (name : Str) : ∃ B', 0 ≤ B' ∧ ∀ r y, (∀ x ∈ r, WithinAbs B x) → tensorConv1d devices weights biases name r = .ok y → WithinAbs B' y := by
  unfold tensorConv1d
  cases hm : mapE (fun device => getParam (name ++ "/W".toList) device weights) devices with
  | error e => exact ⟨0, le_refl 0, fun r y _ h => by cases h⟩
  | ok filters =>
    cases hb : getParam (name ++ "/b".toList) none biases with
    | error e =>
      refine ⟨0, le_refl 0, fun r y _ h => ?_⟩
      simp only at h
      split at h <;> cases h
    | ok bias =>
      obtain ⟨C, c0, c⟩ := exists_bound filters.flatten (P := fun f C => ∀ r, (∀ x ∈ r, WithinAbs B x) → |dot2 r f| ≤ C)
        (fun a B B' h hb r hr => (h r hr).trans hb) (fun f _ => dot2_within hB f)
      obtain ⟨D, d0, d⟩ := exists_within bias
      refine ⟨C + D, by positivity, fun r y hr h => ?_⟩
      simp only at h
      cases hcr : concatResults (filters.map fun fs => fs.map (dot2 r)) with
      | error e => rw [hcr] at h; cases h
      | ok result =>
        rw [hcr] at h
        injection h with h
        subst h
        refine vadd_within (concatResults_within hcr fun q hq => ?_) d
        obtain ⟨fs, h1, rfl⟩ := List.mem_map.mp hq
        intro v hv
        obtain ⟨f, h2, rfl⟩ := List.mem_map.mp hv
        exact c f (List.mem_flatten.mpr ⟨fs, h1, h2⟩) r hr

def GridWithin (B : ℝ) (g : List (List (Pos ℝ))) : Prop := ∀ row ∈ g, ∀ p ∈ row, InputsWithin B p.2

theorem gluLayer_within {B : ℝ} (hB : 0 ≤ B) (b : Basic ℝ) (k i : Nat) (filters : ParamDict (List (List ℝ))) :
    ∃ B', 0 ≤ B' ∧ ∀ g outs, GridWithin B g → gluLayer realAct b k i filters g = .ok outs → ∀ row ∈ outs, ∀ e ∈ row, ElemWithin B' e := by
  obtain ⟨C, c0, c⟩ := tensorConv1d_within hB b.devices filters b.biases "input".toList
  refine ⟨C * 1, by linarith, fun g outs hg h row hrow e he => ?_⟩
  unfold gluLayer at h
  split at h
  · cases h
  · cases hm : mapE gluInputRow g with
    | error e => rw [hm] at h; cases h
    | ok xs =>
      rw [hm] at h
      simp only at h
      obtain ⟨window, w1, w2⟩ := mapE_from h hrow
      obtain ⟨seq, _, s2⟩ := mapE_from w2 he
      have hx : ∀ xrow ∈ xs, ∀ x ∈ xrow, WithinAbs B x := by
        intro xrow hxr x hx
        obtain ⟨prow, p1, p2⟩ := mapE_from hm hxr
        unfold gluInputRow at p2
        obtain ⟨p, q1, q2⟩ := mapE_from p2 hx
        have hi := hg prow p1 p q1
        split at q2
        · rename_i e0 hp
          exact elemVec_within q2 fun e' he' => hi e' (by rw [hp, he']; exact List.mem_cons_self)
        · cases q2
      have hall : ∀ xrow ∈ List.replicate (k - 1) (List.replicate (numSequences g) (List.replicate i (0 : ℝ))) ++ xs, ∀ x ∈ xrow, WithinAbs B x := by
        intro xrow hxr x hxm
        rcases List.mem_append.mp hxr with hp | hp
        · rw [List.eq_of_mem_replicate hp] at hxm
          rw [List.eq_of_mem_replicate hxm]
          intro v hv
          rw [List.eq_of_mem_replicate hv, abs_zero]
          exact hB
        · exact hx xrow hp x hxm
      unfold gluElem at s2
      cases hc : tensorConv1d b.devices filters b.biases "input".toList (column seq window) with
      | error e => rw [hc] at s2; cases s2
      | ok preact =>
        rw [hc] at s2
        injection s2 with s2
        subst s2
        have hp : WithinAbs C preact := by
          refine c _ _ (fun x hx => ?_) hc
          unfold column at hx
          obtain ⟨xrow, r1, r2⟩ := List.mem_filterMap.mp hx
          unfold windows at w1
          obtain ⟨t, _, rfl⟩ := List.mem_map.mp w1
          exact hall xrow (List.mem_of_mem_drop (List.mem_of_mem_take r1)) x (List.mem_of_getElem? r2)
        exact vmul_within c0 (submatrix_within hp 0 _ _) (map_within sigmoid_abs _)

/-! ## Networks -/

theorem pointRow_from {f : Nat → Pos ℝ → Except Err (Elem ℝ)} {seq : Nat} {l : List (Pos ℝ)} {r : List (Elem ℝ)}
    (h : pointRow f seq l = .ok r) {y : Elem ℝ} (hy : y ∈ r) : ∃ p ∈ l, ∃ s, f s p = .ok y := by
  induction l generalizing seq r with
  | nil => injection h with h; subst h; cases hy
  | cons a l ih =>
    obtain ⟨x, xs, h1, h2, rfl⟩ := pointRow_cons_ok h
    rcases List.mem_cons.mp hy with rfl | hy
    · exact ⟨a, by simp, seq, h1⟩
    · obtain ⟨p, p1, p2⟩ := ih h2 hy
      exact ⟨p, by simp [p1], p2⟩

theorem pointRows_from {f : Nat → Nat → Pos ℝ → Except Err (Elem ℝ)} {time : Nat} {g : List (List (Pos ℝ))} {r : List (List (Elem ℝ))}
    (h : pointRows f time g = .ok r) {row : List (Elem ℝ)} (hy : row ∈ r) : ∃ p ∈ g, ∃ t, pointRow (f t) 0 p = .ok row := by
  induction g generalizing time r with
  | nil => injection h with h; subst h; cases hy
  | cons a l ih =>
    obtain ⟨x, xs, h1, h2, rfl⟩ := pointRows_cons_ok h
    rcases List.mem_cons.mp hy with rfl | hy
    · exact ⟨a, by simp, time, h1⟩
    · obtain ⟨p, p1, p2⟩ := ih h2 hy
      exact ⟨p, by simp [p1], p2⟩

theorem hiddenBound_le (kind : CellKind) (b : Basic ℝ) {n T : Nat} (h : (kind = .gru ∨ b.activation = .tanh) ∨ n ≤ T) :
    hiddenBound kind b n ≤ max 1 (T : ℝ) := by
  unfold hiddenBound
  by_cases hs : kind = .gru ∨ b.activation = .tanh
  · rw [if_pos hs]; exact le_max_left _ _
  · rw [if_neg hs]
    refine le_trans ?_ (le_max_right _ _)
    exact_mod_cast h.resolve_left hs

theorem evalLayer_within {B : ℝ} (hB : 0 ≤ B) (layer : Layer ℝ) (T : Nat) :
    ∃ B', 0 ≤ B' ∧ ∀ opts k g outs, (layer.Saturating ∨ g.length ≤ T) → GridWithin B g → evalLayer realAct opts layer k g = .ok outs →
      ∀ row ∈ outs, ∀ e ∈ row, ElemWithin B' e := by
  have point : (∀ opts k g, evalLayer realAct opts layer k g = pointRows (pointFun realAct opts layer k) 0 g) →
      ∃ B', 0 ≤ B' ∧ ∀ opts k g outs, (layer.Saturating ∨ g.length ≤ T) → GridWithin B g → evalLayer realAct opts layer k g = .ok outs →
      ∀ row ∈ outs, ∀ e ∈ row, ElemWithin B' e := by
    intro heq
    obtain ⟨C, c0, c⟩ := pointElem_within hB layer
    refine ⟨C, c0, fun opts k g outs _ hg h row hrow e he => ?_⟩
    rw [heq] at h
    obtain ⟨prow, p1, t, p2⟩ := pointRows_from h hrow
    obtain ⟨p, q1, s, q2⟩ := pointRow_from p2 he
    exact c opts k t s p e (hg prow p1 p q1) q2
  cases layer with
  | wordInput => exact point fun _ _ _ => rfl
  | classInput => exact point fun _ _ _ => rfl
  | projection b => exact point fun _ _ _ => rfl
  | fullyConnected b => exact point fun _ _ _ => rfl
  | addition b sizes => exact point fun _ _ _ => rfl
  | highway b => exact point fun _ _ _ => rfl
  | dropout b scale => exact point fun _ _ _ => rfl
  | softmax b u => exact point fun _ _ _ => rfl
  | hsoftmax b l1 l2 ws bs => exact point fun _ _ _ => rfl
  | glu b k i filters =>
    obtain ⟨C, c0, c⟩ := gluLayer_within hB b k i filters
    exact ⟨C, c0, fun opts n g outs _ hg h => c g outs hg h⟩
  | recurrent kind b =>
    refine ⟨max 1 (T : ℝ), by positivity, fun opts n g outs hs _ h row hrow e he => ?_⟩
    unfold evalLayer at h
    simp only at h
    cases hr : recurrentLayer realAct kind b false g with
    | error e => rw [hr] at h; cases h
    | ok sts =>
      rw [hr] at h
      injection h with h
      subst h
      obtain ⟨strow, s1, rfl⟩ := List.mem_map.mp hrow
      obtain ⟨st, s2, rfl⟩ := List.mem_map.mp he
      refine WithinAbs.mono (recurrentLayer_within hr strow s1 st s2) (hiddenBound_le kind b ?_)
      rcases hs with hs | hs
      · cases kind with
        | gru => exact .inl (.inl rfl)
        | lstm => exact .inl (.inr hs)
      · exact .inr hs
  | bidirectional kind f bw =>
    refine ⟨max 1 (T : ℝ), by positivity, fun opts n g outs hs _ h row hrow e he => ?_⟩
    unfold evalLayer at h
    simp only at h
    cases hr : recurrentLayer realAct kind f false g with
    | error e => rw [hr] at h; cases h
    | ok fs =>
      rw [hr] at h
      simp only at h
      cases hr' : recurrentLayer realAct kind bw true g with
      | error e => rw [hr'] at h; cases h
      | ok bs =>
        rw [hr'] at h
        injection h with h
        subst h
        obtain ⟨r1, a1, r2, a2, rfl⟩ := zipWith_from hrow
        obtain ⟨s1, b1, s2, b2, rfl⟩ := zipWith_from he
        have hf := recurrentLayer_within hr r1 a1 s1 b1
        have hb := recurrentLayer_within hr' r2 a2 s2 b2
        have ef : (kind = .gru ∨ f.activation = .tanh) ∨ g.length ≤ T := by
          rcases hs with hs | hs
          · cases kind with
            | gru => exact .inl (.inl rfl)
            | lstm => exact .inl (.inr hs.1)
          · exact .inr hs
        have eb : (kind = .gru ∨ bw.activation = .tanh) ∨ g.length ≤ T := by
          rcases hs with hs | hs
          · cases kind with
            | gru => exact .inl (.inl rfl)
            | lstm => exact .inl (.inr hs.2)
          · exact .inr hs
        intro v hv
        rcases List.mem_append.mp hv with hv | hv
        · exact (hf v hv).trans (hiddenBound_le kind f ef)
        · exact (hb v hv).trans (hiddenBound_le kind bw eb)

def TableWithin (B : ℝ) (table : List (List (Entry ℝ))) : Prop := ∀ row ∈ table, ∀ e ∈ row, ∀ x ∈ e.outs, ElemWithin B x

theorem evalLayers_within (layers : List (Layer ℝ)) (T : Nat) : ∀ {B : ℝ}, 0 ≤ B → ∃ B', 0 ≤ B' ∧ ∀ opts k table out,
    ((∀ layer ∈ layers, layer.Saturating) ∨ table.length ≤ T) → TableWithin B table → evalLayers realAct opts k layers table = .ok out →
      TableWithin B' out := by
  induction layers with
  | nil =>
    intro B hB
    exact ⟨B, hB, fun opts k table out _ ht h => by injection h with h; subst h; exact ht⟩
  | cons layer layers ih =>
    intro B hB
    obtain ⟨C, c0, c⟩ := evalLayer_within hB layer T
    obtain ⟨D, d0, d⟩ := ih (hB.trans (le_max_left B C))
    refine ⟨D, d0, fun opts k table out hs ht h => ?_⟩
    rw [evalLayers] at h
    cases he : evalLayer realAct opts layer k (gather layer.inputs table) with
    | error e => rw [he] at h; cases h
    | ok outs =>
      rw [he] at h
      refine d opts (k + 1) _ out ?_ ?_ h
      · rcases hs with hs | hs
        · exact .inl fun l hl => hs l (List.mem_cons_of_mem _ hl)
        · exact .inr (by rw [List.length_zipWith]; omega)
      · have hw := c opts k _ outs (by
            rcases hs with hs | hs
            · exact .inl (hs layer List.mem_cons_self)
            · exact .inr (by simpa [gather] using hs)) (by
            intro row hrow p hp
            unfold gather at hrow
            obtain ⟨erow, e1, rfl⟩ := List.mem_map.mp hrow
            unfold gatherRow at hp
            obtain ⟨e, e2, rfl⟩ := List.mem_map.mp hp
            intro x hx
            obtain ⟨i, _, hi⟩ := List.mem_map.mp hx
            exact ht erow e1 e e2 x (List.mem_of_getElem? hi)) he
        intro row hrow e he x hx
        obtain ⟨r, r1, o, o1, rfl⟩ := zipWith_from hrow
        obtain ⟨e', e1, x', x1, rfl⟩ := zipWith_from he
        rcases List.mem_append.mp hx with hx | hx
        · exact (ht r r1 e' e1 x hx).mono (le_max_left _ _)
        · rw [List.mem_singleton.mp hx]
          exact (hw o o1 x' x1).mono (le_max_right _ _)

end TheanoLM
