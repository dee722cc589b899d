import Verif.Lemmas.TokenStep
import Verif.Lemmas.NetworkBatch
import Verif.Model.NetworkDecoder
/-!
# Lemmas about the network in lattice decoding
-/
namespace TheanoLM
set_option linter.unusedSectionVars false

section
variable {S : Type} [Add S] [Mul S] [Sub S] [Div S] [Zero S] [One S]

/-- The state of one sequence. -/
def oneState (sizes : List Nat) (xs : List (List S)) : RecState S := ⟨sizes, 1, allVars sizes [xs]⟩

theorem allVars_length (sizes : List Nat) (xss : List (List (List S))) : (allVars sizes xss).length = sizes.length := by
  unfold allVars
  simp

theorem set_allVars (sizes : List Nat) (n : Nat) (vars : List (Arr3 S)) (xss : List (List (List S))) (hn : xss.length = n) :
    RecState.set ⟨sizes, n, vars⟩ (allVars sizes xss) = .ok ⟨sizes, n, allVars sizes xss⟩ := by
  unfold RecState.set
  rw [if_neg (by simp [allVars_length]), if_pos]
  rw [List.all_eq_true]
  intro x hx
  obtain ⟨i, hi, rfl⟩ := List.mem_iff_getElem.mp hx
  rw [List.getElem_zip]
  simp [stateShapeOk, allVars, hn]

theorem concatenate_ones (size : Nat) : ∀ (vs : List (List S)), vs ≠ [] →
    concatenate1 (vs.map fun v => (⟨1, 1, size, [[v]]⟩ : Arr3 S)) = .ok ⟨1, vs.length, size, [vs]⟩ := by
  intro vs hne
  cases vs with
  | nil => exact absurd rfl hne
  | cons v vs =>
    rw [List.map_cons]
    unfold concatenate1
    simp only
    rw [if_pos (by simp)]
    have e : ∀ (l : List (List S)) (a : List (List S)),
        (l.map fun v => (⟨1, 1, size, [[v]]⟩ : Arr3 S)).foldl (fun x b => append1 x b.data) [a] = [a ++ l] := by
      intro l
      induction l with
      | nil => intro a; simp
      | cons y l ih =>
        intro a
        rw [List.map_cons, List.foldl_cons]
        have : append1 [a] [[y]] = [a ++ [y]] := rfl
        rw [this, ih]
        simp
    rw [e]
    simp [Function.comp_def, Nat.add_comm]

theorem combine_ones (sizes : List Nat) (xss : List (List (List S))) (hne : xss ≠ []) :
    combineSequences (xss.map (oneState sizes)) = .ok ⟨sizes, xss.length, allVars sizes xss⟩ := by
  cases xss with
  | nil => exact absurd rfl hne
  | cons x xss =>
    rw [List.map_cons]
    unfold combineSequences
    simp only
    rw [← List.map_cons]
    have hsum : (((x :: xss).map (oneState sizes)).map RecState.numSequences).sum = (x :: xss).length := by
      rw [List.map_map, show (RecState.numSequences ∘ oneState sizes) = fun _ : List (List S) => 1 from rfl]
      simp [Nat.add_comm]
    rw [hsum]
    have hvar : ∀ j (hj : j < sizes.length), combineVariable ((x :: xss).map (oneState sizes)) (x :: xss).length sizes j =
        .ok ⟨1, (x :: xss).length, sizes[j], [(x :: xss).map fun xs => xs.getD j []]⟩ := by
      intro j hj
      unfold combineVariable
      have hm : mapE (fun st => RecState.getVar st j) ((x :: xss).map (oneState sizes)) =
          .ok (((x :: xss).map fun xs => xs.getD j []).map fun v => (⟨1, 1, sizes[j], [[v]]⟩ : Arr3 S)) := by
        apply mapE_of_forall₂
        rw [List.map_map, List.forall₂_map_left_iff, List.forall₂_map_right_iff, List.forall₂_same]
        intro xs _
        unfold RecState.getVar oneState
        simp only
        rw [allVars_getElem? sizes [xs] hj]
        rfl
      rw [hm]
      simp only
      rw [concatenate_ones _ _ (by simp)]
      simp only
      simp [hj]
    have hall : mapE (combineVariable ((x :: xss).map (oneState sizes)) (x :: xss).length (oneState sizes x).sizes)
        (List.range (oneState sizes x).sizes.length) = .ok (allVars sizes (x :: xss)) := by
      apply mapE_of_forall₂
      rw [List.forall₂_iff_get]
      refine ⟨by simp [allVars_length, oneState], fun j h1 h2 => ?_⟩
      simp only [List.get_eq_getElem, List.getElem_range]
      have hj : j < sizes.length := by simpa [allVars_length] using h2
      show combineVariable _ _ sizes j = _
      rw [hvar j hj]
      simp [allVars]
    rw [hall]
    simp only
    have hd : (allVars sizes (x :: xss)).map Arr3.d2 = sizes := by
      apply List.ext_getElem (by simp [allVars_length])
      intro j h1 h2
      simp [allVars]
    rw [hd]
    unfold mkRecState
    simp only
    exact set_allVars sizes _ _ _ rfl

theorem tokenState_all (sizes : List Nat) (xss : List (List (List S))) {i : Nat} (hi : i < xss.length) :
    tokenState sizes (allVars sizes xss) i = .ok (oneState sizes xss[i]) := by
  unfold tokenState mkRecState RecState.reset
  simp only
  have : (allVars sizes xss).map (fun a => a.slice1 i) = allVars sizes [xss[i]] := by
    apply List.ext_getElem (by simp [allVars_length])
    intro j h1 h2
    simp only [allVars, List.getElem_map, List.getElem_mapIdx, Arr3.slice1, List.map_cons, List.map_nil, List.length_cons, List.length_nil]
    congr 1
    · omega
    · rw [List.drop_eq_getElem_cons (by simpa using hi)]
      simp
  rw [this]
  exact set_allVars sizes 1 _ _ rfl

/-- A step for one sequence. -/
theorem stepNetwork_one {act : Act S} {opts : EvalOptions} (ht : opts.training = false) {layers : List (Layer S)} {t : Nat}
    {xs : List (List S)} {c : InputCell} {row : List (Entry S)} {st : RecState S}
    (h : stepNetwork act opts layers t (oneState (networkStateSizes layers) xs) [c] = .ok (row, st)) :
    ∃ e ys, row = [e] ∧ st = oneState (networkStateSizes layers) ys ∧
      stepLayers act opts t (allVars (networkStateSizes layers) [xs]) 0 0 layers [⟨{ c with mask := true }, []⟩] =
        .ok ([e], allVars (networkStateSizes layers) [ys]) := by
  unfold stepNetwork at h
  cases hs : stepLayers act opts t (oneState (networkStateSizes layers) xs).vars 0 0 layers
      ([c].map fun c => ⟨{ c with mask := true }, []⟩) with
  | error e => rw [hs] at h; cases h
  | ok r =>
    rw [hs] at h
    simp only at h
    obtain ⟨outs, h1, h2⟩ := stepLayers_tokens ht layers 0 0 (by simp) [(xs, (⟨{ c with mask := true }, []⟩ : Entry S))] (by simp) [r]
      (.cons hs .nil)
    cases h1 with
    | @cons _ o _ l h1 h3 =>
      cases h3
      rw [h1.1] at h hs
      simp only at h
      have hset : RecState.set (oneState (networkStateSizes layers) xs) (allVars (networkStateSizes layers) [o.2]) =
          .ok (oneState (networkStateSizes layers) o.2) := set_allVars _ _ _ _ rfl
      rw [hset] at h
      cases h
      exact ⟨o.1, o.2, rfl, rfl, hs⟩

theorem stepTokens_eq {act : Act S} {opts : EvalOptions} (ht : opts.training = false) {layers : List (Layer S)}
    {tokens : List (List (List S) × InputCell)} (hne : tokens ≠ []) {rs : List (Entry S × RecState S)}
    (h : List.Forall₂ (fun x r => stepNetwork act opts layers 0 (oneState (networkStateSizes layers) x.1) [x.2] = .ok ([r.1], r.2)) tokens rs) :
    stepTokens act opts layers (tokens.map fun x => (oneState (networkStateSizes layers) x.1, x.2)) = .ok rs := by
  have key : ∃ yss : List (List (List S)), List.Forall₂ (fun r ys => r.2 = oneState (networkStateSizes layers) ys) rs yss ∧
      List.Forall₂ (fun x r => stepLayers act opts 0 (allVars (networkStateSizes layers) [x.1]) 0 0 layers [x.2] = .ok r)
        (tokens.map fun x => (x.1, (⟨{ x.2 with mask := true }, []⟩ : Entry S)))
        ((rs.zip yss).map fun ry => ([ry.1.1], allVars (networkStateSizes layers) [ry.2])) := by
    clear hne
    induction h with
    | nil => exact ⟨[], .nil, .nil⟩
    | @cons x r l l' h1 _ ih =>
      obtain ⟨yss, g1, g2⟩ := ih
      obtain ⟨e, ys, h2, h3, h4⟩ := stepNetwork_one ht h1
      cases h2
      exact ⟨ys :: yss, .cons h3 g1, .cons h4 g2⟩
  obtain ⟨yss, g1, g2⟩ := key
  obtain ⟨outs, f1, f2⟩ := stepLayers_tokens ht layers 0 0 (by simp) _ (by simpa using hne) _ g2
  have l1 := h.length_eq
  have l2 := g1.length_eq
  have l3 : rs.length = outs.length := by
    have := f1.length_eq
    simp at this
    omega
  unfold stepTokens
  have hc : (tokens.map fun x => (oneState (networkStateSizes layers) x.1, x.2)).map Prod.fst =
      (tokens.map Prod.fst).map (oneState (networkStateSizes layers)) := by simp [Function.comp_def]
  rw [hc, combine_ones _ _ (by simpa using hne)]
  simp only
  have e1 : tokens.map Prod.fst = (tokens.map fun x => (x.1, (⟨{ x.2 with mask := true }, []⟩ : Entry S))).map Prod.fst := by
    simp [Function.comp_def]
  have e2 : ((tokens.map fun x => (oneState (networkStateSizes layers) x.1, x.2)).map fun x => (⟨{ x.2 with mask := true }, []⟩ : Entry S)) =
      (tokens.map fun x => (x.1, (⟨{ x.2 with mask := true }, []⟩ : Entry S))).map Prod.snd := by simp [Function.comp_def]
  rw [e2, e1, f2]
  simp only
  apply mapE_of_forall₂
  rw [List.forall₂_iff_get]
  refine ⟨by simp; omega, fun i h1 h2 => ?_⟩
  simp only [List.get_eq_getElem, List.getElem_range]
  have i1 : i < outs.length := by omega
  rw [tokenState_all _ _ (by simpa using i1), List.getElem?_eq_getElem (by simpa using i1)]
  simp only [List.getElem_map]
  have a1 := (List.forall₂_iff_get.mp f1).2 i (by simp; omega) i1
  have a2 := (List.forall₂_iff_get.mp g1).2 i h2 (by omega)
  simp only [List.get_eq_getElem, List.getElem_map, List.getElem_zip, Prod.mk.injEq, List.cons.injEq, and_true] at a1 a2
  apply congrArg
  apply Prod.ext
  · exact a1.1.1.symm
  · rw [a2]
    show oneState _ _ = oneState _ _
    unfold oneState
    rw [a1.1.2]

theorem stepLayer_time {act : Act S} {opts : EvalOptions} (ht : opts.training = false) (layer : Layer S) (k t t' : Nat)
    (state : List (Arr3 S)) (index : Nat) (row : List (Pos S)) :
    stepLayer act opts layer k t state index row = stepLayer act opts layer k t' state index row := by
  have e : ∀ layer : Layer S, pointFun act opts layer k t = pointFun act opts layer k t' := by
    intro layer
    funext s p
    exact pointFun_indep ht layer k t s t' s p
  cases layer <;> simp only [stepLayer, e]

theorem stepLayers_time {act : Act S} {opts : EvalOptions} (ht : opts.training = false) (t t' : Nat) (state : List (Arr3 S)) :
    ∀ (layers : List (Layer S)) (k index : Nat) (row : List (Entry S)),
      stepLayers act opts t state k index layers row = stepLayers act opts t' state k index layers row := by
  intro layers
  induction layers with
  | nil => intro k index row; rfl
  | cons layer layers ih =>
    intro k index row
    unfold stepLayers
    rw [stepLayer_time ht layer k t t']
    simp only [ih]

theorem stepNetwork_time {act : Act S} {opts : EvalOptions} (ht : opts.training = false) (layers : List (Layer S)) (t t' : Nat)
    (st : RecState S) (cells : List InputCell) :
    stepNetwork act opts layers t st cells = stepNetwork act opts layers t' st cells := by
  unfold stepNetwork
  rw [stepLayers_time ht t t']

theorem stepsNetwork_append {act : Act S} {opts : EvalOptions} {layers : List (Layer S)} {rest : List (List InputCell)}
    {st2 : RecState S} : ∀ (pre : List (List InputCell)) (t : Nat) (st : RecState S) (out : List (List (Entry S))),
    stepsNetwork act opts layers t st (pre ++ rest) = .ok (out, st2) →
    ∃ out1 st1 out2, stepsNetwork act opts layers t st pre = .ok (out1, st1) ∧
      stepsNetwork act opts layers (t + pre.length) st1 rest = .ok (out2, st2) ∧ out = out1 ++ out2 ∧ out1.length = pre.length := by
  intro pre
  induction pre with
  | nil => exact fun t st out h => ⟨[], st, out, rfl, h, rfl, rfl⟩
  | cons c pre ih =>
    intro t st out h
    rw [List.cons_append] at h
    unfold stepsNetwork at h
    cases h1 : stepNetwork act opts layers t st c with
    | error e => rw [h1] at h; cases h
    | ok r =>
      rw [h1] at h
      simp only at h
      cases h2 : stepsNetwork act opts layers (t + 1) r.2 (pre ++ rest) with
      | error e => rw [h2] at h; cases h
      | ok q =>
        rw [h2] at h
        cases h
        obtain ⟨out1, st1, out2, g1, g2, g3, g4⟩ := ih (t + 1) r.2 q.1 h2
        refine ⟨r.1 :: out1, st1, out2, ?_, ?_, by rw [g3]; rfl, by simp [g4]⟩
        · unfold stepsNetwork
          rw [h1]
          simp only
          rw [g1]
        · rw [List.length_cons, show t + (pre.length + 1) = t + 1 + pre.length by omega]
          exact g2

theorem stepsNetwork_next {act : Act S} {log : S → S} {layers : List (Layer S)} {output : Nat} {excludeUnk : Bool} {α : Type}
    {f g : α → Nat} {st' : RecState S} : ∀ (words : List α) (t : Nat) (st : RecState S) (out : List (List (Entry S))),
    stepsNetwork act ⟨false, excludeUnk, fun _ _ _ => []⟩ layers t st (words.map fun w => [⟨f w, g w, true⟩]) = .ok (out, st') →
    words.foldl (fun s w => (networkDecNet act log layers output excludeUnk).next s (f w) (g w)) st = st' := by
  intro words
  induction words with
  | nil =>
    intro t st out h
    cases h
    rfl
  | cons w words ih =>
    intro t st out h
    rw [List.map_cons] at h
    unfold stepsNetwork at h
    cases h1 : stepNetwork act ⟨false, excludeUnk, fun _ _ _ => []⟩ layers t st [⟨f w, g w, true⟩] with
    | error e => rw [h1] at h; cases h
    | ok r =>
      rw [h1] at h
      simp only at h
      cases h2 : stepsNetwork act ⟨false, excludeUnk, fun _ _ _ => []⟩ layers (t + 1) r.2 (words.map fun w => [⟨f w, g w, true⟩]) with
      | error e => rw [h2] at h; cases h
      | ok q =>
        rw [h2] at h
        cases h
        rw [List.foldl_cons]
        have : (networkDecNet act log layers output excludeUnk).next st (f w) (g w) = r.2 := by
          unfold networkDecNet
          simp only
          rw [stepNetwork_time rfl layers 0 t, h1]
        rw [this]
        exact ih _ _ _ h2

end

end TheanoLM
