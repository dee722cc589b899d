import Verif.Lemmas.OutputLayer
import Verif.Props.NetworkSpec
import Mathlib.Algebra.Order.Field.Rat
import Mathlib.Tactic.NormNum
/-!
# Properties of the output layers: C55, C56
-/
namespace TheanoLM
set_option linter.unusedSectionVars false

/-! ## C55: level sizes -/

theorem ceilDiv_eq {n a q : Nat} (ha : 0 < a) (h1 : n ≤ a * q) (h2 : a * q < n + a) : ceilDiv n a = q := by
  unfold ceilDiv
  apply Nat.div_eq_of_lt_le
  · rw [Nat.mul_comm]; omega
  · rw [Nat.succ_mul, Nat.mul_comm]; omega

/-- C55.  For every output size of at least one the level sizes are computed without an assertion failing, and satisfy the
assertions. -/
theorem C55 {numDevices n : Nat} (hd : numDevices ≤ 1) (hn : 1 ≤ n) :
    ∃ level1 level2, hsoftmaxLevels numDevices n = .ok (level1, level2) ∧ level1 * level2 ≥ n ∧ (level1 - 1) * level2 < n ∧
      level1 * (level2 - 1) < n ∧ (level1 = level2 ∨ level1 = level2 + 1) := by
  have hs1 : n.sqrt * n.sqrt ≤ n := Nat.sqrt_le n
  have hs2 : n < (n.sqrt + 1) * (n.sqrt + 1) := Nat.lt_succ_sqrt n
  have key : ∀ l1 l2 : Nat, ceilSqrt n = l1 → 0 < l1 → 0 < l2 → n ≤ l1 * l2 → l1 * l2 < n + l1 → l1 * l2 < n + l2 →
      (l1 = l2 ∨ l1 = l2 + 1) →
      ∃ level1 level2, hsoftmaxLevels numDevices n = .ok (level1, level2) ∧ level1 * level2 ≥ n ∧ (level1 - 1) * level2 < n ∧
        level1 * (level2 - 1) < n ∧ (level1 = level2 ∨ level1 = level2 + 1) := by
    intro l1 l2 h1 hl1 hl2 ha hb hc hd'
    refine ⟨l1, l2, ?_, ha, ?_, ?_, hd'⟩
    · unfold hsoftmaxLevels
      rw [if_neg (by omega)]
      simp only
      rw [h1, if_neg (by omega), ceilDiv_eq hl1 ha hb, if_neg (by omega), if_neg (by omega), if_neg (by omega), if_neg (by omega)]
    · rw [Nat.sub_mul, Nat.one_mul]; omega
    · rw [Nat.mul_sub, Nat.mul_one]; omega
  generalize hr : n.sqrt = r at hs1 hs2
  have e1 : (r + 1) * (r + 1) = r * r + r + r + 1 := by ring
  have e2 : (r + 1) * r = r * r + r := by ring
  have hr0 : 0 < r := by
    rcases Nat.eq_zero_or_pos r with h | h
    · subst h; omega
    · exact h
  by_cases hsq : r * r = n
  · exact key r r (by unfold ceilSqrt; rw [hr, if_pos hsq]) hr0 hr0 (by omega) (by omega) (by omega) (Or.inl rfl)
  · have hc : ceilSqrt n = r + 1 := by unfold ceilSqrt; rw [hr, if_neg hsq]
    by_cases hle : n ≤ r * r + r
    · exact key (r + 1) r hc (by omega) hr0 (by omega) (by omega) (by omega) (Or.inr rfl)
    · exact key (r + 1) (r + 1) hc (by omega) (by omega) (by omega) (by omega) (by omega) (Or.inl rfl)

/-- C55.  The first level is the smallest number whose square is at least the output size, and the second level the smallest number
that is then sufficient. -/
theorem C55_least {numDevices n level1 level2 : Nat} (h : hsoftmaxLevels numDevices n = .ok (level1, level2)) :
    (∀ m, n ≤ m * m ↔ level1 ≤ m) ∧ ∀ m, n ≤ level1 * m ↔ level2 ≤ m := by
  have hs1 : n.sqrt * n.sqrt ≤ n := Nat.sqrt_le n
  have hs2 : n < (n.sqrt + 1) * (n.sqrt + 1) := Nat.lt_succ_sqrt n
  unfold hsoftmaxLevels at h
  by_cases hd : numDevices > 1
  · rw [if_pos hd] at h; cases h
  rw [if_neg hd] at h
  simp only at h
  by_cases h0 : ceilSqrt n = 0
  · rw [if_pos h0] at h; cases h
  rw [if_neg h0] at h
  split at h
  · cases h
  split at h
  · cases h
  split at h
  · cases h
  split at h
  · cases h
  injection h with h
  injection h with ha hb
  subst ha hb
  refine ⟨fun m => ?_, fun m => ?_⟩
  · have hle : n ≤ ceilSqrt n * ceilSqrt n ∧ ∀ m, m < ceilSqrt n → m * m < n := by
      unfold ceilSqrt
      by_cases hsq : n.sqrt * n.sqrt = n
      · rw [if_pos hsq]
        refine ⟨by omega, fun m hm => ?_⟩
        calc m * m < n.sqrt * n.sqrt := Nat.mul_self_lt_mul_self hm
          _ ≤ n := hs1
      · rw [if_neg hsq]
        refine ⟨by omega, fun m hm => ?_⟩
        have : m * m ≤ n.sqrt * n.sqrt := Nat.mul_self_le_mul_self (by omega)
        omega
    constructor
    · intro hm
      by_contra hc
      have := hle.2 m (by omega)
      omega
    · intro hm
      exact le_trans hle.1 (Nat.mul_self_le_mul_self hm)
  · have hp : 0 < ceilSqrt n := Nat.pos_of_ne_zero h0
    unfold ceilDiv
    rw [← Nat.lt_succ_iff (m := (n + ceilSqrt n - 1) / ceilSqrt n), Nat.div_lt_iff_lt_mul hp, Nat.succ_mul, Nat.mul_comm m]
    omega

example : hsoftmaxLevels 1 10 = .ok (4, 3) ∧ hsoftmaxLevels 1 12 = .ok (4, 3) ∧ hsoftmaxLevels 1 13 = .ok (4, 4) ∧
    hsoftmaxLevels 1 1 = .ok (1, 1) := by decide +kernel

/-! ## C56: output probabilities -/

section
variable {K : Type} [Field K] [LinearOrder K] [IsStrictOrderedRing K]

/-- The outputs of pointwise layers in the output of a network. -/
theorem evalNetwork_mem {act : Act K} {opts : EvalOptions} {layers : List (Layer K)} {batch : List (List InputCell)}
    {out : List (List (Entry K))} (h : evalNetwork act opts layers batch = .ok out) {row : List (Entry K)} (hrow : row ∈ out)
    {e : Entry K} (he : e ∈ row) : FromPoint act opts layers e.outs := by
  refine (evalLayers_mem layers [] rfl h ?_ row hrow e he).2
  intro row hrow e he
  obtain ⟨r, _, rfl⟩ := List.mem_map.mp hrow
  obtain ⟨c, _, rfl⟩ := List.mem_map.mp he
  refine ⟨rfl, fun k x layer hk => ?_⟩
  simp at hk

theorem softmaxExps_nonneg {act : Act K} (hexp : ∀ x, 0 < act.exp x) (ex : Bool) (unk : Nat) (preact : List K) :
    ∀ v ∈ softmaxExps act ex unk preact, 0 ≤ v := by
  intro v hv
  unfold softmaxExps at hv
  obtain ⟨i, hi, rfl⟩ := List.getElem_of_mem hv
  rw [List.getElem_mapIdx]
  split
  · exact le_refl _
  · exact le_of_lt (hexp _)

/-- C56, softmax.  In every position the output of a softmax layer is a list of non-negative probabilities; they sum to one if there
is a class that has not been excluded; the class of `<unk>` has zero probability if excluded; and there is a probability for every
class.

What is missing from the property: a hierarchical softmax layer (`C56_hsoftmax_partial`), for which it does not hold
(`C56_violated`). -/
theorem C56_partial {act : Act K} (hexp : ∀ x, 0 < act.exp x) {opts : EvalOptions} {layers : List (Layer K)}
    {batch : List (List InputCell)} {out : List (List (Entry K))} (h : evalNetwork act opts layers batch = .ok out)
    {row : List (Entry K)} (hrow : row ∈ out) {e : Entry K} (he : e ∈ row) {k unk : Nat} {b : Basic K} {x : Elem K}
    (hk : layers[k]? = some (.softmax b unk)) (hx : e.outs[k]? = some x) :
    ∃ probs, x = .probs probs ∧ (∀ v ∈ probs, 0 ≤ v) ∧
      ((∃ i < probs.length, opts.excludeUnk = true → i ≠ unk) → probs.sum = 1) ∧
      (opts.excludeUnk = true → ∀ v, probs[unk]? = some v → v = 0) ∧
      (∀ weight bias, b.devices = [none] → getParam "input/W".toList none b.weights = .ok weight →
        getParam "input/b".toList none b.biases = .ok bias → weight.length = b.size → bias.length = b.size →
        probs.length = b.size) := by
  obtain ⟨t, s, p, hp⟩ := evalNetwork_mem h hrow he k x _ hx hk (fun _ _ _ => rfl)
  unfold pointElem at hp
  simp only [Option.some.injEq] at hp
  unfold softmaxElem at hp
  cases hc : concatInputs p.2 with
  | error e => rw [hc] at hp; cases hp
  | ok v =>
    rw [hc] at hp
    simp only at hp
    cases ht : tensorPreact b.devices b.weights b.biases "input".toList true v with
    | error e => rw [ht] at hp; cases hp
    | ok preact =>
      rw [ht] at hp
      simp only at hp
      have hp' : x = .probs (normalize (softmaxExps act opts.excludeUnk unk preact)) := by
        generalize (if b.devices.length > 1 then .ok [] else getParam "input/W".toList none b.weights : Except Err (List (List K))) = w
          at hp
        generalize (if b.devices.length > 1 then .ok [] else getParam "input/b".toList none b.biases : Except Err (List K)) = w'
          at hp
        cases w with
        | error e => cases hp
        | ok _ =>
          cases w' with
          | error e => cases hp
          | ok _ => injection hp with hp; exact hp.symm
      have hnn := softmaxExps_nonneg hexp opts.excludeUnk unk preact
      refine ⟨_, hp', normalize_nonneg hnn, ?_, ?_, ?_⟩
      · rintro ⟨i, hi, hiu⟩
        have hi' : i < preact.length := by simpa [normalize, softmaxExps] using hi
        apply normalize_sum
        have hil : i < (softmaxExps act opts.excludeUnk unk preact).length := by simpa [softmaxExps] using hi'
        refine listSum_pos_of_mem hnn (List.getElem_mem hil) ?_
        have hval : (softmaxExps act opts.excludeUnk unk preact)[i] =
            if opts.excludeUnk && i == unk then 0 else act.exp preact[i] := by
          simp [softmaxExps]
        rw [hval, if_neg]
        · exact hexp _
        · intro hc
          rw [Bool.and_eq_true, beq_iff_eq] at hc
          exact hiu hc.1 hc.2
      · intro hex v hv
        unfold normalize softmaxExps at hv
        rw [List.getElem?_map, List.getElem?_mapIdx] at hv
        cases hpu : preact[unk]? with
        | none => rw [hpu] at hv; cases hv
        | some y =>
          rw [hpu] at hv
          simp [hex] at hv
          exact hv.symm
      · intro weight bias hd hw hb hwl hbl
        have : preact.length = b.size := by
          unfold tensorPreact at ht
          rw [hd, mapE, devicePreact] at ht
          rw [show ("input".toList ++ "/W".toList : Str) = "input/W".toList from rfl,
            show ("input".toList ++ "/b".toList : Str) = "input/b".toList from rfl, hw] at ht
          simp only [if_true] at ht
          rw [hb] at ht
          simp only [mapE] at ht
          unfold concatResults at ht
          simp only [List.flatten_nil, List.append_nil, Except.ok.injEq] at ht
          rw [← ht, List.length_zipWith, List.length_map, hwl, hbl, Nat.min_self]
        simpa [normalize, softmaxExps] using this

theorem normExp_facts {act : Act K} (hexp : ∀ x, 0 < act.exp x) (l : List K) (hl : 0 < l.length) :
    (normalize (l.map act.exp)).sum = 1 ∧ (∀ v ∈ normalize (l.map act.exp), 0 < v) ∧ (normalize (l.map act.exp)).length = l.length := by
  have hpos : ∀ v ∈ l.map act.exp, 0 < v := by
    intro v hv
    obtain ⟨y, _, rfl⟩ := List.mem_map.mp hv
    exact hexp y
  have hs : 0 < (l.map act.exp).sum := by
    have hm : (l.map act.exp)[0]'(by simpa using hl) ∈ l.map act.exp := List.getElem_mem _
    exact listSum_pos_of_mem (fun v hv => le_of_lt (hpos v hv)) hm (hpos _ hm)
  refine ⟨normalize_sum hs, ?_, by simp [normalize]⟩
  intro v hv
  obtain ⟨y, hy, rfl⟩ := List.mem_map.mp hv
  exact div_pos (hpos y hy) hs

/-- The parameters of a hierarchical softmax layer have the shapes given in the constructor (hsoftmaxlayer.py:47-53). -/
structure HSoftmaxShape (b : Basic K) (level1 level2 : Nat) (ws : List (List (List K))) (bs : List (List K))
    (weight : List (List K)) (bias : List K) : Prop where
  weightParam : getParam "input/W".toList none b.weights = .ok weight
  biasParam : getParam "input/b".toList none b.biases = .ok bias
  weightLength : weight.length = level1
  biasLength : bias.length = level1
  wsLength : ws.length = level1
  bsLength : bs.length = level1
  wsRows : ∀ w ∈ ws, w.length = level2
  bsRows : ∀ b ∈ bs, b.length = level2

theorem level_facts {act : Act K} (hexp : ∀ x, 0 < act.exp x) {b : Basic K} {l1 l2 : Nat} {ws : List (List (List K))}
    {bs : List (List K)} {weight : List (List K)} {bias : List K} (hsh : HSoftmaxShape b l1 l2 ws bs weight bias) (h1 : 0 < l1)
    (h2 : 0 < l2) (v : List K) :
    (level1Probs act weight bias v).sum = 1 ∧ (level1Probs act weight bias v).length = l1 ∧
    (∀ y ∈ level1Probs act weight bias v, 0 < y) ∧ (level2Probs act ws bs v).length = l1 ∧
    ∀ r ∈ level2Probs act ws bs v, r.sum = 1 ∧ r.length = l2 ∧ ∀ y ∈ r, 0 < y := by
  have hl : (vadd (weight.map (dot v)) bias).length = l1 := by
    unfold vadd
    rw [List.length_zipWith, List.length_map, hsh.weightLength, hsh.biasLength, Nat.min_self]
  obtain ⟨a1, a2, a3⟩ := normExp_facts hexp (vadd (weight.map (dot v)) bias) (by omega)
  refine ⟨a1, by unfold level1Probs; rw [a3, hl], a2, ?_, ?_⟩
  · unfold level2Probs
    rw [List.length_zipWith, hsh.wsLength, hsh.bsLength, Nat.min_self]
  · intro r hr
    obtain ⟨w, hw, c, hc, rfl⟩ := mem_zipWith hr
    have hl' : (vadd (w.map (dot v)) c).length = l2 := by
      unfold vadd
      rw [List.length_zipWith, List.length_map, hsh.wsRows w hw, hsh.bsRows c hc, Nat.min_self]
    obtain ⟨b1, b2, b3⟩ := normExp_facts hexp (vadd (w.map (dot v)) c) (by omega)
    exact ⟨b1, by rw [b3, hl'], b2⟩

theorem levels_pos {ps : List K} {rows : List (List K)} (hp : ∀ p ∈ ps, 0 < p) (hr : ∀ r ∈ rows, ∀ y ∈ r, 0 < y) :
    ∀ y ∈ (List.zipWith (fun p row => row.map (p * ·)) ps rows).flatten, 0 < y := by
  intro y hy
  obtain ⟨l, hl, hyl⟩ := List.mem_flatten.mp hy
  obtain ⟨p, hpm, r, hrm, rfl⟩ := mem_zipWith hl
  obtain ⟨q, hq, rfl⟩ := List.mem_map.mp hyl
  exact mul_pos (hp p hpm) (hr r hrm q hq)

/-- C56, hierarchical softmax.  In every position the output is a list of positive probabilities, one for every class, that sum to
one if the product of the level sizes is exactly the number of classes, and to less than one otherwise. -/
theorem C56_hsoftmax_partial {act : Act K} (hexp : ∀ x, 0 < act.exp x) {opts : EvalOptions} {layers : List (Layer K)}
    {batch : List (List InputCell)} {out : List (List (Entry K))} (h : evalNetwork act opts layers batch = .ok out)
    {row : List (Entry K)} (hrow : row ∈ out) {e : Entry K} (he : e ∈ row) {k l1 l2 : Nat} {b : Basic K}
    {ws : List (List (List K))} {bs : List (List K)} {weight : List (List K)} {bias : List K} {x : Elem K}
    (hk : layers[k]? = some (.hsoftmax b l1 l2 ws bs)) (hx : e.outs[k]? = some x)
    (hlev : hsoftmaxLevels b.devices.length b.size = .ok (l1, l2)) (hsize : 0 < b.size)
    (hsh : HSoftmaxShape b l1 l2 ws bs weight bias) :
    ∃ probs, x = .probs probs ∧ probs.length = b.size ∧ (∀ v ∈ probs, 0 < v) ∧ (l1 * l2 = b.size → probs.sum = 1) ∧
      (l1 * l2 ≠ b.size → probs.sum < 1) := by
  have hd : b.devices.length ≤ 1 := by
    by_contra hc
    unfold hsoftmaxLevels at hlev
    rw [if_pos (by omega)] at hlev
    cases hlev
  obtain ⟨m1, m2, hm, hge, _, _, _⟩ := C55 hd hsize
  rw [hlev] at hm
  injection hm with hm
  injection hm with hm1 hm2
  subst hm1 hm2
  have h1 : 0 < l1 := by
    rcases Nat.eq_zero_or_pos l1 with h | h
    · subst h; omega
    · exact h
  have h2 : 0 < l2 := by
    rcases Nat.eq_zero_or_pos l2 with h | h
    · subst h; omega
    · exact h
  obtain ⟨t, s, p, hp⟩ := evalNetwork_mem h hrow he k x _ hx hk (fun _ _ _ => rfl)
  unfold pointElem at hp
  simp only [Option.some.injEq] at hp
  unfold hsoftmaxElem at hp
  cases hc : concatInputs p.2 with
  | error e => rw [hc] at hp; cases hp
  | ok v =>
    rw [hc, hsh.weightParam, hsh.biasParam] at hp
    injection hp with hp
    obtain ⟨f1, f2, f3, f4, f5⟩ := level_facts hexp hsh h1 h2 v
    unfold hierarchicalProbs at hp
    have hflen := levels_length (m := l2) (f2.trans f4.symm) (fun r hr => (f5 r hr).2.1)
    have hfsum := levels_sum (f2.trans f4.symm) (fun r hr => (f5 r hr).1)
    have hfpos := levels_pos f3 (fun r hr => (f5 r hr).2.2)
    rw [f4] at hflen
    rw [f1] at hfsum
    refine ⟨_, hp.symm, by rw [List.length_take, hflen]; omega, fun y hy => hfpos y (List.mem_of_mem_take hy), ?_, ?_⟩
    · intro heq
      rw [List.take_of_length_le (by omega), hfsum]
    · intro hne
      have hsplit := congrArg List.sum (List.take_append_drop b.size
        (List.zipWith (fun p row => row.map (p * ·)) (level1Probs act weight bias v) (level2Probs act ws bs v)).flatten)
      rw [List.sum_append, hfsum] at hsplit
      have hdl : 0 < ((List.zipWith (fun p row => row.map (p * ·)) (level1Probs act weight bias v)
          (level2Probs act ws bs v)).flatten.drop b.size).length := by
        rw [List.length_drop, hflen]
        omega
      have hdpos : 0 < ((List.zipWith (fun p row => row.map (p * ·)) (level1Probs act weight bias v)
          (level2Probs act ws bs v)).flatten.drop b.size).sum := by
        refine listSum_pos_of_mem (fun y hy => le_of_lt (hfpos y (List.mem_of_mem_drop hy))) (List.getElem_mem hdl) ?_
        exact hfpos _ (List.mem_of_mem_drop (List.getElem_mem hdl))
      linarith

/-- C56.  The probability of a target class computed by a hierarchical softmax layer without computing the whole distribution is the
element of the distribution. -/
theorem C56_target {act : Act K} {b : Basic K} {l1 l2 : Nat} {ws : List (List (List K))} {bs : List (List K)}
    {weight : List (List K)} {bias : List K} (hlev : hsoftmaxLevels b.devices.length b.size = .ok (l1, l2))
    (hsh : HSoftmaxShape b l1 l2 ws bs weight bias) {ins : List (Option (Elem K))} {probs : List K}
    (h : hsoftmaxElem act b ws bs ins = .ok (.probs probs)) {target : Nat} (ht : target < b.size) :
    ∃ p, probs[target]? = some p ∧ hsoftmaxTarget act b l2 ws bs ins target = .ok p := by
  have hd : b.devices.length ≤ 1 := by
    by_contra hc
    unfold hsoftmaxLevels at hlev
    rw [if_pos (by omega)] at hlev
    cases hlev
  obtain ⟨m1, m2, hm, hge, _, _, _⟩ := C55 hd (show 1 ≤ b.size by omega)
  rw [hlev] at hm
  injection hm with hm
  injection hm with hm1 hm2
  subst hm1 hm2
  have h2 : 0 < l2 := by
    rcases Nat.eq_zero_or_pos l2 with h | h
    · subst h; omega
    · exact h
  unfold hsoftmaxElem at h
  unfold hsoftmaxTarget
  cases hc : concatInputs ins with
  | error e => rw [hc] at h; cases h
  | ok v =>
    rw [hc, hsh.weightParam, hsh.biasParam] at h
    rw [hsh.weightParam, hsh.biasParam]
    simp only at h ⊢
    injection h with h
    injection h with h
    have q1 : (level1Probs act weight bias v).length = l1 := by
      unfold level1Probs normalize vadd
      simp [hsh.weightLength, hsh.biasLength]
    have q2 : (level2Probs act ws bs v).length = l1 := by
      unfold level2Probs
      simp [hsh.wsLength, hsh.bsLength]
    have q3 : ∀ r ∈ level2Probs act ws bs v, r.length = l2 := by
      intro r hr
      obtain ⟨w, hw, c, hc, rfl⟩ := mem_zipWith hr
      unfold normalize vadd
      simp [hsh.wsRows w hw, hsh.bsRows c hc]
    obtain ⟨p, r, q, g1, g2, g3, g4⟩ := levels_getElem? h2 (q1.trans q2.symm) q3 target (by rw [q2]; omega)
    refine ⟨p * q, ?_, ?_⟩
    · rw [← h]
      unfold hierarchicalProbs
      rw [List.getElem?_take_of_lt ht, g4]
    · unfold hierarchicalTarget indexE
      rw [g1]
      simp only
      rw [g2]
      simp only
      rw [g3]

end

/-- A network with a hierarchical softmax layer of five classes, all parameters of which are zero. -/
def exampleHSoftmax (S : Type) [Zero S] : List (Layer S) :=
  [.wordInput, .projection ⟨[0], [none], 1, .tanh, [("W".toList, [[0]])], []⟩,
    .hsoftmax ⟨[1], [none], 5, .tanh, [("input/W".toList, [[0], [0], [0]])], [("input/b".toList, [0, 0, 0])]⟩ 3 2
      [[[0], [0]], [[0], [0]], [[0], [0]]] [[0, 0], [0, 0], [0, 0]]]

theorem exampleHSoftmax_ok {S : Type} [Add S] [Mul S] [Sub S] [Div S] [Zero S] [One S] (act : Act S) (opts : EvalOptions) :
    ∃ probs, evalNetwork act opts (exampleHSoftmax S) [[⟨0, 0, true⟩]] =
      .ok [[⟨⟨0, 0, true⟩, [.id 0, .vec [0], .probs probs]⟩]] := ⟨_, rfl⟩

/-- C56 does not hold for hierarchical softmax: with five classes, the level sizes are three and two, and the output that does not
belong to any class takes a part of the probability. -/
theorem C56_violated : ∃ (layers : List (Layer ℝ)) (opts : EvalOptions) (batch : List (List InputCell)) (e : Entry ℝ) (b : Basic ℝ)
    (ws : List (List (List ℝ))) (bs : List (List ℝ)) (probs : List ℝ),
    evalNetwork realAct opts layers batch = .ok [[e]] ∧ layers[2]? = some (.hsoftmax b 3 2 ws bs) ∧
      hsoftmaxLevels b.devices.length b.size = .ok (3, 2) ∧ e.outs[2]? = some (.probs probs) ∧ probs.sum ≠ 1 := by
  obtain ⟨probs, h⟩ := exampleHSoftmax_ok realAct ⟨false, false, fun _ _ _ => []⟩
  have hlev : hsoftmaxLevels 1 5 = .ok (3, 2) := by decide +kernel
  refine ⟨_, _, _, _, _, _, _, probs, h, rfl, hlev, rfl, ?_⟩
  obtain ⟨q, hq, _, _, _, hlt⟩ := C56_hsoftmax_partial (fun x => Real.exp_pos x) h List.mem_cons_self List.mem_cons_self
    (k := 2) (l1 := 3) (l2 := 2) rfl rfl hlev (by decide) ⟨rfl, rfl, rfl, rfl, rfl, rfl, by simp, by simp⟩
  injection hq with hq
  subst hq
  exact ne_of_lt (hlt (by decide))

theorem reshape2_at {α : Type} {columns rows : Nat} {x : List α} (hx : x.length = rows * columns) {i j : Nat} (hi : i < rows)
    (hj : j < columns) : posAt (reshape2 columns rows x) i j = x[i * columns + j]? := by
  induction rows generalizing x i with
  | zero => omega
  | succ rows ih =>
    rw [Nat.add_mul, Nat.one_mul] at hx
    rw [reshape2]
    cases i with
    | zero =>
      unfold posAt
      rw [List.getElem?_cons_zero, Option.bind_some, List.getElem?_take, if_pos hj, Nat.zero_mul, Nat.zero_add]
    | succ i =>
      have := ih (x := x.drop columns) (by rw [List.length_drop]; omega) (i := i) (by omega)
      unfold posAt at this ⊢
      rw [List.getElem?_cons_succ, this, List.getElem?_drop, Nat.add_mul, Nat.one_mul, Nat.add_comm (i * columns) columns, Nat.add_assoc]

theorem flatten_at {α : Type} {m : Nat} {l : List (List α)} (h : Rect m l) {i j : Nat} (hj : j < m) :
    l.flatten[i * m + j]? = posAt l i j := by
  induction l generalizing i with
  | nil => simp [posAt]
  | cons r l ih =>
    have hr := h r List.mem_cons_self
    cases i with
    | zero =>
      rw [Nat.zero_mul, Nat.zero_add, List.flatten_cons, List.getElem?_append_left (by omega)]
      rfl
    | succ i =>
      rw [List.flatten_cons, List.getElem?_append_right (by rw [hr, Nat.add_mul]; omega), hr, Nat.add_mul, Nat.one_mul,
        show i * m + m + j - m = i * m + j by omega, ih fun x hx => h x (List.mem_cons_of_mem _ hx)]
      rfl

theorem flatten_rect_length {α : Type} {m : Nat} {l : List (List α)} (h : Rect m l) : l.flatten.length = l.length * m := by
  induction l with
  | nil => simp
  | cons r l ih =>
    rw [List.flatten_cons, List.length_append, h r List.mem_cons_self, ih fun x hx => h x (List.mem_cons_of_mem _ hx),
      List.length_cons, Nat.add_mul, Nat.one_mul, Nat.add_comm]

/-- The target probabilities of a softmax layer: for every time step and sequence the output probability of the target class of that
time step and sequence.  It succeeds when the target class IDs are those of classes. -/
theorem C56_softmax_targets {n m : Nat} {probs : List (List (List K))} {targets : List (List Nat)} (hp : Rect n probs)
    (ht : Rect n targets) (hl : targets.length = probs.length) (hm : ∀ row ∈ probs, ∀ p ∈ row, p.length = m)
    (hc : ∀ row ∈ targets, ∀ c ∈ row, c < m) :
    ∃ result, softmaxTargets probs.length n probs targets = .ok result ∧
      ∀ t s p c, posAt probs t s = some p → posAt targets t s = some c → posAt result t s = p[c]? ∧ (p[c]?).isSome := by
  have l1 := flatten_rect_length hp
  have l2 := flatten_rect_length ht
  have hzip : ∀ x ∈ probs.flatten.zip targets.flatten, ∃ v, indexE x.1 x.2 = .ok v := by
    rintro ⟨p, c⟩ hx
    obtain ⟨hx1, hx2⟩ := List.of_mem_zip hx
    obtain ⟨row, hr, hpr⟩ := List.mem_flatten.mp hx1
    obtain ⟨row', hr', hcr⟩ := List.mem_flatten.mp hx2
    have hlt : c < p.length := by rw [hm row hr p hpr]; exact hc row' hr' c hcr
    exact ⟨p[c], by unfold indexE; simp only; rw [List.getElem?_eq_getElem hlt]⟩
  obtain ⟨elements, he⟩ : ∃ r, mapE (fun p => indexE p.1 p.2) (probs.flatten.zip targets.flatten) = .ok r := by
    generalize probs.flatten.zip targets.flatten = l at hzip
    induction l with
    | nil => exact ⟨[], rfl⟩
    | cons a l ih =>
      obtain ⟨v, hv⟩ := hzip a List.mem_cons_self
      obtain ⟨r, hr⟩ := ih fun x hx => hzip x (List.mem_cons_of_mem _ hx)
      exact ⟨v :: r, mapE_cons_eq hv hr⟩
  refine ⟨reshape2 n probs.length elements, ?_, fun t s p c hpp hcc => ?_⟩
  · unfold softmaxTargets
    rw [if_neg (by rw [l2, hl]; simp), he]
  · have hel := mapE_length he
    rw [List.length_zip, l1, l2, hl, Nat.min_self] at hel
    have hts : t < probs.length ∧ s < n := by
      unfold posAt at hpp
      cases hr : probs[t]? with
      | none => rw [hr] at hpp; cases hpp
      | some row =>
        rw [hr] at hpp
        simp only [Option.bind_some] at hpp
        refine ⟨(List.getElem?_eq_some_iff.mp hr).1, ?_⟩
        rw [← hp row (List.mem_of_getElem? hr)]
        exact (List.getElem?_eq_some_iff.mp hpp).1
    rw [reshape2_at hel hts.1 hts.2]
    have e1 := mapE_getElem? he (t * n + s)
    have hz : (probs.flatten.zip targets.flatten)[t * n + s]? = some (p, c) := by
      rw [List.getElem?_zip_eq_some]
      exact ⟨by rw [flatten_at hp hts.2]; exact hpp, by rw [flatten_at ht hts.2]; exact hcc⟩
    rw [hz] at e1
    simp only [Option.bind_some] at e1
    rw [e1]
    obtain ⟨v, hv⟩ := hzip _ (List.mem_of_getElem? hz)
    unfold indexE at hv ⊢
    simp only at hv ⊢
    cases hpc : p[c]? with
    | none => rw [hpc] at hv; cases hv
    | some v => exact ⟨rfl, rfl⟩

/-- Two time steps of two sequences with two classes. -/
example : softmaxTargets 2 2 [[[(1 : ℚ), 2], [3, 4]], [[5, 6], [7, 8]]] [[0, 1], [1, 0]] = .ok [[1, 4], [6, 7]] := by decide +kernel

/-- The hypotheses of `C56_partial` are met by the real functions and a network with three classes, of which one is excluded. -/
example : ∃ probs, evalNetwork realAct ⟨false, true, fun _ _ _ => []⟩
      [.wordInput, .projection ⟨[0], [none], 1, .tanh, [("W".toList, [[1]])], []⟩,
        .softmax ⟨[1], [none], 3, .tanh, [("input/W".toList, [[1], [2], [3]])], [("input/b".toList, [0, 4, 0])]⟩ 1] [[⟨0, 0, true⟩]] =
      .ok [[⟨⟨0, 0, true⟩, [.id 0, .vec [1], .probs probs]⟩]] ∧ probs.length = 3 ∧ probs.sum = 1 := by
  have hex : ∀ {S : Type} [Add S] [Mul S] [Sub S] [Div S] [Zero S] [One S] (act : Act S) (w : List (List S)) (c : List S),
      ∃ probs, evalNetwork act ⟨false, true, fun _ _ _ => []⟩
        [.wordInput, .projection ⟨[0], [none], 1, .tanh, [("W".toList, [[1]])], []⟩,
          .softmax ⟨[1], [none], 3, .tanh, [("input/W".toList, w)], [("input/b".toList, c)]⟩ 1] [[⟨0, 0, true⟩]] =
        .ok [[⟨⟨0, 0, true⟩, [.id 0, .vec [1], .probs probs]⟩]] := fun _ _ _ => ⟨_, rfl⟩
  obtain ⟨probs, h⟩ := hex realAct [[1], [2], [3]] [0, 4, 0]
  obtain ⟨q, hq, _, h2, _, h4⟩ := C56_partial (fun x => Real.exp_pos x) h List.mem_cons_self List.mem_cons_self (k := 2) rfl rfl
  injection hq with hq
  subst hq
  have hl := h4 _ _ rfl rfl rfl rfl rfl
  exact ⟨probs, h, hl, h2 ⟨0, by rw [hl]; decide, fun _ => by decide⟩⟩

end TheanoLM
