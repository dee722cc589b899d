import Verif.Props.SamplingTensorsSpec

/-! # Tensors and broadcasting -/

namespace TheanoLM

theorem mem_tensorIndices {shape idx : List Nat} : idx ∈ tensorIndices shape ↔ InShape shape idx := by
  unfold InShape
  induction shape generalizing idx with
  | nil => simp [tensorIndices]
  | cons d ds ih =>
    simp only [tensorIndices, List.mem_flatMap, List.mem_range, List.mem_map]
    constructor
    · rintro ⟨i, hi, is, his, rfl⟩
      exact .cons hi (ih.mp his)
    · intro h
      cases h with
      | cons hi his => exact ⟨_, hi, _, ih.mpr his, rfl⟩

theorem checkIds_ok {n : Nat} {ids : Tensor Nat} (h : ∀ idx, InShape ids.shape idx → ids.at' idx < n) :
    checkIds n ids = .ok () := by
  unfold checkIds
  rw [if_pos]
  rw [List.all_eq_true]
  intro idx hi
  simpa using h idx (mem_tensorIndices.mp hi)

theorem inShape2 {a b : Nat} {idx : List Nat} : InShape [a, b] idx ↔ ∃ i < a, ∃ j < b, idx = [i, j] := by
  unfold InShape
  constructor
  · intro h
    cases h with
    | cons h1 h => cases h with
      | cons h2 h => cases h with
        | nil => exact ⟨_, h1, _, h2, rfl⟩
  · rintro ⟨i, hi, j, hj, rfl⟩
    exact .cons hi (.cons hj .nil)

theorem inShape1 {a : Nat} {idx : List Nat} : InShape [a] idx ↔ ∃ i < a, idx = [i] := by
  unfold InShape
  constructor
  · intro h
    cases h with
    | cons h1 h => cases h with
      | nil => exact ⟨_, h1, rfl⟩
  · rintro ⟨i, hi, rfl⟩
    exact .cons hi .nil

theorem inShape3 {a b c : Nat} {idx : List Nat} :
    InShape [a, b, c] idx ↔ ∃ i < a, ∃ j < b, ∃ k < c, idx = [i, j, k] := by
  unfold InShape
  constructor
  · intro h
    cases h with
    | cons h1 h => cases h with
      | cons h2 h => cases h with
        | cons h3 h => cases h with
          | nil => exact ⟨_, h1, _, h2, _, h3, rfl⟩
  · rintro ⟨i, hi, j, hj, k, hk, rfl⟩
    exact .cons hi (.cons hj (.cons hk .nil))

theorem broadcastDim_self (a : Nat) : broadcastDim a a = some a := by simp [broadcastDim]
theorem broadcastDim_one_left (a : Nat) : broadcastDim 1 a = some a := by
  unfold broadcastDim; split <;> simp_all
theorem broadcastDim_one_right (a : Nat) : broadcastDim a 1 = some a := by
  unfold broadcastDim; split <;> simp_all

theorem clampIdx_lt {d i : Nat} (h : i < d) : clampIdx d i = i := by
  unfold clampIdx; split <;> omega
theorem clampIdx_one (i : Nat) : clampIdx 1 i = 0 := rfl

theorem flat2 (a b i j : Nat) : flatIdx [a, b] [i, j] = i * b + j := by simp [flatIdx]
theorem flat3 (a b c i j k : Nat) : flatIdx [a, b, c] [i, j, k] = (i * b + j) * c + k := by simp [flatIdx]

theorem mul_add_div_lt {n i j : Nat} (h : j < n) : (i * n + j) / n = i := by
  rw [Nat.mul_comm, Nat.mul_add_div (by omega), Nat.div_eq_of_lt h, Nat.add_zero]

theorem mul_add_mod_lt {n i j : Nat} (h : j < n) : (i * n + j) % n = j := by
  rw [Nat.mul_comm, Nat.mul_add_mod, Nat.mod_eq_of_lt h]

theorem mul_add_lt_mul {m n i j : Nat} (hi : i < m) (hj : j < n) : i * n + j < m * n := by
  calc i * n + j < i * n + n := by omega
    _ = (i + 1) * n := by ring
    _ ≤ m * n := Nat.mul_le_mul_right _ hi

section
variable {S : Type} [Field S] {T N D C K : Nat} {weight bias x : Tensor S}

/-- The scores of classes that are given for each position. -/
theorem targetPreact_tensor (hw : weight.shape = [D, C]) (hb : bias.shape = [C]) (hx : x.shape = [T, N, D]) {ids : Tensor Nat}
    (hi : ids.shape = [T, N, K]) (hc : ∀ t < T, ∀ s < N, ∀ k < K, ids.at' [t, s, k] < C) :
    ∃ r, targetPreactTensor weight bias x ids = .ok r ∧ r.shape = [T, N, K] ∧
      ∀ t < T, ∀ s < N, ∀ k < K, r.at' [t, s, k] = tensorScore D weight bias x t s (ids.at' [t, s, k]) := by
  have hck : checkIds C ids = .ok () := by
    apply checkIds_ok
    rw [hi]
    intro idx h
    obtain ⟨t, ht, s, hs, k, hk, rfl⟩ := inShape3.mp h
    exact hc t ht s hs k hk
  unfold targetPreactTensor Tensor.takeRows Tensor.takeFirst Tensor.transpose Tensor.newaxis Tensor.zip Tensor.reduceLast
  simp only [hw, hb, hx, hi, List.reverse_cons, List.reverse_nil, List.nil_append, List.cons_append, hck, List.insertIdx_succ_cons,
    List.insertIdx_zero, one_ne_zero, if_false, broadcastRev, broadcastDim_self, broadcastDim_one_left]
  simp only [List.dropLast_cons_cons, List.dropLast_singleton, List.reverse_cons, List.reverse_nil, List.nil_append, List.cons_append,
    broadcastRev, broadcastDim_self]
  refine ⟨_, rfl, rfl, ?_⟩
  intro t ht s hs k hk
  unfold tensorScore
  simp only [projectIdx, projectRev, List.reverse_cons, List.reverse_nil, List.nil_append, List.cons_append, clampIdx_lt ht,
    clampIdx_lt hs, clampIdx_lt hk, List.eraseIdx_cons_succ, List.eraseIdx_cons_zero]
  congr 1
  simp only [List.getLastD_cons, List.getLastD_nil]
  congr 1
  apply List.map_congr_left
  intro d hd
  rw [List.mem_range] at hd
  simp [clampIdx_lt hd]

/-- The scores of classes that are given for each time step. -/
theorem targetSeqPreact_tensor (hw : weight.shape = [D, C]) (hb : bias.shape = [C]) (hx : x.shape = [T, N, D]) {ids : Tensor Nat}
    (hi : ids.shape = [T, K]) (hc : ∀ t < T, ∀ k < K, ids.at' [t, k] < C) :
    ∃ r, targetSeqPreactTensor weight bias x ids = .ok r ∧ r.shape = [T, N, K] ∧
      ∀ t < T, ∀ s < N, ∀ k < K, r.at' [t, s, k] = tensorScore D weight bias x t s (ids.at' [t, k]) := by
  have hck : checkIds C ids = .ok () := by
    apply checkIds_ok
    rw [hi]
    intro idx h
    obtain ⟨t, ht, k, hk, rfl⟩ := inShape2.mp h
    exact hc t ht k hk
  unfold targetSeqPreactTensor Tensor.takeRows Tensor.takeFirst Tensor.transpose Tensor.newaxis Tensor.zip Tensor.reduceLast
  simp only [hw, hb, hx, hi, List.reverse_cons, List.reverse_nil, List.nil_append, List.cons_append, hck, List.insertIdx_succ_cons,
    List.insertIdx_zero, one_ne_zero, if_false, broadcastRev, broadcastDim_self, broadcastDim_one_left, broadcastDim_one_right]
  simp only [List.dropLast_cons_cons, List.dropLast_singleton, List.reverse_cons, List.reverse_nil, List.nil_append, List.cons_append,
    broadcastRev, broadcastDim_self, broadcastDim_one_right]
  refine ⟨_, rfl, rfl, ?_⟩
  intro t ht s hs k hk
  unfold tensorScore
  simp only [projectIdx, projectRev, List.reverse_cons, List.reverse_nil, List.nil_append, List.cons_append, clampIdx_lt ht,
    clampIdx_lt hs, clampIdx_lt hk, List.eraseIdx_cons_succ, List.eraseIdx_cons_zero]
  congr 1
  simp only [List.getLastD_cons, List.getLastD_nil]
  congr 1
  apply List.map_congr_left
  intro d hd
  rw [List.mem_range] at hd
  simp [clampIdx_lt hd]

/-- The scores of classes that are the same in each position. -/
theorem targetListPreact_tensor (hw : weight.shape = [D, C]) (hb : bias.shape = [C]) (hx : x.shape = [T, N, D]) {ids : Tensor Nat}
    (hi : ids.shape = [K]) (hc : ∀ k < K, ids.at' [k] < C) :
    ∃ r, targetListPreactTensor weight bias x ids = .ok r ∧ r.shape = [T, N, K] ∧
      ∀ t < T, ∀ s < N, ∀ k < K, r.at' [t, s, k] = tensorScore D weight bias x t s (ids.at' [k]) := by
  have hck : checkIds C ids = .ok () := by
    apply checkIds_ok
    rw [hi]
    intro idx h
    obtain ⟨k, hk, rfl⟩ := inShape1.mp h
    exact hc k hk
  unfold targetListPreactTensor Tensor.takeColumns Tensor.takeFirst Tensor.newaxis Tensor.zip Tensor.dot
  simp only [hw, hb, hx, hi, List.reverse_cons, List.reverse_nil, List.nil_append, hck, List.insertIdx_succ_cons,
    List.insertIdx_zero, one_ne_zero, if_false, List.getLastD_cons, List.getLastD_nil, ne_eq, not_true_eq_false]
  simp only [List.dropLast_cons_cons, List.dropLast_singleton, List.reverse_cons, List.reverse_nil, List.nil_append, List.cons_append,
    broadcastRev, broadcastDim_self]
  refine ⟨_, rfl, rfl, ?_⟩
  intro t ht s hs k hk
  unfold tensorScore
  simp only [projectIdx, projectRev, List.reverse_cons, List.reverse_nil, List.nil_append, List.cons_append, clampIdx_lt ht,
    clampIdx_lt hs, clampIdx_lt hk, List.eraseIdx_cons_succ, List.eraseIdx_cons_zero]
  congr 1

/-- The scores of the target classes. -/
theorem unnormalized_tensor (hw : weight.shape = [D, C]) (hb : bias.shape = [C]) (hx : x.shape = [T, N, D]) {targets : Tensor Nat}
    (hi : targets.shape = [T, N]) (hc : ∀ t < T, ∀ s < N, targets.at' [t, s] < C) :
    ∃ r, unnormalizedTensor weight bias x targets = .ok r ∧ r.shape = [T, N] ∧
      ∀ t < T, ∀ s < N, r.at' [t, s] = tensorScore D weight bias x t s (targets.at' [t, s]) := by
  obtain ⟨r, hr, hs, hv⟩ := targetPreact_tensor (K := 1) (ids := targets.newaxis 2) hw hb hx
    (by simp [Tensor.newaxis, hi]) (by
      intro t ht s hs k hk
      simpa [Tensor.newaxis] using hc t ht s hs)
  unfold unnormalizedTensor Tensor.reshape
  rw [hr]
  simp only [hs, hx]
  rw [if_neg (by simp)]
  refine ⟨_, rfl, rfl, ?_⟩
  intro t ht s hs'
  have e : (unflatRev [T, N, 1].reverse (flatIdx [([T, N, D] : List Nat).getD 0 1, ([T, N, D] : List Nat).getD 1 1] [t, s])).reverse =
      [t, s, 0] := by
    have : flatIdx [([T, N, D] : List Nat).getD 0 1, ([T, N, D] : List Nat).getD 1 1] [t, s] = t * N + s := flat2 _ _ _ _
    rw [this]
    simp only [List.reverse_cons, List.reverse_nil, List.nil_append, List.cons_append, unflatRev, Nat.mod_one, Nat.div_one,
      mul_add_div_lt hs', mul_add_mod_lt hs', Nat.mod_eq_of_lt ht]
  simp only [e]
  rw [hv t ht s hs' 0 (by omega)]
  simp [Tensor.newaxis]

/-- The noise classes and their scores. -/
theorem sample_tensors (hw : weight.shape = [D, C]) (hb : bias.shape = [C]) (hx : x.shape = [T, N, D])
    {draw : Nat → Nat → Tensor Nat} (hd : ∀ m n, (draw m n).shape = [m, n])
    (hc : ∀ m n, ∀ i < m, ∀ k < n, (draw m n).at' [i, k] < C) {sharing : Option Str}
    (hs : sharing = none ∨ sharing = some "seq".toList ∨ sharing = some "batch".toList) (K : Nat) :
    ∃ sample scores a b, sampleTensors sharing K draw weight bias x = .ok (sample, scores) ∧
      sample.shape = [a, b, K] ∧ (a = T ∨ a = 1) ∧ (b = N ∨ b = 1) ∧ scores.shape = [T, N, K] ∧
      (∀ idx, InShape [a, b, K] idx → sample.at' idx < C) ∧
      ∀ t < T, ∀ s < N, ∀ k < K,
        sample.at' [clampIdx a t, clampIdx b s, k] = noiseClassAt sharing T N K draw t s k ∧
        scores.at' [t, s, k] = tensorScore D weight bias x t s (noiseClassAt sharing T N K draw t s k) := by
  have e0 : x.shape.getD 0 1 = T := by rw [hx]; rfl
  have e1 : x.shape.getD 1 1 = N := by rw [hx]; rfl
  unfold sampleTensors
  simp only [e0, e1]
  rcases hs with rfl | rfl | rfl
  · simp only
    unfold Tensor.reshape
    rw [if_neg (by simp [hd, Nat.mul_assoc])]
    simp only [hd]
    have hat : ∀ t < T, ∀ s < N, ∀ k < K, (unflatRev [T * N, K].reverse (flatIdx [T, N, K] [t, s, k])).reverse =
        [t * N + s, k] := by
      intro t ht s hs k hk
      rw [flat3]
      simp only [List.reverse_cons, List.reverse_nil, List.nil_append, List.cons_append, unflatRev, mul_add_div_lt hk,
        mul_add_mod_lt hk, Nat.mod_eq_of_lt (mul_add_lt_mul ht hs)]
    have hlt : ∀ t < T, ∀ s < N, ∀ k < K, (draw (T * N) K).at' (unflatRev [T * N, K].reverse
        (flatIdx [T, N, K] [t, s, k])).reverse < C := by
      intro t ht s hs k hk
      rw [hat t ht s hs k hk]
      exact hc _ _ _ (mul_add_lt_mul ht hs) _ hk
    obtain ⟨r, hr, hrs, hv⟩ := targetPreact_tensor (ids := ⟨[T, N, K], fun idx => (draw (T * N) K).at'
      (unflatRev [T * N, K].reverse (flatIdx [T, N, K] idx)).reverse⟩) hw hb hx rfl hlt
    rw [hr]
    refine ⟨_, _, T, N, rfl, rfl, .inl rfl, .inl rfl, hrs, ?_, ?_⟩
    · intro idx h
      obtain ⟨t, ht, s, hs, k, hk, rfl⟩ := inShape3.mp h
      exact hlt t ht s hs k hk
    · intro t ht s hs k hk
      rw [hv t ht s hs k hk]
      simp only [clampIdx_lt ht, clampIdx_lt hs, hat t ht s hs k hk, noiseClassAt]
      trivial
  · simp only [if_true]
    unfold Tensor.reshape
    rw [if_neg (by simp [hd])]
    simp only [hd]
    have hat : ∀ t < T, ∀ k < K, (unflatRev [1, T * K].reverse (flatIdx [T, K] [t, k])).reverse = [0, t * K + k] := by
      intro t ht k hk
      rw [flat2]
      simp only [List.reverse_cons, List.reverse_nil, List.nil_append, List.cons_append, unflatRev, Nat.mod_one,
        Nat.mod_eq_of_lt (mul_add_lt_mul ht hk)]
    have hlt : ∀ t < T, ∀ k < K, (draw 1 (T * K)).at' (unflatRev [1, T * K].reverse (flatIdx [T, K] [t, k])).reverse < C := by
      intro t ht k hk
      rw [hat t ht k hk]
      exact hc _ _ _ (by omega) _ (mul_add_lt_mul ht hk)
    obtain ⟨r, hr, hrs, hv⟩ := targetSeqPreact_tensor (ids := ⟨[T, K], fun idx => (draw 1 (T * K)).at'
      (unflatRev [1, T * K].reverse (flatIdx [T, K] idx)).reverse⟩) hw hb hx rfl hlt
    rw [hr]
    refine ⟨_, _, T, 1, rfl, rfl, .inl rfl, .inr rfl, hrs, ?_, ?_⟩
    · intro idx h
      obtain ⟨t, ht, s, hs, k, hk, rfl⟩ := inShape3.mp h
      exact hlt t ht k hk
    · intro t ht s hs k hk
      rw [hv t ht s hs k hk]
      simp only [clampIdx_lt ht, clampIdx_one, hat t ht k hk, noiseClassAt, if_true, Tensor.newaxis, List.eraseIdx_cons_succ,
        List.eraseIdx_cons_zero]
      trivial
  · simp only
    rw [if_neg (by decide), if_pos trivial]
    obtain ⟨r, hr, hrs, hv⟩ := targetListPreact_tensor (K := K)
      (ids := ⟨(draw 1 K).shape.tail, fun idx => (draw 1 K).at' (0 :: idx)⟩) hw hb hx (by simp [hd])
      (fun k hk => hc 1 K 0 (by omega) k hk)
    rw [hr]
    refine ⟨_, _, 1, 1, rfl, by simp [Tensor.newaxis, hd], .inr rfl, .inr rfl, hrs, ?_, ?_⟩
    · intro idx h
      obtain ⟨t, ht, s, hs, k, hk, rfl⟩ := inShape3.mp h
      exact hc 1 K 0 (by omega) k hk
    · intro t ht s hs k hk
      rw [hv t ht s hs k hk]
      unfold noiseClassAt
      simp only
      rw [if_neg (by decide)]
      exact ⟨rfl, rfl⟩

end

section
variable {S : Type} [Field S] {T N C K : Nat}

/-- An operation on values of the mini-batch and the probabilities of the targets in the noise distribution. -/
theorem zip_prior2 {β γ : Type} (F : ProbFun S) {noise : NoiseDistribution S} {q : Nat → S}
    (hq : ∀ c < C, noiseProb F noise c = .ok (q c)) {L : Tensor S} (hL : L.shape = [T, N]) {ids : Tensor Nat}
    (hi : ids.shape = [T, N]) (hc : ∀ t < T, ∀ s < N, ids.at' [t, s] < C) (f : S → β → γ) (g : S → β) :
    ∃ p, noiseProbsTensor F noise ids = .ok p ∧ ∃ r, Tensor.zip f L (p.map g) = .ok r ∧ r.shape = [T, N] ∧
      ∀ t < T, ∀ s < N, r.at' [t, s] = f (L.at' [t, s]) (g (q (ids.at' [t, s]))) := by
  have key : ∀ h : Nat → S, (∀ c < C, h c = q c) → ∃ r, Tensor.zip f L ((ids.map h).map g) = .ok r ∧ r.shape = [T, N] ∧
      ∀ t < T, ∀ s < N, r.at' [t, s] = f (L.at' [t, s]) (g (q (ids.at' [t, s]))) := by
    intro h hh
    unfold Tensor.zip Tensor.map
    simp only [hL, hi, List.reverse_cons, List.reverse_nil, List.nil_append, List.cons_append, broadcastRev, broadcastDim_self]
    refine ⟨_, rfl, rfl, ?_⟩
    intro t ht s hs
    simp only [projectIdx, projectRev, List.reverse_cons, List.reverse_nil, List.nil_append, List.cons_append, clampIdx_lt ht,
      clampIdx_lt hs, hh _ (hc t ht s hs)]
  cases noise with
  | uniform n =>
    refine ⟨_, rfl, ?_⟩
    unfold Tensor.zip Tensor.map
    simp only [hL, List.reverse_cons, List.reverse_nil, List.nil_append, List.cons_append, broadcastRev]
    refine ⟨_, rfl, rfl, ?_⟩
    intro t ht s hs
    simp only [projectIdx, projectRev, List.reverse_cons, List.reverse_nil, List.nil_append, List.cons_append, clampIdx_lt ht,
      clampIdx_lt hs]
    have := hq _ (hc t ht s hs)
    unfold noiseProb at this
    injection this with this
    rw [← this]
    rfl
  | logUniform n =>
    refine ⟨_, rfl, key _ ?_⟩
    intro c hc
    have := hq c hc
    unfold noiseProb at this
    injection this
  | multinomial probs =>
    have hm : ∀ c < C, c < probs.length ∧ probs.getD c 0 = q c := by
      intro c hc
      have := hq c hc
      unfold noiseProb multinomialProb at this
      simp only at this
      cases hp : probs[c]? with
      | none => rw [hp] at this; cases this
      | some y =>
        rw [hp] at this
        injection this with this
        exact ⟨(List.getElem?_eq_some_iff.mp hp).1, by rw [List.getD_eq_getElem?_getD, hp]; exact this⟩
    refine ⟨ids.map fun c => probs.getD c 0, ?_, key _ fun c hc => (hm c hc).2⟩
    unfold noiseProbsTensor
    simp only
    rw [checkIds_ok]
    rw [hi]
    intro idx h
    obtain ⟨t, ht, s, hs, rfl⟩ := inShape2.mp h
    exact (hm _ (hc t ht s hs)).1

/-- The same for the noise classes. -/
theorem zip_prior3 {β γ : Type} (F : ProbFun S) {noise : NoiseDistribution S} {q : Nat → S}
    (hq : ∀ c < C, noiseProb F noise c = .ok (q c)) {L : Tensor S} (hL : L.shape = [T, N, K]) {ids : Tensor Nat} {a b : Nat}
    (hi : ids.shape = [a, b, K]) (ha : a = T ∨ a = 1) (hb : b = N ∨ b = 1)
    (hc : ∀ idx, InShape [a, b, K] idx → ids.at' idx < C) (f : S → β → γ) (g : S → β) :
    ∃ p, noiseProbsTensor F noise ids = .ok p ∧ ∃ r, Tensor.zip f L (p.map g) = .ok r ∧ r.shape = [T, N, K] ∧
      ∀ t < T, ∀ s < N, ∀ k < K,
        r.at' [t, s, k] = f (L.at' [t, s, k]) (g (q (ids.at' [clampIdx a t, clampIdx b s, k]))) := by
  have hca : ∀ {d n i : Nat}, (d = n ∨ d = 1) → i < n → clampIdx d i < d := by
    rintro d n i (rfl | rfl) h
    · rw [clampIdx_lt h]; exact h
    · exact Nat.one_pos
  have hbd : ∀ {d n : Nat}, (d = n ∨ d = 1) → broadcastDim n d = some n := by
    rintro d n (rfl | rfl)
    · exact broadcastDim_self _
    · exact broadcastDim_one_right _
  have hin : ∀ t < T, ∀ s < N, ∀ k < K, ids.at' [clampIdx a t, clampIdx b s, k] < C := by
    intro t ht s hs k hk
    exact hc _ (inShape3.mpr ⟨_, hca ha ht, _, hca hb hs, _, hk, rfl⟩)
  have key : ∀ h : Nat → S, (∀ c < C, h c = q c) → ∃ r, Tensor.zip f L ((ids.map h).map g) = .ok r ∧ r.shape = [T, N, K] ∧
      ∀ t < T, ∀ s < N, ∀ k < K,
        r.at' [t, s, k] = f (L.at' [t, s, k]) (g (q (ids.at' [clampIdx a t, clampIdx b s, k]))) := by
    intro h hh
    unfold Tensor.zip Tensor.map
    simp only [hL, hi, List.reverse_cons, List.reverse_nil, List.nil_append, List.cons_append, broadcastRev, broadcastDim_self,
      hbd ha, hbd hb]
    refine ⟨_, rfl, rfl, ?_⟩
    intro t ht s hs k hk
    simp only [projectIdx, projectRev, List.reverse_cons, List.reverse_nil, List.nil_append, List.cons_append, clampIdx_lt ht,
      clampIdx_lt hs, clampIdx_lt hk, hh _ (hin t ht s hs k hk)]
  cases noise with
  | uniform n =>
    refine ⟨_, rfl, ?_⟩
    unfold Tensor.zip Tensor.map
    simp only [hL, List.reverse_cons, List.reverse_nil, List.nil_append, List.cons_append, broadcastRev]
    refine ⟨_, rfl, rfl, ?_⟩
    intro t ht s hs k hk
    simp only [projectIdx, projectRev, List.reverse_cons, List.reverse_nil, List.nil_append, List.cons_append, clampIdx_lt ht,
      clampIdx_lt hs, clampIdx_lt hk]
    have := hq _ (hin t ht s hs k hk)
    unfold noiseProb at this
    injection this with this
    rw [← this]
    rfl
  | logUniform n =>
    refine ⟨_, rfl, key _ ?_⟩
    intro c hc
    have := hq c hc
    unfold noiseProb at this
    injection this
  | multinomial probs =>
    have hm : ∀ c < C, c < probs.length ∧ probs.getD c 0 = q c := by
      intro c hc
      have := hq c hc
      unfold noiseProb multinomialProb at this
      simp only at this
      cases hp : probs[c]? with
      | none => rw [hp] at this; cases this
      | some y =>
        rw [hp] at this
        injection this with this
        exact ⟨(List.getElem?_eq_some_iff.mp hp).1, by rw [List.getD_eq_getElem?_getD, hp]; exact this⟩
    refine ⟨ids.map fun c => probs.getD c 0, ?_, key _ fun c hc => (hm c hc).2⟩
    unfold noiseProbsTensor
    simp only
    rw [checkIds_ok]
    rw [hi]
    intro idx h
    exact (hm _ (hc idx h)).1

theorem zip_same2 {α β γ : Type} (f : α → β → γ) {x : Tensor α} {y : Tensor β} (hx : x.shape = [T, N]) (hy : y.shape = [T, N]) :
    ∃ r, Tensor.zip f x y = .ok r ∧ r.shape = [T, N] ∧
      ∀ t < T, ∀ s < N, r.at' [t, s] = f (x.at' [t, s]) (y.at' [t, s]) := by
  unfold Tensor.zip
  simp only [hx, hy, List.reverse_cons, List.reverse_nil, List.nil_append, List.cons_append, broadcastRev, broadcastDim_self]
  refine ⟨_, rfl, rfl, ?_⟩
  intro t ht s hs
  simp only [projectIdx, projectRev, List.reverse_cons, List.reverse_nil, List.nil_append, List.cons_append, clampIdx_lt ht,
    clampIdx_lt hs]

theorem zip_each {α β γ : Type} (f : α → β → γ) {x : Tensor α} {y : Tensor β} (hx : x.shape = [T, N, K]) (hy : y.shape = [T, N]) :
    ∃ r, Tensor.zip f x (y.newaxis 2) = .ok r ∧ r.shape = [T, N, K] ∧
      ∀ t < T, ∀ s < N, ∀ k < K, r.at' [t, s, k] = f (x.at' [t, s, k]) (y.at' [t, s]) := by
  unfold Tensor.zip Tensor.newaxis
  simp only [hx, hy, List.reverse_cons, List.reverse_nil, List.nil_append, List.cons_append, broadcastRev, broadcastDim_self,
    broadcastDim_one_right, List.insertIdx_succ_cons, List.insertIdx_zero]
  refine ⟨_, rfl, rfl, ?_⟩
  intro t ht s hs k hk
  simp only [projectIdx, projectRev, List.reverse_cons, List.reverse_nil, List.nil_append, List.cons_append, clampIdx_lt ht,
    clampIdx_lt hs, clampIdx_lt hk, List.eraseIdx_cons_succ, List.eraseIdx_cons_zero]

theorem reduce3 {α β : Type} (f : List α → β) {x : Tensor α} (hx : x.shape = [T, N, K]) :
    (x.reduceLast f).shape = [T, N] ∧
      ∀ t s, (x.reduceLast f).at' [t, s] = f ((List.range K).map fun k => x.at' [t, s, k]) := by
  unfold Tensor.reduceLast
  simp [hx]

end

end TheanoLM
