import Verif.Props.InitialModelSpec
import Verif.Props.ScoreBound
/-!
# C129: a network that has not been trained predicts the unigram distribution
-/
namespace TheanoLM
set_option linter.unusedSectionVars false

theorem dot_bound {B ω : ℝ} (hB : 0 ≤ B) (hω : 0 ≤ ω) : ∀ (w x : List ℝ), (∀ y ∈ x, |y| ≤ B) → (∀ y ∈ w, |y| ≤ ω) →
    |(List.zipWith (· * ·) x w).sum| ≤ w.length * (B * ω)
  | [], x, _, _ => by simp
  | w :: ws, [], _, _ => by
    simp only [List.zipWith_nil_left, List.sum_nil, abs_zero]
    positivity
  | w :: ws, x :: xs, hx, hw => by
    have ih := dot_bound hB hω ws xs (fun y hy => hx y (List.mem_cons_of_mem _ hy)) fun y hy => hw y (List.mem_cons_of_mem _ hy)
    rw [List.zipWith_cons_cons, List.sum_cons, List.length_cons, Nat.cast_succ, add_mul, one_mul]
    have h1 : |x * w| ≤ B * ω := by
      rw [abs_mul]
      exact mul_le_mul (hx x (by simp)) (hw w (by simp)) (abs_nonneg _) hB
    have := abs_add_le (x * w) (List.zipWith (· * ·) xs ws).sum
    linarith

/-- The logarithms of normalized exponentials do not change by more than twice the change of the activations. -/
theorem log_normalized {n : Nat} {r d : Nat → ℝ} {δ : ℝ} (hr : ∀ j < n, 0 < r j) (hd : ∀ j < n, |d j| ≤ δ) {j : Nat} (hj : j < n) :
    |Real.log (Real.exp (d j + Real.log (r j)) / unitSum n fun j => Real.exp (d j + Real.log (r j))) -
      Real.log (r j / unitSum n r)| ≤ 2 * δ := by
  have e : ∀ i < n, Real.exp (d i + Real.log (r i)) = Real.exp (d i) * r i := fun i hi => by rw [Real.exp_add, Real.exp_log (hr i hi)]
  have hsum : ∀ f : Nat → ℝ, (∀ i < n, 0 < f i) → 0 < unitSum n f := by
    intro f hf
    unfold unitSum
    refine List.sum_pos _ (fun x hx => ?_) ?_
    · obtain ⟨i, hi, rfl⟩ := List.mem_map.mp hx
      exact hf i (List.mem_range.mp hi)
    · intro h
      have := congrArg List.length h
      simp at this
      omega
  have hle : ∀ f g : Nat → ℝ, (∀ i < n, f i ≤ g i) → unitSum n f ≤ unitSum n g := by
    intro f g h
    unfold unitSum
    exact List.sum_le_sum fun i hi => h i (List.mem_range.mp hi)
  have hmul : ∀ (c : ℝ) (f : Nat → ℝ), unitSum n (fun i => c * f i) = c * unitSum n f := by
    intro c f
    unfold unitSum
    rw [List.sum_map_mul_left]
  have hE := hsum (fun j => Real.exp (d j + Real.log (r j))) fun i _ => Real.exp_pos _
  have hR := hsum r hr
  have h1 : unitSum n (fun j => Real.exp (d j + Real.log (r j))) ≤ Real.exp δ * unitSum n r := by
    rw [← hmul]
    refine hle _ _ fun i hi => ?_
    rw [e i hi]
    exact mul_le_mul_of_nonneg_right (Real.exp_le_exp.mpr (abs_le.mp (hd i hi)).2) (hr i hi).le
  have h2 : Real.exp (-δ) * unitSum n r ≤ unitSum n fun j => Real.exp (d j + Real.log (r j)) := by
    rw [← hmul]
    refine hle _ _ fun i hi => ?_
    rw [e i hi]
    exact mul_le_mul_of_nonneg_right (Real.exp_le_exp.mpr (abs_le.mp (hd i hi)).1) (hr i hi).le
  rw [Real.log_div (Real.exp_pos _).ne' hE.ne', Real.log_div (hr j hj).ne' hR.ne', Real.log_exp]
  have l1 := Real.log_le_log hE h1
  have l2 := Real.log_le_log (mul_pos (Real.exp_pos _) hR) h2
  rw [Real.log_mul (Real.exp_pos _).ne' hR.ne', Real.log_exp] at l1 l2
  have := abs_le.mp (hd j hj)
  rw [abs_le]
  constructor <;> linarith

section
variable {P : Parsers} {v : Vocab} {unkId : Nat} {env : CreateEnv ℝ} {a : Architecture} {net : CreatedNetwork ℝ}

/-- C129.  A network that has been created for training, with a softmax output layer, and has not been trained: whatever the preceding
words are, the log probability that is predicted for the class of a word differs from the logarithm of the smoothed relative frequency of
the class in the training data by at most twice the number of inputs of the output layer, times a bound on the inputs, times a bound on
the weights. -/
theorem C129 (hv : Constructible P v) (hu : v.wordToId unk = some unkId) (hcr : createNetwork env a = .ok net)
    (hm : ModelOf env a v net.layers net.output) {prior : List ℚ} (hprior : KnowsPrior env v prior) (hnn : ∀ p ∈ prior, 0 ≤ p)
    {c : Created ℝ} {b : Basic ℝ} {u : Nat} (hc : net.layers[net.output]? = some c) (hl : c.layer = .softmax b u)
    {B ω : ℝ} (hB : 0 ≤ B) (hω : 0 ≤ ω)
    (hW : ∀ W bias, HasAffine b "input".toList W bias → ∀ w ∈ W, ∀ y ∈ w, |y| ≤ ω)
    (hin : ∀ k ∈ b.inputs, ∀ (batch : List (List InputCell)) (n : Nat) (out : List (List (Entry ℝ))) (t s : Nat) (e : Entry ℝ) (x : List ℝ),
      Rect n batch → evalNetwork realAct ⟨false, false, fun _ _ _ => []⟩ (net.layers.map Created.layer) batch = .ok out →
      posAt out t s = some e → e.outs[k]? = some (.vec x) → ∀ y ∈ x, |y| ≤ B)
    (useShortlist : Bool) (h : List Nat) (hne : h ≠ []) (w : Nat) :
    ∃ x : ℝ, (scorerOf v unkId net.layers net.output useShortlist false).networkScore (sentenceBatch (h ++ [w])) (h.length - 1) 0 = .fin x ∧
      |x - Real.log (smoothedPrior prior (memberOf v w).1)| ≤ 2 * ((inputSizesOf net.layers c).sum * (B * ω)) := by
  have hlen := List.length_pos_iff.mpr hne
  have hpos : 0 < v.numClasses := lt_of_le_of_lt (Nat.zero_le _) (memberOf_class hv hu 0).1
  have hrect : Rect 1 (table h.length 1 (cellOf v unkId (sentenceBatch h))) := rect_table
  obtain ⟨out, o1, o2, o3, o4⟩ := output_distribution hm (excludeUnk := false) (fun h => by cases h) hpos hrect
    (cells_valid hv hu hm.words hm.classes (sentenceBatch h) h.length)
  obtain ⟨e, he⟩ := Option.isSome_iff_exists.mp ((posAt_isSome o3 (h.length - 1) 0).mpr ⟨by rw [o2]; simp [table]; omega, by omega⟩)
  obtain ⟨p, hp, p1, p2, p3, p4, p5⟩ := o4 _ _ e he
  obtain ⟨s1, -, -⟩ := C80_parameters env a net hm.prior hcr net.output c hc
  unfold ParamShapes at s1
  rw [hl] at s1
  obtain ⟨hsz, W, hA, hS⟩ := s1
  have hlayer : (net.layers.map Created.layer)[net.output]? = some (.softmax b u) := by rw [List.getElem?_map, hc, ← hl]; rfl
  have hbl : (env.priorBias.getD (List.replicate c.size 0)).length = b.size := by
    obtain ⟨parts, q1, q2, q3, -⟩ := hA
    rw [q3, hsz, ← hS.1, q2]
    have : ∀ part ∈ parts, part.1.length = part.2.length := by
      intro part hpart
      obtain ⟨k, hk, rfl⟩ := List.mem_iff_getElem.mp hpart
      exact ((List.forall₂_iff_get.mp q1).2 k (by rw [q1.length_eq]; exact hk) hk).2.2
    rw [List.length_flatMap, List.length_flatMap]
    exact congrArg List.sum (List.map_congr_left fun part hpart => (this part hpart).symm)
  obtain ⟨xs, y, y1, y2, y3, y4⟩ := C79_softmax hA (by rw [hS.1, hsz]) hbl hrect o1 hlayer he
  have hpy : p = y := by
    unfold Entry.probs at hp
    rw [y2] at hp
    exact (Option.some.inj hp).symm
  subst hpy
  have hj : (memberOf v w).1 < b.size := by rw [← y3, p1]; exact (memberOf_class hv hu w).1
  have hpl : prior.length = b.size := by
    rw [← hbl, hprior.2, Option.getD_some, List.length_map]
  have hw : (sentenceBatch (h ++ [w])).word (h.length - 1 + 1) 0 = w := by
    unfold sentenceBatch
    simp only
    rw [show h.length - 1 + 1 = h.length by omega]
    simp [List.getD]
  rw [score_of_output (p := p) (e := e) (out := out) (by simp [sentenceBatch]; omega) (by simp [sentenceBatch])
    (by rw [prefix_cells]; exact o1) he hp, hw]
  generalize (memberOf v w).1 = j at hj ⊢
  have hxs : ∀ y ∈ xs.flatten, |y| ≤ B := by
    intro y hy
    obtain ⟨x, hx, hyx⟩ := List.mem_flatten.mp hy
    obtain ⟨k, hk, rfl⟩ := List.mem_iff_getElem.mp hx
    have hk' : k < b.inputs.length := by rw [y1.length_eq]; exact hk
    exact hin b.inputs[k] (List.getElem_mem hk') _ 1 out _ _ e _ hrect o1 he ((List.forall₂_iff_get.mp y1).2 k hk' hk) y hyx
  have hd : ∀ j < b.size, |unitDot W xs.flatten j| ≤ (inputSizesOf net.layers c).sum * (B * ω) := by
    intro j hj
    have hjW : j < W.length := by rw [hS.1, ← hsz]; exact hj
    unfold unitDot
    rw [List.getD_eq_getElem?_getD, List.getElem?_eq_getElem hjW, Option.getD_some, ← hS.2 _ (List.getElem_mem hjW)]
    exact dot_bound hB hω _ _ hxs (hW W _ hA _ (List.getElem_mem hjW))
  have heps : 0 < priorEpsilon := by unfold priorEpsilon; positivity
  have hr : ∀ j < b.size, 0 < ((prior.getD j 0 : ℚ) : ℝ) + priorEpsilon := by
    intro j hj
    have hjp : j < prior.length := by rw [hpl]; exact hj
    have : (0 : ℝ) ≤ ((prior.getD j 0 : ℚ) : ℝ) := by
      rw [List.getD_eq_getElem?_getD, List.getElem?_eq_getElem hjp]
      exact_mod_cast hnn _ (List.getElem_mem hjp)
    linarith
  have hpre : ∀ j < b.size, unitPreact W (env.priorBias.getD (List.replicate c.size 0)) xs.flatten j =
      unitDot W xs.flatten j + Real.log (((prior.getD j 0 : ℚ) : ℝ) + priorEpsilon) := by
    intro j hj
    have hjp : j < prior.length := by rw [hpl]; exact hj
    unfold unitPreact
    rw [hprior.2, Option.getD_some, List.getD_eq_getElem?_getD, List.getD_eq_getElem?_getD, List.getElem?_map, List.getElem?_eq_getElem hjp]
    rfl
  have hval : p[j]? = some (Real.exp (unitDot W xs.flatten j + Real.log (((prior.getD j 0 : ℚ) : ℝ) + priorEpsilon)) /
      unitSum b.size fun j => Real.exp (unitDot W xs.flatten j + Real.log (((prior.getD j 0 : ℚ) : ℝ) + priorEpsilon))) := by
    rw [y4 j hj]
    simp only [Bool.false_eq_true, false_and, if_false]
    congr 2
    · exact congrArg Real.exp (hpre j hj)
    · unfold unitSum
      refine congrArg List.sum (List.map_congr_left fun i hi => ?_)
      exact congrArg Real.exp (hpre i (List.mem_range.mp hi))
  have hx : 0 < Real.exp (unitDot W xs.flatten j + Real.log (((prior.getD j 0 : ℚ) : ℝ) + priorEpsilon)) /
      unitSum b.size fun j => Real.exp (unitDot W xs.flatten j + Real.log (((prior.getD j 0 : ℚ) : ℝ) + priorEpsilon)) :=
    p5 rfl _ (List.mem_of_getElem? hval)
  have hsum : (prior.map fun p : ℚ => (p : ℝ) + priorEpsilon).sum = unitSum b.size fun j => ((prior.getD j 0 : ℚ) : ℝ) + priorEpsilon := by
    unfold unitSum
    rw [← hpl]
    refine congrArg List.sum (List.ext_getElem (by simp) fun i h1 h2 => ?_)
    have hi : i < prior.length := by simpa using h1
    simp [List.getElem?_eq_getElem hi]
  unfold smoothedPrior
  rw [hsum]
  refine ⟨_, ?_, log_normalized hr hd hj⟩
  · rw [hval]
    simp only
    unfold fltLog
    rw [if_neg hx.ne', if_pos hx]

/-- C129 for the usual networks: the inputs of the output layer are GRU layers or LSTM layers with tanh activation, and some word of the
shortlist occurs in the training data, whose unigram probabilities are `u`.  The class probability is the share of the class of the
unigram probabilities of the shortlist. -/
theorem C129_recurrent (hv : Constructible P v) (hu : v.wordToId unk = some unkId) (hcr : createNetwork env a = .ok net)
    (hm : ModelOf env a v net.layers net.output) {uni : List ℚ} (huni : v.unigram = some uni) (hnn : ∀ p ∈ uni, 0 ≤ p)
    (htot : (uni.take v.numShortlist).sum ≠ 0)
    (hprior : env.priorBias = v.classProbs.map fun prior => prior.map fun p : ℚ => Real.log ((p : ℝ) + priorEpsilon))
    {c : Created ℝ} {b : Basic ℝ} {u : Nat} (hc : net.layers[net.output]? = some c) (hl : c.layer = .softmax b u)
    {ω : ℝ} (hω : 0 ≤ ω) (hW : ∀ W bias, HasAffine b "input".toList W bias → ∀ w ∈ W, ∀ y ∈ w, |y| ≤ ω)
    (hin : ∀ k ∈ b.inputs, ∃ kind bk, (net.layers.map Created.layer)[k]? = some (.recurrent kind bk) ∧ (kind = .gru ∨ bk.activation = .tanh))
    (useShortlist : Bool) (h : List Nat) (hne : h ≠ []) (w : Nat) :
    ∃ (x : ℝ) (prior : List ℚ),
      (scorerOf v unkId net.layers net.output useShortlist false).networkScore (sentenceBatch (h ++ [w])) (h.length - 1) 0 = .fin x ∧
      (prior.length = v.numClasses ∧ ∀ c < v.numClasses, prior.getD c 0 = classMass v uni c / (uni.take v.numShortlist).sum) ∧
      |x - Real.log (smoothedPrior prior (memberOf v w).1)| ≤ 2 * ((inputSizesOf net.layers c).sum * ω) := by
  obtain ⟨r, r1, r2, r3, -⟩ := C69_class_probs P v hv uni huni hnn
  have hr : ∀ c < v.numClasses, r.getD c 0 = classMass v uni c / (uni.take v.numShortlist).sum := fun c hc => by
    rw [eq_div_iff htot]; exact r3 c hc
  have hr0 : ∀ p ∈ r, 0 ≤ p := by
    intro p hp
    obtain ⟨k, hk, rfl⟩ := List.mem_iff_getElem.mp hp
    have := hr k (by rw [← r2]; exact hk)
    rw [List.getD_eq_getElem?_getD, List.getElem?_eq_getElem hk, Option.getD_some] at this
    rw [this]
    refine div_nonneg ?_ (List.sum_nonneg fun p hp => hnn p (List.mem_of_mem_take hp))
    unfold classMass
    refine List.sum_nonneg fun q hq => ?_
    obtain ⟨i, -, rfl⟩ := List.mem_map.mp hq
    rw [List.getD_eq_getElem?_getD]
    cases hi : uni[i]? with
    | none => exact le_rfl
    | some q => exact hnn q (List.mem_of_getElem? hi)
  obtain ⟨x, x1, x2⟩ := C129 hv hu hcr hm (prior := r) ⟨r1, by rw [hprior, r1]; rfl⟩ hr0 hc hl (B := 1) (ω := ω) zero_le_one hω hW
    (fun k hk batch n out t s e x hn ho he hx => by
      obtain ⟨kind, bk, k1, k2⟩ := hin k hk
      obtain ⟨x', h1, h2⟩ := C109_recurrent (f := bk) hn ho (.inl ⟨k1, k2⟩) he
      rw [h1] at hx
      cases hx
      exact h2) useShortlist h hne w
  exact ⟨x, r, x1, ⟨r2, hr⟩, by rwa [one_mul] at x2⟩

end

/-- Weights of a layer are bounded. -/
theorem affine_bounded (b : Basic ℝ) (name : Str) :
    ∃ ω : ℝ, 0 ≤ ω ∧ ∀ W bias, HasAffine b name W bias → ∀ w ∈ W, ∀ y ∈ w, |y| ≤ ω := by
  obtain ⟨ω, h0, h⟩ := exists_bound b.devices
    (P := fun d B => ∀ M, getParam (name ++ "/W".toList) d b.weights = .ok M → ∀ w ∈ M, ∀ y ∈ w, |y| ≤ B)
    (fun d B B' h hB M hM w hw y hy => (h M hM w hw y hy).trans hB)
    (fun d _ => by
      cases hg : getParam (name ++ "/W".toList) d b.weights with
      | error e => exact ⟨0, le_rfl, fun M hM => by cases hM⟩
      | ok M =>
        obtain ⟨B, b0, hB⟩ := exists_within M.flatten
        exact ⟨B, b0, fun M' hM' w hw y hy => by cases hM'; exact hB y (List.mem_flatten.mpr ⟨w, hw, hy⟩)⟩)
  refine ⟨ω, h0, fun W bias hA w hw y hy => ?_⟩
  obtain ⟨parts, q1, rfl, -, -⟩ := hA
  obtain ⟨part, hp, hwp⟩ := List.mem_flatMap.mp hw
  obtain ⟨k, hk, rfl⟩ := List.mem_iff_getElem.mp hp
  have hk' : k < b.devices.length := by rw [q1.length_eq]; exact hk
  exact h b.devices[k] (List.getElem_mem hk') _ ((List.forall₂_iff_get.mp q1).2 k hk' hk).1 w hwp y hy

/-- Creation of a network for training with the class probabilities of `exScoreVocab`. -/
noncomputable def examplePriorEnv : CreateEnv ℝ :=
  { exampleModelEnv with
    priorBias := exScoreVocab.classProbs.map fun prior => prior.map fun p : ℚ => Real.log ((p : ℝ) + priorEpsilon) }

instance decidableSoftmaxAfter (c : Created ℝ) : Decidable (∃ b u, c.layer = .softmax b u ∧ b.inputs = [2]) :=
  match hl : c.layer with
  | .softmax b u => if hi : b.inputs = [2] then isTrue ⟨b, u, rfl, hi⟩ else isFalse fun ⟨b', u', h, hi'⟩ => by cases h; exact hi hi'
  | .hsoftmax _ _ _ _ _ => isFalse nofun
  | .bidirectional _ _ _ => isFalse nofun
  | .wordInput => isFalse nofun
  | .classInput => isFalse nofun
  | .projection _ => isFalse nofun
  | .fullyConnected _ => isFalse nofun
  | .addition _ _ => isFalse nofun
  | .recurrent _ _ => isFalse nofun
  | .highway _ => isFalse nofun
  | .glu _ _ _ _ => isFalse nofun
  | .dropout _ _ => isFalse nofun

instance decidableIsGru (c : Created ℝ) : Decidable (∃ b, c.layer = .recurrent .gru b) :=
  match c.layer with
  | .recurrent .gru b => isTrue ⟨b, rfl⟩
  | .recurrent .lstm _ => isFalse nofun
  | .softmax _ _ => isFalse nofun
  | .hsoftmax _ _ _ _ _ => isFalse nofun
  | .bidirectional _ _ _ => isFalse nofun
  | .wordInput => isFalse nofun
  | .classInput => isFalse nofun
  | .projection _ => isFalse nofun
  | .fullyConnected _ => isFalse nofun
  | .addition _ _ => isFalse nofun
  | .highway _ => isFalse nofun
  | .glu _ _ _ _ => isFalse nofun
  | .dropout _ _ => isFalse nofun

/-- A projection of the input word, a GRU layer, and a softmax layer. -/
def exampleGruNet : Architecture where
  inputs := [[("type".toList, .one (.str "word".toList)), ("name".toList, .one (.str "w".toList))]]
  layers := [exampleLayer "projection" "p" ["w"] [("size", .one (.int 2))], exampleLayer "gru" "h" ["p"] [("size", .one (.int 3))],
    exampleLayer "softmax" "o" ["h"] []]
  outputLayer := .str "o".toList

/-- A case that meets the hypotheses of `C129` and `C129_recurrent`. -/
example : ∃ net c b u ω uni, createNetwork examplePriorEnv exampleGruNet = .ok net ∧
    ModelOf examplePriorEnv exampleGruNet exScoreVocab net.layers net.output ∧ Constructible exParsers exScoreVocab ∧
    exScoreVocab.wordToId unk = some 5 ∧ exScoreVocab.unigram = some uni ∧ (∀ p ∈ uni, 0 ≤ p) ∧
    (uni.take exScoreVocab.numShortlist).sum ≠ 0 ∧
    examplePriorEnv.priorBias = exScoreVocab.classProbs.map (fun prior => prior.map fun p : ℚ => Real.log ((p : ℝ) + priorEpsilon)) ∧
    net.layers[net.output]? = some c ∧ c.layer = .softmax b u ∧ 0 ≤ ω ∧
    (∀ W bias, HasAffine b "input".toList W bias → ∀ w ∈ W, ∀ y ∈ w, |y| ≤ ω) ∧
    (∀ k ∈ b.inputs, ∃ kind bk, (net.layers.map Created.layer)[k]? = some (.recurrent kind bk) ∧ (kind = .gru ∨ bk.activation = .tanh)) := by
  obtain ⟨net, h1, h2, ⟨g, hg, bg, hlg⟩, ⟨c, hc, b, u, hl, hi⟩, h6⟩ : ∃ net, createNetwork examplePriorEnv exampleGruNet = .ok net ∧
      net.output = 3 ∧ (∃ c, net.layers[2]? = some c ∧ ∃ b, c.layer = .recurrent .gru b) ∧
      (∃ c, net.layers[3]? = some c ∧ ∃ b u, c.layer = .softmax b u ∧ b.inputs = [2]) ∧
      ∀ c ∈ net.layers, Connected net.layers c ∧ Placed c := by
    decide +kernel
  have hp : PriorFits examplePriorEnv exampleGruNet := by
    intro p hp
    refine ⟨?_, fun d hd ht n hn => ?_⟩
    rotate_left
    · have key : ∀ d ∈ exampleGruNet.layers, dictGet? d "type".toList = some (.one (.str "softmax".toList)) →
          dictGet? d "name".toList = some (.one exampleGruNet.outputLayer) := by decide +kernel
      rw [key d hd ht] at hn
      cases hn
      rfl
    have : (examplePriorEnv.priorBias.map List.length) = some 5 := by decide +kernel
    rw [hp] at this
    exact Option.some.inj this
  have hs : SameNetwork net.layers net.layers := by
    have key := createNetwork_same (env := examplePriorEnv) (env' := examplePriorEnv)
      ⟨rfl, rfl, rfl, rfl, rfl, rfl, rfl, rfl⟩ (a := exampleGruNet) (b := exampleGruNet)
      (List.forall₂_same.mpr fun d hd => rfl) (List.forall₂_same.mpr fun d _ k => rfl) rfl hp hp
    rw [h1] at key
    cases key with
    | ok h => exact h.1
  obtain ⟨ω, w0, hω⟩ := affine_bounded b "input".toList
  have hm : ModelOf examplePriorEnv exampleGruNet exScoreVocab net.layers net.output := by
    refine ⟨⟨net, h1, rfl, hs, h6⟩, hp, rfl, rfl, fun i hi => ?_, c, by rw [h2]; exact hc, .inl ⟨b, u, hl⟩⟩
    have : exScoreVocab.wordToId unk = some 5 := by decide +kernel
    rw [this] at hi
    cases hi
    rfl
  refine ⟨net, c, b, u, ω, _, h1, hm, exScoreVocab_constructible, by decide +kernel, rfl, by decide +kernel, by decide +kernel, rfl,
    by rw [h2]; exact hc, hl, w0, hω, fun k hk => ⟨.gru, bg, ?_, .inl rfl⟩⟩
  rw [hi] at hk
  rw [List.mem_singleton.mp hk, List.getElem?_map, hg, ← hlg]
  rfl

end TheanoLM
