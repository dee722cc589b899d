import Verif.Lemmas.PackageArchitecture
import Verif.Props.OneWordAtATime
import Verif.Props.Disconnected
/-!
# The architectures that come with the program: C140
-/
set_option linter.unusedSectionVars false

namespace TheanoLM

/-! ## Specification -/

/-- A network that can be trained and used for everything: every layer can process the output of its inputs, the output layer gives a
probability for each of `n` classes, the optimizer can be created whether regularization is used or not, and no layer needs the words
that follow. -/
structure Works {S : Type} [Add S] [Mul S] [Sub S] [Div S] [Zero S] [One S] [Min S] (n : Nat) (net : CreatedNetwork S) : Prop where
  connected : ∀ c ∈ net.layers, Connected net.layers c ∧ Placed c
  output : ∃ c, net.layers[net.output]? = some c ∧ c.size = n ∧ ∃ b unkClass, c.layer = .softmax b unkClass
  trainable : ∀ l1 l2 : Option S, (buildOptimizer net l1 l2).outcome = .ok ()
  forward : ∀ c ∈ net.layers, ¬ c.layer.NeedsSequence

/-- `int` and `float` read the numbers that are written in the files of the program. -/
structure ReadsNumbers {S : Type} (env : CreateEnv S) : Prop where
  int : ∀ n : Nat, env.parseInt (toString n).toList = some (n : ℤ)
  rate : ∃ r, env.parseFloat (.str "0.25".toList) = some r

/-! ## Lemmas -/

theorem computedFrom_chain {S : Type} {layers : List (Layer S)} {n : Nat}
    (h : ∀ k < n, ∃ l, layers[k + 1]? = some l ∧ k ∈ l.inputs) : ∀ j ≤ n, ComputedFrom layers n (n - j) := by
  intro j hj
  induction j with
  | zero => exact .self
  | succ j ih =>
    obtain ⟨l, h1, h2⟩ := h (n - (j + 1)) (by omega)
    rw [show n - (j + 1) + 1 = n - j by omega] at h1
    exact .input (ih (by omega)) h1 h2

section
variable {S : Type} [Add S] [Mul S] [Sub S] [Div S] [Zero S] [One S] [Min S]

theorem trainable_chain {env : CreateEnv S} {a : Architecture} {net : CreatedNetwork S} (h : createNetwork env a = .ok net)
    (hl : net.layers.length = net.output + 1)
    (hc : ∀ k < net.output, ∃ l, (net.layers.map Created.layer)[k + 1]? = some l ∧ k ∈ l.inputs) (l1 l2 : Option S) :
    (buildOptimizer net l1 l2).outcome = .ok () := by
  rw [C138_trainable_iff h]
  refine .inr (.inr fun k c hk => .inr ?_)
  have hlt := (List.getElem?_eq_some_iff.mp hk).1
  have := computedFrom_chain hc (net.output - k) (by omega)
  rwa [show net.output - (net.output - k) = k by omega] at this

theorem needsSequence_same {l l' : Layer S} (h : SameLayer l l') (hn : ¬ l.NeedsSequence) : ¬ l'.NeedsSequence := by
  cases h <;> exact hn

end

/-! ## The properties -/

section
variable {S : Type} [Add S] [Mul S] [Sub S] [Div S] [Zero S] [One S] [Min S]

/-- C140, "lstm300", which is used when no architecture is given. -/
theorem C140_lstm300 (env : CreateEnv S) (hr : ReadsNumbers env) (hd : env.defaultDevice = none) (files : Str → Option (List Str)) :
    ∃ a net, trainArchitecture env.parseInt files "lstm300".toList = .ok a ∧ createNetwork env a = .ok net ∧
      net.layers.map Created.size = [env.numClasses, 100, 300, 300, env.numClasses] ∧ Works env.numClasses net := by
  obtain ⟨b1, b2, b3, b4, h, ⟨i1, d1⟩, ⟨i2, d2⟩, ⟨i3, d3⟩, ⟨i4, d4⟩⟩ := lstm300_layers env hd
  refine ⟨lstm300, _, lstm300_read hr.int, h, rfl, ?_, ⟨_, rfl, rfl, b4, _, rfl⟩, ?_, ?_⟩
  · intro c hc
    simp only [List.mem_cons, List.not_mem_nil, or_false] at hc
    rcases hc with rfl | rfl | rfl | rfl | rfl
    · exact ⟨trivial, trivial⟩
    · exact ⟨⟨0, _, i1, rfl, trivial⟩, trivial⟩
    · refine ⟨?_, trivial⟩
      show FeatureInputs _ b2.inputs
      rw [i2]
      exact ⟨by simp, by simp [Layer.IsInput, Layer.IsOutput]⟩
    · refine ⟨?_, trivial⟩
      show FeatureInputs _ b3.inputs
      rw [i3]
      exact ⟨by simp, by simp [Layer.IsInput, Layer.IsOutput]⟩
    · refine ⟨?_, fun _ => d4⟩
      show FeatureInputs _ b4.inputs
      rw [i4]
      exact ⟨by simp, by simp [Layer.IsInput, Layer.IsOutput]⟩
  · refine trainable_chain h rfl fun k hk => ?_
    match k, hk with
    | 0, _ => exact ⟨_, rfl, by show 0 ∈ b1.inputs; rw [i1]; simp⟩
    | 1, _ => exact ⟨_, rfl, by show 1 ∈ b2.inputs; rw [i2]; simp⟩
    | 2, _ => exact ⟨_, rfl, by show 2 ∈ b3.inputs; rw [i3]; simp⟩
    | 3, _ => exact ⟨_, rfl, by show 3 ∈ b4.inputs; rw [i4]; simp⟩
  · intro c hc
    simp only [List.mem_cons, List.not_mem_nil, or_false] at hc
    rcases hc with rfl | rfl | rfl | rfl | rfl <;> exact id

/-- C140, "lstm1500". -/
theorem C140_lstm1500 (env : CreateEnv S) (hr : ReadsNumbers env) (hd : env.defaultDevice = none) (files : Str → Option (List Str)) :
    ∃ a net, trainArchitecture env.parseInt files "lstm1500".toList = .ok a ∧ createNetwork env a = .ok net ∧
      net.layers.map Created.size = [env.numClasses, 500, 500, 1500, 1500, 1500, 1500, env.numClasses] ∧ Works env.numClasses net := by
  obtain ⟨rate, hf⟩ := hr.rate
  obtain ⟨b1, b2, b3, b4, b5, b6, b7, h, ⟨i1, d1⟩, ⟨i2, d2⟩, ⟨i3, d3⟩, ⟨i4, d4⟩, ⟨i5, d5⟩, ⟨i6, d6⟩, ⟨i7, d7⟩⟩ := lstm1500_layers env hd hf
  refine ⟨lstm1500, _, lstm1500_read hr.int, h, rfl, ?_, ⟨_, rfl, rfl, b7, _, rfl⟩, ?_, ?_⟩
  · intro c hc
    simp only [List.mem_cons, List.not_mem_nil, or_false] at hc
    rcases hc with rfl | rfl | rfl | rfl | rfl | rfl | rfl | rfl
    · exact ⟨trivial, trivial⟩
    · exact ⟨⟨0, _, i1, rfl, trivial⟩, trivial⟩
    · refine ⟨?_, trivial⟩
      show FeatureInputs _ b2.inputs
      rw [i2]
      exact ⟨by simp, by simp [Layer.IsInput, Layer.IsOutput]⟩
    · refine ⟨?_, trivial⟩
      show FeatureInputs _ b3.inputs
      rw [i3]
      exact ⟨by simp, by simp [Layer.IsInput, Layer.IsOutput]⟩
    · refine ⟨?_, trivial⟩
      show FeatureInputs _ b4.inputs
      rw [i4]
      exact ⟨by simp, by simp [Layer.IsInput, Layer.IsOutput]⟩
    · refine ⟨?_, trivial⟩
      show FeatureInputs _ b5.inputs
      rw [i5]
      exact ⟨by simp, by simp [Layer.IsInput, Layer.IsOutput]⟩
    · refine ⟨?_, trivial⟩
      show FeatureInputs _ b6.inputs
      rw [i6]
      exact ⟨by simp, by simp [Layer.IsInput, Layer.IsOutput]⟩
    · refine ⟨?_, fun _ => d7⟩
      show FeatureInputs _ b7.inputs
      rw [i7]
      exact ⟨by simp, by simp [Layer.IsInput, Layer.IsOutput]⟩
  · refine trainable_chain h rfl fun k hk => ?_
    match k, hk with
    | 0, _ => exact ⟨_, rfl, by show 0 ∈ b1.inputs; rw [i1]; simp⟩
    | 1, _ => exact ⟨_, rfl, by show 1 ∈ b2.inputs; rw [i2]; simp⟩
    | 2, _ => exact ⟨_, rfl, by show 2 ∈ b3.inputs; rw [i3]; simp⟩
    | 3, _ => exact ⟨_, rfl, by show 3 ∈ b4.inputs; rw [i4]; simp⟩
    | 4, _ => exact ⟨_, rfl, by show 4 ∈ b5.inputs; rw [i5]; simp⟩
    | 5, _ => exact ⟨_, rfl, by show 5 ∈ b6.inputs; rw [i6]; simp⟩
    | 6, _ => exact ⟨_, rfl, by show 6 ∈ b7.inputs; rw [i7]; simp⟩
  · intro c hc
    simp only [List.mem_cons, List.not_mem_nil, or_false] at hc
    rcases hc with rfl | rfl | rfl | rfl | rfl | rfl | rfl | rfl <;> exact id

/-- C140, the parameters.  The networks can be used with the vocabulary that they have been created for, in all the ways that the other
theorems about language models are about, when the parameters have been given any other values by training. -/
theorem C140_model (env : CreateEnv S) (hr : ReadsNumbers env) (hd : env.defaultDevice = none) (files : Str → Option (List Str))
    {v : Vocab} (hw : env.numWords = v.numShortlist) (hc : env.numClasses = v.numClasses)
    (hu : ∀ i, v.wordToId unk = some i → v.classOf[i]? = some env.unkClass)
    (hp : ∀ p, env.priorBias = some p → p.length = env.numClasses) {name : Str} (hn : name = "lstm300".toList ∨ name = "lstm1500".toList) :
    ∃ a net, trainArchitecture env.parseInt files name = .ok a ∧ createNetwork env a = .ok net ∧
      ∀ layers, SameNetwork net.layers layers → ModelOf env a v layers net.output ∧ ∀ c ∈ layers, ¬ c.layer.NeedsSequence := by
  have key : ∀ {a : Architecture} {net : CreatedNetwork S}, createNetwork env a = .ok net → PriorFits env a → Works env.numClasses net →
      ∀ layers, SameNetwork net.layers layers → ModelOf env a v layers net.output ∧ ∀ c ∈ layers, ¬ c.layer.NeedsSequence := by
    intro a net h hfit hworks layers hs
    refine ⟨⟨⟨net, h, rfl, hs, hworks.connected⟩, hfit, hw, hc, hu, ?_⟩, ?_⟩
    · obtain ⟨c, h1, _, b, u, h2⟩ := hworks.output
      obtain ⟨hlt, he⟩ := List.getElem?_eq_some_iff.mp h1
      have hlen := hs.length_eq
      have := (List.forall₂_iff_get.mp hs).2 net.output hlt (by omega)
      refine ⟨layers[net.output], List.getElem?_eq_getElem _, .inl ?_⟩
      have hsl := this.2.2
      rw [List.get_eq_getElem, List.get_eq_getElem, he, h2] at hsl
      generalize layers[net.output].layer = l at hsl
      cases hsl
      exact ⟨_, _, rfl⟩
    · intro c hc
      obtain ⟨c', hc', h1⟩ := forall₂_mem_right hs hc
      exact needsSequence_same h1.2.2 (hworks.forward c' hc')
  rcases hn with rfl | rfl
  · obtain ⟨a, net, h1, h2, _, h3⟩ := C140_lstm300 env hr hd files
    have ha : a = lstm300 := Except.ok.inj (h1.symm.trans (lstm300_read hr.int))
    subst ha
    have hs : ∀ d ∈ lstm300.layers, dictGet? d "type".toList = some (.one (.str "softmax".toList)) →
        dictGet? d "name".toList = some (.one (lstm300.outputLayer)) := by decide +kernel
    refine ⟨_, net, h1, h2, key h2 (fun p h => ⟨hp p h, fun d hd ht n hn => ?_⟩) h3⟩
    have := (hs d hd ht).symm.trans hn
    injection this with this
    injection this with this
    exact this.symm
  · obtain ⟨a, net, h1, h2, _, h3⟩ := C140_lstm1500 env hr hd files
    have ha : a = lstm1500 := Except.ok.inj (h1.symm.trans (lstm1500_read hr.int))
    subst ha
    have hs : ∀ d ∈ lstm1500.layers, dictGet? d "type".toList = some (.one (.str "softmax".toList)) →
        dictGet? d "name".toList = some (.one (lstm1500.outputLayer)) := by decide +kernel
    refine ⟨_, net, h1, h2, key h2 (fun p h => ⟨hp p h, fun d hd ht n hn => ?_⟩) h3⟩
    have := (hs d hd ht).symm.trans hn
    injection this with this
    injection this with this
    exact this.symm

end

/-- C140, decoding.  With either of the architectures, whatever the parameters have been trained to be, the next words of any hypotheses
can be evaluated in lattice decoding. -/
theorem C140_decode {P : Parsers} {v : Vocab} {unkId : Nat} (hv : Constructible P v) (hunk : v.wordToId unk = some unkId)
    (env : CreateEnv ℝ) (hr : ReadsNumbers env) (hd : env.defaultDevice = none) (files : Str → Option (List Str))
    (hw : env.numWords = v.numShortlist) (hc : env.numClasses = v.numClasses) (hu : v.classOf[unkId]? = some env.unkClass)
    (hp : ∀ p, env.priorBias = some p → p.length = env.numClasses) {name : Str} (hn : name = "lstm300".toList ∨ name = "lstm1500".toList) :
    ∃ a net, trainArchitecture env.parseInt files name = .ok a ∧ createNetwork env a = .ok net ∧
      ∀ layers, SameNetwork net.layers layers → ∀ (D : Decoder ℝ (RecState ℝ)) (useShortlist : Bool),
        D.Uses v unkId layers net.output useShortlist false → ∀ histories : List (List HistWord × HistWord), histories ≠ [] →
          ∃ rs, stepTokens realAct ⟨false, false, fun _ _ _ => []⟩ (layers.map Created.layer)
            (histories.map fun x => (netState D x.1, ⟨netId D.vocab x.2, D.vocab.classId (netId D.vocab x.2), true⟩)) = .ok rs := by
  obtain ⟨a, net, h1, h2, h3⟩ := C140_model env hr hd files hw hc
    (fun i hi => by rw [hunk] at hi; cases hi; exact hu) hp hn
  refine ⟨a, net, h1, h2, fun layers hs D useShortlist hD histories hne => ?_⟩
  exact (C139_decode_iff hv hunk (h3 layers hs).1 hD histories hne).mpr (h3 layers hs).2

/-! ## Examples -/

/-- The environment of the other examples, with functions that read numbers. -/
noncomputable def examplePackageEnv : CreateEnv ℝ :=
  { exampleModelEnv with
    parseInt := fun s => some (Nat.ofDigitChars 10 s 0)
    parseFloat := fun _ => some (1 / 4) }

/-- A case that meets the hypotheses. -/
example : ReadsNumbers examplePackageEnv ∧ examplePackageEnv.defaultDevice = none ∧ Constructible exParsers exScoreVocab ∧
    exScoreVocab.wordToId unk = some 5 ∧ examplePackageEnv.numWords = exScoreVocab.numShortlist ∧
    examplePackageEnv.numClasses = exScoreVocab.numClasses ∧ exScoreVocab.classOf[5]? = some examplePackageEnv.unkClass ∧
    ∀ p, examplePackageEnv.priorBias = some p → p.length = examplePackageEnv.numClasses := by
  refine ⟨⟨fun n => ?_, _, rfl⟩, rfl, exScoreVocab_constructible, by decide +kernel, rfl, rfl, rfl, fun p hp => by cases hp⟩
  rw [Nat.toString_eq_ofList_toDigits, String.toList_ofList]
  show some ((Nat.ofDigitChars 10 (Nat.toDigits 10 n) 0 : Nat) : ℤ) = _
  rw [Nat.ofDigitChars_ten_toDigits]

end TheanoLM
