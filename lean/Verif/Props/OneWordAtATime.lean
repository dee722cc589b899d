import Verif.Props.NetworkDecoder
import Verif.Model.TextSampler
/-!
# Which models can be used one word at a time: C139
-/
set_option linter.unusedSectionVars false

namespace TheanoLM

/-! ## Specification -/

/-- A layer whose output is not a function of the current word and a state that is passed from word to word: a bidirectional or a
convolution (gated linear unit) layer. -/
def Layer.NeedsSequence {S : Type} : Layer S → Prop
  | .bidirectional _ _ _ => True
  | .glu _ _ _ _ => True
  | _ => False

/-! ## Lemmas -/

theorem needsSequence_iff {S : Type} (layer : Layer S) :
    ¬ layer.NeedsSequence ↔ layer.Forward ∧ ∀ b k i filters, layer ≠ .glu b k i filters := by
  cases layer <;> simp [Layer.NeedsSequence, Layer.Forward]

section
variable {S : Type} [Add S] [Mul S] [Sub S] [Div S] [Zero S] [One S]

theorem stepLayers_refused {act : Act S} {opts : EvalOptions} {time : Nat} {state : List (Arr3 S)} {layers : List (Layer S)}
    (h : ∃ l ∈ layers, l.NeedsSequence) (k index : Nat) (row : List (Entry S)) :
    ∃ e, stepLayers act opts time state k index layers row = .error e := by
  induction layers generalizing k index row with
  | nil => obtain ⟨l, hl, _⟩ := h; cases hl
  | cons layer layers ih =>
    rw [stepLayers]
    by_cases hn : layer.NeedsSequence
    · refine ⟨.runtimeError, ?_⟩
      cases layer <;> first | exact hn.elim | rfl
    · have hr : ∃ l ∈ layers, l.NeedsSequence := by
        obtain ⟨l, hl, hs⟩ := h
        rcases List.mem_cons.mp hl with rfl | hl
        · exact absurd hs hn
        · exact ⟨l, hl, hs⟩
      cases stepLayer act opts layer k time state index (gatherRow layer.inputs row) with
      | error e => exact ⟨e, rfl⟩
      | ok r =>
        obtain ⟨e, he⟩ := ih hr (k + 1) (index + layer.stateSizes.length) (addOutputs row r.1)
        refine ⟨e, ?_⟩
        simp only
        rw [he]

theorem stepNetwork_refused {act : Act S} {opts : EvalOptions} {layers : List (Layer S)} (h : ∃ l ∈ layers, l.NeedsSequence) (time : Nat)
    (state : RecState S) (cells : List InputCell) : ∃ e, stepNetwork act opts layers time state cells = .error e := by
  unfold stepNetwork
  obtain ⟨e, he⟩ := stepLayers_refused (act := act) (opts := opts) (time := time) (state := state.vars) h 0 0
    (cells.map fun c => ⟨{ c with mask := true }, []⟩)
  rw [he]
  exact ⟨e, rfl⟩

theorem samplerStep_refused {act : Act S} {opts : EvalOptions} {layers : List (Layer S)} (h : ∃ l ∈ layers, l.NeedsSequence)
    (output : Nat) (R : Draws S) (time : Nat) (state : RecState S) (input : List InputCell) :
    ∃ e, samplerStep act opts layers output R time state input = .error e := by
  unfold samplerStep
  obtain ⟨e, he⟩ := stepNetwork_refused (act := act) (opts := opts) h (time - 1) state input
  rw [he]
  exact ⟨e, rfl⟩

/-! ## The properties -/

/-- **C139** Text cannot be generated with a network that has a bidirectional or a convolution layer. -/
theorem C139_generate (act : Act S) (opts : EvalOptions) (layers : List (Layer S)) (output : Nat) (v : Vocab) (R : Draws S)
    (length numSequences : Nat) (seed : Str) (h : ∃ l ∈ layers, l.NeedsSequence) (hl : 2 ≤ length ∨ pySplit seed ≠ []) :
    ∃ e, generate act opts layers output v R length numSequences seed = .error e := by
  unfold generate
  simp only
  cases v.wordToId sos with
  | none => exact ⟨_, rfl⟩
  | some i =>
    simp only
    cases v.classOf[i]? with
    | none => exact ⟨_, rfl⟩
    | some c =>
      simp only
      cases mkRecState (S := S) (networkStateSizes layers) numSequences none with
      | error e => exact ⟨_, rfl⟩
      | ok state =>
        simp only
        cases ht : pySplit seed with
        | cons t ts =>
          rw [seedLoop]
          obtain ⟨e, he⟩ := samplerStep_refused (act := act) (opts := opts) h output R 1 state (List.replicate numSequences ⟨i, c, true⟩)
          rw [he]
          exact ⟨e, rfl⟩
        | nil =>
          obtain ⟨n, hn⟩ : ∃ n, length - 1 = n + 1 := ⟨length - 2, by
            rcases hl with hl | hl
            · omega
            · exact absurd ht hl⟩
          rw [seedLoop, hn]
          simp only
          rw [sampleLoop]
          obtain ⟨e, he⟩ := samplerStep_refused (act := act) (opts := opts) h output R (([] : List Str).length + 1) state
            (List.replicate numSequences ⟨i, c, true⟩)
          rw [he]
          exact ⟨e, rfl⟩

end

section
variable {P : Parsers} {v : Vocab} {unkId : Nat} {env : CreateEnv ℝ} {a : Architecture} {layers : List (Created ℝ)} {output : Nat}
  {D : Decoder ℝ (RecState ℝ)} {useShortlist : Bool}

/-- **C139** In lattice decoding, a network can be evaluated for the next words of any hypotheses exactly when it does not have
bidirectional and convolution layers. -/
theorem C139_decode_iff (hv : Constructible P v) (hu : v.wordToId unk = some unkId) (hm : ModelOf env a v layers output)
    (hD : D.Uses v unkId layers output useShortlist false) (histories : List (List HistWord × HistWord)) (hne : histories ≠ []) :
    (∃ rs, stepTokens realAct ⟨false, false, fun _ _ _ => []⟩ (layers.map Created.layer)
        (histories.map fun x => (netState D x.1, ⟨netId D.vocab x.2, D.vocab.classId (netId D.vocab x.2), true⟩)) = .ok rs) ↔
      ∀ c ∈ layers, ¬ c.layer.NeedsSequence := by
  constructor
  · rintro ⟨rs, h⟩ c hc hn
    unfold stepTokens at h
    split at h
    · cases h
    · rename_i state hst
      obtain ⟨e, he⟩ := stepLayers_refused (act := realAct) (opts := ⟨false, false, fun _ _ _ => []⟩) (time := 0) (state := state.vars)
        (layers := layers.map Created.layer) ⟨c.layer, List.mem_map.mpr ⟨c, hc, rfl⟩, hn⟩ 0 0
        ((histories.map fun x => (netState D x.1, (⟨netId D.vocab x.2, D.vocab.classId (netId D.vocab x.2), true⟩ : InputCell))).map
          fun x => ⟨{ x.2 with mask := true }, []⟩)
      rw [he] at h
      cases h
  · intro h
    obtain ⟨rs, h1, _⟩ := C97_step hv hu hm (fun c hc => (needsSequence_iff c.layer).mp (h c hc)) hD histories hne
    exact ⟨rs, h1⟩

end

/-! ## Examples -/

/-- A case that meets the hypotheses of `C139_decode_iff`, where the network can be evaluated. -/
example : ∃ layers, ModelOf exampleModelEnv exampleRecurrent exScoreVocab layers 3 ∧ ∀ c ∈ layers, ¬ c.layer.NeedsSequence := by
  obtain ⟨layers, h1, h2, _⟩ := exampleRecurrent_model
  exact ⟨layers, h1, fun c hc => (needsSequence_iff c.layer).mpr (h2 c hc)⟩

/-- The description of a network with a convolution layer, which can be created. -/
def exampleConvolution : Architecture where
  inputs := [[("type".toList, .one (.str "word".toList)), ("name".toList, .one (.str "w".toList))]]
  layers := [exampleLayer "projection" "p" ["w"] [("size", .one (.int 2))],
    exampleLayer "glu" "g" ["p"] [("size", .one (.int 2)), ("filter_size", .one (.int 3))], exampleLayer "softmax" "o" ["g"] []]
  outputLayer := .str "o".toList

instance decidableNeedsSequence {S : Type} (layer : Layer S) : Decidable layer.NeedsSequence := by
  cases layer <;> unfold Layer.NeedsSequence <;> infer_instance

example : ∃ net, createNetwork exampleModelEnv exampleConvolution = .ok net ∧ net.output = 3 ∧
    (∃ c ∈ net.layers, c.layer.NeedsSequence) ∧ ∀ c ∈ net.layers, Connected net.layers c ∧ Placed c := by
  decide +kernel

end TheanoLM
