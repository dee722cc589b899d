import Verif.Lemmas.NetworkTrained
/-!
# Evaluation of a network whose parameters have been changed after it was created (C80)
-/
namespace TheanoLM
set_option linter.unusedSectionVars false

section
variable {S : Type} [Add S] [Mul S] [Sub S] [Div S] [Zero S] [One S] [Min S]

/-- The facts of a created network that do not depend on the values of the parameters. -/
theorem trained_facts {env : CreateEnv S} {a : Architecture} {net : CreatedNetwork S} (hp : PriorFits env a)
    (h : createNetwork env a = .ok net) (hw : ∀ c ∈ net.layers, Connected net.layers c ∧ Placed c) {layers : List (Created S)}
    (hs : SameNetwork net.layers layers) (k : Nat) (c : Created S) (hc : layers[k]? = some c) :
    LayerShapes (inputSizesOf layers c) c ∧ (∀ i ∈ c.layer.inputs, i < k) ∧ Connected layers c ∧ Placed c ∧
      (c.layer = .wordInput → c.size = env.numWords) ∧ (c.layer = .classInput → c.size = env.numClasses) := by
  obtain ⟨c0, h0, hsize, hl⟩ := (hs.at k).1 c hc
  obtain ⟨m1, m2, _⟩ := C80_parameters env a net hp h k c0 h0
  obtain ⟨w1, w2⟩ := hw c0 (List.mem_of_getElem? h0)
  obtain ⟨s1, s2⟩ := created_input_size h h0
  refine ⟨?_, by rw [← hl.inputs]; exact m2, hs.connected hl w1, hl.placed w2, fun e => ?_, fun e => ?_⟩
  · rw [hs.inputSizes hl]
    exact m1.shapes.same hsize hl
  · rw [← hsize]
    apply s1
    rw [e] at hl
    generalize c0.layer = l at hl
    cases hl
    rfl
  · rw [← hsize]
    apply s2
    rw [e] at hl
    generalize c0.layer = l at hl
    cases hl
    rfl

/-- C80: the network can be evaluated also after its parameters have been given other values, by training it or by reading them from a
file (`C81_partial`), and in every position each layer produces an output of its kind and size. -/
theorem C80_trained (env : CreateEnv S) (a : Architecture) (net : CreatedNetwork S) (hp : PriorFits env a)
    (h : createNetwork env a = .ok net) (hw : ∀ c ∈ net.layers, Connected net.layers c ∧ Placed c) (layers : List (Created S))
    (hs : SameNetwork net.layers layers) (act : Act S) (opts : EvalOptions) (n : Nat)
    (hkeep : opts.training = true → ∀ k c t s, layers[k]? = some c → (opts.keep k t s).length = c.size)
    (batch : List (List InputCell)) (hn : Rect n batch) (hv : ValidBatch env batch) :
    ∃ out, evalNetwork act opts (layers.map Created.layer) batch = .ok out ∧ out.length = batch.length ∧ Rect n out ∧
      ∀ t s e, posAt out t s = some e → e.outs.length = layers.length ∧
        ∀ (k : Nat) (c : Created S), layers[k]? = some c → ∃ x, e.outs[k]? = some x ∧ Produces c x := by
  have ht := TableOk.init (S := S) (layers := layers) hn hv
  obtain ⟨out, h1, h2, h3⟩ := evalLayers_created (act := act) (opts := opts) (trained_facts hp h hw hs) hkeep layers 0 rfl ht
  rw [Nat.zero_add] at h2
  refine ⟨out, h1, by rw [h3, List.length_map], h2.rect, fun t s e he => ⟨h2.length t s e he, fun k c hc => ?_⟩⟩
  exact h2.outs t s e he k c (List.getElem?_eq_some_iff.mp hc).1 hc

end

end TheanoLM
