import Verif.Props.LanguageModel
/-!
# Layers that the output is not computed from: C121
-/
set_option linter.unusedSectionVars false

namespace TheanoLM

/-! ## Specification -/

/-- The output of layer `k` is computed from the output of layer `j`: it is the same layer, an input of it, an input of an input, and so
on. -/
inductive ComputedFrom {S : Type} (layers : List (Layer S)) (k : Nat) : Nat → Prop
  | self : ComputedFrom layers k k
  | input {i j : Nat} {layer : Layer S} : ComputedFrom layers k i → layers[i]? = some layer → j ∈ layer.inputs → ComputedFrom layers k j

/-- The networks have the same layers, with the same parameters, where the layer `output` is computed from. -/
def AgreeOnUsed {S : Type} (layers layers' : List (Layer S)) (output : Nat) : Prop :=
  ∀ k, ComputedFrom layers output k → layers'[k]? = layers[k]?

/-! ## Lemmas -/

section
variable {S : Type}

theorem table_ext {α : Type} {n : Nat} {a b : List (List α)} (ha : Rect n a) (hb : Rect n b) (hl : a.length = b.length)
    (h : ∀ t s, t < a.length → s < n → posAt a t s = posAt b t s) : a = b := by
  apply List.ext_getElem hl
  intro t h1 h2
  have l1 := ha _ (List.getElem_mem h1)
  have l2 := hb _ (List.getElem_mem h2)
  apply List.ext_getElem (by rw [l1, l2])
  intro s g1 g2
  have := h t s h1 (by omega)
  unfold posAt at this
  rw [List.getElem?_eq_getElem h1, List.getElem?_eq_getElem h2] at this
  simp only [Option.bind_some] at this
  rw [List.getElem?_eq_getElem g1, List.getElem?_eq_getElem g2] at this
  exact Option.some.inj this

theorem evalNetwork_cell [Add S] [Mul S] [Sub S] [Div S] [Zero S] [One S] {act : Act S} {opts : EvalOptions} {layers : List (Layer S)}
    {n : Nat} {batch : List (List InputCell)} {out : List (List (Entry S))} (hn : Rect n batch)
    (h : evalNetwork act opts layers batch = .ok out) :
    out.length = batch.length ∧ Rect n out ∧ ∀ t s e, posAt out t s = some e → posAt batch t s = some e.cell := by
  have hn' : Rect n (batch.map fun row => row.map fun c => (⟨c, []⟩ : Entry S)) := by
    intro row hrow
    obtain ⟨r, hr, rfl⟩ := List.mem_map.mp hrow
    rw [List.length_map]
    exact hn r hr
  obtain ⟨h1, h2, h3⟩ := evalLayers_extends hn' h
  refine ⟨by rw [h1, List.length_map], h2, fun t s e he => ?_⟩
  obtain ⟨e0, g1, g2, _⟩ := h3 t s e he
  unfold posAt at g1 ⊢
  rw [List.getElem?_map] at g1
  cases hb : batch[t]? with
  | none => rw [hb] at g1; cases g1
  | some row =>
    rw [hb] at g1
    simp only [Option.map_some, Option.bind_some] at g1 ⊢
    rw [List.getElem?_map] at g1
    cases hr : row[s]? with
    | none => rw [hr] at g1; cases g1
    | some c =>
      rw [hr] at g1
      simp only [Option.map_some, Option.some.injEq] at g1
      rw [← g2, ← g1]

/-! ## The properties -/

/-- **C121** In a network, the output of a layer in every position of the mini-batch depends only on the layers that it is computed from. -/
theorem C121_network [Add S] [Mul S] [Sub S] [Div S] [Zero S] [One S] {act : Act S} {opts : EvalOptions} {layers layers' : List (Layer S)}
    {output n : Nat} (hu : AgreeOnUsed layers layers' output) {batch : List (List InputCell)} (hn : Rect n batch)
    {out out' : List (List (Entry S))} (h : evalNetwork act opts layers batch = .ok out)
    (h' : evalNetwork act opts layers' batch = .ok out') (ho : output < layers.length) :
    ∀ t s, t < batch.length → s < n → ∃ e e' x, posAt out t s = some e ∧ posAt out' t s = some e' ∧
      e.outs[output]? = some x ∧ e'.outs[output]? = some x := by
  obtain ⟨l1, r1, c1⟩ := evalNetwork_cell hn h
  obtain ⟨l2, r2, c2⟩ := evalNetwork_cell hn h'
  have key : ∀ k, ComputedFrom layers output k → k < layers.length → ∀ t s e e', posAt out t s = some e → posAt out' t s = some e' →
      ∃ x, e.outs[k]? = some x ∧ e'.outs[k]? = some x := by
    intro k
    induction k using Nat.strong_induction_on with
    | _ k ih =>
      intro hk hlt
      have hl : layers[k]? = some layers[k] := List.getElem?_eq_getElem hlt
      have hl' : layers'[k]? = some layers[k] := by rw [hu k hk, hl]
      obtain ⟨g, outs, a1, a2, a3, a4, a5⟩ := evalNetwork_layer hn h hl
      obtain ⟨g', outs', b1, b2, b3, b4, b5⟩ := evalNetwork_layer hn h' hl'
      have hg : g = g' := by
        refine table_ext a2 b2 (by rw [a4, b4, l1, l2]) fun t s ht hs => ?_
        obtain ⟨e, he⟩ := Option.isSome_iff_exists.mp ((posAt_isSome r1 t s).mpr ⟨by rw [← a4]; exact ht, hs⟩)
        obtain ⟨e', he'⟩ := Option.isSome_iff_exists.mp ((posAt_isSome r2 t s).mpr ⟨by rw [l2, ← l1, ← a4]; exact ht, hs⟩)
        rw [(a5 t s e he).2.2, (b5 t s e' he').2.2]
        have hc : e.cell = e'.cell := by
          have := c1 t s e he
          rw [c2 t s e' he'] at this
          exact (Option.some.inj this).symm
        rw [hc]
        congr 2
        apply List.map_congr_left
        intro i hi
        by_cases hik : i < k
        · obtain ⟨x, x1, x2⟩ := ih i hik (.input hk hl hi) (by omega) t s e e' he he'
          rw [List.getElem?_take_of_lt hik, List.getElem?_take_of_lt hik, x1, x2]
        · rw [List.getElem?_eq_none (by rw [List.length_take]; omega), List.getElem?_eq_none (by rw [List.length_take]; omega)]
      rw [← hg, a1] at b1
      cases b1
      intro t s e e' he he'
      obtain ⟨x, hx⟩ := Option.isSome_iff_exists.mp (a5 t s e he).2.1
      exact ⟨x, by rw [(a5 t s e he).1, hx], by rw [(b5 t s e' he').1, hx]⟩
  intro t s ht hs
  obtain ⟨e, he⟩ := Option.isSome_iff_exists.mp ((posAt_isSome r1 t s).mpr ⟨by rw [l1]; exact ht, hs⟩)
  obtain ⟨e', he'⟩ := Option.isSome_iff_exists.mp ((posAt_isSome r2 t s).mpr ⟨by rw [l2]; exact ht, hs⟩)
  obtain ⟨x, hx⟩ := key output .self ho t s e e' he he'
  exact ⟨e, e', x, he, he', hx⟩

end

section
variable {P : Parsers} {v : Vocab} {unkId : Nat}

/-- **C121** The log probabilities that a network predicts depend only on the layers that the output layer is computed from. -/
theorem C121_scores (hv : Constructible P v) (hu : v.wordToId unk = some unkId) {env env' : CreateEnv ℝ} {a a' : Architecture}
    {layers layers' : List (Created ℝ)} {output : Nat} (hm : ModelOf env a v layers output) (hm' : ModelOf env' a' v layers' output)
    (hs : AgreeOnUsed (layers.map Created.layer) (layers'.map Created.layer) output) (useShortlist excludeUnk : Bool) (b : MiniBatch)
    (t i : Nat) (ht : t < b.steps) (hi : i < b.n) :
    (scorerOf v unkId layers output useShortlist excludeUnk).networkScore b t i =
      (scorerOf v unkId layers' output useShortlist excludeUnk).networkScore b t i := by
  have hr : Rect b.n (table b.steps b.n (cellOf v unkId b)) := rect_table
  obtain ⟨net, h1, h2, h3, h4⟩ := hm.created
  obtain ⟨net', h1', h2', h3', h4'⟩ := hm'.created
  obtain ⟨out, g1, _⟩ := C80_trained env a net hm.prior h1 h4 layers h3 realAct ⟨false, excludeUnk, fun _ _ _ => []⟩ b.n
    (fun h => by cases h) _ hr (cells_valid hv hu hm.words hm.classes b b.steps)
  obtain ⟨out', g1', _⟩ := C80_trained env' a' net' hm'.prior h1' h4' layers' h3' realAct ⟨false, excludeUnk, fun _ _ _ => []⟩ b.n
    (fun h => by cases h) _ hr (cells_valid hv hu hm'.words hm'.classes b b.steps)
  obtain ⟨c, hc, _⟩ := hm.output
  have hlt := (List.getElem?_eq_some_iff.mp hc).1
  obtain ⟨e, e', x, he, he', hx, hx'⟩ := C121_network hs hr g1 g1' (by rw [List.length_map]; exact hlt) t i (by simp [table]; exact ht) hi
  have hp : e.probs output = e'.probs output := by rw [Entry.probs, Entry.probs, hx, hx']
  have ho : evalNetwork realAct ⟨false, excludeUnk, fun _ _ _ => []⟩ (layers.map Created.layer)
      (table b.steps b.n fun t i => ⟨if b.word t i < v.numShortlist then b.word t i else unkId, (memberOf v (b.word t i)).1,
        b.mask (t + 1) i != 0⟩) = .ok out := g1
  have ho' : evalNetwork realAct ⟨false, excludeUnk, fun _ _ _ => []⟩ (layers'.map Created.layer)
      (table b.steps b.n fun t i => ⟨if b.word t i < v.numShortlist then b.word t i else unkId, (memberOf v (b.word t i)).1,
        b.mask (t + 1) i != 0⟩) = .ok out' := g1'
  have he1 : ((out[t]?).bind fun row => row[i]?) = some e := he
  have he1' : ((out'[t]?).bind fun row => row[i]?) = some e' := he'
  unfold Scorer.networkScore scorerOf networkScorer
  simp only
  unfold targetLogprob
  rw [networkBatch_table, ho, ho']
  simp only
  rw [he1, he1', Option.bind_some, Option.bind_some, hp]

end

/-! ## Examples -/

/-- Layer "u" is not an input of any layer. -/
def exampleUnused : Architecture where
  inputs := [[("type".toList, .one (.str "word".toList)), ("name".toList, .one (.str "w".toList))]]
  layers := [exampleLayer "projection" "p" ["w"] [("size", .one (.int 2))],
    exampleLayer "projection" "u" ["w"] [("size", .one (.int 2))], exampleLayer "softmax" "o" ["p"] []]
  outputLayer := .str "o".toList

/-- Other parameters in layer "u". -/
noncomputable def exampleUnusedEnv : CreateEnv ℝ :=
  { exampleModelEnv with rand := fun layer _ is => if layer = "u".toList then 1 else is.sum }

theorem exampleUnused_created (env : CreateEnv ℝ) (he : env = exampleModelEnv ∨ env = exampleUnusedEnv) :
    ∃ net, createNetwork env exampleUnused = .ok net ∧ net.output = 3 ∧
    (∃ c, net.layers[3]? = some c ∧ ∃ b u, c.layer = .softmax b u) ∧
    (net.layers.map fun c => c.layer.inputs) = [[], [0], [0], [1]] ∧
    ∀ c ∈ net.layers, Connected net.layers c ∧ Placed c := by
  rcases he with rfl | rfl <;> decide +kernel

theorem exampleUnused_agree {net net' : CreatedNetwork ℝ} (h : createNetwork exampleModelEnv exampleUnused = .ok net)
    (h' : createNetwork exampleUnusedEnv exampleUnused = .ok net') :
    net.layers[0]? = net'.layers[0]? ∧ net.layers[1]? = net'.layers[1]? ∧ net.layers[3]? = net'.layers[3]? := by
  cases h
  cases h'
  exact ⟨rfl, rfl, rfl⟩

/-- A case that meets the hypotheses of `C121_network` and `C121_scores`: the parameters of a layer differ. -/
example : ∃ layers layers', ModelOf exampleModelEnv exampleUnused exScoreVocab layers 3 ∧
    ModelOf exampleUnusedEnv exampleUnused exScoreVocab layers' 3 ∧
    AgreeOnUsed (layers.map Created.layer) (layers'.map Created.layer) 3 ∧ layers ≠ layers' ∧
    Constructible exParsers exScoreVocab ∧ exScoreVocab.wordToId unk = some 5 := by
  obtain ⟨net, h1, h2, ⟨c, hc, b, u, hl⟩, h4, h5⟩ := exampleUnused_created _ (.inl rfl)
  obtain ⟨net', h1', h2', ⟨c', hc', b', u', hl'⟩, h4', h5'⟩ := exampleUnused_created _ (.inr rfl)
  have hp : PriorFits exampleModelEnv exampleUnused := fun p hp => by cases hp
  have hp' : PriorFits exampleUnusedEnv exampleUnused := fun p hp => by cases hp
  have hw : ∀ i, exScoreVocab.wordToId unk = some i → exScoreVocab.classOf[i]? = some 4 := by
    intro i hi
    have : exScoreVocab.wordToId unk = some 5 := by decide +kernel
    rw [this] at hi
    cases hi
    rfl
  have hs : SameNetwork net.layers net.layers := by
    have key := createNetwork_same (env := exampleModelEnv) (env' := exampleModelEnv)
      ⟨rfl, rfl, rfl, rfl, rfl, rfl, rfl, rfl⟩ (a := exampleUnused) (b := exampleUnused)
      (List.forall₂_same.mpr fun d hd => rfl) (List.forall₂_same.mpr fun d _ k => rfl) rfl hp hp
    rw [h1] at key
    cases key with
    | ok h => exact h.1
  have hs' : SameNetwork net'.layers net'.layers := by
    have key := createNetwork_same (env := exampleUnusedEnv) (env' := exampleUnusedEnv)
      ⟨rfl, rfl, rfl, rfl, rfl, rfl, rfl, rfl⟩ (a := exampleUnused) (b := exampleUnused)
      (List.forall₂_same.mpr fun d hd => rfl) (List.forall₂_same.mpr fun d _ k => rfl) rfl hp' hp'
    rw [h1'] at key
    cases key with
    | ok h => exact h.1
  refine ⟨net.layers, net'.layers, ⟨⟨net, h1, h2, hs, h5⟩, hp, rfl, rfl, hw, c, hc, .inl ⟨b, u, hl⟩⟩,
    ⟨⟨net', h1', h2', hs', h5'⟩, hp', rfl, rfl, hw, c', hc', .inl ⟨b', u', hl'⟩⟩, ?_, ?_, exScoreVocab_constructible, by decide +kernel⟩
  · obtain ⟨a0, a1, a3⟩ := exampleUnused_agree h1 h1'
    have used : ∀ k, ComputedFrom (net.layers.map Created.layer) 3 k → k = 0 ∨ k = 1 ∨ k = 3 := by
      intro k hk
      induction hk with
      | self => exact .inr (.inr rfl)
      | @input i j layer _ hi hj ih =>
        have hin : (net.layers.map fun c => c.layer.inputs)[i]? = some layer.inputs := by
          rw [List.getElem?_map] at hi ⊢
          cases hx : net.layers[i]? with
          | none => rw [hx] at hi; cases hi
          | some d => rw [hx] at hi; cases hi; rfl
        rw [h4] at hin
        rcases ih with rfl | rfl | rfl
        · injection hin with hin
          rw [← hin] at hj
          cases hj
        · injection hin with hin
          rw [← hin, List.mem_singleton] at hj
          exact .inl hj
        · injection hin with hin
          rw [← hin, List.mem_singleton] at hj
          exact .inr (.inl hj)
    intro k hk
    rw [List.getElem?_map, List.getElem?_map]
    rcases used k hk with rfl | rfl | rfl
    · rw [a0]
    · rw [a1]
    · rw [a3]
  · intro h
    cases h1
    cases h1'
    have := congrArg (fun l : List (Created ℝ) => l[2]?.bind fun c => match c.layer with
      | .projection b => b.weights.head?.bind fun w => w.2.head?.bind fun x => x.head?
      | _ => none) h
    have h0 : some (((0 + (0 + 0) : ℕ)) : ℝ) = some 1 := this
    simp at h0

end TheanoLM
