import Verif.Props.CreatedEval
import Verif.Props.NetworkState
/-!
# Lemmas: networks with other parameter values than the initial ones
-/
namespace TheanoLM
set_option linter.unusedSectionVars false

section
variable {S : Type} [Add S] [Mul S] [Sub S] [Div S] [Zero S] [One S]

theorem getParam_same {α : Type} {same : List α → List α → Prop} {d d' : ParamDict α} (h : SameParams same d d') {name : Str}
    {device : Option Str} {v : List α} (hv : getParam name device d = .ok v) : ∃ v', getParam name device d' = .ok v' ∧ same v v' := by
  unfold getParam at hv ⊢
  have key : ∀ k : Str, ∀ v, dictGet? d k = some v → ∃ v', dictGet? d' k = some v' ∧ same v v' := by
    clear hv
    intro k
    unfold SameParams at h
    induction h with
    | nil => intro v hv; cases hv
    | @cons e e' d d' h1 _ ih =>
      obtain ⟨k1, w1⟩ := e
      obtain ⟨k2, w2⟩ := e'
      obtain ⟨hk, hs⟩ := h1
      simp only at hk hs
      subst hk
      intro v hv
      rw [dictGet?_cons] at hv ⊢
      by_cases hk : k1 = k
      · rw [if_pos hk] at hv ⊢
        cases hv
        exact ⟨w2, rfl, hs⟩
      · rw [if_neg hk] at hv ⊢
        exact ih v hv
  cases hg : dictGet? d (paramPath name device) with
  | none => rw [hg] at hv; cases hv
  | some w =>
    rw [hg] at hv
    cases hv
    obtain ⟨v', h1, h2⟩ := key _ _ hg
    exact ⟨v', by rw [h1], h2⟩

/-- The same number of vectors, of the same length. -/
def Alike {α : Type} (W W' : List (List α)) : Prop :=
  W.length = W'.length ∧ ∀ n, (∀ w ∈ W, w.length = n) → ∀ w ∈ W', w.length = n

theorem SameMatrix.alike {w w' : List (List S)} (h : SameMatrix w w') : Alike w w' := by
  obtain ⟨hl, rows, hr⟩ := h
  refine ⟨hl, fun n hn c hc => ?_⟩
  cases w with
  | nil =>
    cases w' with
    | nil => cases hc
    | cons _ _ => cases hl
  | cons a w =>
    rw [← hn a List.mem_cons_self, hr a (by simp), hr c (by simp [hc])]

theorem Alike.append {α : Type} {A A' B B' : List (List α)} (h1 : Alike A A') (h2 : Alike B B') : Alike (A ++ B) (A' ++ B') := by
  refine ⟨by rw [List.length_append, List.length_append, h1.1, h2.1], fun n hn w hw => ?_⟩
  rcases List.mem_append.mp hw with hw | hw
  · exact h1.2 n (fun x hx => hn x (List.mem_append_left _ hx)) w hw
  · exact h2.2 n (fun x hx => hn x (List.mem_append_right _ hx)) w hw

theorem Alike.shaped {α : Type} {W W' : List (List α)} {m n : Nat} (h : Alike W W') (hs : Shaped W m n) : Shaped W' m n :=
  ⟨by rw [← h.1, hs.1], h.2 n hs.2⟩

theorem HasAffine.same {b b' : Basic S} {name : Str} {W : List (List S)} {bias : List S} (h : HasAffine b name W bias)
    (hb : SameBasic b b') : ∃ W' bias', HasAffine b' name W' bias' ∧ Alike W W' := by
  obtain ⟨parts, hp, rfl, rfl, hne⟩ := h
  have key : ∀ ds : List (Option Str), List.Forall₂ (fun device part => getParam (name ++ "/W".toList) device b.weights = .ok part.1 ∧
      getParam (name ++ "/b".toList) device b.biases = .ok part.2 ∧ part.1.length = part.2.length) ds parts →
      ∃ parts' : List (List (List S) × List S), List.Forall₂ (fun device part =>
        getParam (name ++ "/W".toList) device b'.weights = .ok part.1 ∧
        getParam (name ++ "/b".toList) device b'.biases = .ok part.2 ∧ part.1.length = part.2.length) ds parts' ∧
        Alike (parts.flatMap Prod.fst) (parts'.flatMap Prod.fst) := by
    clear hp
    intro ds hds
    induction hds with
    | nil => exact ⟨[], .nil, rfl, fun n h w hw => by cases hw⟩
    | cons h1 _ ih =>
      obtain ⟨parts', i1, i2⟩ := ih
      obtain ⟨w', g1, g2⟩ := getParam_same hb.weights h1.1
      obtain ⟨v', g3, g4⟩ := getParam_same hb.biases h1.2.1
      refine ⟨(w', v') :: parts', .cons ⟨g1, g3, ?_⟩ i1, ?_⟩
      · show w'.length = v'.length
        rw [← g2.1, h1.2.2]
        exact g4
      · rw [List.flatMap_cons, List.flatMap_cons]
        exact g2.alike.append i2
  obtain ⟨parts', h1, h2⟩ := key _ hp
  exact ⟨_, _, ⟨parts', by rw [← hb.devices]; exact h1, rfl, rfl, by rw [← hb.devices]; exact hne⟩, h2⟩

theorem hasParts_same {b b' : Basic S} {name : Str} {parts : List (List (List S))} (hb : SameBasic b b')
    (hp : List.Forall₂ (fun device part => getParam name device b.weights = .ok part) b.devices parts) :
    ∃ parts', List.Forall₂ (fun device part => getParam name device b'.weights = .ok part) b'.devices parts' ∧
      Alike parts.flatten parts'.flatten := by
  rw [← hb.devices]
  generalize b.devices = ds at hp
  induction hp with
  | nil => exact ⟨[], .nil, rfl, fun n h w hw => by cases hw⟩
  | cons h1 _ ih =>
    obtain ⟨parts', i1, i2⟩ := ih
    obtain ⟨w', g1, g2⟩ := getParam_same hb.weights h1
    exact ⟨w' :: parts', .cons g1 i1, by rw [List.flatten_cons, List.flatten_cons]; exact g2.alike.append i2⟩

theorem HasProjection.same {b b' : Basic S} {W : List (List S)} (h : HasProjection b W) (hb : SameBasic b b') :
    ∃ W', HasProjection b' W' ∧ Alike W W' := by
  obtain ⟨parts, hp, rfl⟩ := h
  obtain ⟨parts', h1, h2⟩ := hasParts_same hb hp
  exact ⟨_, ⟨parts', h1, rfl⟩, h2⟩

theorem HasWeights.same {b b' : Basic S} {name : Str} {W : List (List S)} (h : HasWeights b name W) (hb : SameBasic b b') :
    ∃ W', HasWeights b' name W' ∧ Alike W W' := by
  obtain ⟨parts, hp, rfl, hne⟩ := h
  obtain ⟨parts', h1, h2⟩ := hasParts_same hb hp
  exact ⟨_, ⟨parts', h1, rfl, by rw [← hb.devices]; exact hne⟩, h2⟩

theorem RecurrentParams.same {kind : CellKind} {b b' : Basic S} {W U : List (List S)} {bias : List S}
    (h : RecurrentParams kind b W bias U) (hb : SameBasic b b') : ∃ W' bias' U', RecurrentParams kind b' W' bias' U' := by
  obtain ⟨W', bias', h1, h2⟩ := h.input.same hb
  obtain ⟨U', h3, h4⟩ := getParam_same hb.weights h.step
  have hW : W'.length = kind.parts * b'.size := by rw [← h2.1, ← hb.size]; exact h.inputUnits
  refine ⟨W', bias', U', ⟨h1, h3, hW, by rw [← hasAffine_length h1, hW], ?_⟩⟩
  rw [← h4.1, ← hb.size]
  exact h.stepUnits

theorem HasFilters.same {b b' : Basic S} {filters filters' : ParamDict (List (List S))} {F : List (List (List S))} {bias : List S}
    (h : HasFilters b filters F bias) (hb : SameBasic b b') (hf : SameParams SameTensor filters filters') :
    ∃ F' bias', HasFilters b' filters' F' bias' ∧ F'.length = F.length ∧ bias'.length = bias.length := by
  obtain ⟨parts, hp, rfl, hne, hbias⟩ := h
  obtain ⟨bias', g1, g2⟩ := getParam_same hb.biases hbias
  have key : ∃ parts', List.Forall₂ (fun device part => getParam "input/W".toList device filters' = .ok part) b.devices parts' ∧
      parts'.flatten.length = parts.flatten.length := by
    clear hne
    generalize b.devices = ds at hp
    induction hp with
    | nil => exact ⟨[], .nil, rfl⟩
    | cons h1 _ ih =>
      obtain ⟨parts', i1, i2⟩ := ih
      obtain ⟨w', g1, g2⟩ := getParam_same hf h1
      exact ⟨w' :: parts', .cons g1 i1, by
        rw [List.flatten_cons, List.flatten_cons, List.length_append, List.length_append, i2, g2.1]⟩
  obtain ⟨parts', h1, h2⟩ := key
  exact ⟨_, bias', ⟨parts', by rw [← hb.devices]; exact h1, rfl, by rw [← hb.devices]; exact hne, g1⟩, h2, g2.symm⟩

/-- The shapes of the parameters do not depend on their values. -/
theorem LayerShapes.same {ins : List Nat} {c c' : Created S} (h : LayerShapes ins c) (hs : c.size = c'.size)
    (hl : SameLayer c.layer c'.layer) : LayerShapes ins c' := by
  obtain ⟨name, size, layer⟩ := c
  obtain ⟨name', size', layer'⟩ := c'
  simp only at hs hl
  subst hs
  cases hl with
  | wordInput => trivial
  | classInput => trivial
  | projection hb =>
    obtain ⟨e, W, h1, h2⟩ := h
    obtain ⟨W', g1, g2⟩ := h1.same hb
    exact ⟨hb.size.symm.trans e, W', g1, g2.shaped h2⟩
  | fullyConnected hb =>
    obtain ⟨e, W, bias, h1, h2⟩ := h
    obtain ⟨W', bias', g1, g2⟩ := h1.same hb
    exact ⟨hb.size.symm.trans e, W', bias', g1, g2.shaped h2⟩
  | addition hb =>
    obtain ⟨e1, e2, h⟩ := h
    refine ⟨hb.size.symm.trans e1, e2, fun i n hi hn => ?_⟩
    obtain ⟨W, h1, h2⟩ := h i n hi hn
    obtain ⟨W', g1, g2⟩ := h1.same hb
    exact ⟨W', g1, g2.shaped h2⟩
  | recurrent hb =>
    obtain ⟨e, W, bias, U, h⟩ := h
    exact ⟨hb.size.symm.trans e, h.same hb⟩
  | bidirectional hf hb =>
    obtain ⟨e, hi, ⟨W, bias, U, h1⟩, W', bias', U', h2⟩ := h
    exact ⟨by rw [← hf.size, ← hb.size]; exact e, by rw [← hb.inputs, ← hf.inputs]; exact hi, h1.same hf, h2.same hb⟩
  | highway hb =>
    obtain ⟨e1, e2, W, bias, h1, h2⟩ := h
    obtain ⟨W', bias', g1, g2⟩ := h2.same hb
    exact ⟨hb.size.symm.trans e1, e2, W', bias', g2.shaped h1, g1⟩
  | glu hb hf =>
    obtain ⟨e1, e2, e3⟩ := h
    refine ⟨hb.size.symm.trans e1, e2, fun hd => ?_⟩
    obtain ⟨F, bias, h1, h2, h3⟩ := e3 (by rw [hb.devices]; exact hd)
    obtain ⟨F', bias', g1, g2, g3⟩ := h1.same hb hf
    exact ⟨F', bias', g1, g2.trans h2, g3.trans h3⟩
  | dropout hb => exact ⟨hb.size.symm.trans h.1, h.2⟩
  | softmax hb =>
    obtain ⟨e, W, bias, h1, h2⟩ := h
    obtain ⟨W', bias', g1, g2⟩ := h1.same hb
    exact ⟨hb.size.symm.trans e, W', bias', g1, g2.shaped h2⟩
  | @hsoftmax b b' l1 l2 ws ws' bs bs' hb hw hbs =>
    obtain ⟨e1, e2, e3, e4, e5, e6, W, bias, h1, h2⟩ := h
    obtain ⟨W', bias', g1, g2⟩ := h1.same hb
    refine ⟨hb.size.symm.trans e1, e2, by rw [← hw.1]; exact e3, fun w hm => ?_, by rw [← hbs.1]; exact e5, hbs.alike.2 l2 e6, W', bias', g1,
      by rw [← g2.1]; exact h2⟩
    obtain ⟨hl, m, n, hmn⟩ := hw
    cases ws with
    | nil =>
      cases ws' with
      | nil => cases hm
      | cons _ _ => cases hl
    | cons a ws =>
      rw [(hmn w (by simp [hm])).1, ← (hmn a (by simp)).1]
      exact e4 a List.mem_cons_self

theorem SameLayer.isInput {l l' : Layer S} (h : SameLayer l l') : l.IsInput ↔ l'.IsInput := by cases h <;> exact Iff.rfl

theorem SameLayer.isOutput {l l' : Layer S} (h : SameLayer l l') : l.IsOutput ↔ l'.IsOutput := by cases h <;> exact Iff.rfl

theorem SameLayer.inputs {l l' : Layer S} (h : SameLayer l l') : l.inputs = l'.inputs := by
  cases h with
  | wordInput => rfl
  | classInput => rfl
  | bidirectional hf hb => exact hf.inputs
  | glu hb _ => exact hb.inputs
  | hsoftmax hb _ _ => exact hb.inputs
  | _ hb => exact hb.inputs

theorem SameLayer.forward {l l' : Layer S} (h : SameLayer l l') (hf : l.Forward) : l'.Forward := by
  cases h with
  | bidirectional => exact absurd rfl (hf _ _ _)
  | _ => intro k f b he; cases he

theorem SameNetwork.at {l l' : List (Created S)} (h : SameNetwork l l') (k : Nat) :
    (∀ c', l'[k]? = some c' → ∃ c, l[k]? = some c ∧ c.size = c'.size ∧ SameLayer c.layer c'.layer) ∧
    ∀ c, l[k]? = some c → ∃ c', l'[k]? = some c' ∧ c.size = c'.size ∧ SameLayer c.layer c'.layer := by
  unfold SameNetwork at h
  induction h generalizing k with
  | nil => simp
  | cons h1 _ ih =>
    cases k with
    | zero => simpa using h1.2
    | succ k => simpa using ih k

theorem SameNetwork.inputSizes {l l' : List (Created S)} (h : SameNetwork l l') {c c' : Created S} (hc : SameLayer c.layer c'.layer) :
    inputSizesOf l' c' = inputSizesOf l c := by
  unfold inputSizesOf
  rw [hc.inputs]
  apply List.map_congr_left
  intro i _
  cases hi : l[i]? with
  | none =>
    cases hi' : l'[i]? with
    | none => rfl
    | some c' =>
      obtain ⟨c, h1, _⟩ := (h.at i).1 c' hi'
      rw [hi] at h1
      cases h1
  | some c =>
    obtain ⟨c', h1, h2, _⟩ := (h.at i).2 c hi
    rw [h1]
    simp [h2]

theorem SameNetwork.features {l l' : List (Created S)} (h : SameNetwork l l') {inputs : List Nat} (hf : FeatureInputs l inputs) :
    FeatureInputs l' inputs := by
  refine ⟨hf.1, fun i hi => ?_⟩
  obtain ⟨c, hc, h1, h2⟩ := hf.2 i hi
  obtain ⟨c', g1, _, g2⟩ := (h.at i).2 c hc
  exact ⟨c', g1, by rw [← g2.isInput]; exact h1, by rw [← g2.isOutput]; exact h2⟩

theorem SameNetwork.connected {l l' : List (Created S)} (h : SameNetwork l l') {c c' : Created S} (hc : SameLayer c.layer c'.layer)
    (hw : Connected l c) : Connected l' c' := by
  obtain ⟨name, size, layer⟩ := c
  obtain ⟨name', size', layer'⟩ := c'
  simp only at hc
  cases hc with
  | wordInput => trivial
  | classInput => trivial
  | projection hb =>
    obtain ⟨i, c, h1, h2, h3⟩ := hw
    obtain ⟨c', g1, _, g2⟩ := (h.at i).2 c h2
    exact ⟨i, c', by rw [← hb.inputs]; exact h1, g1, by rw [← g2.isInput]; exact h3⟩
  | fullyConnected hb => exact h.features (by rw [← SameLayer.inputs (.fullyConnected hb)]; exact hw)
  | addition hb => exact h.features (by rw [← SameLayer.inputs (.addition hb)]; exact hw)
  | recurrent hb => exact h.features (by rw [← SameLayer.inputs (.recurrent hb)]; exact hw)
  | bidirectional hf hb => exact h.features (by rw [← SameLayer.inputs (.bidirectional hf hb)]; exact hw)
  | highway hb => exact h.features (by rw [← SameLayer.inputs (.highway hb)]; exact hw)
  | glu hb hf => exact ⟨h.features (by rw [← hb.inputs]; exact hw.1), hw.2⟩
  | dropout hb => exact h.features (by rw [← SameLayer.inputs (.dropout hb)]; exact hw)
  | softmax hb => exact h.features (by rw [← SameLayer.inputs (.softmax hb)]; exact hw)
  | hsoftmax hb h1 h2 => exact h.features (by rw [← SameLayer.inputs (.hsoftmax hb h1 h2)]; exact hw)

theorem SameLayer.placed {c c' : Created S} (h : SameLayer c.layer c'.layer) (hp : Placed c) : Placed c' := by
  obtain ⟨name, size, layer⟩ := c
  obtain ⟨name', size', layer'⟩ := c'
  simp only at h
  cases h with
  | glu hb _ => exact hb.devices.symm.trans hp
  | softmax hb => exact fun h1 => hb.devices ▸ hp (hb.devices ▸ h1)
  | hsoftmax hb _ _ => exact hb.devices.symm.trans hp
  | _ => trivial

end

end TheanoLM
