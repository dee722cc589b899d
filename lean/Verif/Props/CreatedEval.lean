import Verif.Props.NetworkCreate
import Verif.Lemmas.CreatedEval
import Verif.Props.Vocabulary
/-!
# Evaluation of a network created from its description (C80)
-/
namespace TheanoLM
set_option linter.unusedSectionVars false

section
variable {S : Type} [Add S] [Mul S] [Sub S] [Div S] [Zero S] [One S]

theorem hasAffine_length {b : Basic S} {name : Str} {W : List (List S)} {bias : List S} (h : HasAffine b name W bias) :
    W.length = bias.length := by
  obtain ⟨parts, hp, rfl, rfl, _⟩ := h
  generalize b.devices = ds at hp
  induction hp with
  | nil => rfl
  | cons h1 _ ih =>
    rw [List.flatMap_cons, List.flatMap_cons, List.length_append, List.length_append, h1.2.2, ih]

/-- The outputs of the layers before layer `k` are right in every position. -/
structure TableOk (env : CreateEnv S) (layers : List (Created S)) (n k : Nat) (table : List (List (Entry S))) : Prop where
  rect : Rect n table
  cells : ∀ t s e, posAt table t s = some e → e.cell.word < env.numWords ∧ e.cell.cls < env.numClasses
  length : ∀ t s e, posAt table t s = some e → e.outs.length = k
  outs : ∀ t s e, posAt table t s = some e → ∀ i c, i < k → layers[i]? = some c → ∃ x, e.outs[i]? = some x ∧ Produces c x

/-- The features that a layer reads. -/
theorem featureVectors {env : CreateEnv S} {layers : List (Created S)} {n k : Nat} {table : List (List (Entry S))}
    (ht : TableOk env layers n k table) {inputs : List Nat} (hk : ∀ i ∈ inputs, i < k) (hf : FeatureInputs layers inputs) {t s : Nat}
    {p : Pos S} (hp : posAt (gather inputs table) t s = some p) :
    ∃ xs, InputVectors p.2 xs ∧ xs ≠ [] ∧ xs.map List.length = inputs.map fun i => (layers[i]?.map Created.size).getD 0 := by
  rw [posAt_gather] at hp
  obtain ⟨e, he, rfl⟩ := Option.map_eq_some_iff.mp hp
  obtain ⟨hne, hf⟩ := hf
  have key : ∃ xs : List (List S), InputVectors (inputs.map fun i => e.outs[i]?) xs ∧
      xs.map List.length = inputs.map fun i => (layers[i]?.map Created.size).getD 0 := by
    clear hne hp
    induction inputs with
    | nil => exact ⟨[], rfl, rfl⟩
    | cons i inputs ih =>
      obtain ⟨xs, h1, h2⟩ := ih (fun i hi => hk i (List.mem_cons_of_mem _ hi)) fun i hi => hf i (List.mem_cons_of_mem _ hi)
      obtain ⟨c, hc, hci, hco⟩ := hf i List.mem_cons_self
      obtain ⟨x, hx, hpx⟩ := ht.outs t s e he i c (hk i List.mem_cons_self) hc
      cases x with
      | id m => exact absurd hpx.1 hci
      | probs y => exact absurd hpx.1 hco
      | vec y =>
        refine ⟨y :: xs, ?_, ?_⟩
        · unfold InputVectors at h1 ⊢
          rw [List.map_cons, List.map_cons, h1, hx]
        · rw [List.map_cons, List.map_cons, h2, hc, hpx.2.2]
          rfl
  obtain ⟨xs, h1, h2⟩ := key
  refine ⟨xs, h1, ?_, h2⟩
  rintro rfl
  cases inputs with
  | nil => exact hne rfl
  | cons i l => simp at h2

theorem point_exists {act : Act S} {opts : EvalOptions} {c : Created S} {k n : Nat} {g : List (List (Pos S))} (hn : Rect n g)
    (he : evalLayer act opts c.layer k g = pointRows (pointFun act opts c.layer k) 0 g)
    (h : ∀ t s p, posAt g t s = some p → ∃ x, pointElem act opts c.layer k t s p = some (.ok x) ∧ Produces c x) :
    ∃ outs, evalLayer act opts c.layer k g = .ok outs ∧ ∀ t s x, posAt outs t s = some x → Produces c x := by
  rw [he]
  refine pointRows_exists hn fun t s p hp => ?_
  obtain ⟨x, h1, h2⟩ := h t s p hp
  refine ⟨x, ?_, h2⟩
  unfold pointFun
  rw [h1]
  rfl

/-- The parameters of a created layer have the right shapes. -/
theorem ParamShapes.shapes {prior : Option (List S)} {ins : List Nat} {c : Created S} (h : ParamShapes prior ins c) :
    LayerShapes ins c := by
  obtain ⟨name, size, layer⟩ := c
  cases layer with
  | wordInput => trivial
  | classInput => trivial
  | projection b => exact h
  | fullyConnected b => obtain ⟨e, W, h1, h2⟩ := h; exact ⟨e, W, _, h1, h2⟩
  | addition b sizes => exact h
  | recurrent kind b => obtain ⟨e, W, bias, U, h1, _⟩ := h; exact ⟨e, W, bias, U, h1⟩
  | bidirectional kind f b =>
    obtain ⟨m1, m2, hm, _, ⟨e1, W, bias, U, hp, _⟩, ⟨e2, W', bias', U', hp', _⟩, hi⟩ := h
    exact ⟨by rw [e1, e2]; exact hm, hi, ⟨W, bias, U, hp⟩, W', bias', U', hp'⟩
  | highway b => obtain ⟨e1, e2, W, h1, h2⟩ := h; exact ⟨e1, e2, W, _, h1, h2⟩
  | glu b filterSize inputSize filters =>
    obtain ⟨e1, e2, e3⟩ := h
    refine ⟨e1, e2, fun hd => ?_⟩
    obtain ⟨F, h1, h2, _⟩ := e3 hd
    exact ⟨F, _, h1, h2, by rw [List.length_replicate]⟩
  | dropout b scale => exact h
  | softmax b unk => obtain ⟨e, W, h1, h2⟩ := h; exact ⟨e, W, _, h1, h2⟩
  | hsoftmax b l1 l2 ws bs =>
    obtain ⟨e1, e2, e3, e4, e5, W, h1, h2⟩ := h
    refine ⟨e1, e2, e3, fun w hw => (e4 w hw).1, by rw [e5, List.length_replicate], fun v hv => ?_, W, _, h1, h2.1⟩
    rw [e5] at hv
    rw [List.eq_of_mem_replicate hv, List.length_replicate]

/-- A layer with right parameters and inputs can be evaluated, and its outputs are right. -/
theorem evalLayer_created {env : CreateEnv S} {act : Act S} {opts : EvalOptions} {layers : List (Created S)} {n k : Nat}
    {table : List (List (Entry S))} {c : Created S} (hc : layers[k]? = some c) (ht : TableOk env layers n k table)
    (hps : LayerShapes (inputSizesOf layers c) c) (hk : ∀ i ∈ c.layer.inputs, i < k) (hw : Connected layers c) (hd : Placed c)
    (hsize : (c.layer = .wordInput → c.size = env.numWords) ∧ (c.layer = .classInput → c.size = env.numClasses))
    (hkeep : opts.training = true → ∀ t s, (opts.keep k t s).length = c.size) :
    ∃ outs, evalLayer act opts c.layer k (gather c.layer.inputs table) = .ok outs ∧
      ∀ t s x, posAt outs t s = some x → Produces c x := by
  have hn : Rect n (gather c.layer.inputs table) := gather_rect ht.rect
  have hvec : FeatureInputs layers c.layer.inputs → ∀ t s p, posAt (gather c.layer.inputs table) t s = some p →
      ∃ xs, InputVectors p.2 xs ∧ xs ≠ [] ∧ xs.map List.length = inputSizesOf layers c := fun hf t s p hp => featureVectors ht hk hf hp
  have hsum : ∀ xs : List (List S), xs.map List.length = inputSizesOf layers c → xs.flatten.length = (inputSizesOf layers c).sum := by
    intro xs h
    rw [List.length_flatten, h]
  obtain ⟨name, size, layer⟩ := c
  cases layer with
  | wordInput =>
    refine point_exists hn rfl fun t s p hp => ⟨_, rfl, ?_⟩
    rw [posAt_gather] at hp
    obtain ⟨e, he, rfl⟩ := Option.map_eq_some_iff.mp hp
    refine ⟨trivial, ?_⟩
    show _ < size
    rw [show size = env.numWords from hsize.1 rfl]
    exact (ht.cells t s e he).1
  | classInput =>
    refine point_exists hn rfl fun t s p hp => ⟨_, rfl, ?_⟩
    rw [posAt_gather] at hp
    obtain ⟨e, he, rfl⟩ := Option.map_eq_some_iff.mp hp
    refine ⟨trivial, ?_⟩
    show _ < size
    rw [show size = env.numClasses from hsize.2 rfl]
    exact (ht.cells t s e he).2
  | projection b =>
    obtain ⟨e1, W, hW, hWs⟩ := hps
    obtain ⟨i, c', hi, hc', hci⟩ := hw
    refine point_exists hn rfl fun t s p hp => ?_
    rw [posAt_gather] at hp
    obtain ⟨e, he, rfl⟩ := Option.map_eq_some_iff.mp hp
    have hik : i < k := hk i (by show i ∈ b.inputs; rw [hi]; exact List.mem_cons_self)
    obtain ⟨x, hx, hpx⟩ := ht.outs t s e he i c' hik hc'
    cases x with
    | vec y => exact absurd hci hpx.1
    | probs y =>
      have := hpx.1
      obtain ⟨_, _, l⟩ := c'
      cases l <;> first | exact absurd hci id | exact absurd this id
    | id m =>
      have hs : (inputSizesOf layers (⟨name, size, .projection b⟩ : Created S)).sum = c'.size := by
        unfold inputSizesOf
        show (List.map _ b.inputs).sum = _
        rw [hi, List.map_cons, hc']
        simp
      rw [hs] at hWs
      obtain ⟨y, hy, hyl⟩ := projection_ok hW hWs hpx.2
      refine ⟨.vec y, ?_, ⟨id, id, hyl⟩⟩
      show some (projectionElem b (List.map _ b.inputs)) = _
      rw [hi, List.map_cons, hx, List.map_nil, hy]
  | fullyConnected b =>
    obtain ⟨e1, W, bias, hW, hWs⟩ := hps
    refine point_exists hn rfl fun t s p hp => ?_
    obtain ⟨xs, h1, h2, h3⟩ := hvec hw t s p hp
    obtain ⟨y, hy, hyl⟩ := fullyConnected_ok (act := act) hW hWs.1 (by rw [← hasAffine_length hW, hWs.1]) h1 h2
    exact ⟨_, congrArg some hy, ⟨id, id, hyl⟩⟩
  | addition b sizes =>
    obtain ⟨e1, e2, hV⟩ := hps
    refine point_exists hn rfl fun t s p hp => ?_
    obtain ⟨xs, h1, h2, h3⟩ := hvec hw t s p hp
    obtain ⟨y, hy, hyl⟩ := addition_ok (b := b) (sizes := sizes) (h3.trans e2.symm) (by
      intro i sz hi hs
      rw [e2] at hi
      rw [e1] at hs ⊢
      obtain ⟨V, hV1, hV2⟩ := hV i sz hi hs
      exact ⟨V, hV1, hV2.1⟩) h1 h2
    exact ⟨_, congrArg some hy, ⟨id, id, by rw [hyl, e1]⟩⟩
  | highway b =>
    obtain ⟨e1, e2, W, bias, hWs, hW⟩ := hps
    refine point_exists hn rfl fun t s p hp => ?_
    obtain ⟨xs, h1, h2, h3⟩ := hvec hw t s p hp
    obtain ⟨y, hy, hyl⟩ := highway_ok (act := act) hW (by rw [hWs.1, e1]) (by rw [← hasAffine_length hW, hWs.1, e1]) h1 h2
      (by rw [hsum xs h3, e2, e1])
    exact ⟨_, congrArg some hy, ⟨id, id, by rw [hyl, e1]⟩⟩
  | dropout b scale =>
    obtain ⟨e1, e2⟩ := hps
    refine point_exists hn rfl fun t s p hp => ?_
    obtain ⟨xs, h1, h2, h3⟩ := hvec hw t s p hp
    obtain ⟨y, hy, hyl⟩ := dropout_ok (scale := scale) h1 h2 (by rw [hsum xs h3, e2]) fun h => hkeep h t s
    exact ⟨_, congrArg some hy, ⟨id, id, hyl⟩⟩
  | softmax b unk =>
    obtain ⟨e1, W, bias, hW, hWs⟩ := hps
    refine point_exists hn rfl fun t s p hp => ?_
    obtain ⟨xs, h1, h2, h3⟩ := hvec hw t s p hp
    obtain ⟨y, hy, hyl⟩ := softmax_ok (act := act) (excludeUnk := opts.excludeUnk) (unk := unk) hW hWs.1
      (by rw [← hasAffine_length hW, hWs.1]) h1 h2 hd
    exact ⟨_, congrArg some hy, ⟨trivial, hyl⟩⟩
  | hsoftmax b l1 l2 ws bs =>
    obtain ⟨e1, e2, e3, e4, e5, e6, W, bias, hW, hWl⟩ := hps
    refine point_exists hn rfl fun t s p hp => ?_
    obtain ⟨xs, h1, h2, h3⟩ := hvec hw t s p hp
    obtain ⟨y, hy, hyl⟩ := hsoftmax_ok (act := act) hW hWl (by rw [← hasAffine_length hW, hWl]) e3 e4 e5 e6 (by rw [e1]; exact e2) h1 h2 hd
    exact ⟨_, congrArg some hy, ⟨trivial, by rw [hyl, e1]⟩⟩
  | recurrent kind b =>
    obtain ⟨e1, W, bias, U, hp⟩ := hps
    obtain ⟨sts, hs⟩ := recurrentLayer_exists (act := act) false hp fun t s p hpos => by
      obtain ⟨xs, h1, h2, _⟩ := hvec hw t s p hpos
      exact ⟨xs, h1, h2⟩
    have hl := recurrent_lengths hp hn hs
    refine ⟨sts.map hiddenOutput, ?_, ?_⟩
    · unfold evalLayer
      simp only
      rw [hs]
    · intro t s x hx
      obtain ⟨row, hr, hrow⟩ := posAt_some.mp hx
      rw [List.getElem?_map] at hr
      obtain ⟨r, hr', rfl⟩ := Option.map_eq_some_iff.mp hr
      unfold hiddenOutput at hrow
      rw [List.getElem?_map] at hrow
      obtain ⟨st, hst, rfl⟩ := Option.map_eq_some_iff.mp hrow
      exact ⟨id, id, by rw [hl t s st (posAt_some.mpr ⟨r, hr', hst⟩), e1]⟩
  | bidirectional kind f b =>
    obtain ⟨hm, _, ⟨W, bias, U, hp⟩, W', bias', U', hp'⟩ := hps
    have hx : ∀ t s p, posAt (gather f.inputs table) t s = some p → ∃ xs, InputVectors p.2 xs ∧ xs ≠ [] := by
      intro t s p hpos
      obtain ⟨xs, h1, h2, _⟩ := hvec hw t s p hpos
      exact ⟨xs, h1, h2⟩
    obtain ⟨fs, hs⟩ := recurrentLayer_exists (act := act) false hp hx
    obtain ⟨bs, hs'⟩ := recurrentLayer_exists (act := act) true hp' hx
    have hl := recurrent_lengths hp hn hs
    have hl' := recurrent_lengths hp' hn hs'
    refine ⟨List.zipWith (List.zipWith fun f b => .vec (f.h ++ b.h)) fs bs, ?_, ?_⟩
    · unfold evalLayer
      simp only
      rw [show recurrentLayer act kind f false (gather (Layer.bidirectional kind f b).inputs table) = .ok fs from hs,
        show recurrentLayer act kind b true (gather (Layer.bidirectional kind f b).inputs table) = .ok bs from hs']
    · intro t s x hxx
      obtain ⟨row, hr, hrow⟩ := posAt_some.mp hxx
      obtain ⟨r1, r2, hr1, hr2, rfl⟩ := List.getElem?_zipWith_eq_some.mp hr
      obtain ⟨s1, s2, hs1, hs2, rfl⟩ := List.getElem?_zipWith_eq_some.mp hrow
      refine ⟨id, id, ?_⟩
      rw [List.length_append, hl t s s1 (posAt_some.mpr ⟨r1, hr1, hs1⟩), hl' t s s2 (posAt_some.mpr ⟨r2, hr2, hs2⟩)]
      exact hm
  | glu b filterSize inputSize filters =>
    obtain ⟨e1, e2, e3⟩ := hps
    obtain ⟨hw1, hw2⟩ := hw
    obtain ⟨F, bias, hF, hFl, hbl'⟩ := e3 hd
    have hFl' : F.length = 2 * b.size := by rw [e1]; exact hFl
    have hbl : bias.length = 2 * b.size := by rw [e1]; exact hbl'
    obtain ⟨outs, ho⟩ := gluLayer_exists (act := act) (i := inputSize) (g := gather b.inputs table) hF hFl' hbl hw2 (by
      intro t s p hpos
      obtain ⟨xs, h1, h2, h3⟩ := hvec hw1 t s p hpos
      rw [e2] at h3
      match xs, h3, h1 with
      | [x], _, h1 => exact ⟨x, h1⟩)
    refine ⟨outs, ho, fun t s x hx => ?_⟩
    obtain ⟨X, hX⟩ := gluLayer_at hF hFl' hbl hn ho
    obtain ⟨hl, hr⟩ := evalLayer_shape (layer := .glu b filterSize inputSize filters) (opts := opts) (k := k) ho hn
    have hdef := (posAt_isSome (n := n) hr t s).mp (by rw [hx]; rfl)
    obtain ⟨p, hp⟩ := Option.isSome_iff_exists.mp ((posAt_isSome hn t s).mpr ⟨by
      have : outs.length = (gather b.inputs table).length := hl
      show t < (gather b.inputs table).length
      omega, hdef.2⟩)
    obtain ⟨_, region, y, _, _, hy, hyu⟩ := hX t s p hp
    rw [hx] at hy
    cases hy
    exact ⟨id, id, by rw [hyu.1, e1]⟩

/-- The inputs are features, if they could be concatenated. -/
theorem featureInputs_of_vectors {env : CreateEnv S} {layers : List (Created S)} {n k : Nat} {table : List (List (Entry S))}
    (ht : TableOk env layers n k table) {inputs : List Nat} (hk : ∀ i ∈ inputs, i < k) (hkl : k ≤ layers.length) {t s : Nat}
    {p : Pos S} (hp : posAt (gather inputs table) t s = some p) {xs : List (List S)} (hx : InputVectors p.2 xs) (hne : inputs ≠ []) :
    FeatureInputs layers inputs := by
  rw [posAt_gather] at hp
  obtain ⟨e, he, rfl⟩ := Option.map_eq_some_iff.mp hp
  refine ⟨hne, fun i hi => ?_⟩
  have hlt := hk i hi
  have hil : i < layers.length := by omega
  obtain ⟨x, hx1, hx2⟩ := ht.outs t s e he i layers[i] hlt (List.getElem?_eq_getElem hil)
  refine ⟨layers[i], List.getElem?_eq_getElem hil, ?_⟩
  have hm : some x ∈ inputs.map fun i => e.outs[i]? := List.mem_map.mpr ⟨i, hi, hx1⟩
  have hx : (inputs.map fun i => e.outs[i]?) = xs.map fun x => some (.vec x) := hx
  rw [hx] at hm
  obtain ⟨y, _, hy⟩ := List.mem_map.mp hm
  injection hy with hy
  subst hy
  exact ⟨hx2.1, hx2.2.1⟩

theorem concatInputs_ne {ins : List (Option (Elem S))} {x : List S} (h : concatInputs ins = .ok x) : ins ≠ [] := by
  rintro rfl
  cases h

/-- If a layer could be evaluated in a position, it can process the output of its inputs. -/
theorem connected_of_eval {env : CreateEnv S} {act : Act S} {opts : EvalOptions} {layers : List (Created S)} {n k : Nat}
    {table : List (List (Entry S))} {c : Created S} {outs : List (List (Elem S))} (hkl : k ≤ layers.length)
    (ht : TableOk env layers n k table) (hps : LayerShapes (inputSizesOf layers c) c) (hk : ∀ i ∈ c.layer.inputs, i < k)
    {t0 s0 : Nat} {e0 : Entry S} (hne : posAt table t0 s0 = some e0)
    (h : evalLayer act opts c.layer k (gather c.layer.inputs table) = .ok outs) : Connected layers c := by
  have hpos : posAt (gather c.layer.inputs table) t0 s0 = some (e0.cell, c.layer.inputs.map fun i => e0.outs[i]?) := by
    rw [posAt_gather, hne]
    rfl
  have hcat : ∀ x, concatInputs (c.layer.inputs.map fun i => e0.outs[i]?) = .ok x → FeatureInputs layers c.layer.inputs := by
    intro x hx
    obtain ⟨xs, h1, _⟩ := concatInputs_vectors hx
    refine featureInputs_of_vectors ht hk hkl hpos h1 ?_
    have := concatInputs_ne hx
    rintro he
    rw [he] at this
    exact this rfl
  have hpre : ∀ b name x, inputPreact b name (c.layer.inputs.map fun i => e0.outs[i]?) = .ok x →
      FeatureInputs layers c.layer.inputs := by
    intro b name x hx
    unfold inputPreact at hx
    split at hx
    · cases hx
    · rename_i y hy
      exact hcat y hy
  have hpoint : evalLayer act opts c.layer k (gather c.layer.inputs table) =
      pointRows (pointFun act opts c.layer k) 0 (gather c.layer.inputs table) →
      ∃ x, (pointElem act opts c.layer k t0 s0 (e0.cell, c.layer.inputs.map fun i => e0.outs[i]?)).getD (.error .assertion) =
        .ok x := by
    intro he
    rw [he] at h
    obtain ⟨x, hx, _⟩ := pointRows_posAt h hpos
    exact ⟨x, hx⟩
  have hrec : ∀ (kind : CellKind) b rev sts, recurrentLayer act kind b rev (gather c.layer.inputs table) = .ok sts →
      FeatureInputs layers c.layer.inputs := by
    intro kind b rev sts hr
    unfold recurrentLayer at hr
    split at hr
    · cases hr
    · rename_i rows hrows
      obtain ⟨row, hr1, hr2⟩ := posAt_some.mp hpos
      obtain ⟨r, hr3⟩ : ∃ r, preactRow b row = .ok r := by
        have e1 := mapE_getElem? hrows t0
        have hl := mapE_length hrows
        have hlt := (List.getElem?_eq_some_iff.mp hr1).1
        rw [hr1, List.getElem?_eq_getElem (by omega)] at e1
        simp only [Option.bind_some] at e1
        cases hm : preactRow b row with
        | error e => rw [hm] at e1; cases e1
        | ok r => exact ⟨r, rfl⟩
      unfold preactRow at hr3
      have e1 := mapE_getElem? hr3 s0
      have hl := mapE_length hr3
      have hlt := (List.getElem?_eq_some_iff.mp hr2).1
      rw [hr2, List.getElem?_eq_getElem (by omega)] at e1
      simp only [Option.bind_some] at e1
      cases hm : inputPreact b "layer_input".toList (c.layer.inputs.map fun i => e0.outs[i]?) with
      | error e => rw [hm] at e1; cases e1
      | ok r => exact hpre _ _ _ hm
  obtain ⟨name, size, layer⟩ := c
  cases layer with
  | wordInput => trivial
  | classInput => trivial
  | projection b =>
    obtain ⟨x, hx⟩ := hpoint rfl
    change projectionElem b (b.inputs.map fun i => e0.outs[i]?) = .ok x at hx
    unfold projectionElem at hx
    split at hx
    · rename_i m hm
      match hb : b.inputs with
      | [] => rw [hb] at hm; simp at hm
      | [i] =>
        rw [hb] at hm
        simp only [List.map_cons, List.map_nil, List.cons.injEq, and_true] at hm
        have hlt : i < k := hk i (by show i ∈ b.inputs; rw [hb]; exact List.mem_cons_self)
        have hil : i < layers.length := by omega
        obtain ⟨y, hy1, hy2⟩ := ht.outs t0 s0 e0 hne i layers[i] hlt (List.getElem?_eq_getElem hil)
        rw [hm] at hy1
        cases hy1
        exact ⟨i, layers[i], hb, List.getElem?_eq_getElem hil, hy2.1⟩
      | _ :: _ :: _ => rw [hb] at hm; simp at hm
    all_goals cases hx
  | fullyConnected b =>
    obtain ⟨x, hx⟩ := hpoint rfl
    change fullyConnectedElem act b _ = .ok x at hx
    unfold fullyConnectedElem at hx
    split at hx
    · cases hx
    · rename_i y hy
      exact hpre _ _ _ hy
  | addition b sizes =>
    obtain ⟨x, hx⟩ := hpoint rfl
    change additionElem b sizes (b.inputs.map fun i => e0.outs[i]?) = .ok x at hx
    unfold additionElem at hx
    have hlen : sizes.length = (b.inputs.map fun i => e0.outs[i]?).length := by
      rw [hps.2.1, List.length_map, inputSizesOf, List.length_map]
      rfl
    split at hx
    · cases hx
    · cases hx
    · rename_i y hy
      obtain ⟨xs, hxs⟩ := additionInputs_vectors hlen hy
      refine featureInputs_of_vectors ht hk hkl hpos hxs ?_
      intro he
      have he : b.inputs = [] := he
      rw [he] at hy
      simp only [List.map_nil, List.zip_nil_left, additionLoop] at hy
      cases hy
  | highway b =>
    obtain ⟨x, hx⟩ := hpoint rfl
    change highwayElem act b _ = .ok x at hx
    unfold highwayElem at hx
    split at hx
    · cases hx
    · rename_i y hy
      exact hcat _ hy
  | dropout b scale =>
    obtain ⟨x, hx⟩ := hpoint rfl
    change dropoutElem opts.training scale _ _ = .ok x at hx
    unfold dropoutElem at hx
    split at hx
    · cases hx
    · rename_i y hy
      exact hcat _ hy
  | softmax b unk =>
    obtain ⟨x, hx⟩ := hpoint rfl
    change softmaxElem act opts.excludeUnk b unk _ = .ok x at hx
    unfold softmaxElem at hx
    split at hx
    · cases hx
    · rename_i y hy
      exact hcat _ hy
  | hsoftmax b l1 l2 ws bs =>
    obtain ⟨x, hx⟩ := hpoint rfl
    change hsoftmaxElem act b ws bs _ = .ok x at hx
    unfold hsoftmaxElem at hx
    split at hx
    · cases hx
    · rename_i y hy
      exact hcat _ hy
  | recurrent kind b =>
    unfold evalLayer at h
    simp only at h
    split at h
    · cases h
    · rename_i sts hs
      exact hrec kind b false sts hs
  | bidirectional kind f b =>
    unfold evalLayer at h
    simp only at h
    split at h
    · cases h
    · rename_i sts hs
      exact hrec kind f false sts hs
  | glu b filterSize inputSize filters =>
    change gluLayer act b filterSize inputSize filters _ = .ok outs at h
    unfold gluLayer at h
    by_cases h0 : filterSize = 0
    · rw [if_pos h0] at h; cases h
    rw [if_neg h0] at h
    split at h
    · cases h
    · rename_i rows hrows
      refine ⟨?_, by omega⟩
      obtain ⟨y, hy, _⟩ := mapE_posAt (f := fun p : Pos S => match p.2 with
        | [e] => elemVec e
        | _ => .error .assertion) hrows hpos
      simp only at hy
      split at hy
      · rename_i e he
        have hx : ∃ x, e = some (.vec x) := by
          match e, hy with
          | some (.vec x), _ => exact ⟨x, rfl⟩
        obtain ⟨x, rfl⟩ := hx
        refine featureInputs_of_vectors (xs := [x]) ht hk hkl hpos he ?_
        intro hnil
        change List.map _ b.inputs = _ at he
        rw [hnil] at he
        cases he
      · cases hy

theorem TableOk.step {env : CreateEnv S} {layers : List (Created S)} {n k : Nat} {table : List (List (Entry S))}
    {c : Created S} {outs : List (List (Elem S))} (ht : TableOk env layers n k table) (hc : layers[k]? = some c)
    (hr : Rect n outs) (ho : ∀ t s x, posAt outs t s = some x → Produces c x) :
    TableOk env layers n (k + 1) (List.zipWith addOutputs table outs) := by
  have key : ∀ t s e, posAt (List.zipWith addOutputs table outs) t s = some e → ∃ e0 x, posAt table t s = some e0 ∧
      posAt outs t s = some x ∧ e = ⟨e0.cell, e0.outs ++ [x]⟩ := by
    intro t s e he
    rw [posAt_zipWith_addOutputs] at he
    obtain ⟨e0, h0, he⟩ := Option.bind_eq_some_iff.mp he
    obtain ⟨x, hx, rfl⟩ := Option.map_eq_some_iff.mp he
    exact ⟨e0, x, h0, hx, rfl⟩
  refine ⟨?_, ?_, ?_, ?_⟩
  · intro row hrow
    obtain ⟨a, ha, b, hb, rfl⟩ := mem_zipWith hrow
    rw [addOutputs, List.length_zipWith, ht.rect a ha, hr b hb, Nat.min_self]
  · intro t s e he
    obtain ⟨e0, x, h0, _, rfl⟩ := key t s e he
    exact ht.cells t s e0 h0
  · intro t s e he
    obtain ⟨e0, x, h0, _, rfl⟩ := key t s e he
    rw [List.length_append, ht.length t s e0 h0]
    rfl
  · intro t s e he i c' hi hc'
    obtain ⟨e0, x, h0, hx, rfl⟩ := key t s e he
    have hlen := ht.length t s e0 h0
    by_cases hik : i < k
    · obtain ⟨y, hy, hpy⟩ := ht.outs t s e0 h0 i c' hik hc'
      exact ⟨y, by rw [List.getElem?_append_left (by omega)]; exact hy, hpy⟩
    · have : i = k := by omega
      subst this
      rw [hc] at hc'
      cases hc'
      exact ⟨x, by rw [List.getElem?_append_right (by omega), hlen, Nat.sub_self]; rfl, ho t s x hx⟩

/-- All layers can be evaluated. -/
theorem evalLayers_created {env : CreateEnv S} {act : Act S} {opts : EvalOptions} {layers : List (Created S)} {n : Nat}
    (hps : ∀ k c, layers[k]? = some c → LayerShapes (inputSizesOf layers c) c ∧ (∀ i ∈ c.layer.inputs, i < k) ∧
      Connected layers c ∧ Placed c ∧ (c.layer = .wordInput → c.size = env.numWords) ∧ (c.layer = .classInput → c.size = env.numClasses))
    (hkeep : opts.training = true → ∀ k c t s, layers[k]? = some c → (opts.keep k t s).length = c.size)
    (rest : List (Created S)) (k : Nat) (hrest : layers.drop k = rest) {table : List (List (Entry S))}
    (ht : TableOk env layers n k table) :
    ∃ out, evalLayers act opts k (rest.map Created.layer) table = .ok out ∧ TableOk env layers n (k + rest.length) out ∧
      out.length = table.length := by
  induction rest generalizing k table with
  | nil => exact ⟨table, rfl, ht, rfl⟩
  | cons c rest ih =>
    have hc : layers[k]? = some c := by
      have := List.getElem?_drop (xs := layers) (i := k) (j := 0)
      rw [hrest] at this
      simpa using this.symm
    obtain ⟨p1, p2, p3, p4, p5⟩ := hps k c hc
    obtain ⟨outs, ho, hprod⟩ := evalLayer_created (act := act) (opts := opts) hc ht p1 p2 p3 p4 p5 fun htr t s => hkeep htr k c t s hc
    obtain ⟨hl, hr⟩ := evalLayer_shape ho (gather_rect ht.rect)
    have hl' : outs.length = table.length := by rw [hl, gather, List.length_map]
    obtain ⟨out, h1, h2, h3⟩ := ih (k + 1) (by rw [← List.drop_drop, hrest]; rfl) (ht.step hc hr hprod)
    refine ⟨out, ?_, ?_, ?_⟩
    · rw [List.map_cons, evalLayers, ho]
      exact h1
    · rw [List.length_cons, show k + (rest.length + 1) = k + 1 + rest.length by omega]
      exact h2
    · rw [h3, List.length_zipWith, hl', Nat.min_self]

/-- If the layers could be evaluated, they can process the output of their inputs. -/
theorem connected_of_evalLayers {env : CreateEnv S} {act : Act S} {opts : EvalOptions} {layers : List (Created S)} {n : Nat}
    (hps : ∀ k c, layers[k]? = some c → LayerShapes (inputSizesOf layers c) c ∧ (∀ i ∈ c.layer.inputs, i < k) ∧
      Placed c ∧ (c.layer = .wordInput → c.size = env.numWords) ∧ (c.layer = .classInput → c.size = env.numClasses))
    (hkeep : opts.training = true → ∀ k c t s, layers[k]? = some c → (opts.keep k t s).length = c.size)
    (rest : List (Created S)) (k : Nat) (hkl : k ≤ layers.length) (hrest : layers.drop k = rest) {table out : List (List (Entry S))}
    (ht : TableOk env layers n k table) {t0 s0 : Nat} (hne : (posAt table t0 s0).isSome)
    (h : evalLayers act opts k (rest.map Created.layer) table = .ok out) : ∀ c ∈ rest, Connected layers c := by
  induction rest generalizing k table with
  | nil => simp
  | cons c rest ih =>
    have hc : layers[k]? = some c := by
      have := List.getElem?_drop (xs := layers) (i := k) (j := 0)
      rw [hrest] at this
      simpa using this.symm
    obtain ⟨e0, he0⟩ := Option.isSome_iff_exists.mp hne
    obtain ⟨p1, p2, p3, p4⟩ := hps k c hc
    rw [List.map_cons, evalLayers] at h
    cases ho : evalLayer act opts c.layer k (gather c.layer.inputs table) with
    | error e => rw [ho] at h; cases h
    | ok outs =>
      rw [ho] at h
      have hcon := connected_of_eval hkl ht p1 p2 he0 ho
      obtain ⟨outs', ho', hprod⟩ := evalLayer_created (act := act) (opts := opts) hc ht p1 p2 hcon p3 p4
        fun htr t s => hkeep htr k c t s hc
      rw [ho] at ho'
      cases ho'
      obtain ⟨hl, hr⟩ := evalLayer_shape ho (gather_rect ht.rect)
      have hl' : outs.length = table.length := by rw [hl, gather, List.length_map]
      have hdef := (posAt_isSome ht.rect t0 s0).mp hne
      have hne' : (posAt (List.zipWith addOutputs table outs) t0 s0).isSome := by
        rw [posAt_isSome (ht.step hc hr hprod).rect, List.length_zipWith, hl', Nat.min_self]
        exact hdef
      have hlt := (List.getElem?_eq_some_iff.mp hc).1
      have := ih (k + 1) hlt (by rw [← List.drop_drop, hrest]; rfl) (ht.step hc hr hprod) hne' h
      intro c' hc'
      rcases List.mem_cons.mp hc' with rfl | hc'
      · exact hcon
      · exact this c' hc'

end

section
variable {S : Type} [Add S] [Mul S] [Sub S] [Div S] [Zero S] [One S] [Min S]

theorem created_input_size {env : CreateEnv S} {a : Architecture} {net : CreatedNetwork S} (h : createNetwork env a = .ok net) {k : Nat}
    {c : Created S} (hc : net.layers[k]? = some c) :
    (c.layer = .wordInput → c.size = env.numWords) ∧ (c.layer = .classInput → c.size = env.numClasses) := by
  obtain ⟨inputs, h1, h2, h3⟩ := createNetwork_cases h
  obtain ⟨_, i2, i3, i4⟩ := createInputs_trace h1
  obtain ⟨l1, l2, l3, l4⟩ := createLayers_trace h2
  simp only [List.length_nil, Nat.zero_add] at i2 i4
  have hk := (List.getElem?_eq_some_iff.mp hc).1
  by_cases hlt : k < a.inputs.length
  · obtain ⟨c', hc', hcd⟩ := i4 k _ (List.getElem?_eq_getElem hlt)
    have e : c = c' := by
      obtain ⟨t, ht⟩ := l1
      rw [← ht, List.getElem?_append_left (by omega), hc'] at hc
      injection hc with hc
      exact hc.symm
    subst e
    rcases (createInput_ok hcd).type with ⟨_, hl, hs⟩ | ⟨_, hl, hs⟩
    · exact ⟨fun _ => hs, fun h => by rw [hl] at h; cases h⟩
    · exact ⟨fun h => (by rw [hl] at h; cases h), fun _ => hs⟩
  · have hk' : k - a.inputs.length < a.layers.length := by omega
    obtain ⟨o, c', hc', ho, hcd⟩ := l4 _ _ (List.getElem?_eq_getElem hk')
    rw [i2, show a.inputs.length + (k - a.inputs.length) = k by omega] at hc' ho
    rw [hc] at hc'
    injection hc' with hc'
    subst hc'
    have key : ¬ c.layer = .wordInput ∧ ¬ c.layer = .classInput := by
      unfold createLayer at hcd
      split at hcd
      · cases hcd
      · rename_i s hs
        split at hcd
        · cases hcd
        · rename_i type ht
          split at hcd
          · cases hcd
          · obtain ⟨⟨t, k1, k2⟩, _, _⟩ := createSized_type ht hcd
            constructor
            · intro hl
              rw [hl] at k1
              have : t = "word" := by simpa [Layer.typeNames] using k1
              subst this
              rw [k2, show layerType "word".toList = none by decide] at ht
              cases ht
            · intro hl
              rw [hl] at k1
              have : t = "class" := by simpa [Layer.typeNames] using k1
              subst this
              rw [k2, show layerType "class".toList = none by decide] at ht
              cases ht
    exact ⟨fun h => absurd h key.1, fun h => absurd h key.2⟩

theorem TableOk.init {env : CreateEnv S} {layers : List (Created S)} {n : Nat} {batch : List (List InputCell)} (hn : Rect n batch)
    (hv : ValidBatch env batch) : TableOk env layers n 0 (batch.map fun row => row.map fun c => (⟨c, []⟩ : Entry S)) := by
  have key : ∀ t s (e : Entry S), posAt (batch.map fun row => row.map fun c => (⟨c, []⟩ : Entry S)) t s = some e →
      posAt batch t s = some e.cell ∧ e.outs = [] := by
    intro t s e he
    obtain ⟨row, hr, hrow⟩ := posAt_some.mp he
    rw [List.getElem?_map] at hr
    obtain ⟨r, hr', rfl⟩ := Option.map_eq_some_iff.mp hr
    rw [List.getElem?_map] at hrow
    obtain ⟨c, hc, rfl⟩ := Option.map_eq_some_iff.mp hrow
    exact ⟨posAt_some.mpr ⟨r, hr', hc⟩, rfl⟩
  refine ⟨?_, ?_, ?_, ?_⟩
  · intro row hrow
    obtain ⟨r, hr, rfl⟩ := List.mem_map.mp hrow
    rw [List.length_map, hn r hr]
  · intro t s e he
    exact hv t s e.cell (key t s e he).1
  · intro t s e he
    rw [(key t s e he).2]
    rfl
  · intro t s e he i c hi
    omega

/-- C80: if the layers of a network that was created from its description can be connected in the way they are, the network can be
evaluated on any mini-batch of IDs of words in the shortlist, and in every position each layer produces an output of its kind and size.
When training, there is a random choice for every feature of a dropout layer. -/
theorem C80_evaluates (env : CreateEnv S) (a : Architecture) (net : CreatedNetwork S) (hp : PriorFits env a)
    (h : createNetwork env a = .ok net) (hw : ∀ c ∈ net.layers, Connected net.layers c ∧ Placed c) (act : Act S) (opts : EvalOptions) (n : Nat)
    (hkeep : opts.training = true → ∀ k c t s, net.layers[k]? = some c → (opts.keep k t s).length = c.size)
    (batch : List (List InputCell)) (hn : Rect n batch) (hv : ValidBatch env batch) :
    ∃ out, evalNetwork act opts (net.layers.map Created.layer) batch = .ok out ∧ out.length = batch.length ∧ Rect n out ∧
      ∀ t s e, posAt out t s = some e → e.outs.length = net.layers.length ∧
        ∀ (k : Nat) (c : Created S), net.layers[k]? = some c → ∃ x, e.outs[k]? = some x ∧ Produces c x := by
  have ht := TableOk.init (S := S) (layers := net.layers) hn hv
  obtain ⟨out, h1, h2, h3⟩ := evalLayers_created (act := act) (opts := opts) (fun k c hc => by
    obtain ⟨m1, m2, _⟩ := C80_parameters env a net hp h k c hc
    exact ⟨m1.shapes, m2, (hw c (List.mem_of_getElem? hc)).1, (hw c (List.mem_of_getElem? hc)).2, created_input_size h hc⟩) hkeep net.layers 0 rfl ht
  rw [Nat.zero_add] at h2
  refine ⟨out, h1, by rw [h3, List.length_map], h2.rect, fun t s e he => ⟨h2.length t s e he, fun k c hc => ?_⟩⟩
  exact h2.outs t s e he k c (List.getElem?_eq_some_iff.mp hc).1 hc

/-- C80: on a mini-batch that is not empty, the network can be evaluated exactly when its layers can process the outputs of their
inputs. -/
theorem C80_evaluates_iff (env : CreateEnv S) (a : Architecture) (net : CreatedNetwork S) (hp : PriorFits env a)
    (h : createNetwork env a = .ok net) (hd : ∀ c ∈ net.layers, Placed c) (act : Act S) (opts : EvalOptions) (n : Nat)
    (hkeep : opts.training = true → ∀ k c t s, net.layers[k]? = some c → (opts.keep k t s).length = c.size)
    (batch : List (List InputCell)) (hn : Rect n batch) (hv : ValidBatch env batch) (hne : batch ≠ []) (hpos : 0 < n) :
    (∃ out, evalNetwork act opts (net.layers.map Created.layer) batch = .ok out) ↔ ∀ c ∈ net.layers, Connected net.layers c := by
  constructor
  · rintro ⟨out, ho⟩
    have ht := TableOk.init (S := S) (layers := net.layers) hn hv
    refine connected_of_evalLayers (fun k c hc => ?_) hkeep net.layers 0 (Nat.zero_le _) rfl ht (t0 := 0) (s0 := 0) ?_ ho
    · obtain ⟨m1, m2, _⟩ := C80_parameters env a net hp h k c hc
      exact ⟨m1.shapes, m2, hd c (List.mem_of_getElem? hc), created_input_size h hc⟩
    · rw [posAt_isSome ht.rect, List.length_map]
      exact ⟨List.length_pos_iff.mpr hne, hpos⟩
  · intro hw
    obtain ⟨out, ho, _⟩ := C80_evaluates env a net hp h (fun c hc => ⟨hw c hc, hd c hc⟩) act opts n hkeep batch hn hv
    exact ⟨out, ho⟩

end

/-! ## An example -/

section
variable {S : Type}

instance (l : Layer S) : Decidable l.IsInput := by cases l <;> unfold Layer.IsInput <;> infer_instance

instance (l : Layer S) : Decidable l.IsOutput := by cases l <;> unfold Layer.IsOutput <;> infer_instance

instance decidableAt {α : Type} (o : Option α) (P : α → Prop) [DecidablePred P] : Decidable (∃ c, o = some c ∧ P c) :=
  match o with
  | none => isFalse (by simp)
  | some c => if h : P c then isTrue ⟨c, rfl, h⟩ else isFalse (by simpa using h)

instance (layers : List (Created S)) (inputs : List Nat) : Decidable (FeatureInputs layers inputs) := by
  unfold FeatureInputs
  infer_instance

instance decidableOnly (layers : List (Created S)) (inputs : List Nat) :
    Decidable (∃ i c, inputs = [i] ∧ layers[i]? = some c ∧ c.layer.IsInput) :=
  match inputs with
  | [] => isFalse (by simp)
  | [i] =>
    if h : ∃ c, layers[i]? = some c ∧ c.layer.IsInput then isTrue (by obtain ⟨c, h⟩ := h; exact ⟨i, c, rfl, h⟩)
    else isFalse (by
      rintro ⟨j, c, hj, hc⟩
      cases hj
      exact h ⟨c, hc⟩)
  | _ :: _ :: _ => isFalse (by simp)

instance (layers : List (Created S)) (c : Created S) : Decidable (Connected layers c) := by
  unfold Connected
  split <;> infer_instance

instance (c : Created S) : Decidable (Placed c) := by
  unfold Placed
  split <;> infer_instance

end

/-- Creation of a network for a vocabulary of four words in three classes. -/
def exampleEnv : CreateEnv ℚ where
  numWords := 4
  numClasses := 3
  unkClass := 2
  priorBias := some [1, 2, 3]
  defaultDevice := none
  parseInt := fun s => if s = "3".toList then some 3 else none
  parseFloat := fun _ => none
  rateLimit := 9999 / 10000
  defaultRate := 1 / 2
  rand := fun _ _ is => is.sum
  svd := fun _ a => a

/-- A layer of the description. -/
def exampleLayer (type name : String) (inputs : List String) (options : List (String × ArchEntry)) : ArchDict :=
  [("type".toList, .one (.str type.toList)), ("name".toList, .one (.str name.toList)),
    ("inputs".toList, .many (inputs.map fun s => .str s.toList)), ("devices".toList, .many [])] ++
  options.map fun (key, value) => (key.toList, value)

/-- A word and a class input, a projection of each, on two devices for the word, a bidirectional layer, a highway and a dropout layer, a
sum, a convolution, and a softmax layer. -/
def exampleDescription : Architecture where
  inputs := [[("type".toList, .one (.str "word".toList)), ("name".toList, .one (.str "w".toList))],
    [("type".toList, .one (.str "class".toList)), ("name".toList, .one (.str "c".toList))]]
  layers := [
    [("type".toList, .one (.str "projection".toList)), ("name".toList, .one (.str "wp".toList)),
      ("inputs".toList, .many [.str "w".toList]), ("size".toList, .one (.int 2)),
      ("devices".toList, .many [.str "dev0".toList, .str "dev1".toList])],
    exampleLayer "projection" "cp" ["c"] [("size", .one (.int 1))],
    exampleLayer "blstm" "b" ["wp", "cp"] [("size", .one (.str "3".toList))],
    exampleLayer "highway" "h" ["b"] [],
    exampleLayer "dropout" "d" ["h"] [],
    exampleLayer "add" "a" ["d", "wp"] [],
    exampleLayer "glu" "g" ["a"] [("size", .one (.int 2)), ("activation", .one (.str "relu".toList))],
    exampleLayer "softmax" "o" ["g"] []]
  outputLayer := .str "o".toList

theorem exampleDescription_prior : PriorFits exampleEnv exampleDescription := by
  intro p hp
  injection hp with hp
  subst hp
  refine ⟨rfl, fun d hd ht n hn => ?_⟩
  have key : ∀ d ∈ exampleDescription.layers, dictGet? d "type".toList = some (.one (.str "softmax".toList)) →
      dictGet? d "name".toList = some (.one exampleDescription.outputLayer) := by decide +kernel
  have := key d hd ht
  rw [hn] at this
  injection this with this
  injection this

example : ∃ net, createNetwork exampleEnv exampleDescription = .ok net ∧
    net.layers.map Created.size = [4, 3, 2, 1, 3, 3, 3, 3, 2, 3] ∧ ∀ c ∈ net.layers, Connected net.layers c ∧ Placed c := by
  decide +kernel

example : Rect 2 [[⟨3, 2, true⟩, ⟨0, 1, true⟩], [⟨1, 0, true⟩, (⟨0, 1, false⟩ : InputCell)]] ∧
    ValidBatch exampleEnv [[⟨3, 2, true⟩, ⟨0, 1, true⟩], [⟨1, 0, true⟩, ⟨0, 1, false⟩]] := by
  refine ⟨by unfold Rect; decide, fun t s c hc => ?_⟩
  obtain ⟨row, h1, h2⟩ := posAt_some.mp hc
  have h1 := List.mem_of_getElem? h1
  have h2 := List.mem_of_getElem? h2
  have key : ∀ row ∈ [[⟨3, 2, true⟩, ⟨0, 1, true⟩], [⟨1, 0, true⟩, (⟨0, 1, false⟩ : InputCell)]], ∀ c ∈ row,
      c.word < 4 ∧ c.cls < 3 := by decide
  exact key row h1 c h2

end TheanoLM
