import Verif.Lemmas.LayerCreate
import Verif.Lemmas.LayerAt
import Verif.Lemmas.RecurrentEquations
import Verif.Lemmas.NetworkConverse
/-!
# Lemmas about the evaluation of layers whose parameters have the right shapes
-/
namespace TheanoLM
set_option linter.unusedSectionVars false

variable {S : Type} [Add S] [Mul S] [Sub S] [Div S] [Zero S] [One S]

theorem pointRow_all {f : Nat → Pos S → Except Err (Elem S)} {row : List (Pos S)} {seq : Nat}
    (h : ∀ (s : Nat) (p : Pos S), row[s]? = some p → ∃ x, f (seq + s) p = .ok x) : ∃ r, pointRow f seq row = .ok r := by
  induction row generalizing seq with
  | nil => exact ⟨[], rfl⟩
  | cons p row ih =>
    obtain ⟨x, hx⟩ := h 0 p rfl
    obtain ⟨r, hr⟩ := ih (seq := seq + 1) fun s p hp => by
      have := h (s + 1) p (by simpa using hp)
      rwa [show seq + (s + 1) = seq + 1 + s by omega] at this
    refine ⟨x :: r, ?_⟩
    rw [pointRow, Nat.add_zero] at *
    rw [hx]
    simp only
    rw [hr]

/-- A pointwise layer can be evaluated if it can be evaluated in every position. -/
theorem pointRows_exists {f : Nat → Nat → Pos S → Except Err (Elem S)} {g : List (List (Pos S))} {n : Nat} {P : Elem S → Prop}
    (hn : Rect n g) (h : ∀ t s p, posAt g t s = some p → ∃ x, f t s p = .ok x ∧ P x) :
    ∃ outs, pointRows f 0 g = .ok outs ∧ ∀ t s x, posAt outs t s = some x → P x := by
  obtain ⟨outs, ho⟩ := pointRows_all (f := f) (g := g) (time := 0) fun t row hrow => by
    apply pointRow_all
    intro s p hp
    obtain ⟨x, hx, _⟩ := h t s p (posAt_some.mpr ⟨row, hrow, hp⟩)
    exact ⟨x, by simpa using hx⟩
  refine ⟨outs, ho, fun t s x hx => ?_⟩
  obtain ⟨hl, hr⟩ := pointRows_shape ho hn
  have hdef := (posAt_isSome (n := n) hr t s).mp (by rw [hx]; rfl)
  obtain ⟨p, hp⟩ := Option.isSome_iff_exists.mp ((posAt_isSome hn t s).mpr ⟨by omega, hdef.2⟩)
  obtain ⟨y, hy, hpos⟩ := pointRows_posAt ho hp
  obtain ⟨z, hz, hP⟩ := h t s p hp
  rw [hy] at hz
  cases hz
  rw [hx] at hpos
  cases hpos
  exact hP

theorem getParam_of_affine {b : Basic S} {name : Str} {W : List (List S)} {bias : List S} (h : HasAffine b name W bias)
    (hd : b.devices = [none]) :
    getParam (name ++ "/W".toList) none b.weights = .ok W ∧ getParam (name ++ "/b".toList) none b.biases = .ok bias := by
  obtain ⟨parts, hp, rfl, rfl, _⟩ := h
  rw [hd] at hp
  cases hp with
  | cons h1 h2 =>
    cases h2
    simpa using ⟨h1.1, h1.2.1⟩

theorem affine_length {W : List (List S)} {bias : List S} {n : Nat} (hW : W.length = n) (hb : bias.length = n) (x : List S) :
    (List.zipWith (fun w c => (List.zipWith (· * ·) x w).sum + c) W bias).length = n := (preact_units hW hb x).1

theorem fullyConnected_ok {act : Act S} {b : Basic S} {W : List (List S)} {bias : List S} {n : Nat} {ins : List (Option (Elem S))}
    {xs : List (List S)} (ha : HasAffine b "input".toList W bias) (hW : W.length = n) (hb : bias.length = n)
    (hx : InputVectors ins xs) (hne : xs ≠ []) : ∃ y, fullyConnectedElem act b ins = .ok (.vec y) ∧ y.length = n := by
  unfold fullyConnectedElem inputPreact
  rw [concatInputs_of_vectors hx hne]
  simp only
  rw [tensorPreact_affine ha]
  exact ⟨_, rfl, by rw [List.length_map, affine_length hW hb]⟩

theorem highway_ok {act : Act S} {b : Basic S} {W : List (List S)} {bias : List S} {ins : List (Option (Elem S))}
    {xs : List (List S)} (ha : HasAffine b "input".toList W bias) (hW : W.length = 2 * b.size) (hb : bias.length = 2 * b.size)
    (hx : InputVectors ins xs) (hne : xs ≠ []) (hlen : xs.flatten.length = b.size) :
    ∃ y, highwayElem act b ins = .ok (.vec y) ∧ y.length = b.size := by
  unfold highwayElem
  rw [concatInputs_of_vectors hx hne]
  simp only
  rw [tensorPreact_affine ha]
  refine ⟨_, rfl, ?_⟩
  have hu := preact_units hW hb xs.flatten
  have h0 := (submatrix_units (i := 0) (n := b.size) hu (by omega)).1
  have h1 := (submatrix_units (i := 1) (n := b.size) hu (by omega)).1
  simp only [vadd, vmul, oneMinus, List.length_zipWith, List.length_map, h0, h1, hlen, Nat.min_self]

theorem dropout_ok {training : Bool} {scale : S} {keep : List Bool} {ins : List (Option (Elem S))} {xs : List (List S)} {n : Nat}
    (hx : InputVectors ins xs) (hne : xs ≠ []) (hlen : xs.flatten.length = n) (hk : training = true → keep.length = n) :
    ∃ y, dropoutElem training scale keep ins = .ok (.vec y) ∧ y.length = n := by
  unfold dropoutElem
  rw [concatInputs_of_vectors hx hne]
  simp only
  cases training with
  | true => exact ⟨_, rfl, by simp [hlen, hk rfl]⟩
  | false => exact ⟨_, rfl, hlen⟩

theorem softmax_ok {act : Act S} {excludeUnk : Bool} {b : Basic S} {unk n : Nat} {W : List (List S)} {bias : List S}
    {ins : List (Option (Elem S))} {xs : List (List S)} (ha : HasAffine b "input".toList W bias) (hW : W.length = n)
    (hb : bias.length = n) (hx : InputVectors ins xs) (hne : xs ≠ []) (hd : b.devices.length = 1 → b.devices = [none]) :
    ∃ y, softmaxElem act excludeUnk b unk ins = .ok (.probs y) ∧ y.length = n := by
  unfold softmaxElem
  rw [concatInputs_of_vectors hx hne]
  simp only
  rw [tensorPreact_affine ha]
  simp only
  have hlen : ∀ v : List S, (normalize (softmaxExps act excludeUnk unk v)).length = v.length := by
    intro v
    simp [normalize, softmaxExps]
  by_cases h1 : b.devices.length > 1
  · rw [if_pos h1, if_pos h1]
    exact ⟨_, rfl, by rw [hlen, affine_length hW hb]⟩
  · have hd' : b.devices = [none] := by
      apply hd
      have : b.devices ≠ [] := ha.choose_spec.2.2.2
      have := List.length_pos_iff.mpr this
      omega
    obtain ⟨g1, g2⟩ := getParam_of_affine ha hd'
    rw [if_neg h1, if_neg h1]
    have g1' : getParam "input/W".toList none b.weights = .ok W := g1
    have g2' : getParam "input/b".toList none b.biases = .ok bias := g2
    rw [g1', g2']
    exact ⟨_, rfl, by rw [hlen, affine_length hW hb]⟩

theorem hsoftmax_ok {act : Act S} {b : Basic S} {l1 l2 : Nat} {ws : List (List (List S))} {bs : List (List S)} {W : List (List S)}
    {bias : List S} {ins : List (Option (Elem S))} {xs : List (List S)} (ha : HasAffine b "input".toList W bias) (hW : W.length = l1)
    (hb : bias.length = l1) (hws : ws.length = l1) (hw : ∀ w ∈ ws, w.length = l2) (hbl : bs.length = l1) (hbs : ∀ v ∈ bs, v.length = l2)
    (hlev : hsoftmaxLevels 1 b.size = .ok (l1, l2)) (hx : InputVectors ins xs) (hne : xs ≠ []) (hd : b.devices = [none]) :
    ∃ y, hsoftmaxElem act b ws bs ins = .ok (.probs y) ∧ y.length = b.size := by
  unfold hsoftmaxElem
  rw [concatInputs_of_vectors hx hne]
  simp only
  obtain ⟨g1, g2⟩ := getParam_of_affine ha hd
  have g1' : getParam "input/W".toList none b.weights = .ok W := g1
  have g2' : getParam "input/b".toList none b.biases = .ok bias := g2
  rw [g1', g2']
  refine ⟨_, rfl, ?_⟩
  have hsize : b.size ≤ l1 * l2 := by
    unfold hsoftmaxLevels at hlev
    rw [if_neg (by omega)] at hlev
    simp only at hlev
    split at hlev
    · cases hlev
    · split at hlev
      · cases hlev
      · rename_i hge
        split at hlev
        · cases hlev
        · split at hlev
          · cases hlev
          · split at hlev
            · cases hlev
            · injection hlev with hlev
              injection hlev with e1 e2
              rw [← e1, ← e2]
              omega
  unfold hierarchicalProbs
  rw [List.length_take, Nat.min_eq_left]
  refine le_of_le_of_eq hsize ?_
  rw [flatten_const_length (m := l2)]
  · congr 1
    rw [List.length_zipWith, show (level1Probs act W bias xs.flatten).length = l1 from (softmax_units act hW hb xs.flatten).1, level2Probs, List.length_zipWith, hws, hbl]
    simp
  · intro r hr
    obtain ⟨p, _, q, hq, rfl⟩ := mem_zipWith hr
    rw [List.length_map]
    unfold level2Probs at hq
    obtain ⟨w, hw1, v, hv, rfl⟩ := mem_zipWith hq
    exact (softmax_units act (hw w hw1) (hbs v hv) xs.flatten).1

theorem projection_ok {b : Basic S} {W : List (List S)} {m n i : Nat} (hp : HasProjection b W) (hW : Shaped W n m) (hi : i < m) :
    ∃ y, projectionElem b [some (.id i)] = .ok (.vec y) ∧ y.length = n := by
  unfold projectionElem
  simp only
  obtain ⟨parts, hparts, rfl⟩ := hp
  have key : ∃ rows, mapE (projectDevice b i) b.devices = .ok rows ∧ rows.flatten.length = parts.flatten.length := by
    have hmem : ∀ part ∈ parts, ∀ w ∈ part, w.length = m := fun part hpart w hw => hW.2 w (List.mem_flatten.mpr ⟨part, hpart, hw⟩)
    generalize b.devices = ds at hparts
    clear hW
    induction hparts with
    | nil => exact ⟨[], rfl, rfl⟩
    | @cons device part ds parts h1 _ ih =>
      obtain ⟨rows, hr, hl⟩ := ih fun part hpart => hmem part (List.mem_cons_of_mem _ hpart)
      obtain ⟨row, hrow⟩ := mapE_all (f := fun column => indexE column i) (l := part) fun w hw => by
        have : i < w.length := by rw [hmem part List.mem_cons_self w hw]; exact hi
        refine ⟨w[i], ?_⟩
        unfold indexE
        rw [List.getElem?_eq_getElem this]
      refine ⟨row :: rows, mapE_cons_eq ?_ hr, ?_⟩
      · unfold projectDevice
        rw [h1]
        exact hrow
      · rw [List.flatten_cons, List.flatten_cons, List.length_append, List.length_append, hl, mapE_length hrow]
  obtain ⟨rows, hr, hl⟩ := key
  rw [hr]
  exact ⟨_, rfl, by rw [hl, hW.1]⟩

theorem additionLoop_exists {b : Basic S} {xs : List (List S)} {sizes : List Nat} {m : Nat} {acc : Option (List S)}
    (hlen : xs.map List.length = sizes)
    (hV : ∀ (i sz : Nat), sizes[i]? = some sz → sz ≠ b.size →
      ∃ V, HasWeights b ("input".toList ++ (toString (m + i)).toList) V ∧ V.length = b.size)
    (hacc : ∀ y, acc = some y → y.length = b.size) :
    ∃ r, additionLoop b m ((xs.map fun x => some (.vec x)).zip sizes) acc = .ok r ∧ (∀ y, r = some y → y.length = b.size) ∧
      (xs ≠ [] ∨ acc ≠ none → r ≠ none) := by
  induction xs generalizing sizes m acc with
  | nil =>
    refine ⟨acc, by simp [additionLoop], hacc, ?_⟩
    rintro (h | h)
    · exact absurd rfl h
    · exact h
  | cons x xs ih =>
    cases sizes with
    | nil => simp at hlen
    | cons sz sizes =>
      simp only [List.map_cons, List.cons.injEq] at hlen
      have hstep : ∃ y, (if sz = b.size then Except.ok x
          else tensorPreact b.devices b.weights b.biases ("input".toList ++ (toString m).toList) false x) = .ok y ∧ y.length = b.size := by
        by_cases hs : sz = b.size
        · rw [if_pos hs]
          exact ⟨x, rfl, by rw [hlen.1, hs]⟩
        · rw [if_neg hs]
          obtain ⟨V, hV1, hV2⟩ := hV 0 sz rfl hs
          rw [Nat.add_zero] at hV1
          exact ⟨_, tensorPreact_weights hV1 x, by rw [List.length_map, hV2]⟩
      obtain ⟨y, hy, hyl⟩ := hstep
      rw [List.map_cons, List.zip_cons_cons, additionLoop]
      simp only [elemVec]
      rw [hy]
      simp only
      have hV' : ∀ (i sz : Nat), sizes[i]? = some sz → sz ≠ b.size →
          ∃ V, HasWeights b ("input".toList ++ (toString (m + 1 + i)).toList) V ∧ V.length = b.size := by
        intro i sz hi hs
        have := hV (i + 1) sz (by simpa using hi) hs
        rwa [show m + (i + 1) = m + 1 + i by omega] at this
      cases acc with
      | none =>
        obtain ⟨r, h1, h2, h3⟩ := ih (m := m + 1) (acc := some y) hlen.2 hV' (by rintro _ ⟨⟩; exact hyl)
        exact ⟨r, h1, h2, fun _ => h3 (Or.inr (by simp))⟩
      | some sum =>
        obtain ⟨r, h1, h2, h3⟩ := ih (m := m + 1) (acc := some (vadd sum y)) hlen.2 hV' (by
          rintro _ ⟨⟩
          rw [vadd, List.length_zipWith, hacc sum rfl, hyl, Nat.min_self])
        exact ⟨r, h1, h2, fun _ => h3 (Or.inr (by simp))⟩

theorem addition_ok {b : Basic S} {xs : List (List S)} {sizes : List Nat} {ins : List (Option (Elem S))}
    (hlen : xs.map List.length = sizes)
    (hV : ∀ (i sz : Nat), sizes[i]? = some sz → sz ≠ b.size →
      ∃ V, HasWeights b ("input".toList ++ (toString i).toList) V ∧ V.length = b.size)
    (hx : InputVectors ins xs) (hne : xs ≠ []) : ∃ y, additionElem b sizes ins = .ok (.vec y) ∧ y.length = b.size := by
  obtain ⟨r, h1, h2, h3⟩ := additionLoop_exists (m := 0) (acc := none) hlen (by simpa using hV) (by simp)
  unfold additionElem
  rw [hx, h1]
  cases r with
  | none => exact absurd rfl (h3 (Or.inl hne))
  | some y => exact ⟨y, rfl, h2 y rfl⟩

/-! ## Recurrent layers -/

theorem recurrentLayer_exists {act : Act S} {kind : CellKind} {b : Basic S} {W U : List (List S)} {bias : List S} (rev : Bool)
    {g : List (List (Pos S))} (hp : RecurrentParams kind b W bias U)
    (hx : ∀ t s p, posAt g t s = some p → ∃ xs, InputVectors p.2 xs ∧ xs ≠ []) :
    ∃ sts, recurrentLayer act kind b rev g = .ok sts := by
  obtain ⟨rows, hr⟩ := mapE_all (f := preactRow b) (l := g) fun row hrow => by
    apply mapE_all
    intro p hpos
    obtain ⟨t, ht, hte⟩ := List.getElem_of_mem hrow
    obtain ⟨s, hs, hse⟩ := List.getElem_of_mem hpos
    obtain ⟨xs, h1, h2⟩ := hx t s p (posAt_some.mpr ⟨row, by rw [List.getElem?_eq_getElem ht, hte], by rw [List.getElem?_eq_getElem hs, hse]⟩)
    unfold inputPreact
    rw [concatInputs_of_vectors h1 h2]
    simp only
    rw [tensorPreact_affine hp.input]
    exact ⟨_, rfl⟩
  unfold recurrentLayer
  rw [hr]
  simp only
  rw [hp.step]
  simp only
  cases rev with
  | true => exact ⟨_, if_pos rfl⟩
  | false => exact ⟨_, if_neg (by simp)⟩

theorem recurrent_lengths {act : Act S} {kind : CellKind} {b : Basic S} {n : Nat} {g : List (List (Pos S))} {rev : Bool}
    {sts : List (List (SeqState S))} {W U : List (List S)} {bias : List S} (hp : RecurrentParams kind b W bias U) (hn : Rect n g)
    (h : recurrentLayer act kind b rev g = .ok sts) : ∀ t s st, posAt sts t s = some st → st.h.length = b.size := by
  obtain ⟨hl, hr⟩ := recurrentLayer_shape h hn
  intro t s x hx
  have hdef := (posAt_isSome (n := n) hr t s).mp (by rw [hx]; rfl)
  cases rev with
  | false =>
    obtain ⟨X, st, hX, h0, hst⟩ := recurrentLayer_forward hp hn h
    have key : ∀ t, t < g.length → StateLengths kind b.size (st (t + 1) s) := by
      intro t
      induction t with
      | zero =>
        intro ht
        obtain ⟨p, hpos⟩ := Option.isSome_iff_exists.mp ((posAt_isSome hn 0 s).mpr ⟨ht, hdef.2⟩)
        obtain ⟨_, h2, h3⟩ := hst 0 s p hpos
        cases hm : p.1.mask with
        | true => exact (h2 hm).lengths
        | false => rw [h3 hm]; exact (h0 s).lengths
      | succ t ih =>
        intro ht
        obtain ⟨p, hpos⟩ := Option.isSome_iff_exists.mp ((posAt_isSome hn (t + 1) s).mpr ⟨ht, hdef.2⟩)
        obtain ⟨_, h2, h3⟩ := hst (t + 1) s p hpos
        cases hm : p.1.mask with
        | true => exact (h2 hm).lengths
        | false => rw [h3 hm]; exact ih (by omega)
    obtain ⟨p, hpos⟩ := Option.isSome_iff_exists.mp ((posAt_isSome hn t s).mpr ⟨by omega, hdef.2⟩)
    have := (hst t s p hpos).1
    rw [hx] at this
    cases this
    exact (key t (by omega)).1
  | true =>
    obtain ⟨X, st, hX, h0, hst⟩ := recurrentLayer_backward hp hn h
    have key : ∀ d t, t + d = g.length → StateLengths kind b.size (st t s) := by
      intro d
      induction d with
      | zero =>
        intro t ht
        rw [show t = g.length by omega]
        exact (h0 s).lengths
      | succ d ih =>
        intro t ht
        obtain ⟨p, hpos⟩ := Option.isSome_iff_exists.mp ((posAt_isSome hn t s).mpr ⟨by omega, hdef.2⟩)
        obtain ⟨_, h2, h3⟩ := hst t s p hpos
        cases hm : p.1.mask with
        | true => exact (h2 hm).lengths
        | false => rw [h3 hm]; exact ih (t + 1) (by omega)
    obtain ⟨p, hpos⟩ := Option.isSome_iff_exists.mp ((posAt_isSome hn t s).mpr ⟨by omega, hdef.2⟩)
    have := (hst t s p hpos).1
    rw [hx] at this
    cases this
    exact (key (g.length - t) t (by omega)).1

theorem gluLayer_exists {act : Act S} {b : Basic S} {k i : Nat} {filters : ParamDict (List (List S))} {F : List (List (List S))}
    {bias : List S} {g : List (List (Pos S))} (hp : HasFilters b filters F bias) (hF : F.length = 2 * b.size)
    (hb : bias.length = 2 * b.size) (hk : 0 < k) (hx : ∀ t s p, posAt g t s = some p → ∃ x, p.2 = [some (.vec x)]) :
    ∃ outs, gluLayer act b k i filters g = .ok outs := by
  unfold gluLayer
  rw [if_neg (by omega)]
  obtain ⟨xs, hr⟩ := mapE_all (f := gluInputRow) (l := g) fun row hrow => by
    apply mapE_all
    intro p hpos
    obtain ⟨t, ht, hte⟩ := List.getElem_of_mem hrow
    obtain ⟨s, hs, hse⟩ := List.getElem_of_mem hpos
    obtain ⟨x, h1⟩ := hx t s p (posAt_some.mpr ⟨row, by rw [List.getElem?_eq_getElem ht, hte], by rw [List.getElem?_eq_getElem hs, hse]⟩)
    rw [h1]
    exact ⟨x, rfl⟩
  rw [hr]
  simp only
  apply mapE_all
  intro window _
  apply mapE_all
  intro seq _
  obtain ⟨z, hz, _⟩ := conv_units hp hF hb (column seq window)
  unfold gluElem
  rw [hz]
  exact ⟨_, rfl⟩

end TheanoLM
