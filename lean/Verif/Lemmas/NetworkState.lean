import Verif.Props.NetworkStateSpec
import Verif.Props.Parameters
import Verif.Lemmas.Network
import Verif.Props.RecurrentState
/-!
# Lemmas about saving and restoring the parameters of layers
-/
set_option linter.unusedSectionVars false
namespace TheanoLM

section
variable {S : Type} [Add S] [Mul S] [Sub S] [Div S] [Zero S] [One S] [Min S]

/-! ## Arrays -/

theorem reshape2_flatten {α : Type} {n : Nat} {w : List (List α)} (h : ∀ c ∈ w, c.length = n) : reshape2 n w.length w.flatten = w := by
  induction w with
  | nil => rfl
  | cons c w ih =>
    rw [List.length_cons, reshape2, List.flatten_cons, ← h c List.mem_cons_self, List.take_left, List.drop_left,
      h c List.mem_cons_self, ih fun c hc => h c (List.mem_cons_of_mem _ hc)]

theorem length_flatten_const {α : Type} {n : Nat} {w : List (List α)} (h : ∀ c ∈ w, c.length = n) : w.flatten.length = n * w.length := by
  induction w with
  | nil => simp
  | cons c w ih =>
    rw [List.flatten_cons, List.length_append, h c List.mem_cons_self, ih fun c hc => h c (List.mem_cons_of_mem _ hc), List.length_cons,
      Nat.mul_succ, Nat.add_comm]

theorem decMatrix_enc {w : List (List S)} {n : Nat} (h : ∀ c ∈ w, c.length = n) : decMatrix (encMatrix w) = w := by
  cases w with
  | nil => rfl
  | cons c w =>
    show reshape2 c.length (c :: w).length (c :: w).flatten = _
    rw [h c List.mem_cons_self]
    exact reshape2_flatten h

theorem reshape3 {w : List (List (List S))} {m n : Nat} (h : ∀ x ∈ w, x.length = m ∧ ∀ c ∈ x, c.length = n) :
    reshape2 m w.length (reshape2 n (m * w.length) w.flatten.flatten) = w := by
  rw [← length_flatten_const fun x hx => (h x hx).1, reshape2_flatten fun c hc => ?_, reshape2_flatten fun x hx => (h x hx).1]
  obtain ⟨x, hx, hc⟩ := List.mem_flatten.mp hc
  exact (h x hx).2 c hc

/-- The sizes of the first two axes can be those of the first elements. -/
theorem tensor_sizes {w : List (List (List S))} {m n : Nat} (h : ∀ x ∈ w, x.length = m ∧ ∀ c ∈ x, c.length = n) :
    ∀ x ∈ w, x.length = (w.headD []).length ∧ ∀ c ∈ x, c.length = ((w.headD []).headD []).length := by
  cases w with
  | nil => simp
  | cons y w =>
    intro x hx
    have hm : y.length = m := (h y List.mem_cons_self).1
    show x.length = y.length ∧ _
    refine ⟨by rw [(h x hx).1, hm], fun c hc => ?_⟩
    show c.length = (y.headD []).length
    cases y with
    | nil =>
      rw [List.length_nil] at hm
      have := (h x hx).1
      rw [← hm, List.length_eq_zero_iff] at this
      rw [this] at hc
      simp at hc
    | cons z y =>
      show c.length = z.length
      rw [(h x hx).2 c hc, (h _ List.mem_cons_self).2 z List.mem_cons_self]

theorem decTensor_enc {w : List (List (List S))} {m n : Nat} (h : ∀ x ∈ w, x.length = m ∧ ∀ c ∈ x, c.length = n) :
    decTensor (encTensor w) = w := reshape3 (tensor_sizes h)

theorem decLevel_enc {w : List (List (List S))} {m n : Nat} (h : ∀ x ∈ w, x.length = m ∧ ∀ c ∈ x, c.length = n) :
    decLevel (encLevel w) = w := by
  show reshape2 (w.headD []).length w.length (reshape2 ((w.headD []).headD []).length (w.length * (w.headD []).length) w.flatten.flatten) = w
  rw [Nat.mul_comm]
  exact reshape3 (tensor_sizes h)

/-! ## Restoring depends only on the names -/

def eraseDict {α : Type} (d : ParamDict α) : ParamDict α := d.map fun e => (e.1, [])

def Basic.erase (b : Basic S) : Basic S := ⟨b.inputs, b.devices, b.size, b.activation, eraseDict b.weights, eraseDict b.biases⟩

def Layer.erase : Layer S → Layer S
  | .wordInput => .wordInput
  | .classInput => .classInput
  | .projection b => .projection b.erase
  | .fullyConnected b => .fullyConnected b.erase
  | .addition b sizes => .addition b.erase sizes
  | .recurrent kind b => .recurrent kind b.erase
  | .bidirectional kind f b => .bidirectional kind f.erase b.erase
  | .highway b => .highway b.erase
  | .glu b n m filters => .glu b.erase n m (eraseDict filters)
  | .dropout b scale => .dropout b.erase scale
  | .softmax b unk => .softmax b.erase unk
  | .hsoftmax b n m _ _ => .hsoftmax b.erase n m [] []

def Created.erase (c : Created S) : Created S := ⟨c.name, c.size, c.layer.erase⟩

theorem restoreParam_shape {file : List (Str × Arr S)} {path : Str} {a a' : Arr S} (h : a.shape.length = a'.shape.length) :
    restoreParam file (path, a) = restoreParam file (path, a') := by
  unfold restoreParam
  simp only [h]

theorem mapE_of_map_eq {α β γ : Type} (f : β → Except Err γ) (g : α → β) (l : List α) : mapE f (l.map g) = mapE (fun a => f (g a)) l := by
  induction l with
  | nil => rfl
  | cons a l ih =>
    rw [List.map_cons, mapE, mapE, ih]

theorem restoreDict_erase {α : Type} {enc : List α → Arr S} {dec : Arr S → List α} (henc : ∀ v, (enc v).shape.length = (enc []).shape.length)
    (file : List (Str × Arr S)) (layer : Str) (d : ParamDict α) :
    restoreDict enc dec file layer (eraseDict d) = restoreDict enc dec file layer d := by
  unfold restoreDict eraseDict
  rw [mapE_of_map_eq]
  apply mapE_congr
  intro e _
  show (match restoreParam file ("layers/".toList ++ layer ++ '/' :: e.1, enc []) with
    | .error err => (.error err : Except Err (Str × List α))
    | .ok r => .ok (e.1, dec r.2)) = _
  rw [restoreParam_shape (henc e.2).symm]
  cases restoreParam file ("layers/".toList ++ layer ++ '/' :: e.1, enc e.2) <;> rfl

theorem Basic.restore_erase (file : List (Str × Arr S)) (layer : Str) (b : Basic S) : b.erase.restore file layer = b.restore file layer := by
  unfold Basic.restore
  rw [show b.erase.weights = eraseDict b.weights from rfl, show b.erase.biases = eraseDict b.biases from rfl,
    restoreDict_erase (fun _ => rfl), restoreDict_erase (fun _ => rfl)]
  rfl

theorem restoreLevels_erase (file : List (Str × Arr S)) (layer : Str) (b : Basic S) (weights : List (List (List S)))
    (biases : List (List S)) : restoreLevels file layer b.erase [] [] = restoreLevels file layer b weights biases := by
  unfold restoreLevels
  rw [← restoreDict_erase (fun _ => rfl) file layer [(levelPath b "level1/W".toList, weights)],
    ← restoreDict_erase (fun _ => rfl) file layer [(levelPath b "level1/b".toList, biases)]]
  rfl

theorem Layer.restore_erase (file : List (Str × Arr S)) (name : Str) (l : Layer S) : l.erase.restore file name = l.restore file name := by
  cases l <;> simp only [Layer.erase, Layer.restore, restoreSimple, Basic.restore_erase]
  case glu => rw [restoreDict_erase (fun _ => rfl)]
  case hsoftmax b n m w bs => rw [restoreLevels_erase file name b w bs]

theorem Created.restore_erase (file : List (Str × Arr S)) (c : Created S) : c.erase.restore file = c.restore file := by
  unfold Created.restore
  rw [show c.erase.layer = c.layer.erase from rfl, Layer.restore_erase]
  rfl

theorem eraseDict_same {α : Type} {same : List α → List α → Prop} {d d' : ParamDict α} (h : SameParams same d d') : eraseDict d = eraseDict d' := by
  unfold eraseDict
  induction h with
  | nil => rfl
  | cons h _ ih => rw [List.map_cons, List.map_cons, ih, h.1]

theorem SameBasic.erase {b b' : Basic S} (h : SameBasic b b') : b.erase = b'.erase := by
  unfold Basic.erase
  rw [h.inputs, h.devices, h.size, h.activation, eraseDict_same h.weights, eraseDict_same h.biases]

theorem SameLayer.erase {l l' : Layer S} (h : SameLayer l l') : l.erase = l'.erase := by
  cases h <;> simp only [Layer.erase]
  all_goals first
    | rfl
    | (rename_i h1 h2 h3; rw [h1.erase])
    | (rename_i h1 h2; rw [h1.erase, h2.erase])
    | (rename_i h1 h2; rw [h1.erase, eraseDict_same h2])
    | (rename_i h1; rw [h1.erase])

theorem SameNetwork.erase {layers layers' : List (Created S)} (h : SameNetwork layers layers') :
    layers.map Created.erase = layers'.map Created.erase := by
  induction h with
  | nil => rfl
  | cons h _ ih =>
    rw [List.map_cons, List.map_cons, ih]
    unfold Created.erase
    rw [h.1, h.2.1, h.2.2.erase]

theorem restoreLayers_erase (file : List (Str × Arr S)) {layers layers' : List (Created S)}
    (h : layers.map Created.erase = layers'.map Created.erase) : restoreLayers file layers = restoreLayers file layers' := by
  have key : ∀ l : List (Created S), restoreLayers file l = mapE (Created.restore file) (l.map Created.erase) := by
    intro l
    unfold restoreLayers
    rw [mapE_of_map_eq]
    exact mapE_congr fun c _ => (Created.restore_erase file c).symm
  rw [key, key, h]

/-! ## Restoring what was saved -/

theorem restoreDict_saved {α : Type} {enc : List α → Arr S} {dec : Arr S → List α} {file : List (Str × Arr S)} {layer : Str}
    {d : ParamDict α} (hdec : ∀ e ∈ d, dec (enc e.2) = e.2) (hf : ∀ p ∈ dictParams enc layer d, dictGet? file p.1 = some p.2) :
    restoreDict enc dec file layer d = .ok d := by
  unfold restoreDict
  rw [mapE_eq (g := id)]
  · rw [List.map_id]
  · intro e he
    have := hf ("layers/".toList ++ layer ++ '/' :: e.1, enc e.2) (List.mem_map.mpr ⟨e, he, rfl⟩)
    unfold restoreParam
    simp only at this ⊢
    rw [this]
    simp only [if_true, hdec e he]
    rfl

/-- All values are arrays. -/
structure Basic.Arrays (b : Basic S) : Prop where
  weights : ∀ e ∈ b.weights, ∃ n, ∀ c ∈ e.2, c.length = n

theorem Basic.restore_saved {file : List (Str × Arr S)} {layer : Str} {b : Basic S} (hb : b.Arrays)
    (hf : ∀ p ∈ b.params layer, dictGet? file p.1 = some p.2) : b.restore file layer = .ok b := by
  unfold Basic.params at hf
  unfold Basic.restore
  rw [restoreDict_saved (fun e he => ?_) fun p hp => hf p (List.mem_append_left _ hp)]
  · simp only
    rw [restoreDict_saved (fun e he => rfl) fun p hp => hf p (List.mem_append_right _ hp)]
  · obtain ⟨n, hn⟩ := hb.weights e he
    exact decMatrix_enc hn

def Layer.Arrays : Layer S → Prop
  | .wordInput | .classInput => True
  | .projection b | .fullyConnected b | .addition b _ | .recurrent _ b | .highway b | .dropout b _ | .softmax b _ => b.Arrays
  | .glu b _ _ filters => b.Arrays ∧ ∀ e ∈ filters, ∃ m n, ∀ x ∈ e.2, x.length = m ∧ ∀ c ∈ x, c.length = n
  | .hsoftmax b _ _ weights biases =>
    b.Arrays ∧ (∃ m n, ∀ x ∈ weights, x.length = m ∧ ∀ c ∈ x, c.length = n) ∧ ∃ n, ∀ c ∈ biases, c.length = n
  | .bidirectional _ f b => f.Arrays ∧ b.Arrays

theorem restoreSimple_saved {file : List (Str × Arr S)} {layer : Str} {b : Basic S} (make : Basic S → Layer S) (hb : b.Arrays)
    (hf : ∀ p ∈ b.params layer, dictGet? file p.1 = some p.2) : restoreSimple file layer b make = .ok (make b) := by
  unfold restoreSimple
  rw [Basic.restore_saved hb hf]

theorem Layer.restore_saved {file : List (Str × Arr S)} {name : Str} {l : Layer S} (hl : l.Arrays)
    (hf : ∀ p ∈ l.params name, dictGet? file p.1 = some p.2) : l.restore file name = .ok l := by
  cases l with
  | wordInput => rfl
  | classInput => rfl
  | projection b => exact restoreSimple_saved _ hl hf
  | fullyConnected b => exact restoreSimple_saved _ hl hf
  | addition b sizes => exact restoreSimple_saved _ hl hf
  | recurrent kind b => exact restoreSimple_saved _ hl hf
  | bidirectional kind f b =>
    have hf' : ∀ p ∈ f.params (name ++ "/forward".toList) ++ b.params (name ++ "/backward".toList), dictGet? file p.1 = some p.2 := hf
    simp only [Layer.restore]
    rw [Basic.restore_saved hl.1 fun p hp => hf' p (List.mem_append_left _ hp)]
    exact restoreSimple_saved _ hl.2 fun p hp => hf' p (List.mem_append_right _ hp)
  | highway b => exact restoreSimple_saved _ hl hf
  | glu b n m filters =>
    have hf' : ∀ p ∈ dictParams encTensor name filters ++ b.params name, dictGet? file p.1 = some p.2 := hf
    simp only [Layer.restore]
    rw [restoreDict_saved (fun e he => ?_) fun p hp => hf' p (List.mem_append_left _ hp)]
    · exact restoreSimple_saved _ hl.1 fun p hp => hf' p (List.mem_append_right _ hp)
    · obtain ⟨m, n, h⟩ := hl.2 e he
      exact decTensor_enc h
  | dropout b scale => exact restoreSimple_saved _ hl hf
  | softmax b unk => exact restoreSimple_saved _ hl hf
  | hsoftmax b n m weights biases =>
    have hf' : ∀ p ∈ b.params name ++ dictParams encLevel name [(levelPath b "level1/W".toList, weights)] ++
      dictParams encMatrix name [(levelPath b "level1/b".toList, biases)], dictGet? file p.1 = some p.2 := hf
    obtain ⟨h1, ⟨m', n', h2⟩, k, h3⟩ := hl
    simp only [Layer.restore, restoreLevels]
    rw [restoreDict_saved (fun e he => ?_) fun p hp => hf' p (List.mem_append_left _ (List.mem_append_right _ hp))]
    · simp only
      rw [restoreDict_saved (fun e he => ?_) fun p hp => hf' p (List.mem_append_right _ hp)]
      · exact restoreSimple_saved _ h1 fun p hp => hf' p (List.mem_append_left _ (List.mem_append_left _ hp))
      · rw [List.mem_singleton] at he
        rw [he]
        exact decMatrix_enc h3
    · rw [List.mem_singleton] at he
      rw [he]
      exact decLevel_enc h2

theorem SameBasic.arrays {b b' : Basic S} (h : SameBasic b b') : b'.Arrays := by
  refine ⟨fun e he => ?_⟩
  obtain ⟨e', _, h1⟩ := forall₂_mem_right h.weights he
  obtain ⟨_, _, n, hn⟩ := h1
  exact ⟨n, fun c hc => hn c (List.mem_append_right _ hc)⟩

theorem SameLayer.arrays {l l' : Layer S} (h : SameLayer l l') : l'.Arrays := by
  cases h with
  | wordInput => trivial
  | classInput => trivial
  | projection h => exact h.arrays
  | fullyConnected h => exact h.arrays
  | addition h => exact h.arrays
  | recurrent h => exact h.arrays
  | bidirectional h1 h2 => exact ⟨h1.arrays, h2.arrays⟩
  | highway h => exact h.arrays
  | glu h h2 =>
    refine ⟨h.arrays, fun e he => ?_⟩
    obtain ⟨e', _, h1⟩ := forall₂_mem_right h2 he
    obtain ⟨_, _, m, n, hn⟩ := h1
    exact ⟨m, n, fun c hc => hn c (List.mem_append_right _ hc)⟩
  | dropout h => exact h.arrays
  | softmax h => exact h.arrays
  | hsoftmax h h2 h3 =>
    obtain ⟨_, m, n, hn⟩ := h2
    obtain ⟨_, k, hk⟩ := h3
    exact ⟨h.arrays, ⟨m, n, fun c hc => hn c (List.mem_append_right _ hc)⟩, k, fun c hc => hk c (List.mem_append_right _ hc)⟩

theorem restoreLayers_saved {file : List (Str × Arr S)} {layers layers' : List (Created S)} (h : SameNetwork layers layers')
    (hf : ∀ c ∈ layers', ∀ p ∈ c.layer.params c.name, dictGet? file p.1 = some p.2) : restoreLayers file layers' = .ok layers' := by
  unfold restoreLayers
  rw [mapE_eq (g := id)]
  · rw [List.map_id]
  · intro c hc
    obtain ⟨c', _, _, _, h3⟩ := forall₂_mem_right h hc
    unfold Created.restore
    rw [Layer.restore_saved h3.arrays (hf c hc)]
    rfl

end

end TheanoLM
