import Verif.Lemmas.NetworkDecoder
import Verif.Props.NetworkDecoderSpec
import Verif.Props.LanguageModel
import Verif.Props.Decoder
import Verif.Props.PrepareBatch
import Verif.Lemmas.ScoreText
import Verif.Lemmas.ScoreOutput
/-!
# Properties of lattice decoding with a network: C97
-/
namespace TheanoLM
set_option linter.unusedSectionVars false

section
variable {S : Type} [Add S] [Mul S] [Sub S] [Div S] [Zero S] [One S]

theorem singleState_iff {layers : List (Layer S)} {st : RecState S} :
    SingleState layers st ↔ ∃ xs, st = oneState (networkStateSizes layers) xs := by
  constructor
  · rintro ⟨h1, h2, h3⟩
    refine ⟨st.vars.map fun x => (x.data.headD []).headD [], ?_⟩
    obtain ⟨sizes, n, vars⟩ := st
    simp only at h1 h2 h3
    subst h1 h2
    unfold oneState
    congr 1
    have hl := h3.length_eq
    apply List.ext_getElem
    · simpa [allVars] using hl
    intro j a b
    obtain ⟨g1, g2, g3, u, g4⟩ := (List.forall₂_iff_get.mp h3).2 j a (by omega)
    simp only [List.get_eq_getElem] at g1 g2 g3 g4
    simp only [allVars, List.getElem_mapIdx, List.length_cons, List.length_nil, List.map_cons, List.map_nil, List.getD,
      List.getElem?_map, List.getElem?_eq_getElem a, Option.map_some, Option.getD_some]
    cases hx : vars[j] with
    | mk d0 d1 d2 data =>
      rw [hx] at g1 g2 g3 g4
      simp only at g1 g2 g3 g4
      subst g1 g2 g3 g4
      rfl
  · rintro ⟨xs, rfl⟩
    refine ⟨rfl, rfl, ?_⟩
    rw [List.forall₂_iff_get]
    refine ⟨by simp [oneState, allVars], fun j a b => ?_⟩
    simp [oneState, allVars]

/-- C97, the tokens of a node do not affect each other.  When a word is added to several tokens, the outputs of the network and the new
states are the same as when the word is added to each token separately. -/
theorem C97_tokens (act : Act S) (opts : EvalOptions) (ht : opts.training = false) (layers : List (Layer S))
    (tokens : List (RecState S × InputCell)) (hne : tokens ≠ []) (hst : ∀ x ∈ tokens, SingleState layers x.1)
    (rs : List (Entry S × RecState S))
    (h : List.Forall₂ (fun x r => stepNetwork act opts layers 0 x.1 [x.2] = .ok ([r.1], r.2)) tokens rs) :
    stepTokens act opts layers tokens = .ok rs ∧ ∀ r ∈ rs, SingleState layers r.2 := by
  have key : ∃ l : List (List (List S) × InputCell), tokens = l.map fun x => (oneState (networkStateSizes layers) x.1, x.2) := by
    clear h hne
    induction tokens with
    | nil => exact ⟨[], rfl⟩
    | cons x tokens ih =>
      obtain ⟨xs, hx⟩ := singleState_iff.mp (hst x (by simp))
      obtain ⟨l, hl⟩ := ih fun y hy => hst y (List.mem_cons_of_mem _ hy)
      refine ⟨(xs, x.2) :: l, ?_⟩
      rw [List.map_cons, ← hl, ← hx]
  obtain ⟨l, rfl⟩ := key
  rw [List.forall₂_map_left_iff] at h
  refine ⟨stepTokens_eq ht (by rintro rfl; exact hne rfl) h, fun r hr => ?_⟩
  clear hst hne
  induction h with
  | nil => cases hr
  | @cons x r' l l' h1 _ ih =>
    rcases List.mem_cons.mp hr with rfl | hr
    · obtain ⟨e, ys, _, h3, _⟩ := stepNetwork_one ht h1
      exact singleState_iff.mpr ⟨ys, h3⟩
    · exact ih hr

/-- C97: the state in the beginning of a lattice. -/
theorem C97_initial (act : Act S) (log : S → S) (layers : List (Layer S)) (output : Nat) (excludeUnk : Bool) :
    SingleState layers (networkDecNet act log layers output excludeUnk).initial := by
  refine ⟨rfl, rfl, ?_⟩
  unfold networkDecNet RecState.reset
  simp only
  rw [List.forall₂_map_left_iff, List.forall₂_same]
  intro size _
  exact ⟨rfl, rfl, rfl, _, rfl⟩

end

section
variable {P : Parsers} {v : Vocab} {unkId : Nat} {env : CreateEnv ℝ} {a : Architecture} {layers : List (Created ℝ)} {output : Nat}
  {D : Decoder ℝ (RecState ℝ)} {useShortlist excludeUnk : Bool}

theorem uses_netId (hv : Constructible P v) (hu : v.wordToId unk = some unkId)
    (hD : D.Uses v unkId layers output useShortlist excludeUnk) (w : HistWord) :
    netId D.vocab w = (if textId unkId w < v.numShortlist then textId unkId w else unkId) ∧
      D.vocab.classId (netId D.vocab w) = (memberOf v (textId unkId w)).1 ∧
      memberScore D.vocab w = Real.log ((memberOf v (textId unkId w)).2 : ℝ) := by
  obtain ⟨s, e, _, _, hV⟩ := hD.vocab
  have h1 : netId D.vocab w = (if textId unkId w < v.numShortlist then textId unkId w else unkId) := by
    rw [hV]
    cases w with
    | inl i => by_cases h : i < v.numShortlist <;> simp [netId, textId, networkDecVocab, h]
    | inr t => by_cases h : unkId < v.numShortlist <;> simp [netId, textId, networkDecVocab, h]
  have hm := memberOf_class hv hu (textId unkId w)
  refine ⟨h1, ?_, ?_⟩
  · rw [h1, hV]
    show v.classOf.getD _ 0 = _
    simp only [List.getD]
    rw [hm.2.1]
    rfl
  · unfold memberScore
    rw [h1, hV]
    have hlt : (if textId unkId w < v.numShortlist then textId unkId w else unkId) < v.numShortlist := by
      split
      · assumption
      · exact unkId_lt hv hu
    have hm2 := memberOf_class hv hu (if textId unkId w < v.numShortlist then textId unkId w else unkId)
    rw [if_pos hlt] at hm2
    have hp : (memberOf v (textId unkId w)).2 = (memberOf v (if textId unkId w < v.numShortlist then textId unkId w else unkId)).2 := by
      rw [hm.2.2, hm2.2.2]
    rw [hp]
    obtain ⟨c, p, hc, -⟩ := C68_memberships P v hv unkId hu (if textId unkId w < v.numShortlist then textId unkId w else unkId)
    show (match v.classMembership _ with | .ok r => Real.log (r.2 : ℝ) | .error _ => 0) = _
    unfold memberOf
    rw [hc]

/-- The cell that the network reads for a word. -/
def wordCell (D : Decoder ℝ (RecState ℝ)) (w : HistWord) : InputCell := ⟨netId D.vocab w, D.vocab.classId (netId D.vocab w), true⟩

/-- The network is evaluated with the words of a sentence, and with the last word after the state that the preceding words give. -/
theorem class_step (hv : Constructible P v) (hu : v.wordToId unk = some unkId) (hm : ModelOf env a v layers output)
    (hf : ∀ c ∈ layers, c.layer.Forward ∧ ∀ b k i filters, c.layer ≠ .glu b k i filters)
    (hD : D.Uses v unkId layers output useShortlist false)
    (before : List HistWord) (prev : HistWord) :
    ∃ out e st p, evalNetwork realAct ⟨false, false, fun _ _ _ => []⟩ (layers.map Created.layer)
        (table (before.length + 1) 1 (cellOf v unkId (sentenceBatch ((before ++ [prev]).map (textId unkId))))) = .ok out ∧
      posAt out before.length 0 = some e ∧ e.probs output = some p ∧ p.length = v.numClasses ∧ (∀ x ∈ p, 0 < x) ∧
      stepNetwork realAct ⟨false, false, fun _ _ _ => []⟩ (layers.map Created.layer) 0 (netState D before) [wordCell D prev] =
        .ok ([e], st) := by
  have hpos : 0 < v.numClasses := lt_of_le_of_lt (Nat.zero_le _) (memberOf_class hv hu 0).1
  let h := (before ++ [prev]).map (textId unkId)
  have hh : h.length = before.length + 1 := by simp [h]
  rw [← hh]
  show ∃ out e st p, evalNetwork realAct ⟨false, false, fun _ _ _ => []⟩ (layers.map Created.layer)
        (table h.length 1 (cellOf v unkId (sentenceBatch h))) = .ok out ∧ _
  obtain ⟨out, o1, o2, o3, o4⟩ := output_distribution hm (excludeUnk := false) (fun h => by cases h) hpos
    (batch := table h.length 1 (cellOf v unkId (sentenceBatch h))) rect_table
    (cells_valid hv hu hm.words hm.classes (sentenceBatch h) h.length)
  obtain ⟨e, he⟩ := Option.isSome_iff_exists.mp ((posAt_isSome o3 before.length 0).mpr ⟨by rw [o2]; simp [table]; omega, by omega⟩)
  obtain ⟨p, hp, p1, p2, p3, p4, p5⟩ := o4 _ _ e he
  have hcells : table h.length 1 (cellOf v unkId (sentenceBatch h)) = (before ++ [prev]).map fun w => [wordCell D w] := by
    apply List.ext_getElem
    · simp [table, h]
    intro t h1 h2
    have ht : t < (before ++ [prev]).length := by simpa using h2
    simp only [table, List.getElem_map, List.getElem_range]
    have hw : (sentenceBatch h).word t 0 = textId unkId (before ++ [prev])[t] := by
      show h.getD t 0 = _
      simp only [h, List.getD, List.getElem?_map, List.getElem?_eq_getElem ht, Option.map_some, Option.getD_some]
    obtain ⟨e1, e2, _⟩ := uses_netId hv hu hD (before ++ [prev])[t]
    show [cellOf v unkId (sentenceBatch h) t 0] = _
    unfold wordCell
    rw [e2, e1]
    unfold cellOf
    rw [hw]
    rfl
  obtain ⟨st, hst⟩ := C60 (n := 1) (st := D.net.initial) (layers := layers.map Created.layer) (by
      intro layer hl
      obtain ⟨c, hc, rfl⟩ := List.mem_map.mp hl
      exact hf c hc) rect_table (by
      intro row hr c hc
      rw [hcells] at hr
      obtain ⟨w, _, rfl⟩ := List.mem_map.mp hr
      simp only [List.mem_singleton] at hc
      rw [hc]
      rfl) o1 (by rw [hD.net]; rfl)
  rw [hcells, List.map_append] at hst
  obtain ⟨out1, st1, out2, g1, g2, g3, g4⟩ := stepsNetwork_append _ _ _ _ hst
  have hs1 : netState D before = st1 := by
    unfold netState
    rw [hD.net] at g1 ⊢
    exact stepsNetwork_next (log := Real.log) (output := output) before 0 _ out1 g1
  rw [List.map_cons, List.map_nil] at g2
  unfold stepsNetwork at g2
  cases h1 : stepNetwork realAct ⟨false, false, fun _ _ _ => []⟩ (layers.map Created.layer) (0 + (before.map fun w =>
      [wordCell D w]).length) st1 [wordCell D prev] with
  | error x => rw [h1] at g2; cases g2
  | ok r =>
    rw [h1] at g2
    simp only [stepsNetwork] at g2
    cases g2
    have hlast : out[before.length]? = some r.1 := by
      rw [g3, List.getElem?_append_right (by rw [g4]; simp), g4]
      simp
    have hr : r.1 = [e] := by
      have hl : r.1.length = 1 := o3 _ (List.mem_of_getElem? hlast)
      have he' := he
      unfold posAt at he'
      rw [hlast] at he'
      obtain ⟨y, hy⟩ := List.length_eq_one_iff.mp hl
      rw [hy] at he' ⊢
      have : y = e := by simpa using he'
      rw [this]
    refine ⟨out, e, r.2, p, o1, he, hp, p1, p5 rfl, ?_⟩
    rw [hs1, stepNetwork_time rfl _ 0 _, h1, ← hr]

/-- C97, the network.  The log probability of the class of the next word, computed by passing the recurrent state from word to word, is
the log probability that the text scorer computes from the whole sentence. -/
theorem C97_class (hv : Constructible P v) (hu : v.wordToId unk = some unkId) (hm : ModelOf env a v layers output)
    (hf : ∀ c ∈ layers, c.layer.Forward ∧ ∀ b k i filters, c.layer ≠ .glu b k i filters)
    (hD : D.Uses v unkId layers output useShortlist false)
    (before : List HistWord) (prev w : HistWord) :
    (scorerOf v unkId layers output useShortlist false).networkScore
      (sentenceBatch ((before ++ [prev, w]).map (textId unkId))) before.length 0 = .fin (classScore D before prev w) := by
  obtain ⟨out, e, st, p, o1, he, hp, p1, p2, hstep⟩ := class_step hv hu hm hf hD before prev
  have hclass : classScore D before prev w = Real.log (p.getD (memberOf v (textId unkId w)).1 0) := by
    unfold classScore
    rw [(uses_netId hv hu hD w).2.1, hD.net]
    unfold wordCell at hstep
    unfold networkDecNet
    simp only
    rw [hstep]
    simp only
    rw [hp]
  have hlt : (memberOf v (textId unkId w)).1 < p.length := by rw [p1]; exact (memberOf_class hv hu _).1
  have hpp : 0 < p.getD (memberOf v (textId unkId w)).1 0 := by
    simp only [List.getD, List.getElem?_eq_getElem hlt, Option.getD_some]
    exact p2 _ (List.getElem_mem hlt)
  have hh : ((before ++ [prev]).map (textId unkId)).length = before.length + 1 := by simp
  have hbatch : (before ++ [prev, w]).map (textId unkId) = (before ++ [prev]).map (textId unkId) ++ [textId unkId w] := by simp
  rw [hbatch, score_of_output (p := p) (e := e) (out := out) (by simp [sentenceBatch]) (by simp [sentenceBatch])
    (by rw [prefix_cells, hh]; exact o1) he hp]
  have hw : (sentenceBatch ((before ++ [prev]).map (textId unkId) ++ [textId unkId w])).word (before.length + 1) 0 = textId unkId w := by
    show ((before ++ [prev]).map (textId unkId) ++ [textId unkId w]).getD (before.length + 1) 0 = _
    rw [← hh]
    simp [List.getD]
  rw [hw, hclass, List.getElem?_eq_getElem hlt]
  simp only [List.getD, List.getElem?_eq_getElem hlt, Option.getD_some] at hpp ⊢
  unfold fltLog
  rw [if_neg (ne_of_gt hpp), if_pos hpp]

theorem netState_single (hD : D.Uses v unkId layers output useShortlist excludeUnk) (words : List HistWord) :
    SingleState (layers.map Created.layer) (netState D words) := by
  induction words using List.reverseRecOn with
  | nil =>
    show SingleState _ D.net.initial
    rw [hD.net]
    exact C97_initial _ _ _ _ _
  | append_singleton l w ih =>
    unfold netState at ih ⊢
    rw [List.foldl_append, List.foldl_cons, List.foldl_nil]
    generalize l.foldl _ D.net.initial = st at ih ⊢
    rw [hD.net]
    unfold networkDecNet
    simp only
    cases h : stepNetwork realAct ⟨false, excludeUnk, fun _ _ _ => []⟩ (layers.map Created.layer) 0 st
        [⟨netId D.vocab w, D.vocab.classId (netId D.vocab w), true⟩] with
    | error e => exact ih
    | ok r =>
      obtain ⟨xs, rfl⟩ := singleState_iff.mp ih
      obtain ⟨e, ys, _, h3, _⟩ := stepNetwork_one rfl h
      exact singleState_iff.mpr ⟨ys, h3⟩

/-- C97, evaluating the network for several tokens.  When the tokens have the states that their histories give, one evaluation for all of
them gives each token the state of its longer history, and the class probabilities whose logarithms are the scores of the words that may
be added. -/
theorem C97_step (hv : Constructible P v) (hu : v.wordToId unk = some unkId) (hm : ModelOf env a v layers output)
    (hf : ∀ c ∈ layers, c.layer.Forward ∧ ∀ b k i filters, c.layer ≠ .glu b k i filters)
    (hD : D.Uses v unkId layers output useShortlist false)
    (histories : List (List HistWord × HistWord)) (hne : histories ≠ []) :
    ∃ rs, stepTokens realAct ⟨false, false, fun _ _ _ => []⟩ (layers.map Created.layer)
        (histories.map fun x => (netState D x.1, ⟨netId D.vocab x.2, D.vocab.classId (netId D.vocab x.2), true⟩)) = .ok rs ∧
      List.Forall₂ (fun x r => r.2 = netState D (x.1 ++ [x.2]) ∧ ∃ p, r.1.probs output = some p ∧
        ∀ w, ∃ y, p[D.vocab.classId (netId D.vocab w)]? = some y ∧ 0 < y ∧ classScore D x.1 x.2 w = Real.log y) histories rs := by
  have key : ∀ x : List HistWord × HistWord, ∃ r : Entry ℝ × RecState ℝ,
      stepNetwork realAct ⟨false, false, fun _ _ _ => []⟩ (layers.map Created.layer) 0 (netState D x.1)
        [⟨netId D.vocab x.2, D.vocab.classId (netId D.vocab x.2), true⟩] = .ok ([r.1], r.2) ∧
      r.2 = netState D (x.1 ++ [x.2]) ∧ ∃ p, r.1.probs output = some p ∧
        ∀ w, ∃ y, p[D.vocab.classId (netId D.vocab w)]? = some y ∧ 0 < y ∧ classScore D x.1 x.2 w = Real.log y := by
    rintro ⟨before, prev⟩
    obtain ⟨out, e, st, p, _, _, hp, p1, p2, hstep⟩ := class_step hv hu hm hf hD before prev
    unfold wordCell at hstep
    refine ⟨(e, st), hstep, ?_, p, hp, fun w => ?_⟩
    · simp only
      unfold netState at hstep ⊢
      rw [List.foldl_append, List.foldl_cons, List.foldl_nil]
      generalize before.foldl _ D.net.initial = st1 at hstep ⊢
      rw [hD.net]
      unfold networkDecNet
      simp only
      rw [hstep]
    · have hlt : D.vocab.classId (netId D.vocab w) < p.length := by
        rw [p1, (uses_netId hv hu hD w).2.1]
        exact (memberOf_class hv hu _).1
      refine ⟨_, List.getElem?_eq_getElem hlt, p2 _ (List.getElem_mem hlt), ?_⟩
      simp only
      unfold classScore
      rw [hD.net]
      unfold networkDecNet
      simp only
      rw [hstep]
      simp only
      rw [hp]
      simp [List.getD, List.getElem?_eq_getElem hlt]
  choose f hf1 hf2 using key
  refine ⟨histories.map f, (C97_tokens _ _ rfl _ _ (by simpa using hne) ?_ _ ?_).1, ?_⟩
  · intro x hx
    obtain ⟨y, _, rfl⟩ := List.mem_map.mp hx
    exact netState_single hD y.1
  · rw [List.forall₂_map_left_iff, List.forall₂_map_right_iff, List.forall₂_same]
    exact fun x _ => hf1 x
  · rw [List.forall₂_map_right_iff, List.forall₂_same]
    exact fun x _ => hf2 x

theorem oos_entry (hv : Constructible P v) {r : List (Option ℚ)} (hr : v.oosProbs = some r) {i : Nat} (hi : i < v.numWords) :
    (∃ q, r[i]? = some q) ∧ (i < v.numShortlist → r[i]? = some (some 1)) := by
  obtain ⟨n, ps, hvi⟩ := hv.inv
  unfold Vocab.oosProbs at hr
  cases hu : v.unigram with
  | none => rw [hu] at hr; cases hr
  | some u =>
    rw [hu] at hr
    simp only at hr
    cases hr
    have hl : u.length = v.numWords := hvi.uni u hu
    constructor
    · apply Option.isSome_iff_exists.mp
      rw [List.getElem?_eq_getElem (by simp; omega)]
      rfl
    · intro hs
      rw [List.getElem?_append_left (by simp; omega)]
      simp [hs, hl, hi]

/-- C97, words.  The log probability that the decoder gives to a word (without an `<unk>` score) is the score that the text scorer gives to
the word in a sentence with the same words. -/
theorem C97_word (hv : Constructible P v) (hu : v.wordToId unk = some unkId) (hm : ModelOf env a v layers output)
    (hf : ∀ c ∈ layers, c.layer.Forward ∧ ∀ b k i filters, c.layer ≠ .glu b k i filters)
    (hD : D.Uses v unkId layers output useShortlist false)
    (before : List HistWord) (prev w : HistWord) (hw : PositiveWord v useShortlist (textId unkId w)) (x : ℝ)
    (h : WordScore D before prev w none x) :
    (scorerOf v unkId layers output useShortlist false).WordScore
      (sentenceBatch ((before ++ [prev, w]).map (textId unkId))) before.length 0 (.fin x) := by
  have hx := h.2 (.inl rfl)
  have hword : (sentenceBatch ((before ++ [prev, w]).map (textId unkId))).word (before.length + 1) 0 = textId unkId w := by
    show ((before ++ [prev, w]).map (textId unkId)).getD (before.length + 1) 0 = _
    simp [List.getD]
  have hpm : (0 : ℝ) < ((memberOf v (textId unkId w)).2 : ℝ) := by exact_mod_cast hw.2.1
  have hlog : (scorerOf v unkId layers output useShortlist false).log (memberOf v (textId unkId w)).2 =
      .fin (memberScore D.vocab w) := by
    rw [(uses_netId hv hu hD w).2.2]
    show fltLog _ = _
    unfold fltLog
    rw [if_neg (ne_of_gt hpm), if_pos hpm]
  obtain ⟨s, e, _, _, hV⟩ := hD.vocab
  unfold Scorer.WordScore
  rw [C97_class hv hu hm hf hD, hword]
  have hvoc : (scorerOf v unkId layers output useShortlist false).vocab = v := rfl
  rw [hvoc, hlog, hx]
  constructor
  · intro hs
    have : oosScore D.vocab w = 0 := by
      cases w with
      | inr t => rfl
      | inl i =>
        unfold oosScore
        simp only
        rw [hV]
        unfold networkDecVocab
        simp only
        have : useShortlist = true → v.oosProbs = none := by
          intro h1
          by_contra h2
          apply hs
          refine ⟨h1, ?_⟩
          show v.unigram ≠ none
          intro h3
          apply h2
          unfold Vocab.oosProbs
          rw [h3]
        cases hb : useShortlist with
        | false => rfl
        | true => rw [this hb]
    rw [this, add_zero]
    rfl
  · rintro ⟨h1, h2⟩
    have h1 : useShortlist = true := h1
    have h2 : v.unigram ≠ none := h2
    obtain ⟨r, hr⟩ : ∃ r, v.oosProbs = some r := by
      unfold Vocab.oosProbs
      cases hu : v.unigram with
      | none => exact absurd hu h2
      | some u => exact ⟨_, rfl⟩
    obtain ⟨⟨q, hq⟩, hq2⟩ := oos_entry hv hr hw.1
    obtain ⟨y, hy, hy0⟩ := hw.2.2 h1 r q hr hq
    refine ⟨r, q, hr, hq, ?_⟩
    rw [hy]
    simp only
    have hy0' : (0 : ℝ) < (y : ℝ) := by exact_mod_cast hy0
    have hoos : oosScore D.vocab w = Real.log (y : ℝ) := by
      cases w with
      | inr t =>
        have := hq2 (unkId_lt hv hu)
        rw [hq, hy] at this
        cases this
        simp [oosScore]
      | inl i =>
        unfold oosScore
        simp only
        rw [hV]
        unfold networkDecVocab
        simp only
        rw [h1, hr]
        simp only
        have hq : r[i]? = some q := hq
        rw [hq, hy]
    have hly : (scorerOf v unkId layers output useShortlist false).log y = .fin (Real.log (y : ℝ)) := by
      show fltLog _ = _
      unfold fltLog
      rw [if_neg (ne_of_gt hy0'), if_pos hy0']
    rw [hly, hoos]
    rfl

theorem histIs_id (hD : D.Uses v unkId layers output useShortlist false)
    {text : Str} {w : HistWord} (h : HistIs D.vocab text w) : IdOf v false unkId text (textId unkId w) := by
  obtain ⟨s, e, _, _, hV⟩ := hD.vocab
  rw [hV] at h
  have hw : (networkDecVocab Real.log (fun q => (q : ℝ)) v s e unkId useShortlist).wordToId = v.wordToId := rfl
  unfold HistIs at h
  rw [hw] at h
  cases hi : v.wordToId text with
  | some i =>
    rw [h.1 i hi]
    exact .known text i (wordToId_get hi) (by simp)
  | none =>
    rw [h.2 hi]
    exact .unknown text (wordToId_none.mp hi)

theorem path_history {ls : List (Link ℝ)} {h : List HistWord} {z : ℝ} (hp : NNPath D ls h z) :
    ∃ ws, h = .inl D.vocab.sos :: ws ∧ List.Forall₂ (HistIs D.vocab) (pathText ls) ws := by
  induction hp with
  | nil => exact ⟨[], rfl, .nil⟩
  | null ls k h x _ hk ih =>
    obtain ⟨ws, h1, h2⟩ := ih
    refine ⟨ws, h1, ?_⟩
    simpa [pathText, hk] using h2
  | word ls k before prev w text s x y _ hk hw _ _ ih =>
    obtain ⟨ws, h1, h2⟩ := ih
    refine ⟨ws ++ [w], ?_, ?_⟩
    · rw [show before ++ [prev, w] = before ++ [prev] ++ [w] by simp, h1]
      rfl
    · have e : pathText (ls ++ [k]) = pathText ls ++ [text] := by simp [pathText, hk]
      rw [e]
      exact List.rel_append h2 (.cons hw .nil)

/-- The sum of the scores along a path. -/
theorem path_scores (hv : Constructible P v) (hu : v.wordToId unk = some unkId) (hm : ModelOf env a v layers output)
    (hf : ∀ c ∈ layers, c.layer.Forward ∧ ∀ b k i filters, c.layer ≠ .glu b k i filters)
    (hD : D.Uses v unkId layers output useShortlist false)
    (hn : D.unkFromLattice = false ∧ D.unkPenalty = none) {ls : List (Link ℝ)} {h : List HistWord} {z : ℝ}
    (hp : NNPath D ls h z) : ∀ {rest : List Nat},
    (∀ x ∈ h.map (textId unkId) ++ rest, x < v.numWords) →
    (∀ b p w l, h = b ++ p :: w :: l → PositiveWord v useShortlist (textId unkId w)) →
    ∃ xs, List.Forall₂ (fun t x => (scorerOf v unkId layers output useShortlist false).WordScore
      (sentenceBatch (h.map (textId unkId) ++ rest)) t 0 x) (List.range (h.length - 1)) xs ∧ Flt.sum xs = .fin z := by
  induction hp with
  | nil => exact fun _ _ => ⟨[], .nil, rfl⟩
  | null ls k h x _ hk ih => exact ih
  | word ls k before prev w text s x y _ hk hw hs hy ih =>
    intro rest hlt hpos
    have e1 : (before ++ [prev, w]).map (textId unkId) ++ rest =
        (before ++ [prev]).map (textId unkId) ++ (textId unkId w :: rest) := by simp
    have hlt' : ∀ x ∈ (before ++ [prev]).map (textId unkId) ++ (textId unkId w :: rest), x < v.numWords := by
      rw [← e1]; exact hlt
    obtain ⟨xs, h1, h2⟩ := ih hlt' (by
      rintro b p w' l hl
      apply hpos b p w' (l ++ [w])
      rw [show before ++ [prev, w] = before ++ [prev] ++ [w] by simp, hl]
      simp)
    have hs' : s = none := by rw [hs.2 hn.1]; exact hn.2
    subst hs'
    have hword := C97_word hv hu hm hf hD before prev w (hpos before prev w [] rfl) y hy
    have hpre := (score_prefix hv hu hm (fun c hc => (hf c hc).1) useShortlist false _ ((before ++ [prev]).map (textId unkId)) rest
      (textId unkId w) rfl (by simp) hlt' (.fin y))
    have e2 : ((before ++ [prev]).map (textId unkId)).length - 1 = before.length := by simp
    have e3 : (before ++ [prev]).map (textId unkId) ++ [textId unkId w] = (before ++ [prev, w]).map (textId unkId) := by simp
    rw [e2, e3] at hpre
    refine ⟨xs ++ [.fin y], ?_, ?_⟩
    · rw [e1]
      have e4 : (before ++ [prev, w]).length - 1 = before.length + 1 := by simp
      have e5 : (before ++ [prev]).length - 1 = before.length := by simp
      rw [e4, List.range_succ]
      rw [e5] at h1
      exact List.rel_append h1 (.cons (hpre.mpr hword) .nil)
    · rw [Flt.sum_append, h2]
      show Flt.add _ _ = _
      simp [Flt.sum, Flt.add]

/-- The score of a complete path is the sum of the scores that the text scorer gives to its words. -/
theorem nnComplete_text (hv : Constructible P v) (hu : v.wordToId unk = some unkId) (hm : ModelOf env a v layers output)
    (hf : ∀ c ∈ layers, c.layer.Forward ∧ ∀ b k i filters, c.layer ≠ .glu b k i filters)
    (hD : D.Uses v unkId layers output useShortlist false)
    (hn : D.unkFromLattice = false ∧ D.unkPenalty = none) {ls : List (Link ℝ)} {z : ℝ} (hz : NNComplete D ls z) :
    ∃ ids, List.Forall₂ (IdOf v false unkId) ([sos] ++ pathText ls ++ [eos]) ids ∧
      ((∀ i ∈ ids.tail, PositiveWord v useShortlist i) →
        ∃ xs, List.Forall₂ (fun t x => (scorerOf v unkId layers output useShortlist false).WordScore (sentenceBatch ids) t 0 x)
          (List.range (ids.length - 1)) xs ∧ Flt.sum xs = .fin z) := by
  obtain ⟨s, e, hs, hee, hV⟩ := hD.vocab
  have hvs : D.vocab.sos = s := by rw [hV]; rfl
  have hve : D.vocab.eos = e := by rw [hV]; rfl
  obtain ⟨before, prev, x, y, h4, h5, h6⟩ := hz
  obtain ⟨ws, hws, hwr⟩ := path_history h4
  have hids : List.Forall₂ (IdOf v false unkId) ([sos] ++ pathText ls ++ [eos])
      ((before ++ [prev, .inl e]).map (textId unkId)) := by
    rw [show before ++ [prev, (.inl e : HistWord)] = before ++ [prev] ++ [.inl e] by simp, hws, hvs]
    rw [List.map_append]
    refine List.rel_append ?_ (.cons (.known _ _ (wordToId_get hee) (by simp)) .nil)
    refine .cons (.known _ _ (wordToId_get hs) (by simp)) ?_
    rw [List.forall₂_map_right_iff]
    exact hwr.imp fun _ _ hx => histIs_id hD hx
  have hlt : ∀ i ∈ (before ++ [prev, .inl e]).map (textId unkId), i < v.numWords := by
    intro i hi
    obtain ⟨k, hk, rfl⟩ := List.mem_iff_getElem.mp hi
    have hk' := hids.length_eq
    exact idOf_lt hu ((List.forall₂_iff_get.mp hids).2 k (by omega) hk)
  refine ⟨_, hids, fun hpos => ?_⟩
  have hpos' : ∀ b p w l, before ++ [prev, .inl e] = b ++ p :: w :: l → PositiveWord v useShortlist (textId unkId w) := by
    intro b p w l hl
    apply hpos
    rw [hl]
    cases b <;> simp
  have e1 : (before ++ [prev, (.inl e : HistWord)]).map (textId unkId) = (before ++ [prev]).map (textId unkId) ++ [e] := by
    simp [textId]
  obtain ⟨xs, g1, g2⟩ := path_scores hv hu hm hf hD hn h4 (rest := [e]) (by rw [← e1]; exact hlt) (by
    intro b p w l hl
    apply hpos' b p w (l ++ [.inl e])
    rw [show before ++ [prev, (.inl e : HistWord)] = before ++ [prev] ++ [.inl e] by simp, hl]
    simp)
  have hword := C97_word hv hu hm hf hD before prev (.inl e) (hpos' before prev _ [] rfl) y (by rw [← hve]; exact h5)
  refine ⟨xs ++ [.fin y], ?_, ?_⟩
  · rw [← e1] at g1
    have e4 : ((before ++ [prev, (.inl e : HistWord)]).map (textId unkId)).length - 1 = before.length + 1 := by simp
    have e5 : (before ++ [prev]).length - 1 = before.length := by simp
    rw [e4, List.range_succ]
    rw [e5] at g1
    exact List.rel_append g1 (.cons hword .nil)
  · rw [Flt.sum_append, g2, h6]
    simp [Flt.sum, Flt.add]

/-- C97, the decoder and the text scorer agree.  When the decoder is not given a score for `<unk>`, and `<s>` and `</s>` have the same
class membership probability, the neural network score of every returned hypothesis is the sum of the scores that the text scorer gives to
the words of the hypothesis.  `ids` are the word IDs of the hypothesis, which the text scorer would use; the words have to have positive
membership probability. -/
theorem C97_partial {L : Lattice ℝ} (hv : Constructible P v) (hu : v.wordToId unk = some unkId) (hm : ModelOf env a v layers output)
    (hf : ∀ c ∈ layers, c.layer.Forward ∧ ∀ b k i filters, c.layer ≠ .glu b k i filters)
    (hD : D.Uses v unkId layers output useShortlist false)
    (hn : D.unkFromLattice = false ∧ D.unkPenalty = none)
    (he : ∀ i j, v.wordToId sos = some i → v.wordToId eos = some j → (memberOf v i).2 = (memberOf v j).2) (hw : L.WF)
    (finals : List (Token ℝ (RecState ℝ))) (recomb : List (Recomb ℝ (RecState ℝ))) (h : decode D L = .ok (finals, recomb)) :
    ∀ t ∈ finals, ∃ (ls : List (Link ℝ)) (n : Nat) (ids : List Nat), L.Path L.initial ls n ∧ L.Final n ∧ DescribesPath D ls t ∧
      List.Forall₂ (IdOf v false unkId) ([sos] ++ pathText ls ++ [eos]) ids ∧
      ((∀ i ∈ ids.tail, PositiveWord v useShortlist i) →
        ∃ xs, List.Forall₂ (fun t x => (scorerOf v unkId layers output useShortlist false).WordScore (sentenceBatch ids) t 0 x)
          (List.range (ids.length - 1)) xs ∧ Flt.sum xs = .fin t.nnLm) := by
  intro t ht
  obtain ⟨s, e, hs, hee, hV⟩ := hD.vocab
  have hvs : D.vocab.sos = s := by rw [hV]; rfl
  have hve : D.vocab.eos = e := by rw [hV]; rfl
  obtain ⟨ls, n, h1, h2, h3, hz⟩ := C33_partial hw (.inl hn) (by
    rw [(uses_netId hv hu hD _).2.2, (uses_netId hv hu hD _).2.2, hvs, hve]
    show Real.log ((memberOf v s).2 : ℝ) = Real.log ((memberOf v e).2 : ℝ)
    rw [he s e hs hee]) finals recomb h t ht
  obtain ⟨ids, h4, h5⟩ := nnComplete_text hv hu hm hf hD hn hz
  exact ⟨ls, n, ids, h1, h2, h3, h4, h5⟩

end

/-! ## Concrete cases -/

/-- A projection of the input word, an LSTM layer and a softmax layer. -/
def exampleRecurrent : Architecture where
  inputs := [[("type".toList, .one (.str "word".toList)), ("name".toList, .one (.str "w".toList))]]
  layers := [exampleLayer "projection" "p" ["w"] [("size", .one (.int 2))], exampleLayer "lstm" "h" ["p"] [("size", .one (.int 3))],
    exampleLayer "softmax" "o" ["h"] []]
  outputLayer := .str "o".toList

instance decidableNoGlu (layer : Layer ℝ) : Decidable (∀ b k i filters, layer ≠ .glu b k i filters) :=
  match layer with
  | .glu b k i filters => isFalse fun h => h b k i filters rfl
  | .bidirectional _ _ _ => isTrue nofun
  | .wordInput => isTrue nofun
  | .classInput => isTrue nofun
  | .projection _ => isTrue nofun
  | .fullyConnected _ => isTrue nofun
  | .addition _ _ => isTrue nofun
  | .recurrent _ _ => isTrue nofun
  | .highway _ => isTrue nofun
  | .dropout _ _ => isTrue nofun
  | .softmax _ _ => isTrue nofun
  | .hsoftmax _ _ _ _ _ => isTrue nofun

theorem exampleRecurrent_model : ∃ layers, ModelOf exampleModelEnv exampleRecurrent exScoreVocab layers 3 ∧
    (∀ c ∈ layers, c.layer.Forward ∧ ∀ b k i filters, c.layer ≠ .glu b k i filters) ∧
    (∃ c b u, layers[3]? = some c ∧ c.layer = .softmax b u) ∧ networkStateSizes (layers.map Created.layer) = [3, 3] := by
  obtain ⟨net, h1, h2, h3, ⟨c, hc, b, u, hl⟩, h5, h6⟩ : ∃ net, createNetwork exampleModelEnv exampleRecurrent = .ok net ∧ net.output = 3 ∧
      (∀ c ∈ net.layers, c.layer.Forward ∧ ∀ b k i filters, c.layer ≠ .glu b k i filters) ∧
      (∃ c, net.layers[3]? = some c ∧ ∃ b u, c.layer = .softmax b u) ∧
      (∀ c ∈ net.layers, Connected net.layers c ∧ Placed c) ∧ networkStateSizes (net.layers.map Created.layer) = [3, 3] := by
    decide +kernel
  have hp : PriorFits exampleModelEnv exampleRecurrent := fun p hp => by cases hp
  have hs : SameNetwork net.layers net.layers := by
    have key := createNetwork_same (env := exampleModelEnv) (env' := exampleModelEnv)
      ⟨rfl, rfl, rfl, rfl, rfl, rfl, rfl, rfl⟩ (a := exampleRecurrent) (b := exampleRecurrent)
      (List.forall₂_same.mpr fun d hd => rfl) (List.forall₂_same.mpr fun d _ k => rfl) rfl hp hp
    rw [h1] at key
    cases key with
    | ok h => exact h.1
  refine ⟨net.layers, ⟨⟨net, h1, h2, hs, h5⟩, hp, rfl, rfl, fun i hi => ?_, c, hc, .inl ⟨b, u, hl⟩⟩, h3, ⟨c, b, u, hc, hl⟩, h6⟩
  have : exScoreVocab.wordToId unk = some 5 := by decide +kernel
  rw [this] at hi
  cases hi
  rfl

instance decidableHSoftmax {S : Type} (c : Created S) : Decidable (∃ b l1 l2 ws bs, c.layer = .hsoftmax b l1 l2 ws bs) :=
  match c.layer with
  | .hsoftmax b l1 l2 ws bs => isTrue ⟨b, l1, l2, ws, bs, rfl⟩
  | .softmax _ _ => isFalse nofun
  | .bidirectional _ _ _ => isFalse nofun
  | .wordInput => isFalse nofun
  | .classInput => isFalse nofun
  | .projection _ => isFalse nofun
  | .fullyConnected _ => isFalse nofun
  | .addition _ _ => isFalse nofun
  | .recurrent _ _ => isFalse nofun
  | .highway _ => isFalse nofun
  | .glu _ _ _ _ => isFalse nofun
  | .dropout _ _ => isFalse nofun

/-- The theorems about the decoder hold for hierarchical softmax layers too.  (The second level of this one has six outputs and there
are five classes.) -/
def exampleHierarchical : Architecture where
  inputs := [[("type".toList, .one (.str "word".toList)), ("name".toList, .one (.str "w".toList))]]
  layers := [exampleLayer "projection" "p" ["w"] [("size", .one (.int 2))], exampleLayer "gru" "h" ["p"] [("size", .one (.int 3))],
    exampleLayer "hsoftmax" "o" ["h"] []]
  outputLayer := .str "o".toList

theorem exampleHierarchical_model : ∃ layers, ModelOf exampleModelEnv exampleHierarchical exScoreVocab layers 3 ∧
    (∀ c ∈ layers, c.layer.Forward ∧ ∀ b k i filters, c.layer ≠ .glu b k i filters) ∧
    ∃ c b l1 l2 ws bs, layers[3]? = some c ∧ c.layer = .hsoftmax b l1 l2 ws bs := by
  obtain ⟨net, h1, h2, h3, ⟨c, hc, b, l1, l2, ws, bs, hl⟩, h5⟩ : ∃ net, createNetwork exampleModelEnv exampleHierarchical = .ok net ∧
      net.output = 3 ∧ (∀ c ∈ net.layers, c.layer.Forward ∧ ∀ b k i filters, c.layer ≠ .glu b k i filters) ∧
      (∃ c, net.layers[3]? = some c ∧ ∃ b l1 l2 ws bs, c.layer = .hsoftmax b l1 l2 ws bs) ∧
      (∀ c ∈ net.layers, Connected net.layers c ∧ Placed c) := by
    decide +kernel
  have hp : PriorFits exampleModelEnv exampleHierarchical := fun p hp => by cases hp
  have hs : SameNetwork net.layers net.layers := by
    have key := createNetwork_same (env := exampleModelEnv) (env' := exampleModelEnv)
      ⟨rfl, rfl, rfl, rfl, rfl, rfl, rfl, rfl⟩ (a := exampleHierarchical) (b := exampleHierarchical)
      (List.forall₂_same.mpr fun d hd => rfl) (List.forall₂_same.mpr fun d _ k => rfl) rfl hp hp
    rw [h1] at key
    cases key with
    | ok h => exact h.1
  refine ⟨net.layers, ⟨⟨net, h1, h2, hs, h5⟩, hp, rfl, rfl, fun i hi => ?_, c, hc, .inr ⟨b, l1, l2, ws, bs, hl⟩⟩, h3,
    c, b, l1, l2, ws, bs, hc, hl⟩
  have : exScoreVocab.wordToId unk = some 5 := by decide +kernel
  rw [this] at hi
  cases hi
  rfl

noncomputable def exNetDecoder (layers : List (Created ℝ)) : Decoder ℝ (RecState ℝ) where
  vocab := networkDecVocab Real.log (fun q => (q : ℝ)) exScoreVocab 3 4 5 true
  net := networkDecNet realAct Real.log (layers.map Created.layer) 3 false
  lin x _ _ := x
  nnlmWeight := 1
  lmScale := some 2
  wiPenalty := none
  unkPenalty := none
  unkFromLattice := false
  linear := false
  maxTokens := none
  beam := none
  recombinationOrder := none
  pruneExtraLimit := none
  absMinBeam := 0
  absMinMaxTokens := 0

/-- The words "a x" and "c unseen", and a null link at the end. -/
noncomputable def exNetLattice : Lattice ℝ :=
  let built := [(0, 1, some "a".toList), (1, 2, some "x".toList), (0, 1, some "c".toList), (1, 2, some "unseen".toList), (2, 3, none)].foldl
    (fun (p : List Node × List (Link ℝ)) (e : Nat × Nat × Option Str) => addLink p.1 p.2 ⟨e.1, e.2.1, e.2.2, some (-1), none, []⟩)
    (List.replicate 4 Node.new, [])
  ⟨built.1.modify 3 (fun n => { n with final := true }), built.2, 0, none, none, none⟩

theorem exNetLattice_wf : exNetLattice.WF := wf_of_check _ (by decide +kernel)

theorem exNetLattice_acyclic : ∀ n : Nat, ¬ exNetLattice.OnCycle n := by
  have hall : ∀ k ∈ exNetLattice.links, k.startNode < k.endNode := by decide +kernel
  have hlt : ∀ a b : Nat, exNetLattice.Edge a b → a < b := by
    rintro a b ⟨k, hk, rfl, rfl⟩
    exact hall k hk
  have htr : ∀ a b : Nat, Relation.TransGen exNetLattice.Edge a b → a < b := by
    intro a b h
    induction h with
    | single h => exact hlt _ _ h
    | tail _ h ih => exact lt_trans ih (hlt _ _ h)
  exact fun n h => lt_irrefl _ (htr n n h)

/-- A case that meets the hypotheses of `C97_partial`. -/
example : ∃ layers, ModelOf exampleModelEnv exampleRecurrent exScoreVocab layers 3 ∧
    (∀ c ∈ layers, c.layer.Forward ∧ ∀ b k i filters, c.layer ≠ .glu b k i filters) ∧
    (∃ c b u, layers[3]? = some c ∧ c.layer = .softmax b u) ∧ (exNetDecoder layers).Uses exScoreVocab 5 layers 3 true false ∧
    (∀ i j, exScoreVocab.wordToId sos = some i → exScoreVocab.wordToId eos = some j →
      (memberOf exScoreVocab i).2 = (memberOf exScoreVocab j).2) ∧
    (∃ finals recomb, decode (exNetDecoder layers) exNetLattice = .ok (finals, recomb) ∧ finals ≠ []) ∧
    ∀ i ∈ [1, 6, 2, 5, 4], PositiveWord exScoreVocab true i := by
  obtain ⟨layers, h1, h2, h3, _⟩ := exampleRecurrent_model
  have hs : exScoreVocab.wordToId sos = some 3 := by decide +kernel
  have he : exScoreVocab.wordToId eos = some 4 := by decide +kernel
  refine ⟨layers, h1, h2, h3, ⟨rfl, 3, 4, hs, he, rfl⟩, ?_, ?_, ?_⟩
  · intro i j hi hj
    rw [hs] at hi
    rw [he] at hj
    cases hi
    cases hj
    decide +kernel
  · have hin : ∀ n < exNetLattice.nodes.length, n ≠ exNetLattice.initial → ∃ k ∈ exNetLattice.links, k.endNode = n := by decide +kernel
    have hpath : ∃ (ls : List (Link ℝ)) (n : Nat), exNetLattice.Path exNetLattice.initial ls n ∧ exNetLattice.Final n := by
      rw [show exNetLattice.initial = 0 from rfl]
      exact ⟨[] ++ [⟨0, 1, some "a".toList, some (-1), none, []⟩] ++ [⟨1, 2, some "x".toList, some (-1), none, []⟩] ++
          [⟨2, 3, none, some (-1), none, []⟩], 3,
        .snoc _ ⟨2, 3, none, some (-1), none, []⟩ (.snoc _ ⟨1, 2, some "x".toList, some (-1), none, []⟩
          (.snoc [] ⟨0, 1, some "a".toList, some (-1), none, []⟩ .nil
            (List.mem_of_getElem? (show exNetLattice.links[0]? = some _ from rfl)))
          (List.mem_of_getElem? (show exNetLattice.links[1]? = some _ from rfl)))
          (List.mem_of_getElem? (show exNetLattice.links[4]? = some _ from rfl)),
        ⟨_, (by decide +kernel : exNetLattice.nodes[3]? = some (exNetLattice.nodes.getD 3 Node.new)), by decide +kernel⟩⟩
    obtain ⟨finals, recomb, g1, g2⟩ := decode_represents (D := exNetDecoder layers) exNetLattice_wf exNetLattice_acyclic
      (fun n hn hne => by
        obtain ⟨k, hk, h⟩ := hin n hn hne
        exact ⟨k.startNode, k, hk, rfl, h⟩) (NoPruning.unpruned ⟨rfl, rfl, rfl, Or.inl rfl, rfl⟩) hpath
    obtain ⟨ls, n, hp, hf⟩ := hpath
    obtain ⟨t, ht, _⟩ := g2 ls n hp hf
    exact ⟨finals, recomb, g1, List.ne_nil_of_mem ht⟩
  · have hall : ∀ i ∈ [1, 6, 2, 5, 4], i < exScoreVocab.numWords ∧ 0 < (memberOf exScoreVocab i).2 ∧
        ∃ r ∈ exScoreVocab.oosProbs, ∃ q ∈ r[i]?, ∃ y ∈ q, 0 < y := by decide +kernel
    intro i hi
    obtain ⟨a1, a2, r, a3, q, a4, y, a5, a6⟩ := hall i hi
    refine ⟨a1, a2, fun _ r' q' b1 b2 => ?_⟩
    rw [Option.mem_def] at a3 a4 a5
    rw [a3] at b1
    cases b1
    rw [a4] at b2
    cases b2
    exact ⟨y, a5, a6⟩

/-- A case that meets the hypotheses of `C97_tokens`: tokens with different histories. -/
example : ∃ (layers : List (Layer ℝ)) (tokens : List (RecState ℝ × InputCell)) (rs : List (Entry ℝ × RecState ℝ)),
    networkStateSizes layers = [3, 3] ∧ tokens.length = 3 ∧ (∀ x ∈ tokens, SingleState layers x.1) ∧
    List.Forall₂ (fun x r => stepNetwork realAct ⟨false, false, fun _ _ _ => []⟩ layers 0 x.1 [x.2] = .ok ([r.1], r.2)) tokens rs := by
  obtain ⟨layers, h1, h2, h3, h4⟩ := exampleRecurrent_model
  have hs : exScoreVocab.wordToId sos = some 3 := by decide +kernel
  have he : exScoreVocab.wordToId eos = some 4 := by decide +kernel
  have hu : exScoreVocab.wordToId unk = some 5 := by decide +kernel
  have hD : (exNetDecoder layers).Uses exScoreVocab 5 layers 3 true false := ⟨rfl, 3, 4, hs, he, rfl⟩
  have key : ∀ x : List HistWord × HistWord, ∃ r : Entry ℝ × RecState ℝ,
      stepNetwork realAct ⟨false, false, fun _ _ _ => []⟩ (layers.map Created.layer) 0 (netState (exNetDecoder layers) x.1)
        [wordCell (exNetDecoder layers) x.2] = .ok ([r.1], r.2) := by
    rintro ⟨before, prev⟩
    obtain ⟨out, e, st, p, _, _, _, _, _, hstep⟩ := class_step exScoreVocab_constructible hu h1 h2 hD before prev
    exact ⟨(e, st), hstep⟩
  choose f hf using key
  let hist : List (List HistWord × HistWord) := [([], .inl 3), ([.inl 3], .inl 1), ([.inl 3, .inr "unseen".toList], .inl 2)]
  refine ⟨layers.map Created.layer, hist.map fun x => (netState (exNetDecoder layers) x.1, wordCell (exNetDecoder layers) x.2), hist.map f, h4,
    rfl, ?_, ?_⟩
  · intro x hx
    obtain ⟨y, _, rfl⟩ := List.mem_map.mp hx
    exact netState_single hD y.1
  · rw [List.forall₂_map_left_iff, List.forall₂_map_right_iff, List.forall₂_same]
    exact fun x _ => hf x

end TheanoLM
