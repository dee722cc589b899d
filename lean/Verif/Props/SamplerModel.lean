import Verif.Props.TextSampler
import Verif.Props.LanguageModel
import Verif.Props.NetworkDecoder
/-!
# Properties of text generation with a network: C98
-/
namespace TheanoLM
set_option linter.unusedSectionVars false

section
variable {P : Parsers} {v : Vocab} {unkId : Nat} {env : CreateEnv ℝ} {a : Architecture} {layers : List (Created ℝ)} {output : Nat}

/-- A draw of a word: the probability that the class `c` has in the output of the network, multiplied by the probability of the word in its
class. -/
noncomputable def drawProb (p : List ℝ) (c : Nat) (q : ℚ) : ℝ := p.getD c 0 * (q : ℝ)

theorem class_member (hv : Constructible P v) (hu : v.wordToId unk = some unkId) {c w i : Nat} {wc : WordClass} {q : ℚ}
    (hc : v.classes[c]? = some wc) (hw : wc.probs[i]? = some (w, q)) : memberOf v w = (c, q) := by
  obtain ⟨n, ps, hvi⟩ := hv.inv
  have h1 := drawn_member hvi hc hw
  have hlt : w < v.numShortlist := (List.getElem?_eq_some_iff.mp h1).1
  have h2 := memberOf_class hv hu w
  rw [if_pos hlt] at h2
  have e1 : (memberOf v w).1 = c := by
    have := h2.2.1.symm.trans h1
    injection this
  have e2 : (memberOf v w).2 = q := by
    rw [h2.2.2]
    unfold probOf
    rw [hvi.getWordProb hlt]
    have hkn : c < n := by
      have := (List.getElem?_eq_some_iff.mp hc).1
      rwa [hvi.cls, classList_length] at this
    rw [hvi.cls, classList_get hkn] at hc
    injection hc with hc
    subst hc
    obtain ⟨j, _, he⟩ := List.mem_map.mp (List.mem_of_getElem? hw)
    injection he with he1 he2
    rw [he1] at he2
    exact he2
  exact Prod.ext e1 e2

/-- The words before are given to the network in the same way as in text scoring. -/
theorem sampled_cells (hv : Constructible P v) (hu : v.wordToId unk = some unkId) {cells : List InputCell}
    (hc : ∀ c ∈ cells, v.classOf[c.word]? = some c.cls ∧ c.mask = true) :
    oneSequence cells = table cells.length 1 (cellOf v unkId (sentenceBatch (cells.map InputCell.word))) := by
  apply List.ext_getElem
  · simp [oneSequence, table]
  intro t h1 h2
  have ht : t < cells.length := by simpa [oneSequence] using h1
  obtain ⟨g1, g2⟩ := hc _ (List.getElem_mem ht)
  have hw : (sentenceBatch (cells.map InputCell.word)).word t 0 = cells[t].word := by
    show (cells.map InputCell.word).getD t 0 = _
    simp only [List.getD, List.getElem?_map, List.getElem?_eq_getElem ht, Option.map_some, Option.getD_some]
  have hlt : cells[t].word < v.numShortlist := (List.getElem?_eq_some_iff.mp g1).1
  have hm := (memberOf_class hv hu cells[t].word).2.1
  rw [if_pos hlt, g1] at hm
  simp only [oneSequence, table, List.getElem_map, List.getElem_range]
  show [cells[t]] = [cellOf v unkId (sentenceBatch (cells.map InputCell.word)) t 0]
  unfold cellOf
  rw [hw, if_pos hlt]
  injection hm with hm
  rw [← hm]
  have : ((sentenceBatch (cells.map InputCell.word)).mask (t + 1) 0 != 0) = true := rfl
  rw [this, ← g2]

/-- C98, the distribution of the words.  Every word that is not given is drawn from a distribution `p` of classes, and among the words of
the drawn class.  The probability of drawing any word `w'` this way is what text scoring gives to `w'` after the same words. -/
theorem C98 (hv : Constructible P v) (hu : v.wordToId unk = some unkId) (hm : ModelOf env a v layers output)
    (hno : Normalized layers output)
    (excludeUnk : Bool) (hx : excludeUnk = true → 2 ≤ v.numClasses) (hprob : ∀ w, 0 ≤ probOf v w)
    {R : Draws ℝ} {length n : Nat} {seed : Str} {tokens : List Str} (hseed : Words seed tokens) (hlen : 1 ≤ length)
    {sequences : List (List Str)}
    (h : generate realAct ⟨false, excludeUnk, fun _ _ _ => []⟩ (layers.map Created.layer) output v R length n seed = .ok sequences)
    (s : Nat) (sequence : List Str) (hs : sequences[s]? = some sequence) :
    ∃ ids : List Nat, List.Forall₂ (fun w i => v.wordToId w = some i) sequence ids ∧
      ∀ t, tokens.length < t → t < sequence.length →
        ∃ (p : List ℝ) (wc : WordClass) (w : Nat) (q : ℚ), p.length = v.numClasses ∧ (∀ x ∈ p, 0 ≤ x) ∧ p.sum = 1 ∧
          ids[t]? = some w ∧ v.classes[R.cls t s p]? = some wc ∧ wc.probs[R.word t s wc]? = some (w, q) ∧
          ∀ (c' : Nat) (wc' : WordClass) (i w' : Nat) (q' : ℚ), v.classes[c']? = some wc' → wc'.probs[i]? = some (w', q') →
            (scorerOf v unkId layers output false excludeUnk).WordScore (sentenceBatch (ids.take t ++ [w'])) (t - 1) 0
              (fltLog (drawProb p c' q')) := by
  obtain ⟨_, h2⟩ := C61 hv rfl hseed hlen h
  obtain ⟨hl, _, cells, hc, hd⟩ := h2 s sequence hs
  have hall : ∀ c ∈ cells, v.classOf[c.word]? = some c.cls ∧ c.mask = true := by
    intro c hm
    obtain ⟨k, hk, rfl⟩ := List.mem_iff_getElem.mp hm
    have := (List.forall₂_iff_get.mp hc).2 k (by rw [hc.length_eq]; exact hk) hk
    exact this.2
  refine ⟨cells.map InputCell.word, ?_, fun t ht1 ht2 => ?_⟩
  · rw [List.forall₂_map_right_iff]
    exact hc.imp fun _ _ hx => hx.1
  obtain ⟨out, x, p, c, wc, q, d1, d2, d3, d4, d5, d6, d7⟩ := hd t ht1 ht2
  have htl : t < cells.length := by rw [← hc.length_eq]; exact ht2
  have hcells := sampled_cells hv hu (cells := cells.take t) fun c hm => hall c (List.mem_of_mem_take hm)
  have hlt : (cells.take t).length = t := by rw [List.length_take]; omega
  have hpos : 0 < v.numClasses := lt_of_le_of_lt (Nat.zero_le _) (memberOf_class hv hu 0).1
  obtain ⟨out', o1, o2, o3, o4⟩ := output_distribution hm hx hpos (batch := oneSequence (cells.take t)) (n := 1)
    (by rw [hcells]; exact rect_table) (by rw [hcells]; exact cells_valid hv hu hm.words hm.classes _ _)
  rw [d1] at o1
  cases o1
  have hp : x.probs output = some p := by unfold Entry.probs; rw [d3]
  obtain ⟨p', hp', p1, p2, p3, _⟩ := o4 _ _ x d2
  rw [hp] at hp'
  cases hp'
  refine ⟨p, wc, c.word, q, p1, p2, p3 hno, by rw [List.getElem?_map, d4]; rfl, by rw [← d5]; exact d6, by rw [← d5] at *; exact d7, ?_⟩
  intro c' wc' i w' q' hc' hw'
  have hmem := class_member hv hu hc' hw'
  have hword : (sentenceBatch ((cells.map InputCell.word).take t ++ [w'])).word (t - 1 + 1) 0 = w' := by
    show ((cells.map InputCell.word).take t ++ [w']).getD (t - 1 + 1) 0 = w'
    rw [show t - 1 + 1 = t by omega, List.getD, List.getElem?_append_right (by simp)]
    simp [show t - min t cells.length = 0 by omega]
  have hnet : (scorerOf v unkId layers output false excludeUnk).networkScore (sentenceBatch ((cells.map InputCell.word).take t ++ [w']))
      (t - 1) 0 = fltLog (p.getD c' 0) := by
    rw [score_of_output (p := p) (e := x) (out := out) (by simp [sentenceBatch]; omega) (by simp [sentenceBatch])
      (by
        rw [prefix_cells, ← List.map_take, List.length_map, hlt]
        rw [hcells, hlt] at d1
        exact d1) d2 hp, hword, hmem]
    have hlt' : c' < p.length := by
      rw [p1]
      exact (List.getElem?_eq_some_iff.mp hc').1
    simp [List.getD, List.getElem?_eq_getElem hlt']
  have hq : (0 : ℝ) ≤ (q' : ℝ) := by
    have := hprob w'
    have h2 := (memberOf_class hv hu w').2.2
    rw [hmem] at h2
    have hsl : w' < v.numShortlist := by
      obtain ⟨_, _, hvi⟩ := hv.inv
      exact (List.getElem?_eq_some_iff.mp (drawn_member hvi hc' hw')).1
    rw [if_pos hsl] at h2
    simp only at h2
    rw [h2]
    exact_mod_cast this
  have hpn : 0 ≤ p.getD c' 0 := by
    by_cases hc : c' < p.length
    · simp only [List.getD, List.getElem?_eq_getElem hc, Option.getD_some]
      exact p2 _ (List.getElem_mem hc)
    · simp [List.getD, List.getElem?_eq_none (show p.length ≤ c' by omega)]
  refine ⟨fun _ => ?_, fun h' => absurd h'.1 Bool.false_ne_true⟩
  rw [hnet, hword]
  have hlog : (scorerOf v unkId layers output false excludeUnk).log (memberOf (scorerOf v unkId layers output false
      excludeUnk).vocab w').2 = fltLog (q' : ℝ) := by
    show fltLog ((memberOf v w').2 : ℝ) = _
    rw [hmem]
  rw [hlog, fltLog_mul hpn hq]
  rfl

/-- C98, text can be generated with every network.  If the random outcomes are possible ones, the seed consists of words of the shortlist
and there are no bidirectional or gated linear unit layers, then text is generated. -/
theorem C98_succeeds (hv : Constructible P v) (hu : v.wordToId unk = some unkId) (hm : ModelOf env a v layers output)
    (hf : ∀ c ∈ layers, c.layer.Forward ∧ ∀ b k i filters, c.layer ≠ .glu b k i filters)
    (excludeUnk : Bool) (hx : excludeUnk = true → 2 ≤ v.numClasses)
    {R : Draws ℝ} {length n : Nat} {seed : Str} {tokens : List Str} (hseed : Words seed tokens) (hlen : 1 ≤ length)
    (htok : ∀ w ∈ tokens, w ∈ v.idToWord.take v.numShortlist)
    (hcls : ∀ t s (p : List ℝ), p ≠ [] → R.cls t s p < p.length)
    (hword : ∀ t s (c : WordClass), c.probs ≠ [] → R.word t s c < c.probs.length) :
    ∃ sequences, generate realAct ⟨false, excludeUnk, fun _ _ _ => []⟩ (layers.map Created.layer) output v R length n seed =
      .ok sequences := by
  have hpos : 0 < v.numClasses := lt_of_le_of_lt (Nat.zero_le _) (memberOf_class hv hu 0).1
  refine C61_succeeds hv hseed hlen htok ?_ ?_ hcls hword
  · intro layer hl
    obtain ⟨c, hc, rfl⟩ := List.mem_map.mp hl
    exact hf c hc
  · intro batch hb
    have hrect : Rect n batch := fun row hr => (hb row hr).1
    have hvalid : ValidBatch env batch := by
      intro t s c hpos
      have hmem : ∃ row ∈ batch, c ∈ row := by
        unfold posAt at hpos
        cases hr : batch[t]? with
        | none => rw [hr] at hpos; cases hpos
        | some row =>
          rw [hr] at hpos
          exact ⟨row, List.mem_of_getElem? hr, List.mem_of_getElem? hpos⟩
      obtain ⟨row, hr, hc⟩ := hmem
      have h1 := ((hb row hr).2 c hc).1
      obtain ⟨N, ps, hvi⟩ := hv.inv
      refine ⟨?_, ?_⟩
      · rw [hm.words]
        exact (List.getElem?_eq_some_iff.mp h1).1
      · rw [hm.classes, hvi.numClasses]
        exact hvi.lt _ (List.mem_of_getElem? h1)
    obtain ⟨out, o1, o2, o3, o4⟩ := output_distribution hm hx hpos hrect hvalid
    refine ⟨out, o1, fun row hr x hxr => ?_⟩
    obtain ⟨t, ht, rfl⟩ := List.mem_iff_getElem.mp hr
    obtain ⟨s, hs, rfl⟩ := List.mem_iff_getElem.mp hxr
    obtain ⟨p, hp, p1, _⟩ := o4 t s _ (by
      unfold posAt
      rw [List.getElem?_eq_getElem ht]
      exact List.getElem?_eq_getElem hs)
    refine ⟨p, ?_, p1⟩
    unfold Entry.probs at hp
    split at hp
    · cases hp
      assumption
    · cases hp

end

/-- A case that meets the hypotheses of `C98` and `C98_succeeds`: three sequences of ten words are generated. -/
example : ∃ layers, ModelOf exampleModelEnv exampleRecurrent exScoreVocab layers 3 ∧ Normalized layers 3 ∧
    (∀ c ∈ layers, c.layer.Forward ∧ ∀ b k i filters, c.layer ≠ .glu b k i filters) ∧ Constructible exParsers exScoreVocab ∧
    exScoreVocab.wordToId unk = some 5 ∧ (∀ w, 0 ≤ probOf exScoreVocab w) ∧ Words "a c".toList ["a".toList, "c".toList] ∧
    ∃ sequences, generate realAct ⟨false, true, fun _ _ _ => []⟩ (layers.map Created.layer) 3 exScoreVocab
      ⟨fun t s p => (t + s) % p.length, fun t _ c => t % c.probs.length⟩ 10 3 "a c".toList = .ok sequences := by
  obtain ⟨layers, h1, h2, h3, _⟩ := exampleRecurrent_model
  have hu : exScoreVocab.wordToId unk = some 5 := by decide +kernel
  have hw : Words "a c".toList ["a".toList, "c".toList] := by
    obtain ⟨ws, hws⟩ := Words_total "a c".toList
    have := pySplit_of_Words hws
    rw [← show pySplit "a c".toList = ["a".toList, "c".toList] by decide, this]
    exact hws
  refine ⟨layers, h1, normalized_softmax h3, h2, exScoreVocab_constructible, hu, exScoreVocab_nonneg, hw, ?_⟩
  exact C98_succeeds exScoreVocab_constructible hu h1 h2 true (by decide +kernel) hw (by omega) (by decide +kernel)
    (fun t s p hp => Nat.mod_lt _ (List.length_pos_iff.mpr hp)) (fun t _ c hc => Nat.mod_lt _ (List.length_pos_iff.mpr hc))

end TheanoLM
