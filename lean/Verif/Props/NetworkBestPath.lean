import Verif.Props.NetworkDecoder
import Verif.Props.ScoreOutput
/-!
# C99: decoding a lattice with a network finds the best hypotheses
-/
set_option linter.unusedSectionVars false
namespace TheanoLM

/-- The log probability that the text scorer gives to a sentence of the words `words`: the sum of the scores of the words and `</s>`. -/
def TextScore (sc : Scorer ℝ) (words : List Str) (z : ℝ) : Prop :=
  ∃ ids xs, List.Forall₂ (IdOf sc.vocab false sc.unkId) ([sos] ++ words ++ [eos]) ids ∧
    List.Forall₂ (fun t x => sc.WordScore (sentenceBatch ids) t 0 x) (List.range (words.length + 1)) xs ∧ Flt.sum xs = .fin z

section
variable {P : Parsers} {v : Vocab} {unkId : Nat} {env : CreateEnv ℝ} {a : Architecture} {layers : List (Created ℝ)} {output : Nat}
  {D : Decoder ℝ (RecState ℝ)} {useShortlist : Bool}

/-- A sentence has at most one score. -/
theorem C99_unique (sc : Scorer ℝ) (hv : Constructible P sc.vocab) (words : List Str) (z z' : ℝ) (h : TextScore sc words z)
    (h' : TextScore sc words z') : z = z' := by
  obtain ⟨ids, xs, h1, h2, h3⟩ := h
  obtain ⟨ids', xs', g1, g2, g3⟩ := h'
  have e := forall₂_unique (R := IdOf sc.vocab false sc.unkId) (fun _ _ _ h1 h2 => idOf_unique (constructible_nodup hv) h1 h2) h1 g1
  subst e
  have e := forall₂_unique (fun t x y hx hy => C38_word_score_unique sc _ t 0 x y hx hy) h2 g2
  subst e
  rw [h3] at g3
  cases g3
  rfl

theorem nnComplete_textScore (hv : Constructible P v) (hu : v.wordToId unk = some unkId) (hm : ModelOf env a v layers output)
    (hf : ∀ c ∈ layers, c.layer.Forward ∧ ∀ b k i filters, c.layer ≠ .glu b k i filters)
    (hD : D.Uses v unkId layers output useShortlist false)
    (hn : D.unkFromLattice = false ∧ D.unkPenalty = none) {ls : List (Link ℝ)} {z : ℝ}
    (hpos : ∀ w ∈ pathText ls ++ [eos], ∀ i, IdOf v false unkId w i → PositiveWord v useShortlist i) (hz : NNComplete D ls z) :
    TextScore (scorerOf v unkId layers output useShortlist false) (pathText ls) z := by
  obtain ⟨ids, h1, h2⟩ := nnComplete_text hv hu hm hf hD hn hz
  obtain ⟨xs, h3, h4⟩ := h2 (by
    intro i hi
    rw [List.append_assoc, List.singleton_append] at h1
    cases h1 with
    | cons _ h1 =>
      obtain ⟨k, hk, rfl⟩ := List.mem_iff_getElem.mp hi
      simp only [List.tail_cons] at hk ⊢
      have hk' := h1.length_eq
      exact hpos _ (List.getElem_mem (by omega)) _ ((List.forall₂_iff_get.mp h1).2 k (by omega) hk))
  refine ⟨ids, xs, h1, ?_, h4⟩
  have e := h1.length_eq
  simp only [List.length_append, List.length_cons, List.length_nil] at e
  rw [show (pathText ls).length + 1 = ids.length - 1 by omega]
  exact h3

theorem path_links {L : Lattice ℝ} {m n : Nat} {ls : List (Link ℝ)} (h : L.Path m ls n) : ∀ k ∈ ls, k ∈ L.links := by
  induction h with
  | nil => simp
  | snoc ls k _ hk ih =>
    intro k' hk'
    rcases List.mem_append.mp hk' with h | h
    · exact ih k' h
    · rw [List.mem_singleton.mp h]; exact hk

/-- C99.  Decoding a lattice without pruning, with a network that can be created from a description: the result has exactly one hypothesis
for each word sequence of the lattice, in the order of total scores.  The total score of a hypothesis is the greatest over all paths with
those words of the acoustic score, the scaled interpolation of the language model score of the lattice and the log probability that the
text scorer gives to the words, and the insertion penalties.  Missing: networks and options for which the decoder and the text scorer do
not agree (C97). -/
theorem C99_partial {L : Lattice ℝ} (hv : Constructible P v) (hu : v.wordToId unk = some unkId) (hm : ModelOf env a v layers output)
    (hf : ∀ c ∈ layers, c.layer.Forward ∧ ∀ b k i filters, c.layer ≠ .glu b k i filters)
    (hD : D.Uses v unkId layers output useShortlist false)
    (hn : D.unkFromLattice = false ∧ D.unkPenalty = none)
    (hpos : ∀ w i, (w = eos ∨ ∃ k ∈ L.links, k.word = some w) → IdOf v false unkId w i → PositiveWord v useShortlist i)
    (he : ∀ i j, v.wordToId sos = some i → v.wordToId eos = some j → (memberOf v i).2 = (memberOf v j).2) (hw : L.WF)
    (hac : ∀ n : Nat, ¬ L.OnCycle n) (hin : ∀ n : Nat, n < L.nodes.length → n ≠ L.initial → ∃ a : Nat, L.Edge a n)
    (hnp : NoPruning D) (hpath : ∃ (ls : List (Link ℝ)) (n : Nat), L.Path L.initial ls n ∧ L.Final n) :
    ∃ (finals : List (Token ℝ (RecState ℝ))) (recomb : List (Recomb ℝ (RecState ℝ))), decode D L = .ok (finals, recomb) ∧
      finals ≠ [] ∧ Descending finals ∧ (finals.map Token.history).Nodup ∧
      (∀ t ∈ finals, ∃ (ls : List (Link ℝ)) (n : Nat) (z : ℝ), L.Path L.initial ls n ∧ L.Final n ∧ DescribesPath D ls t ∧
        TextScore (scorerOf v unkId layers output useShortlist false) (pathText ls) z ∧ t.total = pathScore D L ls z) ∧
      ∀ (ls : List (Link ℝ)) (n : Nat), L.Path L.initial ls n → L.Final n →
        ∃ (z : ℝ) (t : Token ℝ (RecState ℝ)), TextScore (scorerOf v unkId layers output useShortlist false) (pathText ls) z ∧
          t ∈ finals ∧ (∃ ws : List HistWord, t.history = .inl D.vocab.sos :: ws ++ [.inl D.vocab.eos] ∧
            List.Forall₂ (HistIs D.vocab) (pathText ls) ws) ∧ pathScore D L ls z ≤ t.total := by
  obtain ⟨s, e, hs, hee, hV⟩ := hD.vocab
  have hvs : D.vocab.sos = s := by rw [hV]; rfl
  have hve : D.vocab.eos = e := by rw [hV]; rfl
  obtain ⟨finals, recomb, h1, h2, h3, h4, h5⟩ := C32_nbest hw hac hin hnp hpath (.inl hn) (by
    rw [(uses_netId hv hu hD _).2.2, (uses_netId hv hu hD _).2.2, hvs, hve]
    show Real.log ((memberOf v s).2 : ℝ) = Real.log ((memberOf v e).2 : ℝ)
    rw [he s e hs hee])
  have hpath' : ∀ {ls : List (Link ℝ)} {n : Nat}, L.Path L.initial ls n → ∀ w ∈ pathText ls ++ [eos], ∀ i, IdOf v false unkId w i →
      PositiveWord v useShortlist i := by
    intro ls n hp w hw' i hi
    refine hpos w i ?_ hi
    rcases List.mem_append.mp hw' with h | h
    · obtain ⟨k, hk, hkw⟩ := List.mem_filterMap.mp h
      exact .inr ⟨k, path_links hp k hk, hkw⟩
    · exact .inl (List.mem_singleton.mp h)
  refine ⟨finals, recomb, h1, (C29_sorted finals recomb h1).1, h2, h3, ?_, ?_⟩
  · intro t ht
    obtain ⟨ls, n, z, g1, g2, g3, g4, g5⟩ := h4 t ht
    exact ⟨ls, n, z, g1, g2, g3, nnComplete_textScore hv hu hm hf hD hn (hpath' g1) g4, g5⟩
  · intro ls n hp hfn
    obtain ⟨z, hz⟩ := nnComplete_exists (D := D) ls
    obtain ⟨t, g1, g2, g3⟩ := h5 ls n z hp hfn hz
    exact ⟨z, t, nnComplete_textScore hv hu hm hf hD hn (hpath' hp) hz, g1, g2, g3⟩

end

/-- A case that meets the hypotheses of `C99_partial`. -/
example : ∃ layers, ModelOf exampleModelEnv exampleRecurrent exScoreVocab layers 3 ∧
    (∀ c ∈ layers, c.layer.Forward ∧ ∀ b k i filters, c.layer ≠ .glu b k i filters) ∧
    (∃ c b u, layers[3]? = some c ∧ c.layer = .softmax b u) ∧ (exNetDecoder layers).Uses exScoreVocab 5 layers 3 true false ∧
    (∀ w i, (w = eos ∨ ∃ k ∈ exNetLattice.links, k.word = some w) → IdOf exScoreVocab false 5 w i → PositiveWord exScoreVocab true i) ∧
    NoPruning (exNetDecoder layers) ∧ exNetLattice.WF ∧ ∀ n, ¬ exNetLattice.OnCycle n := by
  obtain ⟨layers, h1, h2, h3, _⟩ := exampleRecurrent_model
  have hs : exScoreVocab.wordToId sos = some 3 := by decide +kernel
  have he : exScoreVocab.wordToId eos = some 4 := by decide +kernel
  refine ⟨layers, h1, h2, h3, ⟨rfl, 3, 4, hs, he, rfl⟩, ?_, ⟨rfl, rfl, rfl, Or.inl rfl, rfl⟩, exNetLattice_wf, exNetLattice_acyclic⟩
  have hpos : ∀ i ∈ [1, 6, 2, 5, 4], PositiveWord exScoreVocab true i := by
    have hall : ∀ i ∈ [1, 6, 2, 5, 4], i < exScoreVocab.numWords ∧ 0 < (memberOf exScoreVocab i).2 ∧
        ∃ r ∈ exScoreVocab.oosProbs, ∃ q ∈ r[i]?, ∃ y ∈ q, 0 < y := by decide +kernel
    intro i hi
    obtain ⟨a1, a2, r, a3, q, a4, y, a5, a6⟩ := hall i hi
    refine ⟨a1, a2, fun _ r' q' b1 b2 => ?_⟩
    rw [Option.mem_def] at a3 a4 a5
    rw [a3] at b1
    cases b1
    rw [a4] at b2
    cases b2
    exact ⟨y, a5, a6⟩
  have hw : ∀ w ∈ eos :: exNetLattice.links.filterMap (fun k => k.word), ∃ i ∈ [1, 6, 2, 5, 4],
      exScoreVocab.wordToId w = some i ∨ exScoreVocab.wordToId w = none ∧ i = 5 := by
    decide +kernel
  intro w i hw' hi
  obtain ⟨j, hj, hj'⟩ := hw w (by
    rcases hw' with rfl | ⟨k, hk, hkw⟩
    · simp
    · exact List.mem_cons_of_mem _ (List.mem_filterMap.mpr ⟨k, hk, hkw⟩))
  have : IdOf exScoreVocab false 5 w j := by
    rcases hj' with h | ⟨h, rfl⟩
    · exact .known w j (wordToId_get h) (by simp)
    · exact .unknown w (wordToId_none.mp h)
  rw [idOf_unique (constructible_nodup exScoreVocab_constructible) hi this]
  exact hpos j hj

end TheanoLM
