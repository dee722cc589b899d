import Verif.Props.NetworkBestPath
/-!
# C33, C97 and C99 for all class models: the membership probabilities of `<s>` and `</s>`
-/
set_option linter.unusedSectionVars false
namespace TheanoLM

section
variable {S St : Type} [Field S] [LinearOrder S] [IsStrictOrderedRing S]
variable {D : Decoder S St} {L : Lattice S}

/-- What the decoder adds to the score of every hypothesis: the membership score of `<s>` instead of that of `</s>`. -/
def edgeScore (V : DecVocab S) : S := memberScore V (.inl V.sos) - memberScore V (.inl V.eos)

theorem nnComplete_offset (hc : NoClassEffect D) {ls : List (Link S)} {z : S} (hp : NNComplete D ls z) :
    (runEnd D L ls).nnLm = z + edgeScore D.vocab := by
  obtain ⟨before, prev, x, y, h1, h2, rfl⟩ := hp
  obtain ⟨g1, before', prev', g2, g3, g4⟩ := nnPath_run (L := L) hc h1
  obtain ⟨rfl, e⟩ := List.append_inj' g2 (by simp)
  simp only [List.cons.injEq, and_true] at e
  subst e
  unfold runEnd propagateEnd edgeScore
  simp only [mkToken, g1, g3, lastWord, List.getLast?_append, List.getLast?_singleton, Option.some_or,
      Option.getD_some]
  rw [appendWord_eq, handleUnk_known _ _ _ _ (Or.inl rfl), h2.2 (Or.inl rfl)]
  have : (runPath D L ls).nnLm = x + memberScore D.vocab (.inl D.vocab.sos) - memberScore D.vocab prev :=
    eq_sub_of_add_eq g4
  rw [this]; ring

/-- C33 for all membership probabilities of `<s>` and `</s>`: the score of every returned token is the sum of the log probabilities of its
words, plus a number that is the same for all hypotheses. -/
theorem C33_offset (hw : L.WF) (hc : NoClassEffect D) (finals : List (Token S St)) (recomb : List (Recomb S St))
    (h : decode D L = .ok (finals, recomb)) :
    ∀ t ∈ finals, ∃ (ls : List (Link S)) (n : Nat) (z : S), L.Path L.initial ls n ∧ L.Final n ∧ DescribesPath D ls t ∧
      NNComplete D ls z ∧ t.nnLm = z + edgeScore D.vocab := by
  intro t ht
  obtain ⟨ls, n, h1, h2, rfl⟩ := (decode_inv hw (path_keeps D L) h).1 t ht
  obtain ⟨z, hz⟩ := nnComplete_exists (D := D) ls
  exact ⟨ls, n, z, h1, h2, describes_end ls, hz, nnComplete_offset hc hz⟩

/-- What is added to the total score of every hypothesis. -/
def totalOffset (D : Decoder S St) (L : Lattice S) : S := D.nnlmWeight * edgeScore D.vocab * (D.lmScale.or L.lmScale).getD 1

theorem pathScore_offset (ls : List (Link S)) (z : S) :
    pathScore D L ls (z + edgeScore D.vocab) = pathScore D L ls z + totalOffset D L := by
  unfold pathScore totalOffset
  ring

/-- C32 for all membership probabilities of `<s>` and `</s>`: the returned list has exactly one hypothesis for each word sequence of the
lattice, in the order of the scores of the best paths with those words. -/
theorem C32_order (hw : L.WF) (hac : ∀ n : Nat, ¬ L.OnCycle n)
    (hin : ∀ n : Nat, n < L.nodes.length → n ≠ L.initial → ∃ a : Nat, L.Edge a n) (hn : NoPruning D)
    (hpath : ∃ (ls : List (Link S)) (n : Nat), L.Path L.initial ls n ∧ L.Final n) (hc : NoClassEffect D) :
    ∃ (finals : List (Token S St)) (recomb : List (Recomb S St)), decode D L = .ok (finals, recomb) ∧ Descending finals ∧
      (finals.map Token.history).Nodup ∧
      (∀ t ∈ finals, ∃ (ls : List (Link S)) (n : Nat) (z : S), L.Path L.initial ls n ∧ L.Final n ∧ DescribesPath D ls t ∧
        NNComplete D ls z ∧ t.total = pathScore D L ls z + totalOffset D L) ∧
      ∀ (ls : List (Link S)) (n : Nat) (z : S), L.Path L.initial ls n → L.Final n → NNComplete D ls z →
        ∃ t ∈ finals, (∃ ws : List HistWord, t.history = .inl D.vocab.sos :: ws ++ [.inl D.vocab.eos] ∧
          List.Forall₂ (HistIs D.vocab) (pathText ls) ws) ∧ pathScore D L ls z + totalOffset D L ≤ t.total := by
  obtain ⟨finals, recomb, hd, hrep⟩ := decode_represents hw hac hin hn.unpruned hpath
  have hend := (decode_inv hw (path_keeps D L) hd).1
  refine ⟨finals, recomb, hd, (C29_sorted finals recomb hd).2, ?_, ?_, ?_⟩
  · obtain ⟨sorted, st, _, _, _, e, _⟩ := decode_ok hd
    have hnd := (sortedRecombined_spec st.finals).nodup
    rw [← e] at hnd
    have : finals.map Token.hash = finals.map Token.history := by
      apply List.map_congr_left
      intro t ht
      obtain ⟨ls, n, _, _, rfl⟩ := hend t ht
      rw [(computed_end (D := D) (L := L) ls).hash, hn.limited]
    rw [← this]
    exact hnd
  · intro t ht
    obtain ⟨ls, n, h1, h2, rfl⟩ := hend t ht
    obtain ⟨z, hz⟩ := nnComplete_exists (D := D) ls
    refine ⟨ls, n, z, h1, h2, describes_end ls, hz, ?_⟩
    rw [runEnd_total hn.linear, nnComplete_offset hc hz, pathScore_offset]
  · intro ls n z hp hf hz
    obtain ⟨t, ht, h1, h2⟩ := hrep ls n hp hf
    refine ⟨t, ht, ?_, ?_⟩
    · rw [hn.same h1]
      exact (describes_end (D := D) (L := L) ls).1
    · rw [runEnd_total hn.linear, nnComplete_offset hc hz, pathScore_offset] at h2
      exact h2

end

section
variable {P : Parsers} {v : Vocab} {unkId : Nat} {env : CreateEnv ℝ} {a : Architecture} {layers : List (Created ℝ)} {output : Nat}
  {D : Decoder ℝ (RecState ℝ)} {useShortlist : Bool}

theorem uses_edge (hv : Constructible P v) (hu : v.wordToId unk = some unkId) (hD : D.Uses v unkId layers output useShortlist false)
    {s e : Nat} (hs : v.wordToId sos = some s) (he : v.wordToId eos = some e) :
    edgeScore D.vocab = Real.log ((memberOf v s).2 : ℝ) - Real.log ((memberOf v e).2 : ℝ) := by
  obtain ⟨s', e', hs', he', hV⟩ := hD.vocab
  rw [hs] at hs'
  cases hs'
  rw [he] at he'
  cases he'
  have hvs : D.vocab.sos = s := by rw [hV]; rfl
  have hve : D.vocab.eos = e := by rw [hV]; rfl
  unfold edgeScore
  rw [(uses_netId hv hu hD _).2.2, (uses_netId hv hu hD _).2.2, hvs, hve]
  rfl

/-- C97 for all membership probabilities of `<s>` and `</s>`: the score that the decoder gives to a hypothesis is the sum of the scores
that the text scorer gives to its words, plus the difference of the logarithms of the membership probabilities of `<s>` and `</s>`. -/
theorem C97_offset_partial {L : Lattice ℝ} (hv : Constructible P v) (hu : v.wordToId unk = some unkId) (hm : ModelOf env a v layers output)
    (hf : ∀ c ∈ layers, c.layer.Forward ∧ ∀ b k i filters, c.layer ≠ .glu b k i filters)
    (hD : D.Uses v unkId layers output useShortlist false)
    (hn : D.unkFromLattice = false ∧ D.unkPenalty = none)
    (hpos : ∀ w i, (w = eos ∨ ∃ k ∈ L.links, k.word = some w) → IdOf v false unkId w i → PositiveWord v useShortlist i)
    (s e : Nat) (hs : v.wordToId sos = some s) (he : v.wordToId eos = some e) (hw : L.WF)
    (finals : List (Token ℝ (RecState ℝ))) (recomb : List (Recomb ℝ (RecState ℝ))) (h : decode D L = .ok (finals, recomb)) :
    ∀ t ∈ finals, ∃ (ls : List (Link ℝ)) (n : Nat) (z : ℝ), L.Path L.initial ls n ∧ L.Final n ∧ DescribesPath D ls t ∧
      TextScore (scorerOf v unkId layers output useShortlist false) (pathText ls) z ∧
      t.nnLm = z + (Real.log ((memberOf v s).2 : ℝ) - Real.log ((memberOf v e).2 : ℝ)) := by
  intro t ht
  obtain ⟨ls, n, z, h1, h2, h3, hz, h4⟩ := C33_offset hw (.inl hn) finals recomb h t ht
  refine ⟨ls, n, z, h1, h2, h3, nnComplete_textScore hv hu hm hf hD hn ?_ hz, by rw [h4, uses_edge hv hu hD hs he]⟩
  intro w hw' i hi
  refine hpos w i ?_ hi
  rcases List.mem_append.mp hw' with h | h
  · obtain ⟨k, hk, hkw⟩ := List.mem_filterMap.mp h
    exact .inr ⟨k, path_links h1 k hk, hkw⟩
  · exact .inl (List.mem_singleton.mp h)

/-- C99 for all membership probabilities of `<s>` and `</s>`: decoding without pruning gives one hypothesis for each word sequence of the
lattice, ordered by the greatest, over the paths with those words, of the score of the path, computed with the log probability that the
text scorer gives to the words.  The scores of all hypotheses contain the same additional number. -/
theorem C99_order_partial {L : Lattice ℝ} (hv : Constructible P v) (hu : v.wordToId unk = some unkId) (hm : ModelOf env a v layers output)
    (hf : ∀ c ∈ layers, c.layer.Forward ∧ ∀ b k i filters, c.layer ≠ .glu b k i filters)
    (hD : D.Uses v unkId layers output useShortlist false)
    (hn : D.unkFromLattice = false ∧ D.unkPenalty = none)
    (hpos : ∀ w i, (w = eos ∨ ∃ k ∈ L.links, k.word = some w) → IdOf v false unkId w i → PositiveWord v useShortlist i) (hw : L.WF)
    (hac : ∀ n : Nat, ¬ L.OnCycle n) (hin : ∀ n : Nat, n < L.nodes.length → n ≠ L.initial → ∃ a : Nat, L.Edge a n)
    (hnp : NoPruning D) (hpath : ∃ (ls : List (Link ℝ)) (n : Nat), L.Path L.initial ls n ∧ L.Final n) :
    ∃ (finals : List (Token ℝ (RecState ℝ))) (recomb : List (Recomb ℝ (RecState ℝ))) (c : ℝ), decode D L = .ok (finals, recomb) ∧
      finals ≠ [] ∧ Descending finals ∧ (finals.map Token.history).Nodup ∧
      (∀ t ∈ finals, ∃ (ls : List (Link ℝ)) (n : Nat) (z : ℝ), L.Path L.initial ls n ∧ L.Final n ∧ DescribesPath D ls t ∧
        TextScore (scorerOf v unkId layers output useShortlist false) (pathText ls) z ∧ t.total = pathScore D L ls z + c) ∧
      ∀ (ls : List (Link ℝ)) (n : Nat), L.Path L.initial ls n → L.Final n →
        ∃ (z : ℝ) (t : Token ℝ (RecState ℝ)), TextScore (scorerOf v unkId layers output useShortlist false) (pathText ls) z ∧
          t ∈ finals ∧ (∃ ws : List HistWord, t.history = .inl D.vocab.sos :: ws ++ [.inl D.vocab.eos] ∧
            List.Forall₂ (HistIs D.vocab) (pathText ls) ws) ∧ pathScore D L ls z + c ≤ t.total := by
  obtain ⟨finals, recomb, h1, h2, h3, h4, h5⟩ := C32_order hw hac hin hnp hpath (.inl hn)
  have hpath' : ∀ {ls : List (Link ℝ)} {n : Nat}, L.Path L.initial ls n → ∀ w ∈ pathText ls ++ [eos], ∀ i, IdOf v false unkId w i →
      PositiveWord v useShortlist i := by
    intro ls n hp w hw' i hi
    refine hpos w i ?_ hi
    rcases List.mem_append.mp hw' with h | h
    · obtain ⟨k, hk, hkw⟩ := List.mem_filterMap.mp h
      exact .inr ⟨k, path_links hp k hk, hkw⟩
    · exact .inl (List.mem_singleton.mp h)
  refine ⟨finals, recomb, totalOffset D L, h1, (C29_sorted finals recomb h1).1, h2, h3, ?_, ?_⟩
  · intro t ht
    obtain ⟨ls, n, z, g1, g2, g3, g4, g5⟩ := h4 t ht
    exact ⟨ls, n, z, g1, g2, g3, nnComplete_textScore hv hu hm hf hD hn (hpath' g1) g4, g5⟩
  · intro ls n hp hfn
    obtain ⟨z, hz⟩ := nnComplete_exists (D := D) ls
    obtain ⟨t, g1, g2, g3⟩ := h5 ls n z hp hfn hz
    exact ⟨z, t, nnComplete_textScore hv hu hm hf hD hn (hpath' hp) hz, g1, g2, g3⟩

/-- C99: the first hypothesis has the words of a path that is the best of all paths, when the language model score of a path is the one
that the text scorer gives. -/
theorem C99_best_partial {L : Lattice ℝ} (hv : Constructible P v) (hu : v.wordToId unk = some unkId) (hm : ModelOf env a v layers output)
    (hf : ∀ c ∈ layers, c.layer.Forward ∧ ∀ b k i filters, c.layer ≠ .glu b k i filters)
    (hD : D.Uses v unkId layers output useShortlist false)
    (hn : D.unkFromLattice = false ∧ D.unkPenalty = none)
    (hpos : ∀ w i, (w = eos ∨ ∃ k ∈ L.links, k.word = some w) → IdOf v false unkId w i → PositiveWord v useShortlist i) (hw : L.WF)
    (hac : ∀ n : Nat, ¬ L.OnCycle n) (hin : ∀ n : Nat, n < L.nodes.length → n ≠ L.initial → ∃ a : Nat, L.Edge a n)
    (hnp : NoPruning D) (hpath : ∃ (ls : List (Link ℝ)) (n : Nat), L.Path L.initial ls n ∧ L.Final n) :
    ∃ (best : Token ℝ (RecState ℝ)) (rest : List (Token ℝ (RecState ℝ))) (recomb : List (Recomb ℝ (RecState ℝ)))
      (ls : List (Link ℝ)) (n : Nat) (z : ℝ), decode D L = .ok (best :: rest, recomb) ∧ L.Path L.initial ls n ∧ L.Final n ∧
      DescribesPath D ls best ∧ TextScore (scorerOf v unkId layers output useShortlist false) (pathText ls) z ∧
      ∀ (ls' : List (Link ℝ)) (n' : Nat) (z' : ℝ), L.Path L.initial ls' n' → L.Final n' →
        TextScore (scorerOf v unkId layers output useShortlist false) (pathText ls') z' → pathScore D L ls' z' ≤ pathScore D L ls z := by
  obtain ⟨finals, recomb, c, h1, h2, h3, _, h5, h6⟩ := C99_order_partial hv hu hm hf hD hn hpos hw hac hin hnp hpath
  cases finals with
  | nil => exact absurd rfl h2
  | cons best rest =>
    obtain ⟨ls, n, z, g1, g2, g3, g4, g5⟩ := h5 best (by simp)
    refine ⟨best, rest, recomb, ls, n, z, h1, g1, g2, g3, g4, fun ls' n' z' k1 k2 k3 => ?_⟩
    obtain ⟨z'', t, f1, f2, _, f4⟩ := h6 ls' n' k1 k2
    have hz : z'' = z' := C99_unique _ hv _ _ _ f1 k3
    subst hz
    have : t.total ≤ best.total := by
      rcases List.mem_cons.mp f2 with rfl | h
      · exact le_refl _
      · exact (List.pairwise_cons.mp h3).1 t h
    linarith

end

/-! ## A vocabulary where `</s>` shares its class with another word -/

def exSharedLines : List Str := ["b 0", "a 1", "</s> 2", "c 2"].map String.toList

def exSharedVocab : Vocab :=
  match vocabFromFile exParsers exSharedLines .classes [] with
  | .ok v => v
  | .error _ => exScoreVocab

theorem exSharedVocab_constructible : Constructible exParsers exSharedVocab :=
  .file exSharedLines .classes [] _ (by decide +kernel)

theorem exShared_model : ∃ layers, ModelOf exampleModelEnv exampleRecurrent exSharedVocab layers 3 ∧
    (∀ c ∈ layers, c.layer.Forward ∧ ∀ b k i filters, c.layer ≠ .glu b k i filters) := by
  obtain ⟨layers, h1, h2, _⟩ := exampleRecurrent_model
  have hw : (6 : Nat) = exSharedVocab.numShortlist := by decide +kernel
  have hc : (5 : Nat) = exSharedVocab.numClasses := by decide +kernel
  have hu : exSharedVocab.wordToId unk = some 5 := by decide +kernel
  have hu' : exSharedVocab.classOf[5]? = some 4 := by decide +kernel
  exact ⟨layers, ⟨h1.created, h1.prior, hw, hc, fun i hi => by rw [hu] at hi; cases hi; exact hu', h1.output⟩, h2⟩

noncomputable def exSharedDecoder (layers : List (Created ℝ)) : Decoder ℝ (RecState ℝ) :=
  { exNetDecoder layers with vocab := networkDecVocab Real.log (fun q => (q : ℝ)) exSharedVocab 4 2 5 true }

theorem exShared_positive : ∀ w i, (w = eos ∨ ∃ k ∈ exNetLattice.links, k.word = some w) → IdOf exSharedVocab false 5 w i →
    PositiveWord exSharedVocab true i := by
  have hall : ∀ i ∈ [1, 2, 3, 5], i < exSharedVocab.numWords ∧ 0 < (memberOf exSharedVocab i).2 := by decide +kernel
  have hoos : exSharedVocab.oosProbs = none := by decide +kernel
  have hw : ∀ w ∈ eos :: exNetLattice.links.filterMap (fun k => k.word), ∃ i ∈ [1, 2, 3, 5],
      exSharedVocab.wordToId w = some i ∨ exSharedVocab.wordToId w = none ∧ i = 5 := by
    decide +kernel
  intro w i hw' hi
  obtain ⟨j, hj, hj'⟩ := hw w (by
    rcases hw' with rfl | ⟨k, hk, hkw⟩
    · simp
    · exact List.mem_cons_of_mem _ (List.mem_filterMap.mpr ⟨k, hk, hkw⟩))
  have : IdOf exSharedVocab false 5 w j := by
    rcases hj' with h | ⟨h, rfl⟩
    · exact .known w j (wordToId_get h) (by simp)
    · exact .unknown w (wordToId_none.mp h)
  rw [idOf_unique (constructible_nodup exSharedVocab_constructible) hi this]
  obtain ⟨h1, h2⟩ := hall j hj
  refine ⟨h1, h2, fun _ r q hr => ?_⟩
  rw [hoos] at hr
  cases hr

theorem exNetLattice_in : ∀ n : Nat, n < exNetLattice.nodes.length → n ≠ exNetLattice.initial → ∃ a : Nat, exNetLattice.Edge a n := by
  have hin : ∀ n < exNetLattice.nodes.length, n ≠ exNetLattice.initial → ∃ k ∈ exNetLattice.links, k.endNode = n := by decide +kernel
  intro n hn hne
  obtain ⟨k, hk, h⟩ := hin n hn hne
  exact ⟨k.startNode, k, hk, rfl, h⟩

theorem exNetLattice_path : ∃ (ls : List (Link ℝ)) (n : Nat), exNetLattice.Path exNetLattice.initial ls n ∧ exNetLattice.Final n := by
  rw [show exNetLattice.initial = 0 from rfl]
  exact ⟨[] ++ [⟨0, 1, some "a".toList, some (-1), none, []⟩] ++ [⟨1, 2, some "x".toList, some (-1), none, []⟩] ++
      [⟨2, 3, none, some (-1), none, []⟩], 3,
    .snoc _ ⟨2, 3, none, some (-1), none, []⟩ (.snoc _ ⟨1, 2, some "x".toList, some (-1), none, []⟩
      (.snoc [] ⟨0, 1, some "a".toList, some (-1), none, []⟩ .nil
        (List.mem_of_getElem? (show exNetLattice.links[0]? = some _ from rfl)))
      (List.mem_of_getElem? (show exNetLattice.links[1]? = some _ from rfl)))
      (List.mem_of_getElem? (show exNetLattice.links[4]? = some _ from rfl)),
    ⟨_, (by decide +kernel : exNetLattice.nodes[3]? = some (exNetLattice.nodes.getD 3 Node.new)), by decide +kernel⟩⟩

/-- C97 does not hold for class models where `</s>` shares its class with another word: the decoder gives every hypothesis a greater score
than the text scorer.  The hypotheses of `C97_offset_partial` and `C99_order_partial` hold in this case. -/
theorem C97_violated : ∃ (v : Vocab) (layers : List (Created ℝ)) (D : Decoder ℝ (RecState ℝ)) (L : Lattice ℝ)
    (finals : List (Token ℝ (RecState ℝ))) (recomb : List (Recomb ℝ (RecState ℝ))),
    Constructible exParsers v ∧ v.wordToId unk = some 5 ∧ ModelOf exampleModelEnv exampleRecurrent v layers 3 ∧
    (∀ c ∈ layers, c.layer.Forward ∧ ∀ b k i filters, c.layer ≠ .glu b k i filters) ∧ D.Uses v 5 layers 3 true false ∧
    (D.unkFromLattice = false ∧ D.unkPenalty = none) ∧
    (∀ w i, (w = eos ∨ ∃ k ∈ L.links, k.word = some w) → IdOf v false 5 w i → PositiveWord v true i) ∧ L.WF ∧ NoPruning D ∧
    decode D L = .ok (finals, recomb) ∧ finals ≠ [] ∧
    ∀ t ∈ finals, ∃ (ls : List (Link ℝ)) (n : Nat) (z : ℝ), L.Path L.initial ls n ∧ L.Final n ∧ DescribesPath D ls t ∧
      TextScore (scorerOf v 5 layers 3 true false) (pathText ls) z ∧ z < t.nnLm := by
  obtain ⟨layers, h1, h2⟩ := exShared_model
  have hs : exSharedVocab.wordToId sos = some 4 := by decide +kernel
  have he : exSharedVocab.wordToId eos = some 2 := by decide +kernel
  have hu : exSharedVocab.wordToId unk = some 5 := by decide +kernel
  have hms : (memberOf exSharedVocab 4).2 = 1 := by decide +kernel
  have hme : (memberOf exSharedVocab 2).2 = 1 / 2 := by decide +kernel
  have hD : (exSharedDecoder layers).Uses exSharedVocab 5 layers 3 true false := ⟨rfl, 4, 2, hs, he, rfl⟩
  have hnp : NoPruning (exSharedDecoder layers) := ⟨rfl, rfl, rfl, Or.inl rfl, rfl⟩
  obtain ⟨finals, recomb, _, g1, g2, _⟩ := C99_order_partial exSharedVocab_constructible hu h1 h2 hD ⟨rfl, rfl⟩ exShared_positive
    exNetLattice_wf exNetLattice_acyclic exNetLattice_in hnp exNetLattice_path
  refine ⟨exSharedVocab, layers, exSharedDecoder layers, exNetLattice, finals, recomb, exSharedVocab_constructible, hu, h1, h2, hD,
    ⟨rfl, rfl⟩, exShared_positive, exNetLattice_wf, hnp, g1, g2, fun t ht => ?_⟩
  obtain ⟨ls, n, z, k1, k2, k3, k4, k5⟩ := C97_offset_partial exSharedVocab_constructible hu h1 h2 hD ⟨rfl, rfl⟩ exShared_positive 4 2 hs he
    exNetLattice_wf finals recomb g1 t ht
  refine ⟨ls, n, z, k1, k2, k3, k4, ?_⟩
  rw [k5, hms, hme]
  have : Real.log ((1 / 2 : ℚ) : ℝ) < 0 := Real.log_neg (by norm_num) (by norm_num)
  have h1 : Real.log ((1 : ℚ) : ℝ) = 0 := by norm_num
  rw [h1]
  linarith

end TheanoLM
