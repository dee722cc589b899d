import Verif.Props.NetworkBestPath
import Verif.Props.RescoredCompleteness
/-!
# C102: recombination does not change the best hypothesis
-/
set_option linter.unusedSectionVars false
namespace TheanoLM

section
variable {S St : Type} [Field S] [LinearOrder S] [IsStrictOrderedRing S] {D : Decoder S St} {L : Lattice S}

/-- C102.  When the network predicts the same from all histories that recombination does not tell apart, and nothing is pruned, the first
hypothesis is a best path of the lattice.  The list of hypotheses contains for every path a hypothesis that ends in the same words and is
at least as good. -/
theorem C102_best (hw : L.WF) (hac : ∀ n : Nat, ¬ L.OnCycle n)
    (hin : ∀ n : Nat, n < L.nodes.length → n ≠ L.initial → ∃ a : Nat, L.Edge a n) (hctx : ContextLimited D)
    (hlin : D.linear = false) (hbeam : D.beam = none) (hmax : D.maxTokens = none) (hrel : D.pruneExtraLimit = none)
    (hpath : ∃ (ls : List (Link S)) (n : Nat), L.Path L.initial ls n ∧ L.Final n)
    (hc : NoClassEffect D) (he : memberScore D.vocab (.inl D.vocab.sos) = memberScore D.vocab (.inl D.vocab.eos)) :
    ∃ (best : Token S St) (rest : List (Token S St)) (recomb : List (Recomb S St)),
      decode D L = .ok (best :: rest, recomb) ∧
      (∃ (ls : List (Link S)) (n : Nat) (z : S), L.Path L.initial ls n ∧ L.Final n ∧ DescribesPath D ls best ∧
        NNComplete D ls z ∧ best.total = pathScore D L ls z) ∧
      ∀ (ls : List (Link S)) (n : Nat) (z : S), L.Path L.initial ls n → L.Final n → NNComplete D ls z →
        pathScore D L ls z ≤ best.total ∧
        ∃ t ∈ best :: rest, ∃ ws : List HistWord, List.Forall₂ (HistIs D.vocab) (pathText ls) ws ∧
          SameRecent D.recombinationOrder t.history (.inl D.vocab.sos :: ws ++ [.inl D.vocab.eos]) ∧
          pathScore D L ls z ≤ t.total := by
  have hn : Unpruned D := ⟨hlin, hbeam, hmax, hrel, hctx⟩
  obtain ⟨finals, recomb, hd, hrep⟩ := decode_represents hw hac hin hn hpath
  obtain ⟨hne, hdesc⟩ := C29_sorted finals recomb hd
  cases finals with
  | nil => exact absurd rfl hne
  | cons best rest =>
    have hle : ∀ t ∈ best :: rest, t.total ≤ best.total := by
      intro t ht
      rcases List.mem_cons.mp ht with rfl | h
      · exact le_refl _
      · unfold Descending at hdesc
        exact (List.pairwise_cons.mp hdesc).1 t h
    refine ⟨best, rest, recomb, hd, ?_, ?_⟩
    · obtain ⟨ls, n, h1, h2, h3⟩ := (decode_inv hw (path_keeps D L) hd).1 best (by simp)
      obtain ⟨z, hz⟩ := nnComplete_exists (D := D) ls
      refine ⟨ls, n, z, h1, h2, by rw [h3]; exact describes_end ls, hz, ?_⟩
      rw [h3, runEnd_total hn.linear, nnComplete_run hc he hz]
    · intro ls n z hp hf hz
      obtain ⟨t, ht, h1, h2⟩ := hrep ls n hp hf
      rw [runEnd_total hn.linear, nnComplete_run hc he hz] at h2
      refine ⟨le_trans h2 (hle t ht), t, ht, ?_⟩
      obtain ⟨⟨ws, h3, h4⟩, _⟩ := describes_end (D := D) (L := L) ls
      rw [h3] at h1
      exact ⟨ws, h4, h1, h2⟩

end

section
variable {P : Parsers} {v : Vocab} {unkId : Nat} {env : CreateEnv ℝ} {a : Architecture} {layers : List (Created ℝ)} {output : Nat}
  {D : Decoder ℝ (RecState ℝ)} {useShortlist : Bool}

/-- A network without recurrent layers has one state. -/
theorem stateless_context {excludeUnk : Bool} (hD : D.Uses v unkId layers output useShortlist excludeUnk)
    (hf : ∀ c ∈ layers, ∀ kind, (∀ b, c.layer ≠ .recurrent kind b) ∧ ∀ f b, c.layer ≠ .bidirectional kind f b) :
    ContextLimited D := by
  have hs : networkStateSizes (layers.map Created.layer) = [] := by
    unfold networkStateSizes
    rw [List.flatMap_eq_nil_iff]
    intro l hl
    obtain ⟨c, hc, rfl⟩ := List.mem_map.mp hl
    have h := hf c hc
    cases hl : c.layer with
    | recurrent kind b => exact absurd hl ((h kind).1 b)
    | bidirectional kind f b => exact absurd hl ((h kind).2 f b)
    | _ => rfl
  have hst : ∀ words, netState D words = ⟨[], 1, []⟩ := by
    intro words
    obtain ⟨h1, h2, h3⟩ := netState_single hD words
    rw [hs] at h1 h3
    generalize netState D words = st at h1 h2 h3
    obtain ⟨sizes, num, vars⟩ := st
    simp only at h1 h2 h3
    cases h3
    rw [h1, h2]
  intro before before' prev prev' w h
  unfold classScore
  rw [hst, hst, sameRecent_prev h]

/-- C102, networks without recurrent layers.  Whichever number of words recombination compares, the first hypothesis is the best path
according to the language model scores of the text scorer. -/
theorem C102_network {L : Lattice ℝ} (hv : Constructible P v) (hu : v.wordToId unk = some unkId) (hm : ModelOf env a v layers output)
    (hf : ∀ c ∈ layers, (∀ kind, (∀ b, c.layer ≠ .recurrent kind b) ∧ ∀ f b, c.layer ≠ .bidirectional kind f b) ∧
      ∀ b k i filters, c.layer ≠ .glu b k i filters)
    (hD : D.Uses v unkId layers output useShortlist false)
    (hn : D.unkFromLattice = false ∧ D.unkPenalty = none)
    (hpos : ∀ w i, (w = eos ∨ ∃ k ∈ L.links, k.word = some w) → IdOf v false unkId w i → PositiveWord v useShortlist i)
    (he : ∀ i j, v.wordToId sos = some i → v.wordToId eos = some j → (memberOf v i).2 = (memberOf v j).2) (hw : L.WF)
    (hac : ∀ n : Nat, ¬ L.OnCycle n) (hin : ∀ n : Nat, n < L.nodes.length → n ≠ L.initial → ∃ a : Nat, L.Edge a n)
    (hlin : D.linear = false) (hbeam : D.beam = none) (hmax : D.maxTokens = none) (hrel : D.pruneExtraLimit = none)
    (hpath : ∃ (ls : List (Link ℝ)) (n : Nat), L.Path L.initial ls n ∧ L.Final n) :
    ∃ (best : Token ℝ (RecState ℝ)) (rest : List (Token ℝ (RecState ℝ))) (recomb : List (Recomb ℝ (RecState ℝ))),
      decode D L = .ok (best :: rest, recomb) ∧
      (∃ (ls : List (Link ℝ)) (n : Nat) (z : ℝ), L.Path L.initial ls n ∧ L.Final n ∧ DescribesPath D ls best ∧
        TextScore (scorerOf v unkId layers output useShortlist false) (pathText ls) z ∧ best.total = pathScore D L ls z) ∧
      ∀ (ls : List (Link ℝ)) (n : Nat), L.Path L.initial ls n → L.Final n →
        ∃ z, TextScore (scorerOf v unkId layers output useShortlist false) (pathText ls) z ∧ pathScore D L ls z ≤ best.total := by
  obtain ⟨s, e, hs, hee, hV⟩ := hD.vocab
  have hvs : D.vocab.sos = s := by rw [hV]; rfl
  have hve : D.vocab.eos = e := by rw [hV]; rfl
  have hf' : ∀ c ∈ layers, c.layer.Forward ∧ ∀ b k i filters, c.layer ≠ .glu b k i filters :=
    fun c hc => ⟨fun kind f b => ((hf c hc).1 kind).2 f b, (hf c hc).2⟩
  obtain ⟨best, rest, recomb, h1, ⟨ls, n, z, h2, h3, h4, h5, h6⟩, h7⟩ := C102_best hw hac hin
    (stateless_context hD fun c hc => (hf c hc).1) hlin hbeam hmax hrel hpath (.inl hn) (by
      rw [(uses_netId hv hu hD _).2.2, (uses_netId hv hu hD _).2.2, hvs, hve]
      show Real.log ((memberOf v s).2 : ℝ) = Real.log ((memberOf v e).2 : ℝ)
      rw [he s e hs hee])
  have hpath' : ∀ {ls : List (Link ℝ)} {n : Nat}, L.Path L.initial ls n → ∀ w ∈ pathText ls ++ [eos], ∀ i, IdOf v false unkId w i →
      PositiveWord v useShortlist i := by
    intro ls n hp w hw' i hi
    refine hpos w i ?_ hi
    rcases List.mem_append.mp hw' with h | h
    · obtain ⟨k, hk, hkw⟩ := List.mem_filterMap.mp h
      exact .inr ⟨k, path_links hp k hk, hkw⟩
    · exact .inl (List.mem_singleton.mp h)
  refine ⟨best, rest, recomb, h1, ⟨ls, n, z, h2, h3, h4, ?_, h6⟩, ?_⟩
  · exact nnComplete_textScore hv hu hm hf' hD hn (hpath' h2) h5
  · intro ls n hp hfn
    obtain ⟨z, hz⟩ := nnComplete_exists (D := D) ls
    exact ⟨z, nnComplete_textScore hv hu hm hf' hD hn (hpath' hp) hz, (h7 ls n z hp hfn hz).1⟩

end

/-! ## Concrete cases -/

/-- A network that predicts from the last word. -/
def exBigramNet : DecNet ℚ (List Nat) where
  initial := []
  logprob _ input _ target := -((target : ℚ) + (if input = 3 ∧ target = 3 then 3 else 0))
  next st _ _ := st

/-- Recombination compares one word. -/
def exBigramDecoder : Decoder ℚ (List Nat) := { exDecoder with net := exBigramNet, recombinationOrder := some 1 }

theorem exBigram_context : ContextLimited exBigramDecoder := by
  intro before before' prev prev' w h
  rw [sameRecent_prev h]
  rfl

/-- Paths "a b", "c b" and "a b b"; the first two end in the same node. -/
def exBigramLattice : Lattice ℚ := exWordLattice 4
  [(0, 1, some "a".toList, -1, -1), (0, 1, some "c".toList, -2, -1), (1, 2, some "b".toList, -1, -1), (2, 3, none, 0, 0),
   (2, 3, some "b".toList, -1, -1)]

/-- A case that meets the hypotheses of `C102_best`, in which hypotheses are recombined. -/
example : ContextLimited exBigramDecoder ∧ exBigramLattice.WF ∧ (∀ n, ¬ exBigramLattice.OnCycle n) ∧
    (∀ n : Nat, n < exBigramLattice.nodes.length → n ≠ exBigramLattice.initial → ∃ a : Nat, exBigramLattice.Edge a n) ∧
    NoClassEffect exBigramDecoder ∧
    memberScore exBigramDecoder.vocab (.inl exBigramDecoder.vocab.sos) =
      memberScore exBigramDecoder.vocab (.inl exBigramDecoder.vocab.eos) ∧
    (∃ r, decode exBigramDecoder exBigramLattice = .ok r ∧ r.2 ≠ [] ∧ r.1 ≠ []) :=
  ⟨exBigram_context, wf_of_check _ (by decide +kernel), acyclic_of_check (by decide +kernel), incoming_of_check (by decide +kernel),
    .inl ⟨rfl, rfl⟩, by decide +kernel, by decide +kernel⟩

/-- A network that remembers one word. -/
def exLongNet : DecNet ℚ (List Nat) where
  initial := []
  logprob st _ _ _ := if 3 ∈ st then -100 else 0
  next st input _ := st ++ [input]

def exLongDecoder : Decoder ℚ (List Nat) := { exDecoder with net := exLongNet, recombinationOrder := some 1 }

/-- Paths "a b" and "c b". -/
def exLongLattice : Lattice ℚ := exWordLattice 3
  [(0, 1, some "a".toList, -1, -1), (0, 1, some "c".toList, -2, -1), (1, 2, some "b".toList, -1, -1)]

/-- The condition on the network is necessary: when the network remembers more than what recombination compares, the first hypothesis is
not always a best path, although nothing is pruned. -/
theorem C102_condition : ∃ (D : Decoder ℚ (List Nat)) (L : Lattice ℚ) (best : Token ℚ (List Nat)) (rest : List (Token ℚ (List Nat)))
    (recomb : List (Recomb ℚ (List Nat))) (ls : List (Link ℚ)) (n : Nat) (z : ℚ), L.WF ∧ (∀ n, ¬ L.OnCycle n) ∧ D.linear = false ∧
    D.beam = none ∧ D.maxTokens = none ∧ D.pruneExtraLimit = none ∧ decode D L = .ok (best :: rest, recomb) ∧
    L.Path L.initial ls n ∧ L.Final n ∧ NNComplete D ls z ∧ best.total < pathScore D L ls z := by
  obtain ⟨⟨finals, recomb⟩, h1, h2⟩ : ∃ r, decode exLongDecoder exLongLattice = .ok r ∧
      ∃ t ∈ r.1.head?, t.total < (runEnd exLongDecoder exLongLattice [⟨0, 1, some "c".toList, some (-2), some (-1), []⟩,
        ⟨1, 2, some "b".toList, some (-1), some (-1), []⟩]).total := by
    decide +kernel
  obtain ⟨best, hb, hlt⟩ := h2
  cases finals with
  | nil => cases hb
  | cons t rest =>
    simp only [List.head?_cons, Option.mem_def, Option.some.injEq] at hb
    subst hb
    obtain ⟨z, hz⟩ := nnComplete_exists (D := exLongDecoder) [⟨0, 1, some "c".toList, some (-2), some (-1), []⟩,
        ⟨1, 2, some "b".toList, some (-1), some (-1), []⟩]
    refine ⟨exLongDecoder, exLongLattice, t, rest, recomb, _, 2, z, wf_of_check _ (by decide +kernel),
      acyclic_of_check (by decide +kernel), rfl, rfl, rfl, rfl, h1, ?_, ⟨_, rfl, rfl⟩, hz, ?_⟩
    · exact .snoc [_] _ (.snoc [] _ .nil (by decide +kernel)) (by decide +kernel)
    · rw [runEnd_total rfl, nnComplete_run (.inl ⟨rfl, rfl⟩) (by decide +kernel) hz] at hlt
      exact hlt

/-- A projection of the input word and a softmax layer. -/
def exampleFeedforward : Architecture where
  inputs := [[("type".toList, .one (.str "word".toList)), ("name".toList, .one (.str "w".toList))]]
  layers := [exampleLayer "projection" "p" ["w"] [("size", .one (.int 2))], exampleLayer "softmax" "o" ["p"] []]
  outputLayer := .str "o".toList

instance decidableNoState (layer : Layer ℝ) :
    Decidable (∀ kind, (∀ b, layer ≠ .recurrent kind b) ∧ ∀ f b, layer ≠ .bidirectional kind f b) :=
  match layer with
  | .glu _ _ _ _ => isTrue fun _ => ⟨nofun, nofun⟩
  | .bidirectional k f b => isFalse fun h => (h k).2 f b rfl
  | .wordInput => isTrue fun _ => ⟨nofun, nofun⟩
  | .classInput => isTrue fun _ => ⟨nofun, nofun⟩
  | .projection _ => isTrue fun _ => ⟨nofun, nofun⟩
  | .fullyConnected _ => isTrue fun _ => ⟨nofun, nofun⟩
  | .addition _ _ => isTrue fun _ => ⟨nofun, nofun⟩
  | .recurrent k b => isFalse fun h => (h k).1 b rfl
  | .highway _ => isTrue fun _ => ⟨nofun, nofun⟩
  | .dropout _ _ => isTrue fun _ => ⟨nofun, nofun⟩
  | .softmax _ _ => isTrue fun _ => ⟨nofun, nofun⟩
  | .hsoftmax _ _ _ _ _ => isTrue fun _ => ⟨nofun, nofun⟩

theorem exampleFeedforward_model : ∃ layers, ModelOf exampleModelEnv exampleFeedforward exScoreVocab layers 2 ∧
    (∀ c ∈ layers, (∀ kind, (∀ b, c.layer ≠ .recurrent kind b) ∧ ∀ f b, c.layer ≠ .bidirectional kind f b) ∧
      ∀ b k i filters, c.layer ≠ .glu b k i filters) ∧
    (∃ c b u, layers[2]? = some c ∧ c.layer = .softmax b u) := by
  obtain ⟨net, h1, h2, h3, ⟨c, hc, b, u, hl⟩, h5⟩ : ∃ net, createNetwork exampleModelEnv exampleFeedforward = .ok net ∧ net.output = 2 ∧
      (∀ c ∈ net.layers, (∀ kind, (∀ b, c.layer ≠ .recurrent kind b) ∧ ∀ f b, c.layer ≠ .bidirectional kind f b) ∧
        ∀ b k i filters, c.layer ≠ .glu b k i filters) ∧
      (∃ c, net.layers[2]? = some c ∧ ∃ b u, c.layer = .softmax b u) ∧
      (∀ c ∈ net.layers, Connected net.layers c ∧ Placed c) := by
    decide +kernel
  have hp : PriorFits exampleModelEnv exampleFeedforward := fun p hp => by cases hp
  have hs : SameNetwork net.layers net.layers := by
    have key := createNetwork_same (env := exampleModelEnv) (env' := exampleModelEnv)
      ⟨rfl, rfl, rfl, rfl, rfl, rfl, rfl, rfl⟩ (a := exampleFeedforward) (b := exampleFeedforward)
      (List.forall₂_same.mpr fun d hd => rfl) (List.forall₂_same.mpr fun d _ k => rfl) rfl hp hp
    rw [h1] at key
    cases key with
    | ok h => exact h.1
  refine ⟨net.layers, ⟨⟨net, h1, h2, hs, h5⟩, hp, rfl, rfl, fun i hi => ?_, c, hc, .inl ⟨b, u, hl⟩⟩, h3, ⟨c, b, u, hc, hl⟩⟩
  have : exScoreVocab.wordToId unk = some 5 := by decide +kernel
  rw [this] at hi
  cases hi
  rfl

/-- A case that meets the hypotheses of `C102_network` (for the conditions on the lattice and the words see the cases of C97 and C99). -/
example : ∃ (layers : List (Created ℝ)) (D : Decoder ℝ (RecState ℝ)), ModelOf exampleModelEnv exampleFeedforward exScoreVocab layers 2 ∧
    (∀ c ∈ layers, (∀ kind, (∀ b, c.layer ≠ .recurrent kind b) ∧ ∀ f b, c.layer ≠ .bidirectional kind f b) ∧
      ∀ b k i filters, c.layer ≠ .glu b k i filters) ∧
    (∃ c b u, layers[2]? = some c ∧ c.layer = .softmax b u) ∧ D.Uses exScoreVocab 5 layers 2 true false ∧
    D.recombinationOrder = some 1 ∧ D.linear = false ∧ D.beam = none ∧ D.maxTokens = none ∧ D.pruneExtraLimit = none ∧
    exNetLattice.WF ∧ ∀ n, ¬ exNetLattice.OnCycle n := by
  obtain ⟨layers, h1, h2, h3⟩ := exampleFeedforward_model
  have hs : exScoreVocab.wordToId sos = some 3 := by decide +kernel
  have he : exScoreVocab.wordToId eos = some 4 := by decide +kernel
  exact ⟨layers, { exNetDecoder layers with
      recombinationOrder := some 1
      net := networkDecNet realAct Real.log (layers.map Created.layer) 2 false }, h1, h2, h3, ⟨rfl, 3, 4, hs, he, rfl⟩, rfl, rfl, rfl,
    rfl, rfl, exNetLattice_wf, exNetLattice_acyclic⟩

end TheanoLM
