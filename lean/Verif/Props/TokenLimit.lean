import Verif.Lemmas.TokenLimit
import Verif.Props.LinearDecoding
import Verif.Props.DecoderRecombination
import Verif.Props.BeamPruning
/-!
# C127: a limit on the number of hypotheses that is large enough does not lose the best hypothesis
-/
set_option linter.unusedSectionVars false
namespace TheanoLM

/-- At most `m` word sequences that recombination tells apart lead to each node. -/
def Lattice.SequencesLe {S : Type} (L : Lattice S) (V : DecVocab S) (order : Option Nat) (m : Nat) : Prop :=
  ∀ n : Nat, ∃ hs : List (List HistWord), hs.length ≤ m ∧ ∀ (ls : List (Link S)) (ws : List HistWord), L.Path L.initial ls n →
    List.Forall₂ (HistIs V) (pathText ls) ws → ∃ h ∈ hs, SameRecent order (.inl V.sos :: ws) h

section
variable {S St : Type} [Field S] [LinearOrder S] [IsStrictOrderedRing S] {D : Decoder S St} {L : Lattice S}

theorem fits_of (hbeam : D.beam = none) (hrel : D.pruneExtraLimit = none)
    (hfit : ∀ m : Nat, D.maxTokens = some m → L.SequencesLe D.vocab D.recombinationOrder m) : Fits D L := by
  refine ⟨hbeam, hrel, fun m hm n => ?_⟩
  obtain ⟨hs, h1, h2⟩ := hfit m hm n
  refine ⟨hs, h1, fun ls hp => ?_⟩
  obtain ⟨⟨ws, h3, h4⟩, _⟩ := describes_end (D := D) (L := L) ls
  obtain ⟨h, h5, h6⟩ := h2 ls ws hp h4
  refine ⟨h, h5, ?_⟩
  have : (runEnd D L ls).history = (runPath D L ls).history ++ [.inl D.vocab.eos] := rfl
  rw [this] at h3
  rw [(List.append_inj' h3 rfl).1]
  exact h6

/-- Every complete path is represented in the result. -/
theorem decode_fits (hw : L.WF) (hac : ∀ n : Nat, ¬ L.OnCycle n)
    (hin : ∀ n : Nat, n < L.nodes.length → n ≠ L.initial → ∃ a : Nat, L.Edge a n) (hn : Fits D L) (hx : Extends D L)
    (hpath : ∃ (ls : List (Link S)) (n : Nat), L.Path L.initial ls n ∧ L.Final n) :
    ∃ (finals : List (Token S St)) (recomb : List (Recomb S St)), decode D L = .ok (finals, recomb) ∧
      ∀ (ls : List (Link S)) (n : Nat), L.Path L.initial ls n → L.Final n →
        ∃ t ∈ finals, SameRecent D.recombinationOrder t.history (runEnd D L ls).history ∧
          (runEnd D L ls).total ≤ t.total := by
  obtain ⟨sorted, hs, hnd, hmem, ht⟩ := sorted_acyclic hw hac hin
  obtain ⟨st, hst, hf⟩ := decodeNodes_fits hw hn hx hnd ht (fun n hn => hin n ((hmem n).mp hn)) sorted (done := [])
    (by simp) (decInit_inv (path_keeps D L)) (decInit_cinv hw)
    (by intro ls n _ _ h; cases h)
  have hi := decodeNodes_inv hw (path_keeps D L) sorted (decInit_inv (path_keeps D L)) hst
  have hrep : ∀ (ls : List (Link S)) (n : Nat), L.Path L.initial ls n → L.Final n →
      ∃ t ∈ st.finals, SameRecent D.recombinationOrder t.history (runEnd D L ls).history ∧
        (runEnd D L ls).total ≤ t.total := by
    intro ls n hp hfn
    refine hf ls n hp hfn ?_
    rw [hmem]
    obtain ⟨nd, h1, _⟩ := hfn
    exact (List.getElem?_eq_some_iff.mp h1).1
  have hne : st.finals ≠ [] := by
    obtain ⟨ls, n, hp, hfn⟩ := hpath
    obtain ⟨t, ht', _⟩ := hrep ls n hp hfn
    exact List.ne_nil_of_mem ht'
  refine ⟨(sortedRecombined st.finals).1, st.recomb ++ (sortedRecombined st.finals).2, ?_, ?_⟩
  · unfold decode
    rw [hs]
    simp only
    rw [hst]
    simp only
    rw [if_neg hne]
  · intro ls n hp hfn
    obtain ⟨t, ht', h1, h2⟩ := hrep ls n hp hfn
    obtain ⟨k, hk, h3, h4⟩ := (sortedRecombined_spec st.finals).kept ht'
    refine ⟨k, hk, ?_, le_trans h2 h4⟩
    obtain ⟨l1, n1, _, _, rfl⟩ := hi.fin t ht'
    obtain ⟨l2, n2, _, _, rfl⟩ := hi.fin k ((sortedRecombined_spec st.finals).subset hk)
    rw [(computed_end (D := D) (L := L) l1).hash, (computed_end (D := D) (L := L) l2).hash, limited_iff] at h3
    exact sameRecent_trans h3 h1

/-- C127: with the default interpolation.  When the limit is at least the number of word sequences that lead to a node, the first hypothesis
is at least as good as every complete path, and there is a hypothesis for every word sequence. -/
theorem C127_best (hw : L.WF) (hac : ∀ n : Nat, ¬ L.OnCycle n)
    (hin : ∀ n : Nat, n < L.nodes.length → n ≠ L.initial → ∃ a : Nat, L.Edge a n) (hctx : ContextLimited D)
    (hlin : D.linear = false) (hbeam : D.beam = none) (hrel : D.pruneExtraLimit = none)
    (hfit : ∀ m : Nat, D.maxTokens = some m → L.SequencesLe D.vocab D.recombinationOrder m)
    (hpath : ∃ (ls : List (Link S)) (n : Nat), L.Path L.initial ls n ∧ L.Final n) :
    ∃ (best : Token S St) (rest : List (Token S St)) (recomb : List (Recomb S St)),
      decode D L = .ok (best :: rest, recomb) ∧
      (∃ (ls : List (Link S)) (n : Nat) (z : S), L.Path L.initial ls n ∧ L.Final n ∧ DescribesPath D ls best ∧
        AddedComplete D ls z ∧ best.total = pathScore D L ls z) ∧
      ∀ (ls : List (Link S)) (n : Nat) (z : S), L.Path L.initial ls n → L.Final n → AddedComplete D ls z →
        pathScore D L ls z ≤ best.total ∧
        ∃ t ∈ best :: rest, ∃ ws : List HistWord, List.Forall₂ (HistIs D.vocab) (pathText ls) ws ∧
          SameRecent D.recombinationOrder t.history (.inl D.vocab.sos :: ws ++ [.inl D.vocab.eos]) ∧
          pathScore D L ls z ≤ t.total := by
  obtain ⟨finals, recomb, hd, hrep⟩ := decode_fits hw hac hin (fits_of hbeam hrel hfit)
    (fun _ _ _ _ _ hd => ⟨fun k => dom_link hlin hctx hd k, dom_end hlin hctx hd⟩) hpath
  obtain ⟨hne, hdesc⟩ := C29_sorted finals recomb hd
  cases finals with
  | nil => exact absurd rfl hne
  | cons best rest =>
    have hle : ∀ t ∈ best :: rest, t.total ≤ best.total := by
      intro t ht
      rcases List.mem_cons.mp ht with rfl | h
      · exact le_refl _
      · unfold Descending at hdesc
        exact (List.pairwise_cons.mp hdesc).1 t h
    refine ⟨best, rest, recomb, hd, ?_, ?_⟩
    · obtain ⟨ls, n, h1, h2, h3⟩ := (decode_inv hw (path_keeps D L) hd).1 best (by simp)
      obtain ⟨z, hz⟩ := addedComplete_exists (D := D) ls
      refine ⟨ls, n, z, h1, h2, by rw [h3]; exact describes_end ls, hz, ?_⟩
      rw [h3, runEnd_total hlin, addedComplete_run hz]
    · intro ls n z hp hf hz
      obtain ⟨t, ht, h1, h2⟩ := hrep ls n hp hf
      rw [runEnd_total hlin, addedComplete_run hz] at h2
      refine ⟨le_trans h2 (hle t ht), t, ht, ?_⟩
      obtain ⟨⟨ws, h3, h4⟩, _⟩ := describes_end (D := D) (L := L) ls
      rw [h3] at h1
      exact ⟨ws, h4, h1, h2⟩

/-- C127: the score of the first hypothesis is the same with and without the limit. -/
theorem C127_same (hw : L.WF) (hac : ∀ n : Nat, ¬ L.OnCycle n)
    (hin : ∀ n : Nat, n < L.nodes.length → n ≠ L.initial → ∃ a : Nat, L.Edge a n) (hctx : ContextLimited D)
    (hlin : D.linear = false) (hbeam : D.beam = none) (hrel : D.pruneExtraLimit = none) (m : Nat)
    (hfit : L.SequencesLe D.vocab D.recombinationOrder m)
    (hpath : ∃ (ls : List (Link S)) (n : Nat), L.Path L.initial ls n ∧ L.Final n) :
    ∃ (best best' : Token S St) (rest rest' : List (Token S St)) (recomb recomb' : List (Recomb S St)),
      decode { D with maxTokens := some m } L = .ok (best :: rest, recomb) ∧
      decode { D with maxTokens := none } L = .ok (best' :: rest', recomb') ∧ best.total = best'.total := by
  obtain ⟨best, rest, recomb, h1, ⟨ls, n, z, h2, h3, _, h4, h5⟩, h6⟩ := C127_best (D := { D with maxTokens := some m }) hw hac hin hctx
    hlin hbeam hrel (fun m' hm' => by cases hm'; exact hfit) hpath
  obtain ⟨best', rest', recomb', h1', ⟨ls', n', z', h2', h3', _, h4', h5'⟩, h6'⟩ := C127_best (D := { D with maxTokens := none }) hw hac hin
    hctx hlin hbeam hrel (fun m' hm' => by cases hm') hpath
  refine ⟨best, best', rest, rest', recomb, recomb', h1, h1', le_antisymm ?_ ?_⟩
  · rw [h5]
    obtain ⟨y, hy⟩ := addedComplete_exists (D := { D with maxTokens := none }) ls
    have e : z = y := by
      rw [← addedComplete_run (L := L) h4, ← addedComplete_run (L := L) hy]
      rfl
    rw [e]
    exact (h6' ls n y h2 h3 hy).1
  · rw [h5']
    obtain ⟨y, hy⟩ := addedComplete_exists (D := { D with maxTokens := some m }) ls'
    have e : z' = y := by
      rw [← addedComplete_run (L := L) h4', ← addedComplete_run (L := L) hy]
      rfl
    rw [e]
    exact (h6 ls' n' y h2' h3' hy).1

end

/-! ### Examples -/

theorem exDec_in : ∀ n : Nat, n < exDecLattice.nodes.length → n ≠ exDecLattice.initial → ∃ a : Nat, exDecLattice.Edge a n := by
  have hin : ∀ n < exDecLattice.nodes.length, n ≠ exDecLattice.initial → ∃ k ∈ exDecLattice.links, k.endNode = n := by decide +kernel
  intro n hn h0
  obtain ⟨k, h1, h2⟩ := hin n hn h0
  exact ⟨k.startNode, k, h1, rfl, h2⟩

theorem exDec_paths {ls : List (Link ℚ)} {n : Nat} (h : exDecLattice.Path exDecLattice.initial ls n) : (ls, n) ∈ exPaths exDecLattice 3 := by
  induction h with
  | nil => decide +kernel
  | snoc ls k _ hk ih =>
    exact (by decide +kernel : ∀ e ∈ exPaths exDecLattice 3, ∀ k ∈ exDecLattice.links, k.startNode = e.2 →
      (e.1 ++ [k], k.endNode) ∈ exPaths exDecLattice 3) _ ih k hk rfl

/-- Four word sequences lead to nodes 2 and 3. -/
theorem exDec_sequences : exDecLattice.SequencesLe exDecoder.vocab exDecoder.recombinationOrder 4 := by
  intro n
  refine ⟨((exPaths exDecLattice 3).filter (fun e => decide (e.2 = n))).map (fun e => .inl 0 :: (pathText e.1).map (histWord exVocab)), ?_, ?_⟩
  · rw [List.length_map]
    by_cases hn : n < 4
    · exact (by decide +kernel : ∀ n < 4, ((exPaths exDecLattice 3).filter (fun e => decide (e.2 = n))).length ≤ 4) n hn
    · rw [List.filter_eq_nil_iff.mpr ?_]
      · exact Nat.zero_le _
      · intro e he hc
        have := (by decide +kernel : ∀ e ∈ exPaths exDecLattice 3, e.2 < 4) e he
        have := of_decide_eq_true hc
        omega
  · intro ls ws hp hws
    refine ⟨_, List.mem_map.mpr ⟨_, List.mem_filter.mpr ⟨exDec_paths hp, by simp⟩, rfl⟩, ?_⟩
    have : ∀ (l : List Str) (ws : List HistWord), List.Forall₂ (HistIs exVocab) l ws → ws = l.map (histWord exVocab) := by
      intro l ws h
      induction h with
      | nil => rfl
      | cons h _ ih => rw [List.map_cons, ← ih]; exact congrArg (· :: _) (histIs_eq (D := exDecoder) h).symm
    have := this _ _ hws
    show Sum.inl 0 :: ws = _
    rw [this]

theorem exDec_path : ∃ (ls : List (Link ℚ)) (n : Nat), exDecLattice.Path exDecLattice.initial ls n ∧ exDecLattice.Final n :=
  ⟨[⟨0, 1, some "a".toList, some (-2), some (-3), []⟩] ++ [⟨1, 2, some "b".toList, some (-4), some (-1), []⟩] ++
      [⟨2, 3, none, some (-1), some 0, []⟩], 3,
    .snoc _ ⟨2, 3, none, some (-1), some 0, []⟩ (.snoc _ ⟨1, 2, some "b".toList, some (-4), some (-1), []⟩
      (.snoc [] ⟨0, 1, some "a".toList, some (-2), some (-3), []⟩ .nil (by decide +kernel)) (by decide +kernel))
      (by decide +kernel),
    ⟨_, (by decide +kernel : exDecLattice.nodes[3]? = some (exDecLattice.nodes.getD 3 Node.new)), by decide +kernel⟩⟩

/-- The hypotheses of C127 hold for the concrete case. -/
example : ∃ (best best' : Token ℚ (List Nat)) (rest rest' : List (Token ℚ (List Nat))) (recomb recomb' : List (Recomb ℚ (List Nat))),
    decode { exDecoder with maxTokens := some 4 } exDecLattice = .ok (best :: rest, recomb) ∧
    decode { exDecoder with maxTokens := none } exDecLattice = .ok (best' :: rest', recomb') ∧ best.total = best'.total :=
  C127_same exDecLattice_wf exDec_acyclic exDec_in noPruning_ex.unpruned.context rfl rfl rfl 4 exDec_sequences exDec_path

/-- A limit on the number of hypotheses, and a lattice with the paths "a a" and "c a". -/
def exLimited (m : Option Nat) : Decoder ℚ (List Nat) := { exDecoder with maxTokens := m, nnlmWeight := 1, lmScale := some 1, wiPenalty := none }

def exLimitLattice : Lattice ℚ :=
  exWordLattice 3 [(0, 1, some "a".toList, 0, 0), (0, 1, some "c".toList, -2, 0), (1, 2, some "a".toList, 0, 0)]

/-- C127: the condition cannot be dropped.  Two word sequences lead to node 1, and if only one hypothesis is kept, the best path is lost. -/
theorem C127_condition :
    (∃ r, decode (exLimited none) exLimitLattice = .ok r ∧ r.1.map Token.total = [-12, -15]) ∧
    (∃ r, decode (exLimited (some 2)) exLimitLattice = .ok r ∧ r.1.map Token.total = [-12, -15]) ∧
    ∃ r, decode (exLimited (some 1)) exLimitLattice = .ok r ∧ r.1.map Token.total = [-15] := by
  decide +kernel

end TheanoLM
