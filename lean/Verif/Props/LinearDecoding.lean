import Verif.Props.LinearDecodingSpec
import Verif.Props.Decoder
import Verif.Props.Interpolation
/-!
# C125: decoding with linear interpolation
-/
set_option linter.unusedSectionVars false
namespace TheanoLM

section
variable {S St : Type} [Field S] [LinearOrder S]
variable {D : Decoder S St} {L : Lattice S}

/-- The score of a history: what is added for each word. -/
def histScore (D : Decoder S St) : List HistWord → List HistWord → S
  | _, [] => 0
  | before, w :: rest =>
    (appendWord D (netState D before.dropLast) (lastWord D before) w D.unkPenalty).2 + histScore D (before ++ [w]) rest

theorem histScore_snoc (rest : List HistWord) : ∀ (before : List HistWord) (w : HistWord), histScore D before (rest ++ [w]) =
    histScore D before rest +
      (appendWord D (netState D (before ++ rest).dropLast) (lastWord D (before ++ rest)) w D.unkPenalty).2 := by
  induction rest with
  | nil => intro before w; simp [histScore]
  | cons x rest ih =>
    intro before w
    simp only [List.cons_append, histScore, ih]
    rw [show before ++ [x] ++ rest = before ++ x :: rest by simp]
    ring

theorem run_histScore (hu : D.unkFromLattice = false) (ls : List (Link S)) : ∃ rest, (runPath D L ls).history = [.inl D.vocab.sos] ++ rest ∧
    (runPath D L ls).nnLm = histScore D [.inl D.vocab.sos] rest := by
  induction ls using List.reverseRecOn with
  | nil => exact ⟨[], rfl, rfl⟩
  | append_singleton ls k ih =>
    obtain ⟨rest, h1, h2⟩ := ih
    obtain ⟨before, prev, g1, g2⟩ := runPath_state (D := D) (L := L) ls
    rw [runPath_snoc]
    unfold propagateLink
    simp only
    cases hk : k.word with
    | none => exact ⟨rest, h1, h2⟩
    | some w =>
      refine ⟨rest ++ [histWord D.vocab w], ?_, ?_⟩
      · simp only [mkToken, h1, List.append_assoc]
      · simp only [mkToken]
        rw [histScore_snoc, ← h1, g1, List.dropLast_concat, ← h2, g2]
        unfold oovLogprob
        rw [hu]
        rfl

theorem run_same (hu : D.unkFromLattice = false) {ls ls' : List (Link S)} (h : (runPath D L ls).history = (runPath D L ls').history) :
    (runPath D L ls).nnLm = (runPath D L ls').nnLm ∧ (runPath D L ls).state = (runPath D L ls').state := by
  obtain ⟨r, h1, h2⟩ := run_histScore (L := L) hu ls
  obtain ⟨r', h1', h2'⟩ := run_histScore (L := L) hu ls'
  obtain ⟨b, p, g1, g2⟩ := runPath_state (D := D) (L := L) ls
  obtain ⟨b', p', g1', g2'⟩ := runPath_state (D := D) (L := L) ls'
  constructor
  · have : r = r' := List.append_cancel_left (h1.symm.trans (h.trans h1'))
    rw [h2, h2', this]
  · obtain ⟨rfl, _⟩ := List.append_inj' (g1.symm.trans (h.trans g1')) rfl
    rw [g2, g2']

variable [IsStrictOrderedRing S]

theorem linear_unlimited (h : LinearUnlimited D) : Unlimited D := ⟨h.beam, h.maxTokens, h.extra⟩

theorem linear_same (h : LinearUnlimited D) {a b : List HistWord} (e : SameRecent D.recombinationOrder a b) : a = b := by
  rw [← limited_iff] at e
  rcases h.order with h | h <;> rw [h] at e <;> exact e

theorem linear_extends (h : LinearUnlimited D) (hl : L.LmByWords D.vocab) : Extends D L := by
  rintro ls ls' n hp hp' ⟨h1, h2⟩
  have hh := linear_same h h1
  obtain ⟨hnn, hst⟩ := run_same h.unk hh
  obtain ⟨a1, a2, a3⟩ := runPath_attrs (D := D) (L := L) ls
  obtain ⟨b1, b2, b3⟩ := runPath_attrs (D := D) (L := L) ls'
  have hws : pathWords D.vocab ls' = pathWords D.vocab ls := by
    have e := hh
    rw [a1, b1] at e
    first
      | exact List.append_cancel_left e
      | exact (List.cons.inj e).2
  have hlat : (runPath D L ls').latLm = (runPath D L ls).latLm := by
    rw [a3, b3]
    exact hl _ _ n (pathWords D.vocab ls) hp' hp (by rw [← hws]; exact forall₂_histIs _ _) (forall₂_histIs _ _)
  have hac : (runPath D L ls).ac ≤ (runPath D L ls').ac := by
    rw [(computed_run (D := D) (L := L) ls).total, (computed_run (D := D) (L := L) ls').total, (computed_run (D := D) (L := L) ls).graph,
      (computed_run (D := D) (L := L) ls').graph, hh, hnn, hlat] at h2
    exact le_of_add_le_add_right h2
  refine ⟨fun k => ?_, ?_⟩
  · unfold propagateLink
    cases k.word with
    | none =>
      refine ⟨h1, ?_⟩
      simp only [mkToken, hh, hnn, hlat]
      linarith
    | some w =>
      refine ⟨sameRecent_snoc h1 _, ?_⟩
      simp only [mkToken, hh, hnn, hlat, hst]
      linarith
  · unfold propagateEnd
    refine ⟨sameRecent_snoc h1 _, ?_⟩
    simp only [mkToken, hh, hnn, hlat, hst]
    linarith

theorem runEnd_linear (hl : D.linear = true) (ls : List (Link S)) :
    (runEnd D L ls).total = linearScore D L ls (runEnd D L ls).nnLm := by
  obtain ⟨⟨ws, h1, h2⟩, h3, h4⟩ := describes_end (D := D) (L := L) ls
  have hc := computed_end (D := D) (L := L) ls
  rw [hc.total, hc.graph, h1, h3, h4]
  unfold graphLogprob linearScore
  simp only [hl, if_true]
  have : ws.length = (pathText ls).length := h2.length_eq.symm
  simp only [List.length_append, List.length_cons, List.length_nil, this]
  unfold decLmScale decWiPenalty
  push_cast
  ring

/-- C125: with linear interpolation and without pruning, in a lattice where paths to the same node with the same words have the same
language model score, the first token is at least as good as every complete path, and for every path the result has a token with its words
that is at least as good.  The neural network score of a path is the sum of the scores that the decoder adds. -/
theorem C125_best (hw : L.WF) (hac : ∀ n : Nat, ¬ L.OnCycle n)
    (hin : ∀ n : Nat, n < L.nodes.length → n ≠ L.initial → ∃ a : Nat, L.Edge a n) (hn : LinearUnlimited D) (hl : L.LmByWords D.vocab)
    (hpath : ∃ (ls : List (Link S)) (n : Nat), L.Path L.initial ls n ∧ L.Final n) :
    ∃ (best : Token S St) (rest : List (Token S St)) (recomb : List (Recomb S St)),
      decode D L = .ok (best :: rest, recomb) ∧
      (∃ (ls : List (Link S)) (n : Nat) (z : S), L.Path L.initial ls n ∧ L.Final n ∧ DescribesPath D ls best ∧ AddedComplete D ls z ∧
        best.total = linearScore D L ls z) ∧
      ∀ (ls : List (Link S)) (n : Nat) (z : S), L.Path L.initial ls n → L.Final n → AddedComplete D ls z →
        linearScore D L ls z ≤ best.total ∧
        ∃ t ∈ best :: rest, (∃ ws : List HistWord, t.history = .inl D.vocab.sos :: ws ++ [.inl D.vocab.eos] ∧
          List.Forall₂ (HistIs D.vocab) (pathText ls) ws) ∧ linearScore D L ls z ≤ t.total := by
  obtain ⟨finals, recomb, hd, hrep⟩ := decode_keeps hw hac hin (linear_unlimited hn) (linear_extends hn hl) hpath
  obtain ⟨hne, hdesc⟩ := C29_sorted finals recomb hd
  cases finals with
  | nil => exact absurd rfl hne
  | cons best rest =>
    have hle : ∀ t ∈ best :: rest, t.total ≤ best.total := by
      intro t ht
      rcases List.mem_cons.mp ht with rfl | h
      · exact le_refl _
      · exact (List.pairwise_cons.mp hdesc).1 t h
    refine ⟨best, rest, recomb, hd, ?_, ?_⟩
    · obtain ⟨ls, n, h1, h2, h3⟩ := (decode_inv hw (path_keeps D L) hd).1 best (by simp)
      obtain ⟨z, hz⟩ := addedComplete_exists (D := D) ls
      refine ⟨ls, n, z, h1, h2, by rw [h3]; exact describes_end ls, hz, ?_⟩
      rw [h3, runEnd_linear hn.linear, addedComplete_run hz]
    · intro ls n z hp hf hz
      obtain ⟨t, ht, h1, h2⟩ := hrep ls n hp hf
      rw [runEnd_linear hn.linear, addedComplete_run hz] at h2
      refine ⟨le_trans h2 (hle t ht), t, ht, ?_, h2⟩
      obtain ⟨⟨ws, h3, h4⟩, _⟩ := describes_end (D := D) (L := L) ls
      exact ⟨ws, by rw [linear_same hn h1, h3], h4⟩

/-- C125, with the scores of the language model (see C33). -/
theorem C125_model (hw : L.WF) (hac : ∀ n : Nat, ¬ L.OnCycle n)
    (hin : ∀ n : Nat, n < L.nodes.length → n ≠ L.initial → ∃ a : Nat, L.Edge a n) (hn : LinearUnlimited D) (hl : L.LmByWords D.vocab)
    (hpath : ∃ (ls : List (Link S)) (n : Nat), L.Path L.initial ls n ∧ L.Final n)
    (hc : NoClassEffect D) (he : memberScore D.vocab (.inl D.vocab.sos) = memberScore D.vocab (.inl D.vocab.eos)) :
    ∃ (best : Token S St) (rest : List (Token S St)) (recomb : List (Recomb S St)),
      decode D L = .ok (best :: rest, recomb) ∧
      (∃ (ls : List (Link S)) (n : Nat) (z : S), L.Path L.initial ls n ∧ L.Final n ∧ DescribesPath D ls best ∧ NNComplete D ls z ∧
        best.total = linearScore D L ls z) ∧
      ∀ (ls : List (Link S)) (n : Nat) (z : S), L.Path L.initial ls n → L.Final n → NNComplete D ls z →
        linearScore D L ls z ≤ best.total := by
  obtain ⟨best, rest, recomb, hd, ⟨ls, n, z, h1, h2, h3, h4, h5⟩, h6⟩ := C125_best hw hac hin hn hl hpath
  have key : ∀ {ls : List (Link S)} {z z' : S}, AddedComplete D ls z → NNComplete D ls z' → z = z' := by
    intro ls z z' hz hz'
    rw [← addedComplete_run (L := L) hz, nnComplete_run hc he hz']
  refine ⟨best, rest, recomb, hd, ⟨ls, n, z, h1, h2, h3, ?_, h5⟩, ?_⟩
  · obtain ⟨z', hz'⟩ := nnComplete_exists (D := D) ls
    rw [key h4 hz']
    exact hz'
  · intro ls n z hp hf hz
    obtain ⟨z', hz'⟩ := addedComplete_exists (D := D) ls
    rw [← key hz' hz]
    exact (h6 ls n z' hp hf hz').1

end

/-- Linear interpolation in the decoder is the function of C62. -/
theorem C125_interpolation (u : ℝ → Bool) (x y w : ℝ) (h0 : 0 ≤ w) (h1 : w ≤ 1) :
    interpolateLinear (realFun u) (.fin x) (.fin y) w = .ok (.fin (linearInterpolation x y w)) := by
  obtain ⟨r, hr, hl⟩ := C62_value u (lp1 := .fin x) (lp2 := .fin y) (.inr ⟨x, rfl, rfl⟩) (.inr ⟨y, rfl, rfl⟩) h0 h1
  rw [hr]
  have hpos : 0 < w * Real.exp x + (1 - w) * Real.exp y := by
    rcases eq_or_lt_of_le h0 with rfl | h
    · simp [Real.exp_pos]
    · have := mul_pos h (Real.exp_pos x)
      have := mul_nonneg (sub_nonneg.mpr h1) (Real.exp_pos y).le
      linarith
  rcases hl with ⟨rfl, h⟩ | ⟨z, rfl, h⟩
  · rw [h] at hpos
    exact absurd hpos (lt_irrefl _)
  · unfold linearInterpolation
    rw [h, Real.log_exp]

/-! ## The condition cannot be dropped -/

section
variable {S St : Type} [Field S] [LinearOrder S]

theorem sortedRecombined_pair {a b : Token S St} (h : a.total < b.total) (hh : b.hash = a.hash) :
    sortedRecombined [a, b] = ([b], [(a, b.history, b.nnLm)]) := by
  unfold sortedRecombined
  simp [List.insertionSort, List.orderedInsert, not_le.mpr h, recombineLoop, hh]

end

/-- The network gives the word `a` the probability 1/2 and `</s>` the probability 1/8. -/
noncomputable def exLinDecoder : Decoder ℝ Unit where
  vocab := ⟨fun w => if w = "a".toList then some 3 else none, fun _ => true, id, fun _ => 0, none, 0, 1, 2⟩
  net := ⟨(), fun _ _ _ target => if target = 1 then Real.log (1 / 8) else Real.log (1 / 2), fun _ _ _ => ()⟩
  lin := linearInterpolation
  nnlmWeight := 1 / 2
  lmScale := none
  wiPenalty := none
  unkPenalty := none
  unkFromLattice := false
  linear := true
  maxTokens := none
  beam := none
  recombinationOrder := none
  pruneExtraLimit := none
  absMinBeam := 0
  absMinMaxTokens := 0

/-- Two links with the word `a`, with the given scores. -/
noncomputable def exLinLattice (ac₁ lm₁ ac₂ lm₂ : ℝ) : Lattice ℝ :=
  let built := [(ac₁, lm₁), (ac₂, lm₂)].foldl
    (fun (p : List Node × List (Link ℝ)) (e : ℝ × ℝ) => addLink p.1 p.2 ⟨0, 1, some "a".toList, some e.1, some e.2, []⟩)
    (List.replicate 2 Node.new, [])
  ⟨built.1.modify 1 (fun n => { n with final := true }), built.2, 0, none, none, none⟩

theorem exLin_sorted (a b c d : ℝ) : sortedNodes (exLinLattice a b c d) 3 = some (.ok [0, 1]) := rfl

theorem exLin_wf (a b c d : ℝ) : (exLinLattice a b c d).WF := wf_of_check _ (of_decide_eq_true rfl)

theorem exLin_links (a b c d : ℝ) : ∀ k, k ∈ (exLinLattice a b c d).links ↔
    k = ⟨0, 1, some "a".toList, some a, some b, []⟩ ∨ k = ⟨0, 1, some "a".toList, some c, some d, []⟩ := by
  intro k
  rw [show (exLinLattice a b c d).links = [⟨0, 1, some "a".toList, some a, some b, []⟩, ⟨0, 1, some "a".toList, some c, some d, []⟩] from rfl]
  simp only [List.mem_cons, List.not_mem_nil, or_false]

/-- The token of a path with one link. -/
noncomputable def exLinToken (ac lm : ℝ) : Token ℝ Unit :=
  mkToken exLinDecoder 1 0 [.inl 0, .inl 3] () (0 + ac) (0 + lm) (0 + (Real.log (1 / 2) + 0))

theorem exLin_decode {a b c d : ℝ} (h : (exLinToken a b).total < (exLinToken c d).total) :
    ∃ recomb, decode exLinDecoder (exLinLattice a b c d) = .ok ([propagateEnd exLinDecoder 1 0 (exLinToken c d)], recomb) := by
  unfold decode
  rw [show (exLinLattice a b c d).nodes.length + 1 = 3 from rfl, exLin_sorted]
  have h0 : decodeNode exLinDecoder (exLinLattice a b c d) 1 0 [0, 1] 0 (decInit exLinDecoder (exLinLattice a b c d)) =
      .ok ⟨[[mkToken exLinDecoder 1 0 [.inl 0] () 0 0 0], [exLinToken a b, exLinToken c d]],
        [some (mkToken exLinDecoder 1 0 [.inl 0] () 0 0 0).total, updateBest (updateBest none [exLinToken a b]) [exLinToken c d]], [], []⟩ := rfl
  simp only [decodeNodes]
  rw [show decLmScale exLinDecoder (exLinLattice a b c d) = 1 from rfl, show decWiPenalty exLinDecoder (exLinLattice a b c d) = 0 from rfl, h0]
  simp only
  unfold decodeNode
  rw [prune_all ⟨rfl, rfl, rfl⟩ (by simp)]
  simp only [List.getD_cons_succ, List.getD_cons_zero]
  rw [sortedRecombined_pair h rfl]
  exact ⟨_, rfl⟩

theorem exLin_total (ac lm : ℝ) : (exLinToken ac lm).total = ac + Real.log ((1 / 2 + Real.exp lm) / 2) := by
  simp only [exLinToken, mkToken, graphLogprob, exLinDecoder, linearInterpolation]
  simp only [zero_add, add_zero, if_true, zero_mul, mul_one]
  rw [Real.exp_log (by norm_num)]
  congr 2
  ring

theorem exLin_end (ac lm : ℝ) : (propagateEnd exLinDecoder 1 0 (exLinToken ac lm)).total = ac + Real.log ((1 / 16 + Real.exp lm) / 2) := by
  have e : propagateEnd exLinDecoder 1 0 (exLinToken ac lm) =
      mkToken exLinDecoder 1 0 [.inl 0, .inl 3, .inl 1] () (0 + ac) (0 + lm) (0 + (Real.log (1 / 2) + 0) + (Real.log (1 / 8) + 0)) := rfl
  rw [e]
  simp only [mkToken, graphLogprob, exLinDecoder, linearInterpolation]
  simp only [zero_add, add_zero, if_true, zero_mul, mul_one]
  rw [Real.exp_add, Real.exp_log (by norm_num), Real.exp_log (by norm_num)]
  congr 2
  ring

theorem exLin_unlimited : LinearUnlimited exLinDecoder := ⟨rfl, rfl, rfl, .inl rfl, rfl, rfl⟩

theorem exLin_acyclic (a b c d : ℝ) : ∀ n : Nat, ¬ (exLinLattice a b c d).OnCycle n := by
  have hlt : ∀ x y : Nat, (exLinLattice a b c d).Edge x y → x < y := by
    rintro x y ⟨k, hk, rfl, rfl⟩
    rcases (exLin_links a b c d k).mp hk with rfl | rfl <;> exact Nat.zero_lt_one
  have htr : ∀ x y : Nat, Relation.TransGen (exLinLattice a b c d).Edge x y → x < y := by
    intro x y h
    induction h with
    | single h => exact hlt _ _ h
    | tail _ h ih => exact lt_trans ih (hlt _ _ h)
  exact fun n h => lt_irrefl _ (htr n n h)

theorem exLin_final (a b c d : ℝ) : (exLinLattice a b c d).Final 1 := ⟨_, rfl, rfl⟩

theorem exLin_in (a b c d : ℝ) : ∀ n : Nat, n < (exLinLattice a b c d).nodes.length → n ≠ (exLinLattice a b c d).initial →
    ∃ x : Nat, (exLinLattice a b c d).Edge x n := by
  intro n hn hne
  have h1 : (exLinLattice a b c d).nodes.length = 2 := rfl
  have h2 : (exLinLattice a b c d).initial = 0 := rfl
  rw [h1] at hn
  rw [h2] at hne
  have : n = 1 := by omega
  subst this
  exact ⟨0, _, (exLin_links a b c d _).mpr (.inl rfl), rfl, rfl⟩

/-- C125: the condition on the lattice cannot be dropped.  The probabilities of the language models are interpolated; of two links with the
same word, decoding keeps the one that is better before the end of the sentence, but the path with the other one is better. -/
theorem C125_condition : ∃ (D : Decoder ℝ Unit) (L : Lattice ℝ) (best : Token ℝ Unit) (recomb : List (Recomb ℝ Unit))
    (ls : List (Link ℝ)) (n : Nat) (z : ℝ), LinearUnlimited D ∧ D.lin = linearInterpolation ∧ D.nnlmWeight = 1 / 2 ∧ L.WF ∧
      (∀ n : Nat, ¬ L.OnCycle n) ∧ (∀ n : Nat, n < L.nodes.length → n ≠ L.initial → ∃ a : Nat, L.Edge a n) ∧
      decode D L = .ok ([best], recomb) ∧ L.Path L.initial ls n ∧ L.Final n ∧ AddedComplete D ls z ∧
      best.total < linearScore D L ls z := by
  let a := -Real.log 2
  let b := Real.log (1 / 2)
  let d := Real.log (1 / 16)
  have ha : ∀ x : ℝ, 0 < x → a + Real.log x = Real.log (x / 2) := by
    intro x hx
    rw [Real.log_div hx.ne' two_ne_zero]
    simp only [a]
    ring
  have hlt : (exLinToken a b).total < (exLinToken 0 d).total := by
    rw [exLin_total, exLin_total]
    simp only [b, d]
    rw [Real.exp_log (by norm_num), Real.exp_log (by norm_num), ha _ (by norm_num), zero_add]
    exact Real.log_lt_log (by norm_num) (by norm_num)
  obtain ⟨recomb, hdec⟩ := exLin_decode hlt
  have hpath : (exLinLattice a b 0 d).Path (exLinLattice a b 0 d).initial ([] ++ [⟨0, 1, some "a".toList, some a, some b, []⟩]) 1 :=
    .snoc [] ⟨0, 1, some "a".toList, some a, some b, []⟩ .nil ((exLin_links a b 0 d _).mpr (.inl rfl))
  obtain ⟨z, hz⟩ := addedComplete_exists (D := exLinDecoder) ([] ++ [⟨0, 1, some "a".toList, some a, some b, []⟩])
  refine ⟨exLinDecoder, exLinLattice a b 0 d, _, recomb, _, 1, z, exLin_unlimited, rfl, rfl, exLin_wf _ _ _ _, exLin_acyclic _ _ _ _,
    exLin_in _ _ _ _, hdec, hpath, exLin_final _ _ _ _, hz, ?_⟩
  rw [← addedComplete_run (L := exLinLattice a b 0 d) hz, ← runEnd_linear rfl]
  have e : runEnd exLinDecoder (exLinLattice a b 0 d) ([] ++ [⟨0, 1, some "a".toList, some a, some b, []⟩]) =
      propagateEnd exLinDecoder 1 0 (exLinToken a b) := rfl
  rw [e, exLin_end, exLin_end]
  simp only [b, d]
  rw [Real.exp_log (by norm_num), Real.exp_log (by norm_num), ha _ (by norm_num), zero_add]
  exact Real.log_lt_log (by norm_num) (by norm_num)

/-- A case that meets the hypotheses of `C125_best` and `C125_model`: two links with the same word and language model score, but different
acoustic scores. -/
example : (exLinLattice (-1) (-3) (-2) (-3)).LmByWords exLinDecoder.vocab ∧ (exLinLattice (-1) (-3) (-2) (-3)).WF ∧
    (∀ n, ¬ (exLinLattice (-1) (-3) (-2) (-3)).OnCycle n) ∧
    (∃ ls n, (exLinLattice (-1) (-3) (-2) (-3)).Path (exLinLattice (-1) (-3) (-2) (-3)).initial ls n ∧
      (exLinLattice (-1) (-3) (-2) (-3)).Final n) ∧ NoClassEffect exLinDecoder ∧
    memberScore exLinDecoder.vocab (.inl exLinDecoder.vocab.sos) = memberScore exLinDecoder.vocab (.inl exLinDecoder.vocab.eos) := by
  refine ⟨?_, exLin_wf _ _ _ _, exLin_acyclic _ _ _ _, ?_, .inl ⟨rfl, rfl⟩, rfl⟩
  · have hall : ∀ k ∈ (exLinLattice (-1) (-3) (-2) (-3)).links, k.word = some "a".toList ∧ k.lm = some (-3) := by
      intro k hk
      rcases (exLin_links _ _ _ _ k).mp hk with rfl | rfl <;> exact ⟨rfl, rfl⟩
    have key : ∀ {ls n}, (exLinLattice (-1) (-3) (-2) (-3)).Path (exLinLattice (-1) (-3) (-2) (-3)).initial ls n →
        lmOf ls = -3 * ((pathText ls).length : ℝ) := by
      intro ls n h
      induction h with
      | nil => simp [lmOf, pathText]
      | snoc ls k _ hk ih =>
        obtain ⟨h1, h2⟩ := hall k hk
        unfold lmOf pathText at ih ⊢
        rw [List.map_append, List.sum_append, ih, List.filterMap_append]
        simp only [List.map_cons, List.map_nil, List.sum_cons, List.sum_nil, h2, Option.getD_some, List.filterMap_cons, List.filterMap_nil, h1,
          List.length_append, List.length_cons, List.length_nil]
        push_cast
        ring
    intro ls ls' n ws h1 h2 h3 h4
    rw [key h1, key h2, h3.length_eq, h4.length_eq]
  · exact ⟨[] ++ [⟨0, 1, some "a".toList, some (-1), some (-3), []⟩], 1,
      .snoc [] ⟨0, 1, some "a".toList, some (-1), some (-3), []⟩ .nil ((exLin_links _ _ _ _ _).mpr (.inl rfl)), exLin_final _ _ _ _⟩

end TheanoLM
