import Verif.Lemmas.AnyPruning
import Verif.Props.TokenLimit
/-!
# C135: decoding with any combination of the pruning options
-/
set_option linter.unusedSectionVars false
namespace TheanoLM

section
variable {S St : Type} [Field S] [LinearOrder S] [IsStrictOrderedRing S] {D : Decoder S St} {L : Lattice S}

/-- The result without the part about paths. -/
theorem decode_leaves (hw : L.WF) (hac : ∀ n : Nat, ¬ L.OnCycle n)
    (hin : ∀ n : Nat, n < L.nodes.length → n ≠ L.initial → ∃ a : Nat, L.Edge a n) (hl : PruningLeaves D L)
    (hfinal : ∃ n : Nat, L.Final n) : ∃ r, decode D L = .ok r := by
  obtain ⟨finals, recomb, h, _⟩ := decode_any hw hac hin hl hfinal (W := fun _ => False)
    (fun _ _ _ _ _ _ _ _ _ _ _ h => h.elim) (fun _ _ h => h.elim) (fun _ _ h => h)
  exact ⟨_, h⟩

theorem sorted_head (hw : L.WF) {sorted : List Nat} (hs : sortedNodes L (L.nodes.length + 1) = some (.ok sorted)) :
    ∃ rest, sorted = L.initial :: rest := by
  have := (C24_partial L hw _ sorted hs).1
  cases sorted with
  | nil => cases this
  | cons a rest => simp only [List.head?_cons, Option.some.injEq] at this; subst this; exact ⟨rest, rfl⟩

theorem decInit_ne (hw : L.WF) : (decInit D L).tokens.getD L.initial [] ≠ [] :=
  (decInit_any (D := D) hw (fun _ => True)).ne [] L.initial .nil (by simp)

/-- C135: what happens when the options do not leave room for a hypothesis, or there is no final node.  If the relative
limit is zero, decoding fails with division by zero; if the number of hypotheses is limited to zero, an assertion fails; and
a lattice that has no final node is reported. -/
theorem C135_fails (hw : L.WF) (hac : ∀ n : Nat, ¬ L.OnCycle n)
    (hin : ∀ n : Nat, n < L.nodes.length → n ≠ L.initial → ∃ a : Nat, L.Edge a n) :
    (D.pruneExtraLimit = some 0 → decode D L = .error .zeroDivision) ∧
    (∀ m : Nat, D.pruneExtraLimit ≠ some 0 → D.maxTokens = some m → tokenLimit D L m = 0 → decode D L = .error .assertion) ∧
    (PruningLeaves D L → (¬ ∃ n : Nat, L.Final n) → decode D L = .error .inputError) := by
  obtain ⟨sorted, hs, hnd, hmem, ht⟩ := sorted_acyclic hw hac hin
  have hlen : sorted.length = L.nodes.length := by
    have := ((List.perm_ext_iff_of_nodup hnd List.nodup_range).mpr (fun n => by rw [hmem, List.mem_range])).length_eq
    rw [this, List.length_range]
  obtain ⟨rest, hrest⟩ := sorted_head hw hs
  have hins : L.initial ∈ sorted := (hmem _).mpr hw.initial
  refine ⟨fun h0 => ?_, fun m hx hm h0 => ?_, fun hl hno => ?_⟩
  · have hp : prune D L sorted L.initial (decInit D L) = .error .zeroDivision := by
      unfold prune
      simp only
      rw [if_neg (decInit_ne hw)]
      unfold limitDivider
      rw [h0]
    have hn : decodeNodes D L (decLmScale D L) (decWiPenalty D L) sorted sorted (decInit D L) = .error .zeroDivision := by
      conv_lhs => arg 6; rw [hrest]
      unfold decodeNodes decodeNode
      rw [hp]
    unfold decode
    rw [hs]
    simp only
    rw [hn]
  · obtain ⟨b, _, hp⟩ := prune_factor (D := D) hx hlen (decInit_best hw) hins (decInit_ne hw)
    have hn : decodeNodes D L (decLmScale D L) (decWiPenalty D L) sorted sorted (decInit D L) = .error .assertion := by
      conv_lhs => arg 6; rw [hrest]
      unfold decodeNodes decodeNode
      rw [hp]
      simp only
      rw [getD_set_tokens (lt_of_getD_ne (decInit_ne hw)), if_pos rfl, if_pos]
      rw [pruneTokens_eq]
      simp only
      unfold limitTokens
      rw [hm]
      simp only
      unfold tokenLimit at h0
      rw [h0, List.take_zero]
    unfold decode
    rw [hs]
    simp only
    rw [hn]
  · obtain ⟨st, hst, hi⟩ := decodeNodes_any hw hl hlen hmem (W := fun _ => False) (fun _ _ _ _ _ _ _ _ _ h => h.elim)
      (fun _ _ h => h.elim) (fun _ _ h => h) hnd ht (fun n hn => hin n ((hmem n).mp hn)) sorted (done := []) (by simp)
      (decInit_any hw _)
    have hfin : st.finals = [] := by
      rw [List.eq_nil_iff_forall_not_mem]
      intro t ht'
      obtain ⟨_, n, _, hf, _⟩ := hi.inv.fin t ht'
      exact hno ⟨n, hf⟩
    unfold decode
    rw [hs]
    simp only
    rw [hst]
    simp only
    rw [if_pos hfin]

/-- C135: decoding an acyclic lattice succeeds exactly when it has a final node and the options leave room for a hypothesis;
the beam, however narrow, the times of the nodes, and the network make no difference. -/
theorem C135_succeeds_iff (hw : L.WF) (hac : ∀ n : Nat, ¬ L.OnCycle n)
    (hin : ∀ n : Nat, n < L.nodes.length → n ≠ L.initial → ∃ a : Nat, L.Edge a n) :
    (∃ (best : Token S St) (rest : List (Token S St)) (recomb : List (Recomb S St)),
      decode D L = .ok (best :: rest, recomb)) ↔ (∃ n : Nat, L.Final n) ∧ PruningLeaves D L := by
  obtain ⟨f1, f2, f3⟩ := C135_fails (D := D) hw hac hin
  constructor
  · rintro ⟨best, rest, recomb, h⟩
    have hl : PruningLeaves D L := by
      have hx : D.pruneExtraLimit ≠ some 0 := fun h0 => by rw [f1 h0] at h; cases h
      refine ⟨hx, fun m hm => ?_⟩
      by_contra h0
      rw [f2 m hx hm (by omega)] at h
      cases h
    refine ⟨?_, hl⟩
    by_contra hno
    rw [f3 hl hno] at h
    cases h
  · rintro ⟨hfinal, hl⟩
    obtain ⟨⟨finals, recomb⟩, h⟩ := decode_leaves hw hac hin hl hfinal
    obtain ⟨hne, _⟩ := C29_sorted finals recomb h
    cases finals with
    | nil => exact absurd rfl hne
    | cons best rest => exact ⟨best, rest, recomb, h⟩

/-- C135: when the limit on the number of hypotheses is not exceeded, the first hypothesis is at least as good as every complete
path that stays within the beam. -/
theorem C135_within (hw : L.WF) (hac : ∀ n : Nat, ¬ L.OnCycle n)
    (hin : ∀ n : Nat, n < L.nodes.length → n ≠ L.initial → ∃ a : Nat, L.Edge a n) (hf : L.TimesForward)
    (hlin : D.linear = false) (hctx : ContextLimited D)
    (hfit : ∀ m : Nat, D.maxTokens = some m → L.SequencesLe D.vocab D.recombinationOrder (tokenLimit D L m))
    (best : Token S St) (rest : List (Token S St)) (recomb : List (Recomb S St))
    (hd : decode D L = .ok (best :: rest, recomb)) (ls : List (Link S)) (n : Nat) (z : S)
    (hp : L.Path L.initial ls n) (hfn : L.Final n) (hz : AddedComplete D ls z)
    (hwin : ∀ beam : S, D.beam = some beam → WithinBeam D L (beamWidth D L beam) ls) :
    pathScore D L ls z ≤ best.total ∧
      ∃ t ∈ best :: rest, ∃ ws : List HistWord, List.Forall₂ (HistIs D.vocab) (pathText ls) ws ∧
        SameRecent D.recombinationOrder t.history (.inl D.vocab.sos :: ws ++ [.inl D.vocab.eos]) ∧
        pathScore D L ls z ≤ t.total := by
  have hl : PruningLeaves D L := ((C135_succeeds_iff hw hac hin).mp ⟨best, rest, recomb, hd⟩).2
  have hbefore : ∀ a b : Nat, ∀ sorted : List Nat, sortedNodes L (L.nodes.length + 1) = some (.ok sorted) → b ∈ sorted →
      L.Edge a b → Before sorted a b := by
    intro a b sorted hs
    obtain ⟨sorted', hs', _, _, ht⟩ := sorted_acyclic hw hac hin
    rw [hs] at hs'
    cases hs'
    exact ht a b
  have hlen : ∀ sorted : List Nat, sortedNodes L (L.nodes.length + 1) = some (.ok sorted) → sorted.length = L.nodes.length := by
    intro sorted hs
    obtain ⟨sorted', hs', hnd, hmem, _⟩ := sorted_acyclic hw hac hin
    rw [hs] at hs'
    cases hs'
    have := ((List.perm_ext_iff_of_nodup hnd List.nodup_range).mpr (fun n => by rw [hmem, List.mem_range])).length_eq
    rw [this, List.length_range]
  have hfit' : ∀ m : Nat, D.maxTokens = some m → ∀ n : Nat, ∃ hs : List (List HistWord), hs.length ≤ tokenLimit D L m ∧
      ∀ ls : List (Link S), L.Path L.initial ls n → ∃ h ∈ hs, SameRecent D.recombinationOrder (runPath D L ls).history h := by
    intro m hm n
    obtain ⟨hs, h1, h2⟩ := hfit m hm n
    refine ⟨hs, h1, fun ls hp => ?_⟩
    obtain ⟨⟨ws, h3, h4⟩, _⟩ := describes_end (D := D) (L := L) ls
    obtain ⟨h, h5, h6⟩ := h2 ls ws hp h4
    refine ⟨h, h5, ?_⟩
    have : (runEnd D L ls).history = (runPath D L ls).history ++ [.inl D.vocab.eos] := rfl
    rw [this] at h3
    rw [(List.append_inj' h3 rfl).1]
    exact h6
  obtain ⟨finals, recomb', hd', hrep⟩ := decode_any hw hac hin hl ⟨n, hfn⟩
    (fun sorted hs => pruneKeeps_within hw hl hf hbefore hfit' sorted hs (hlen sorted hs))
    (fun _ _ _ hd => ⟨fun k => dom_link hlin hctx hd k, dom_end hlin hctx hd⟩)
    (fun ls k h beam hb => (h beam hb).front)
  rw [hd] at hd'
  cases hd'
  obtain ⟨t, ht, h1, h2⟩ := hrep ls n hp hfn (fun beam hb => runWithin_of hlin (hwin beam hb))
  rw [runEnd_total hlin, addedComplete_run hz] at h2
  obtain ⟨⟨ws, h3, h4⟩, _⟩ := describes_end (D := D) (L := L) ls
  rw [h3] at h1
  refine ⟨le_trans h2 ?_, t, ht, ws, h4, h1, h2⟩
  rcases List.mem_cons.mp ht with rfl | h
  · exact le_refl _
  · have hdesc := (C29_sorted _ _ hd).2
    unfold Descending at hdesc
    exact (List.pairwise_cons.mp hdesc).1 t h

/-- C135: if a best path stays within the beam, and the limit on the number of hypotheses is not exceeded, a best path is
found. -/
theorem C135_optimal (hw : L.WF) (hac : ∀ n : Nat, ¬ L.OnCycle n)
    (hin : ∀ n : Nat, n < L.nodes.length → n ≠ L.initial → ∃ a : Nat, L.Edge a n) (hf : L.TimesForward)
    (hlin : D.linear = false) (hctx : ContextLimited D) (hx : D.pruneExtraLimit ≠ some 0)
    (hfit : ∀ m : Nat, D.maxTokens = some m → L.SequencesLe D.vocab D.recombinationOrder (tokenLimit D L m))
    (ls : List (Link S)) (n : Nat) (z : S) (hp : L.Path L.initial ls n) (hfn : L.Final n) (hz : AddedComplete D ls z)
    (hwin : ∀ beam : S, D.beam = some beam → WithinBeam D L (beamWidth D L beam) ls)
    (hbest : ∀ (ls' : List (Link S)) (n' : Nat) (z' : S), L.Path L.initial ls' n' → L.Final n' → AddedComplete D ls' z' →
      pathScore D L ls' z' ≤ pathScore D L ls z) :
    ∃ (best : Token S St) (rest : List (Token S St)) (recomb : List (Recomb S St)),
      decode D L = .ok (best :: rest, recomb) ∧ best.total = pathScore D L ls z := by
  -- at least one word sequence leads to the initial node
  have hl : PruningLeaves D L := by
    refine ⟨hx, fun m hm => ?_⟩
    obtain ⟨hs, h1, h2⟩ := hfit m hm L.initial
    obtain ⟨h, h3, _⟩ := h2 [] [] .nil .nil
    exact le_trans (List.length_pos_iff.mpr (List.ne_nil_of_mem h3)) h1
  obtain ⟨best, rest, recomb, hd⟩ := (C135_succeeds_iff hw hac hin).mpr ⟨⟨n, hfn⟩, hl⟩
  refine ⟨best, rest, recomb, hd, le_antisymm ?_
    (C135_within hw hac hin hf hlin hctx hfit best rest recomb hd ls n z hp hfn hz hwin).1⟩
  obtain ⟨ls', n', h1, h2, h3⟩ := (decode_inv hw (path_keeps D L) hd).1 best (by simp)
  obtain ⟨z', hz'⟩ := addedComplete_exists (D := D) ls'
  rw [h3, runEnd_total hlin, addedComplete_run hz']
  exact hbest ls' n' z' h1 h2 hz'

end

/-! ### Examples -/

/-- All limits are used.  The lattice has five nodes, so that the limits are divided by two. -/
def exAllLimits : Decoder ℚ (List Nat) :=
  { exBeam 34 with maxTokens := some 8, pruneExtraLimit := some 4, absMinBeam := 1, absMinMaxTokens := 1 }

example : pruneFactor exAllLimits exBeamLattice.nodes.length = 2 ∧ tokenLimit exAllLimits exBeamLattice 8 = 4 ∧
    beamWidth exAllLimits exBeamLattice 34 = 17 := by decide +kernel

/-- At most four word sequences lead to a node. -/
theorem exAll_sequences : exBeamLattice.SequencesLe exAllLimits.vocab exAllLimits.recombinationOrder 4 := by
  intro n
  refine ⟨((exPaths exBeamLattice 3).filter (fun e => decide (e.2 = n))).map (fun e => .inl 0 :: (pathText e.1).map (histWord exVocab)), ?_, ?_⟩
  · rw [List.length_map]
    by_cases hn : n < 5
    · exact (by decide +kernel : ∀ n < 5, ((exPaths exBeamLattice 3).filter (fun e => decide (e.2 = n))).length ≤ 4) n hn
    · rw [List.filter_eq_nil_iff.mpr ?_]
      · exact Nat.zero_le _
      · intro e he hc
        have := (by decide +kernel : ∀ e ∈ exPaths exBeamLattice 3, e.2 < 5) e he
        have := of_decide_eq_true hc
        omega
  · intro ls ws hp hws
    refine ⟨_, List.mem_map.mpr ⟨_, List.mem_filter.mpr ⟨exBeam_paths hp, by simp⟩, rfl⟩, ?_⟩
    have : ∀ (l : List Str) (ws : List HistWord), List.Forall₂ (HistIs exVocab) l ws → ws = l.map (histWord exVocab) := by
      intro l ws h
      induction h with
      | nil => rfl
      | cons h _ ih => rw [List.map_cons, ← ih]; exact congrArg (· :: _) (histIs_eq (D := exDecoder) h).symm
    have := this _ _ hws
    show Sum.inl 0 :: ws = _
    rw [this]

theorem exAll_context : ContextLimited exAllLimits := (exBeam_only 34 (by norm_num)).context

/-- The hypotheses of C135 hold for the concrete case: the best path "c a" is found. -/
example : ∃ z : ℚ, AddedComplete exAllLimits exBeamPath z ∧
    ∃ (best : Token ℚ (List Nat)) (rest : List (Token ℚ (List Nat))) (recomb : List (Recomb ℚ (List Nat))),
      decode exAllLimits exBeamLattice = .ok (best :: rest, recomb) ∧
      best.total = pathScore exAllLimits exBeamLattice exBeamPath z := by
  have hwin : WithinBeam exAllLimits exBeamLattice 17 exBeamPath := by
    intro p q n m hp hq x y h1 h2 h3 _ h5 h6
    rw [← runPath_total (L := exBeamLattice) rfl h5, ← runPath_total (L := exBeamLattice) rfl h6]
    exact (by decide +kernel : ∀ e ∈ exPaths exBeamLattice 3, ∀ p ∈ exBeamPath.inits,
      (runPath exAllLimits exBeamLattice e.1).total - 17 < (runPath exAllLimits exBeamLattice p).total)
      _ (exBeam_paths h3) p ((List.mem_inits _ _).mpr h1)
  obtain ⟨z, hz⟩ := addedComplete_exists (D := exAllLimits) exBeamPath
  have hp : exBeamLattice.Path exBeamLattice.initial exBeamPath 4 :=
    .snoc [_] ⟨2, 4, some "a".toList, some 20, some 0, []⟩
      (.snoc [] ⟨0, 2, some "c".toList, some (-15 / 2), some 0, []⟩ .nil (by decide +kernel)) (by decide +kernel)
  have hfn : exBeamLattice.Final 4 :=
    ⟨_, (by decide +kernel : exBeamLattice.nodes[4]? = some (exBeamLattice.nodes.getD 4 Node.new)), by decide +kernel⟩
  refine ⟨z, hz, C135_optimal (D := exAllLimits) exBeamLattice_wf exBeam_acyclic exBeam_in exBeam_times rfl exAll_context
    (by decide +kernel) ?_ exBeamPath 4 z hp hfn hz ?_ ?_⟩
  · intro m hm
    cases hm
    exact exAll_sequences
  · intro beam hb
    cases hb
    rw [(by decide +kernel : beamWidth exAllLimits exBeamLattice 34 = 17)]
    exact hwin
  · intro ls' n' z' hp' hfn' hz'
    rw [← addedComplete_run (L := exBeamLattice) hz, ← addedComplete_run (L := exBeamLattice) hz', ← runEnd_total rfl,
      ← runEnd_total rfl]
    obtain ⟨nd, h1, h2⟩ := hfn'
    refine (by decide +kernel : ∀ e ∈ exPaths exBeamLattice 3, (exBeamLattice.nodes.getD e.2 Node.new).final = true →
      (runEnd exAllLimits exBeamLattice e.1).total ≤ (runEnd exAllLimits exBeamLattice exBeamPath).total)
      _ (exBeam_paths hp') ?_
    rw [List.getD_eq_getElem?_getD, h1]
    exact h2

/-- C135: the limits are too tight when they are divided.  The same options find the best path when the relative limit is not
given, and only a worse one when it is. -/
theorem C135_condition :
    (∃ r, decode { exAllLimits with maxTokens := some 2, pruneExtraLimit := none } exBeamLattice = .ok r ∧
      r.1.head?.map Token.total = some (5 / 2)) ∧
    (∃ r, decode { exAllLimits with maxTokens := some 2 } exBeamLattice = .ok r ∧ r.1.head?.map Token.total = some (-1)) ∧
    ¬ PruningLeaves { exAllLimits with maxTokens := some 1, absMinMaxTokens := 0 } exBeamLattice := by
  refine ⟨by decide +kernel, by decide +kernel, fun h => ?_⟩
  exact absurd (h.2 1 rfl) (by decide +kernel)

end TheanoLM
