import Verif.Lemmas.SentenceSum
import Verif.Props.ScoreBound
import Verif.Props.SamplerDistribution
import Mathlib.Topology.Algebra.InfiniteSum.Real
import Mathlib.Analysis.SpecificLimits.Basic
/-!
# C130: sentences have all the probability
-/
namespace TheanoLM
open MeasureTheory
set_option linter.unusedSectionVars false

section
variable {P : Parsers} {v : Vocab} {unkId : Nat} {env : CreateEnv ℝ} {a : Architecture} {layers : List (Created ℝ)} {output : Nat}

/-- The probabilities of the words that may follow, with a lower bound for the probability of one of them. -/
theorem next_probs (hv : Constructible P v) (hu : v.wordToId unk = some unkId) (hm : ModelOf env a v layers output)
    (hno : Normalized layers output) (hs : ∀ c ∈ layers, c.layer.Saturating) (useShortlist : Bool) (hprob : ∀ w, 0 ≤ probOf v w)
    (hsl : ¬ (scorerOf v unkId layers output useShortlist false).UsesShortlist) {last : Nat} (hlast : last < v.numShortlist)
    (hpos : 0 < (memberOf v last).2) :
    ∃ (q : List Nat → Nat → ℝ) (δ : ℝ), (∀ h w, 0 ≤ q h w) ∧ 0 < δ ∧ δ ≤ 1 ∧ ∀ h, h ≠ [] →
      (∀ w x, (scorerOf v unkId layers output useShortlist false).WordScore (sentenceBatch (h ++ [w])) (h.length - 1) 0 x ↔
        x = fltLog (q h w)) ∧ ∑ w ∈ Finset.range v.numShortlist, q h w = 1 ∧ δ ≤ q h last := by
  have hex : ∀ h : List Nat, ∃ p : Nat → ℝ, (∀ w, 0 ≤ p w) ∧ (h ≠ [] →
      (∀ w x, (scorerOf v unkId layers output useShortlist false).WordScore (sentenceBatch (h ++ [w])) (h.length - 1) 0 x ↔
        x = fltLog (p w)) ∧ ∑ w ∈ Finset.range v.numShortlist, p w = 1) := by
    intro h
    by_cases hne : h = []
    · exact ⟨fun _ => 0, fun _ => le_refl 0, fun h' => absurd hne h'⟩
    · obtain ⟨p, h1, h2, h3, -⟩ := C96_sum hv hu hm hno useShortlist false (fun h => by cases h) hprob hsl h hne
      exact ⟨p, h1, fun _ => ⟨h2, h3⟩⟩
  choose q q1 q2 using hex
  obtain ⟨L, hL⟩ := C109_score hv hu hm hs useShortlist false (fun h => by cases h)
  have key : ∀ h, h ≠ [] → Real.exp L ≤ q h last := by
    intro h hne
    obtain ⟨x, hx⟩ := C96_finite hv hu hm useShortlist hsl h hne last hpos
    have h1 := hL _ _ _ x (by have := List.length_pos_iff.mpr hne; simp [sentenceBatch]; omega) (by simp [sentenceBatch]) hx
    have h2 := ((q2 h hne).1 last _).mp hx
    have hq : 0 < q h last := by
      refine lt_of_le_of_ne (q1 h last) fun h0 => ?_
      rw [← h0] at h2
      unfold fltLog at h2
      rw [if_pos rfl] at h2
      cases h2
    unfold fltLog at h2
    rw [if_neg hq.ne', if_pos hq] at h2
    injection h2 with h2
    rw [h2] at h1
    exact (Real.le_log_iff_exp_le hq).mp h1
  refine ⟨q, Real.exp L, q1, Real.exp_pos L, ?_, fun h hne => ⟨(q2 h hne).1, (q2 h hne).2, key h hne⟩⟩
  refine (key [0] (by simp)).trans ?_
  rw [← (q2 [0] (by simp)).2]
  exact Finset.single_le_sum (fun w _ => q1 _ w) (Finset.mem_range.mpr hlast)

/-- C130.  When all LSTM layers have tanh activation, the probabilities of all the sentences of shortlist words sum to one: no probability
is left for texts that do not end.  The sentences with less than `n` words have the probability `1 - (1 - δ) ^ n` or more, for a positive
`δ` that depends only on the network and the vocabulary. -/
theorem C130 (hv : Constructible P v) (hu : v.wordToId unk = some unkId) (hm : ModelOf env a v layers output)
    (hno : Normalized layers output) (hf : ∀ c ∈ layers, c.layer.Forward) (hs : ∀ c ∈ layers, c.layer.Saturating)
    (useShortlist : Bool) (hprob : ∀ w, 0 ≤ probOf v w) (hsl : ¬ (scorerOf v unkId layers output useShortlist false).UsesShortlist)
    (first last : Nat) (hfirst : first < v.numWords) (hlast : last < v.numShortlist) (hpos : 0 < (memberOf v last).2) :
    ∃ p : List Nat → ℝ, (∀ ws, 0 ≤ p ws) ∧
      (∀ ws, (∀ w ∈ ws, w < v.numWords) → ∃ xs,
        List.Forall₂ (fun t x => (scorerOf v unkId layers output useShortlist false).WordScore
          (sentenceBatch (first :: ws ++ [last])) t 0 x) (List.range (ws.length + 1)) xs ∧ Flt.sum xs = fltLog (p ws)) ∧
      HasSum (fun ws : {ws : List Nat // ∀ w ∈ ws, w < v.numShortlist ∧ w ≠ last} => p ws) 1 ∧
      ∃ δ : ℝ, 0 < δ ∧ δ ≤ 1 ∧ ∀ n, ∃ F : Finset (List Nat),
        (∀ ws, ws ∈ F ↔ ws.length < n ∧ ∀ w ∈ ws, w < v.numShortlist ∧ w ≠ last) ∧ 1 - (1 - δ) ^ n ≤ ∑ ws ∈ F, p ws := by
  obtain ⟨n, ps, hvi⟩ := hv.inv
  have hsw : v.numShortlist ≤ v.numWords := hvi.short
  obtain ⟨q, δ, q1, d0, d1, q2⟩ := next_probs hv hu hm hno hs useShortlist hprob hsl hlast hpos
  have hmem : ∀ (n : Nat) (ws : List Nat), ws ∈ (Finset.range n).biUnion (wordLists ((Finset.range v.numShortlist).erase last)) ↔
      ws.length < n ∧ ∀ w ∈ ws, w < v.numShortlist ∧ w ≠ last := by
    intro n ws
    simp only [Finset.mem_biUnion, Finset.mem_range, mem_wordLists, Finset.mem_erase]
    constructor
    · rintro ⟨k, hk, rfl, h⟩
      exact ⟨hk, fun w hw => ⟨(h w hw).2, (h w hw).1⟩⟩
    · rintro ⟨h1, h2⟩
      exact ⟨_, h1, rfl, fun w hw => ⟨(h2 w hw).2, (h2 w hw).1⟩⟩
  have hlarge : ∀ n : Nat, 1 - (1 - δ) ^ n ≤
      ∑ ws ∈ (Finset.range n).biUnion (wordLists ((Finset.range v.numShortlist).erase last)), treeProb q last [first] ws := by
    intro n
    rw [Finset.sum_biUnion]
    · have h1 := treeProb_total (h := [first]) (Finset.mem_range.mpr hlast) (fun h hne => (q2 h hne).2.1) (by simp) n
      have h2 := prefProb_sum (h := [first]) q1 (Finset.mem_range.mpr hlast) (fun h hne => (q2 h hne).2.1) d1
        (fun h hne => (q2 h hne).2.2) (by simp) n
      linarith
    · intro i _ j _ hij
      refine Finset.disjoint_left.mpr fun ws hi hj => hij ?_
      rw [← (mem_wordLists.mp hi).1, (mem_wordLists.mp hj).1]
  have hsmall : ∀ F : Finset (List Nat), (∀ ws ∈ F, ∀ w ∈ ws, w < v.numShortlist ∧ w ≠ last) →
      ∑ ws ∈ F, treeProb q last [first] ws ≤ 1 := by
    intro F hF
    obtain ⟨m, hm'⟩ : ∃ m, ∀ ws ∈ F, ws.length ≤ m := ⟨F.sup List.length, fun ws hws => Finset.le_sup (f := List.length) hws⟩
    exact treeProb_sum q1 (Finset.mem_range.mpr hlast) (fun h hne => (q2 h hne).2.1) m F [first] (by simp) fun ws hws =>
      ⟨hm' ws hws, fun w hw => ⟨Finset.mem_range.mpr (hF ws hws w hw).1, (hF ws hws w hw).2⟩⟩
  refine ⟨treeProb q last [first], fun ws => treeProb_nonneg q1 last ws _, fun ws hws => ?_, ?_, δ, d0, d1, fun n =>
    ⟨_, hmem n, hlarge n⟩⟩
  · have hids : ∀ x ∈ first :: ws ++ [last], x < v.numWords := by
      intro x hx
      simp only [List.mem_append, List.mem_cons, List.not_mem_nil, or_false] at hx
      rcases hx with (rfl | hx) | rfl
      · exact hfirst
      · exact hws x hx
      · omega
    obtain ⟨xs, h1, h2⟩ := sentence_scores (sc := scorerOf v unkId layers output useShortlist false) q1
      (ids := first :: ws ++ [last]) (last := last) (fun h w rest he hne =>
        (score_prefix hv hu hm hf useShortlist false _ h rest w he hne hids _).mpr (((q2 h hne).1 w _).mpr rfl)) ws [first]
      (by simp) rfl
    refine ⟨xs, h1.imp fun t x hx => by simpa using hx, ?_⟩
    have := h2 1 zero_le_one
    rw [one_mul] at this
    rw [← this]
    unfold Flt.sum
    congr 1
    unfold fltLog
    rw [if_neg one_ne_zero, if_pos zero_lt_one, Real.log_one]
  · refine hasSum_of_isLUB_of_nonneg 1 (fun ws => treeProb_nonneg q1 last ws.1 _) ⟨?_, ?_⟩
    · rintro _ ⟨F, rfl⟩
      have := hsmall (F.map (Function.Embedding.subtype _)) (fun ws hws => by
        obtain ⟨x, _, rfl⟩ := Finset.mem_map.mp hws
        exact x.2)
      rwa [Finset.sum_map] at this
    · intro b hb
      by_contra hlt
      have hlt : b < 1 := lt_of_not_ge hlt
      obtain ⟨n, hn⟩ := exists_pow_lt_of_lt_one (show (0 : ℝ) < 1 - b by linarith) (show 1 - δ < 1 by linarith)
      have h1 := hlarge n
      have h2 := hb ⟨((Finset.range n).biUnion (wordLists ((Finset.range v.numShortlist).erase last))).subtype _, rfl⟩
      simp only at h2
      rw [Finset.sum_subtype_of_mem (fun ws => treeProb q last [first] ws) (fun ws hws => ((hmem n ws).mp hws).2)] at h2
      linarith

theorem prefProb_prod (q : List Nat → Nat → ℝ) (h : List Nat) (ws : List Nat) :
    prefProb q h ws = ∏ t ∈ Finset.Ico h.length (h ++ ws).length, q ((h ++ ws).take t) ((h ++ ws).getD t 0) := by
  induction ws using List.reverseRecOn with
  | nil => simp [prefProb]
  | append_singleton ws w ih =>
    rw [prefProb_snoc, ih, ← List.append_assoc, List.length_append (bs := [w]), List.length_singleton,
      Finset.prod_Ico_succ_top (by simp)]
    congr 1
    · refine Finset.prod_congr rfl fun t ht => ?_
      have := (Finset.mem_Ico.mp ht).2
      rw [List.take_append_of_le_length this.le, List.getD_eq_getElem?_getD, List.getD_eq_getElem?_getD, List.getElem?_append_left this]
    · rw [List.take_left, List.getD_eq_getElem?_getD, List.getElem?_concat_length]
      rfl

theorem fltLog_inj {x y : ℝ} (hx : 0 ≤ x) (hy : 0 ≤ y) (h : fltLog x = fltLog y) : x = y := by
  have h1 := fltLog_exp hx
  rw [h, fltLog_exp hy] at h1
  injection h1 with h1
  exact h1.symm

/-- C130, generating text.  The probability that no `</s>` is generated decreases exponentially with the length, whatever the seed is. -/
theorem C130_sampler (hv : Constructible P v) (hu : v.wordToId unk = some unkId) (hm : ModelOf env a v layers output)
    (hno : Normalized layers output) (hf : ∀ c ∈ layers, c.layer.Forward ∧ ∀ b k i filters, c.layer ≠ .glu b k i filters)
    (hs : ∀ c ∈ layers, c.layer.Saturating) (hprob : ∀ w, 0 ≤ probOf v w) {eosId : Nat} (he : v.wordToId eos = some eosId)
    (hpos : 0 < (memberOf v eosId).2) :
    ∃ δ : ℝ, 0 < δ ∧ δ ≤ 1 ∧ ∀ (pick : List ℝ → ℝ → Nat), DrawsFrom pick → ∀ (length n : Nat) (seed : Str) (tokens : List Str),
      Words seed tokens → 1 ≤ length → (∀ w ∈ tokens, w ∈ v.idToWord.take v.numShortlist) → ∀ s : Fin n,
        uniformNumbers (tokens.length + length) n {ω | ∃ sequences sequence,
          generate realAct ⟨false, false, fun _ _ _ => []⟩ (layers.map Created.layer) output v (drawsOf pick ω) length n seed =
            .ok sequences ∧
          sequences[s.val]? = some sequence ∧ eos ∉ sequence.drop (tokens.length + 1)} ≤ ENNReal.ofReal ((1 - δ) ^ (length - 1)) := by
  have hnd := constructible_nodup hv
  have hshort : ∀ w ∈ v.idToWord.take v.numShortlist, ∃ k, v.wordToId w = some k ∧ k < v.numShortlist := by
    intro w hw
    obtain ⟨j, hj, hw'⟩ := List.getElem_of_mem hw
    rw [List.getElem_take] at hw'
    rw [List.length_take] at hj
    exact ⟨j, (wordToId_iff hnd).mpr (List.getElem?_eq_some_iff.mpr ⟨by omega, hw'⟩), by omega⟩
  have hspecial : ∀ t, t = sos ∨ t = eos ∨ t = unk → ∃ k, v.wordToId t = some k ∧ k < v.numShortlist := by
    intro t ht
    obtain ⟨k, k1, k2, -⟩ := C12_special P v hv t ht
    exact ⟨k, k2, by simpa [Vocab.inShortlist, Vocab.numShortlist] using k1⟩
  have hlast : eosId < v.numShortlist := by
    obtain ⟨k, k1, k2⟩ := hspecial eos (.inr (.inl rfl))
    rw [he] at k1
    cases k1
    exact k2
  obtain ⟨q, δ, q1, d0, d1, q2⟩ := next_probs hv hu hm hno hs false hprob (fun h => by cases h.1) hlast hpos
  refine ⟨δ, d0, d1, fun pick hpick length n seed tokens hseed hlen htok s => ?_⟩
  -- the seed
  obtain ⟨seedIds, hsi⟩ : ∃ ids, List.Forall₂ (fun w i => v.wordToId w = some i ∧ i < v.numShortlist) (sos :: tokens) ids := by
    have : ∀ l : List Str, (∀ w ∈ l, ∃ k, v.wordToId w = some k ∧ k < v.numShortlist) →
        ∃ ids, List.Forall₂ (fun w i => v.wordToId w = some i ∧ i < v.numShortlist) l ids := by
      intro l
      induction l with
      | nil => exact fun _ => ⟨[], .nil⟩
      | cons w l ih =>
        intro hl
        obtain ⟨ids, h1⟩ := ih fun x hx => hl x (List.mem_cons_of_mem _ hx)
        obtain ⟨k, hk⟩ := hl w List.mem_cons_self
        exact ⟨k :: ids, .cons hk h1⟩
    refine this _ fun w hw => ?_
    rcases List.mem_cons.mp hw with rfl | hw
    · exact hspecial sos (.inl rfl)
    · exact hshort w (htok w hw)
  have hsl : seedIds.length = tokens.length + 1 := by rw [← hsi.length_eq]; rfl
  have hsne : seedIds ≠ [] := by intro h; rw [h] at hsl; simp at hsl
  have hslt : ∀ i ∈ seedIds, i < v.numShortlist := by
    intro i hi
    obtain ⟨k, hk, rfl⟩ := List.mem_iff_getElem.mp hi
    exact ((List.forall₂_iff_get.mp hsi).2 k (by rw [hsi.length_eq]; exact hk) hk).2
  have hsw : List.Forall₂ (fun w i => v.wordToId w = some i) (sos :: tokens) seedIds := hsi.imp fun _ _ h => h.1
  have huniq : ∀ {ws : List Str} {l l' : List Nat}, List.Forall₂ (fun w i => v.wordToId w = some i) ws l →
      List.Forall₂ (fun w i => v.wordToId w = some i) ws l' → l = l' := fun h1 h2 =>
    forall₂_unique (fun _ _ _ h1 h2 => by rw [h1] at h2; exact Option.some.inj h2) h1 h2
  -- the words that are generated
  let B := (Finset.range v.numShortlist).erase eosId
  let starts : List Nat → Fin n → List Nat := fun ws s' => if s' = s then seedIds ++ ws else seedIds
  let E : List Nat → Set (Fin (tokens.length + length) × Fin n × Bool → ℝ) := fun ws => {ω | ∃ sequences,
    generate realAct ⟨false, false, fun _ _ _ => []⟩ (layers.map Created.layer) output v (drawsOf pick ω) length n seed = .ok sequences ∧
    ∀ s' : Fin n, ∃ sequence ids, sequences[s'.val]? = some sequence ∧
      List.Forall₂ (fun w i => v.wordToId w = some i) sequence ids ∧ starts ws s' <+: ids}
  have hE : ∀ ws ∈ wordLists B (length - 1), uniformNumbers (tokens.length + length) n (E ws) = ENNReal.ofReal (prefProb q seedIds ws) := by
    intro ws hws
    obtain ⟨w1, w2⟩ := mem_wordLists.mp hws
    have hwl : (seedIds ++ ws).length = tokens.length + length := by rw [List.length_append, hsl, w1]; omega
    obtain ⟨prob, p1, p2⟩ := C128 hv hu hm hno hf false (fun h => by cases h) hprob hpick hseed hlen htok (T := tokens.length + length) rfl
      (starts ws)
      (fun s' i hi => by
        simp only [starts] at hi
        split at hi
        · rcases List.mem_append.mp hi with hi | hi
          · exact hslt i hi
          · exact Finset.mem_range.mp (Finset.mem_erase.mp (w2 i hi)).2
        · exact hslt i hi)
      (fun s' => by
        simp only [starts]
        split
        · rw [hwl]
        · rw [hsl]; omega)
      (fun s' => by
        have : (starts ws s').take (tokens.length + 1) = seedIds := by
          simp only [starts]
          split
          · rw [← hsl, List.take_left]
          · rw [← hsl, List.take_length]
        rw [this]
        exact hsw)
    refine Eq.trans p2 ?_
    rw [Finset.prod_eq_single s]
    · rw [prefProb_prod, ENNReal.ofReal_prod_of_nonneg fun t _ => q1 _ _, hsl]
      have hst : starts ws s = seedIds ++ ws := by simp [starts]
      rw [hst]
      refine Finset.prod_congr rfl fun t ht => ?_
      obtain ⟨t1, t2⟩ := Finset.mem_Ico.mp ht
      obtain ⟨r1, r2⟩ := p1 s t (by omega) (by rw [hst]; exact t2)
      rw [hst, List.take_succ_eq_append_getElem t2] at r2
      have hne : (seedIds ++ ws).take t ≠ [] := by
        intro h
        have := congrArg List.length h
        rw [List.length_take, List.length_nil] at this
        omega
      have hl : ((seedIds ++ ws).take t).length = t := by rw [List.length_take]; omega
      have := ((q2 _ hne).1 (seedIds ++ ws)[t] (fltLog (prob s t))).mp (by rw [hl]; exact r2)
      rw [fltLog_inj r1 (q1 _ _) this, List.getD_eq_getElem?_getD, List.getElem?_eq_getElem t2]
      rfl
    · intro s' _ hs'
      have : starts ws s' = seedIds := by simp [starts, hs']
      rw [this, hsl, Finset.Ico_self, Finset.prod_empty]
    · exact fun h => absurd (Finset.mem_univ s) h
  have hsub : {ω | ∃ sequences sequence,
      generate realAct ⟨false, false, fun _ _ _ => []⟩ (layers.map Created.layer) output v
        (drawsOf (T := tokens.length + length) (n := n) pick ω) length n seed = .ok sequences ∧
      sequences[s.val]? = some sequence ∧ eos ∉ sequence.drop (tokens.length + 1)} ⊆ ⋃ ws ∈ wordLists B (length - 1), E ws := by
    rintro ω ⟨sequences, sequence, hg, hq, hn⟩
    obtain ⟨g1, g2⟩ := C61 hv rfl hseed hlen hg
    have hids : ∀ (s' : Nat) (sequence : List Str), sequences[s']? = some sequence → sequence.length = tokens.length + length ∧
        ∃ ids, List.Forall₂ (fun w i => v.wordToId w = some i ∧ i < v.numShortlist) sequence ids ∧ ids.take (tokens.length + 1) = seedIds := by
      intro s' sequence hs'
      obtain ⟨l1, ⟨rest, l2⟩, cells, hc, -⟩ := g2 s' sequence hs'
      have hcells : List.Forall₂ (fun w i => v.wordToId w = some i ∧ i < v.numShortlist) sequence (cells.map InputCell.word) := by
        rw [List.forall₂_map_right_iff]
        exact hc.imp fun _ c hx => ⟨hx.1, (List.getElem?_eq_some_iff.mp hx.2.1).1⟩
      refine ⟨l1, _, hcells, ?_⟩
      have h1 := List.forall₂_take (tokens.length + 1) hcells
      rw [← l2, show tokens.length + 1 = (sos :: tokens).length from rfl, List.take_left] at h1
      exact huniq (h1.imp fun _ _ h => h.1) hsw
    obtain ⟨hl, ids, hi1, hi2⟩ := hids s.val sequence hq
    rw [Set.mem_iUnion₂]
    refine ⟨ids.drop (tokens.length + 1), mem_wordLists.mpr ⟨?_, fun w hw => ?_⟩, sequences, hg, fun s' => ?_⟩
    · rw [List.length_drop, ← hi1.length_eq, hl]; omega
    · have h1 := List.forall₂_drop (tokens.length + 1) hi1
      obtain ⟨k, hk, rfl⟩ := List.mem_iff_getElem.mp hw
      have hk' : k < (sequence.drop (tokens.length + 1)).length := by rw [h1.length_eq]; exact hk
      obtain ⟨e1, e2⟩ := (List.forall₂_iff_get.mp h1).2 k hk' hk
      refine Finset.mem_erase.mpr ⟨fun h => hn ?_, Finset.mem_range.mpr e2⟩
      simp only [List.get_eq_getElem] at e1
      rw [h] at e1
      have h2 := (wordToId_iff hnd).mp e1
      rw [(wordToId_iff hnd).mp he] at h2
      rw [Option.some.inj h2]
      exact List.getElem_mem hk'
    · by_cases hss : s' = s
      · subst hss
        refine ⟨sequence, ids, hq, hi1.imp fun _ _ h => h.1, ?_⟩
        have : starts (ids.drop (tokens.length + 1)) s' = ids := by
          simp only [starts, if_true]
          rw [← hi2, List.take_append_drop]
        rw [this]
      · have hs2 : s'.val < sequences.length := by rw [g1]; exact s'.2
        obtain ⟨-, ids', j1, j2⟩ := hids s'.val sequences[s'.val] (List.getElem?_eq_getElem hs2)
        refine ⟨_, ids', List.getElem?_eq_getElem hs2, j1.imp fun _ _ h => h.1, ?_⟩
        have : starts (ids.drop (tokens.length + 1)) s' = seedIds := by simp [starts, hss]
        rw [this, ← j2]
        exact List.take_prefix _ _
  calc _ ≤ uniformNumbers (tokens.length + length) n (⋃ ws ∈ wordLists B (length - 1), E ws) := measure_mono hsub
    _ ≤ ∑ ws ∈ wordLists B (length - 1), uniformNumbers (tokens.length + length) n (E ws) := measure_biUnion_finset_le _ _
    _ = ∑ ws ∈ wordLists B (length - 1), ENNReal.ofReal (prefProb q seedIds ws) := Finset.sum_congr rfl hE
    _ = ENNReal.ofReal (∑ ws ∈ wordLists B (length - 1), prefProb q seedIds ws) :=
      (ENNReal.ofReal_sum_of_nonneg fun ws _ => prefProb_nonneg q1 ws _).symm
    _ ≤ _ := ENNReal.ofReal_le_ofReal (prefProb_sum q1 (Finset.mem_range.mpr hlast) (fun h hne => (q2 h hne).2.1) d1
      (fun h hne => (q2 h hne).2.2) hsne _)

end

/-- A case that meets the hypotheses of `C130` and `C130_sampler`: sentences between `<s>` and `</s>`, and an LSTM network. -/
example : ∃ layers, ModelOf exampleModelEnv exampleLstm exScoreVocab layers 3 ∧ Normalized layers 3 ∧
    (∀ c ∈ layers, c.layer.Forward ∧ ∀ b k i filters, c.layer ≠ .glu b k i filters) ∧ (∀ c ∈ layers, c.layer.Saturating) ∧
    Constructible exParsers exScoreVocab ∧ exScoreVocab.wordToId unk = some 5 ∧ (∀ w, 0 ≤ probOf exScoreVocab w) ∧
    ¬ (scorerOf exScoreVocab 5 layers 3 false false).UsesShortlist ∧ exScoreVocab.wordToId sos = some 3 ∧ 3 < exScoreVocab.numWords ∧
    exScoreVocab.wordToId eos = some 4 ∧ 4 < exScoreVocab.numShortlist ∧ 0 < (memberOf exScoreVocab 4).2 := by
  obtain ⟨net, h1, h2, h3, h4, ⟨c, hc, b, u, hl⟩, h6⟩ : ∃ net, createNetwork exampleModelEnv exampleLstm = .ok net ∧ net.output = 3 ∧
      (∀ c ∈ net.layers, c.layer.Forward ∧ ∀ b k i filters, c.layer ≠ .glu b k i filters) ∧ (∀ c ∈ net.layers, c.layer.Saturating) ∧
      (∃ c, net.layers[3]? = some c ∧ ∃ b u, c.layer = .softmax b u) ∧ ∀ c ∈ net.layers, Connected net.layers c ∧ Placed c := by
    decide +kernel
  have hp : PriorFits exampleModelEnv exampleLstm := fun p hp => by cases hp
  have hs : SameNetwork net.layers net.layers := by
    have key := createNetwork_same (env := exampleModelEnv) (env' := exampleModelEnv)
      ⟨rfl, rfl, rfl, rfl, rfl, rfl, rfl, rfl⟩ (a := exampleLstm) (b := exampleLstm)
      (List.forall₂_same.mpr fun d hd => rfl) (List.forall₂_same.mpr fun d _ k => rfl) rfl hp hp
    rw [h1] at key
    cases key with
    | ok h => exact h.1
  refine ⟨net.layers, ⟨⟨net, h1, h2, hs, h6⟩, hp, rfl, rfl, fun i hi => ?_, c, hc, .inl ⟨b, u, hl⟩⟩,
    normalized_softmax ⟨c, b, u, hc, hl⟩, h3, h4, exScoreVocab_constructible, by decide +kernel, exScoreVocab_nonneg, (fun h => by cases h.1),
    by decide +kernel, by decide +kernel, by decide +kernel, by decide +kernel, by decide +kernel⟩
  have : exScoreVocab.wordToId unk = some 5 := by decide +kernel
  rw [this] at hi
  cases hi
  rfl

end TheanoLM
