import Verif.Props.SamplerModel
import Verif.Props.NetworkBestPath
import Verif.Props.Cost
import Verif.Props.SamplerDistributionSpec
/-!
# C128: the probability of generated text
-/
namespace TheanoLM
open MeasureTheory
set_option linter.unusedSectionVars false

/-- The words as they are in a mini-batch. -/
def cellsOf (v : Vocab) (ids : List Nat) : List InputCell := ids.map fun i => ⟨i, (v.classOf[i]?).getD 0, true⟩

theorem cellsOf_word (v : Vocab) (ids : List Nat) : (cellsOf v ids).map InputCell.word = ids := by
  unfold cellsOf
  rw [List.map_map]
  exact List.map_id'' (fun _ => rfl) ids

theorem cells_eq {v : Vocab} {cells : List InputCell} (hc : ∀ c ∈ cells, v.classOf[c.word]? = some c.cls ∧ c.mask = true) :
    cells = cellsOf v (cells.map InputCell.word) := by
  unfold cellsOf
  rw [List.map_map]
  conv => lhs; rw [← List.map_id cells]
  refine List.map_congr_left fun c hm => ?_
  obtain ⟨h1, h2⟩ := hc c hm
  show c = ⟨c.word, (v.classOf[c.word]?).getD 0, true⟩
  rw [h1, ← h2]
  rfl

/-- The position of the word in the list of the words of its class. -/
def indexInClass (v : Vocab) (w : Nat) : Nat := (idsOf v.classOf ((v.classOf[w]?).getD 0)).idxOf w

theorem in_class {P : Parsers} {v : Vocab} (hv : Constructible P v) {w : Nat} (hw : w < v.numShortlist) :
    ∃ c wc q, v.classOf[w]? = some c ∧ v.classes[c]? = some wc ∧ wc.probs[indexInClass v w]? = some (w, q) ∧
      (∀ i q', wc.probs[i]? = some (w, q') → i = indexInClass v w) ∧ (wc.probs.map fun x => ((x.2 : ℚ) : ℝ)).sum = 1 ∧
      ((∀ w, 0 ≤ probOf v w) → ∀ x ∈ wc.probs.map fun x => ((x.2 : ℚ) : ℝ), 0 ≤ x) := by
  obtain ⟨n, ps, hvi⟩ := id hv.inv
  obtain ⟨c, hc⟩ : ∃ c, v.classOf[w]? = some c := ⟨_, List.getElem?_eq_getElem hw⟩
  have hcn : c < n := hvi.lt c (List.mem_of_getElem? hc)
  have hk : v.classes[c]? = some ⟨c, (idsOf v.classOf c).map (fun i => (i, ps.getD i 0))⟩ := by
    rw [hvi.cls]; exact classList_get hcn
  have hidx : indexInClass v w = (idsOf v.classOf c).idxOf w := by unfold indexInClass; rw [hc]; rfl
  have hmem : w ∈ idsOf v.classOf c := mem_idsOf.mpr hc
  have hlt := List.idxOf_lt_length_iff.mpr hmem
  have hprob : ∀ i ∈ idsOf v.classOf c, ps.getD i 0 = probOf v i := by
    intro i hi
    have : i < v.numShortlist := (List.getElem?_eq_some_iff.mp (mem_idsOf.mp hi)).1
    unfold probOf
    rw [hvi.getWordProb this]
  refine ⟨c, _, ps.getD w 0, hc, hk, ?_, ?_, ?_, ?_⟩
  · rw [hidx, List.getElem?_map, List.getElem?_eq_getElem hlt, List.getElem_idxOf hlt]
    rfl
  · intro i q' hi
    rw [List.getElem?_map, Option.map_eq_some_iff] at hi
    obtain ⟨j, hj, he⟩ := hi
    have : j = w := congrArg Prod.fst he
    subst this
    rw [hidx]
    obtain ⟨hi', he'⟩ := List.getElem?_eq_some_iff.mp hj
    have := (idsOf_nodup v.classOf c).idxOf_getElem i hi'
    rw [he'] at this
    exact this.symm
  · have h13 := ((C13_sums P v hv).2 c (by rw [hvi.numClasses]; exact hcn)).2
    rw [membersOf_eq] at h13
    rw [List.map_map]
    have : ((idsOf v.classOf c).map ((fun x : Nat × ℚ => ((x.2 : ℚ) : ℝ)) ∘ fun i => (i, ps.getD i 0))) =
        ((idsOf v.classOf c).map (probOf v)).map (fun q : ℚ => (q : ℝ)) := by
      rw [List.map_map]
      refine List.map_congr_left fun i hi => ?_
      show ((ps.getD i 0 : ℚ) : ℝ) = ((probOf v i : ℚ) : ℝ)
      rw [hprob i hi]
    rw [this]
    have hs : ∀ l : List ℚ, (l.map (fun q : ℚ => (q : ℝ))).sum = ((l.sum : ℚ) : ℝ) := by
      intro l
      induction l with
      | nil => simp
      | cons x l ih => rw [List.map_cons, List.sum_cons, List.sum_cons, ih, Rat.cast_add]
    rw [hs, h13]
    norm_num
  · intro hnn x hx
    rw [List.map_map] at hx
    obtain ⟨i, hi, rfl⟩ := List.mem_map.mp hx
    show (0 : ℝ) ≤ ((ps.getD i 0 : ℚ) : ℝ)
    rw [hprob i hi]
    exact_mod_cast hnn i

section
variable {P : Parsers} {v : Vocab} {unkId : Nat} {env : CreateEnv ℝ} {a : Architecture} {layers : List (Created ℝ)} {output : Nat}

/-- The probabilities of the classes after the given words. -/
noncomputable def nextProbs (v : Vocab) (layers : List (Created ℝ)) (output : Nat) (excludeUnk : Bool) (ids : List Nat) : List ℝ :=
  match evalNetwork realAct ⟨false, excludeUnk, fun _ _ _ => []⟩ (layers.map Created.layer) (oneSequence (cellsOf v ids)) with
  | .ok out => match posAt out (ids.length - 1) 0 with
    | some x => (x.probs output).getD []
    | none => []
  | .error _ => []

theorem nextProbs_eq {excludeUnk : Bool} {ids : List Nat} {out : List (List (Entry ℝ))} {x : Entry ℝ} {p : List ℝ}
    (h1 : evalNetwork realAct ⟨false, excludeUnk, fun _ _ _ => []⟩ (layers.map Created.layer) (oneSequence (cellsOf v ids)) = .ok out)
    (h2 : posAt out (ids.length - 1) 0 = some x) (h3 : x.outs[output]? = some (.probs p)) :
    nextProbs v layers output excludeUnk ids = p := by
  have hp : x.probs output = some p := by unfold Entry.probs; rw [h3]
  unfold nextProbs
  rw [h1]
  simp only
  rw [h2]
  simp only
  rw [hp]
  rfl

theorem nextProbs_spec (hv : Constructible P v) (hu : v.wordToId unk = some unkId) (hm : ModelOf env a v layers output)
    (hno : Normalized layers output) {excludeUnk : Bool} (hx : excludeUnk = true → 2 ≤ v.numClasses) {ids : List Nat} (hne : ids ≠ [])
    (hids : ∀ i ∈ ids, i < v.numShortlist) :
    (nextProbs v layers output excludeUnk ids).length = v.numClasses ∧ (∀ x ∈ nextProbs v layers output excludeUnk ids, 0 ≤ x) ∧
      (nextProbs v layers output excludeUnk ids).sum = 1 ∧
      ∀ w < v.numShortlist, ∀ c wc q, v.classes[c]? = some wc → wc.probs[indexInClass v w]? = some (w, q) → 0 ≤ q →
        (scorerOf v unkId layers output false excludeUnk).WordScore (sentenceBatch (ids ++ [w])) (ids.length - 1) 0
          (fltLog (drawProb (nextProbs v layers output excludeUnk ids) c q)) := by
  have hall : ∀ c ∈ cellsOf v ids, v.classOf[c.word]? = some c.cls ∧ c.mask = true := by
    intro c hc
    obtain ⟨i, hi, rfl⟩ := List.mem_map.mp hc
    refine ⟨?_, rfl⟩
    have : i < v.classOf.length := hids i hi
    simp only
    rw [List.getElem?_eq_getElem this]
    rfl
  have hcells := sampled_cells hv hu hall
  rw [cellsOf_word] at hcells
  have hlen : (cellsOf v ids).length = ids.length := by simp [cellsOf]
  rw [hlen] at hcells
  have hpos : 0 < v.numClasses := lt_of_le_of_lt (Nat.zero_le _) (memberOf_class hv hu 0).1
  have hl : 0 < ids.length := List.length_pos_iff.mpr hne
  obtain ⟨out, o1, o2, o3, o4⟩ := output_distribution hm hx hpos (batch := oneSequence (cellsOf v ids)) (n := 1)
    (by rw [hcells]; exact rect_table) (by rw [hcells]; exact cells_valid hv hu hm.words hm.classes _ _)
  obtain ⟨x, hxp⟩ : ∃ x, posAt out (ids.length - 1) 0 = some x := by
    have ho : ids.length - 1 < out.length := by
      rw [o2]; simp only [oneSequence, List.length_map, hlen]; omega
    unfold posAt
    rw [List.getElem?_eq_getElem ho]
    have := o3 _ (List.getElem_mem ho)
    exact ⟨_, List.getElem?_eq_getElem (by rw [this]; exact Nat.zero_lt_one)⟩
  obtain ⟨p, hp, p1, p2, p3, _⟩ := o4 _ _ x hxp
  have hout : x.outs[output]? = some (.probs p) := by
    unfold Entry.probs at hp
    split at hp
    · cases hp; assumption
    · cases hp
  have heq := nextProbs_eq (v := v) (layers := layers) (output := output) o1 hxp hout
  rw [heq]
  refine ⟨p1, p2, p3 hno, fun w hw c wc q hc hwp hq => ?_⟩
  have hmem := class_member hv hu hc hwp
  have hword : (sentenceBatch (ids ++ [w])).word (ids.length - 1 + 1) 0 = w := by
    show (ids ++ [w]).getD (ids.length - 1 + 1) 0 = w
    rw [show ids.length - 1 + 1 = ids.length by omega, List.getD, List.getElem?_append_right (le_refl _)]
    simp
  have hnet : (scorerOf v unkId layers output false excludeUnk).networkScore (sentenceBatch (ids ++ [w]))
      (ids.length - 1) 0 = fltLog (p.getD c 0) := by
    rw [score_of_output (p := p) (e := x) (out := out) (by simp [sentenceBatch]; omega) (by simp [sentenceBatch])
      (by rw [prefix_cells, ← hcells]; exact o1) hxp hp, hword, hmem]
    have hlt' : c < p.length := by
      rw [p1]
      exact (List.getElem?_eq_some_iff.mp hc).1
    simp [List.getD, List.getElem?_eq_getElem hlt']
  have hpn : 0 ≤ p.getD c 0 := by
    by_cases hc : c < p.length
    · simp only [List.getD, List.getElem?_eq_getElem hc, Option.getD_some]
      exact p2 _ (List.getElem_mem hc)
    · simp [List.getD, List.getElem?_eq_none (show p.length ≤ c by omega)]
  refine ⟨fun _ => ?_, fun h' => absurd h'.1 Bool.false_ne_true⟩
  rw [hnet, hword]
  have hlog : (scorerOf v unkId layers output false excludeUnk).log (memberOf (scorerOf v unkId layers output false
      excludeUnk).vocab w).2 = fltLog (q : ℝ) := by
    show fltLog ((memberOf v w).2 : ℝ) = _
    rw [hmem]
  rw [hlog, fltLog_mul hpn (by exact_mod_cast hq)]
  rfl

/-- The generated words begin with the given ones if all the draws are the right ones. -/
theorem prefix_iff {excludeUnk : Bool} {R : Draws ℝ} {s K : Nat} {cells : List InputCell}
    (hc : ∀ c ∈ cells, v.classOf[c.word]? = some c.cls ∧ c.mask = true)
    (hd : ∀ t, K < t → t < cells.length →
      DrawnAt realAct ⟨false, excludeUnk, fun _ _ _ => []⟩ (layers.map Created.layer) output v R s cells t)
    (hv : Constructible P v) {st : List Nat} (hst : ∀ i ∈ st, i < v.numShortlist)
    (h0 : st.take (K + 1) = (cells.map InputCell.word).take (K + 1)) (hl : st.length ≤ cells.length) :
    st <+: cells.map InputCell.word ↔ ∀ t w, K < t → st[t]? = some w → ∀ c wc, v.classOf[w]? = some c → v.classes[c]? = some wc →
      R.cls t s (nextProbs v layers output excludeUnk (st.take t)) = c ∧ R.word t s wc = indexInClass v w := by
  have hstep : ∀ t w, K < t → st[t]? = some w → st.take t = (cells.map InputCell.word).take t →
      ∃ c wc q, cells[t]? = some c ∧ c.cls = R.cls t s (nextProbs v layers output excludeUnk (st.take t)) ∧ v.classes[c.cls]? = some wc ∧
        wc.probs[R.word t s wc]? = some (c.word, q) := by
    intro t w ht hw hpre
    have htl : t < st.length := (List.getElem?_eq_some_iff.mp hw).1
    obtain ⟨out, x, p, c, wc, q, d1, d2, d3, d4, d5, d6, d7⟩ := hd t ht (by omega)
    have hcl : cells.take t = cellsOf v (st.take t) := by
      have := cells_eq (v := v) (cells := cells.take t) fun c hm => hc c (List.mem_of_mem_take hm)
      rw [List.map_take, ← hpre] at this
      exact this
    rw [hcl] at d1
    have := nextProbs_eq (v := v) (layers := layers) (output := output) d1
      (by rw [List.length_take, Nat.min_eq_left (by omega)]; exact d2) d3
    exact ⟨c, wc, q, d4, by rw [this]; exact d5, d6, d7⟩
  constructor
  · intro hp t w ht hw c wc h1 h2
    have htl : t < st.length := (List.getElem?_eq_some_iff.mp hw).1
    obtain ⟨rest, hr⟩ := hp
    have hpre : st.take t = (cells.map InputCell.word).take t := by
      rw [← hr, List.take_append_of_le_length (by omega)]
    obtain ⟨c', wc', q, g1, g2, g3, g4⟩ := hstep t w ht hw hpre
    have hcw : c'.word = w := by
      have : (cells.map InputCell.word)[t]? = some w := by
        rw [← hr, List.getElem?_append_left htl]; exact hw
      rw [List.getElem?_map, g1] at this
      simpa using this
    have hcc := (hc c' (List.mem_of_getElem? g1)).1
    rw [hcw, h1] at hcc
    injection hcc with hcc
    rw [← hcc, h2] at g3
    injection g3 with g3
    subst g3
    refine ⟨by rw [← g2, hcc], ?_⟩
    obtain ⟨c2, wc2, q2, k1, k2, _, k4, _⟩ := in_class hv (hst w (List.mem_of_getElem? hw))
    rw [h1] at k1
    injection k1 with k1
    rw [← k1, h2] at k2
    injection k2 with k2
    subst k2
    rw [hcw] at g4
    exact k4 _ _ g4
  · intro h
    have key : ∀ t, t ≤ st.length → st.take t = (cells.map InputCell.word).take t := by
      intro t
      induction t with
      | zero => intro _; simp
      | succ t ih =>
        intro ht
        by_cases hK : t ≤ K
        · have := congrArg (List.take (t + 1)) h0
          rw [List.take_take, List.take_take, Nat.min_eq_left (by omega)] at this
          exact this
        · have hpre := ih (by omega)
          have hw : st[t]? = some st[t] := List.getElem?_eq_getElem (by omega)
          obtain ⟨c, wc, q, g1, g2, g3, g4⟩ := hstep t _ (by omega) hw hpre
          obtain ⟨c2, wc2, q2, k1, k2, k3, _⟩ := in_class hv (hst _ (List.mem_of_getElem? hw))
          obtain ⟨e1, e2⟩ := h t _ (by omega) hw c2 wc2 k1 k2
          rw [e1] at g2
          rw [g2, k2] at g3
          injection g3 with g3
          subst g3
          rw [e2, k3] at g4
          injection g4 with g4
          have hcw : st[t] = c.word := congrArg Prod.fst g4
          rw [List.take_add_one, List.take_add_one, hpre, hw, List.getElem?_map, g1, hcw]
          rfl
    have := key st.length (le_refl _)
    rw [List.take_length] at this
    rw [this]
    exact List.take_prefix _ _

theorem uniform01_univ : uniform01 Set.univ = 1 := by
  unfold uniform01
  rw [Measure.restrict_apply_univ, Real.volume_Ico]
  norm_num

instance : IsProbabilityMeasure uniform01 := ⟨uniform01_univ⟩

/-- C128: the probability that all the generated sequences begin with given words is the product of the probabilities that text scoring gives
to the words.  The seed, which is given, has no effect on the probability. -/
theorem C128 (hv : Constructible P v) (hu : v.wordToId unk = some unkId) (hm : ModelOf env a v layers output)
    (hno : Normalized layers output) (hf : ∀ c ∈ layers, c.layer.Forward ∧ ∀ b k i filters, c.layer ≠ .glu b k i filters)
    (excludeUnk : Bool) (hx : excludeUnk = true → 2 ≤ v.numClasses) (hprob : ∀ w, 0 ≤ probOf v w)
    {pick : List ℝ → ℝ → Nat} (hpick : DrawsFrom pick)
    {length n : Nat} {seed : Str} {tokens : List Str} (hseed : Words seed tokens) (hlen : 1 ≤ length)
    (htok : ∀ w ∈ tokens, w ∈ v.idToWord.take v.numShortlist) {T : Nat} (hT : T = tokens.length + length)
    (starts : Fin n → List Nat) (hst : ∀ s, ∀ i ∈ starts s, i < v.numShortlist) (hfit : ∀ s, (starts s).length ≤ T)
    (h0 : ∀ s, List.Forall₂ (fun w i => v.wordToId w = some i) (sos :: tokens) ((starts s).take (tokens.length + 1))) :
    ∃ prob : Fin n → Nat → ℝ,
      (∀ s t, tokens.length < t → t < (starts s).length → 0 ≤ prob s t ∧
        (scorerOf v unkId layers output false excludeUnk).WordScore (sentenceBatch ((starts s).take (t + 1))) (t - 1) 0
          (fltLog (prob s t))) ∧
      uniformNumbers T n {ω | ∃ sequences,
          generate realAct ⟨false, excludeUnk, fun _ _ _ => []⟩ (layers.map Created.layer) output v (drawsOf pick ω) length n seed =
            .ok sequences ∧
          ∀ s : Fin n, ∃ sequence ids, sequences[s.val]? = some sequence ∧
            List.Forall₂ (fun w i => v.wordToId w = some i) sequence ids ∧ starts s <+: ids} =
        ∏ s : Fin n, ∏ t ∈ Finset.Ico (tokens.length + 1) (starts s).length, ENNReal.ofReal (prob s t) := by
  subst hT
  let K := tokens.length
  let box : Fin (K + length) × Fin n × Bool → Set ℝ := fun i => {u | ∀ w, K < i.1.val → (starts i.2.1)[i.1.val]? = some w →
    ∀ c wc, v.classOf[w]? = some c → v.classes[c]? = some wc →
      if i.2.2 = true then pick (wc.probs.map fun x => ((x.2 : ℚ) : ℝ)) u = indexInClass v w
      else pick (nextProbs v layers output excludeUnk ((starts i.2.1).take i.1.val)) u = c}
  -- the probabilities of the draws
  have hex : ∀ (s : Fin n) (t : Fin (K + length)), ∃ x : ℝ, (K < t.val → t.val < (starts s).length → 0 ≤ x ∧
      (scorerOf v unkId layers output false excludeUnk).WordScore (sentenceBatch ((starts s).take (t.val + 1))) (t.val - 1) 0 (fltLog x)) ∧
      uniform01 (box (t, s, true)) * uniform01 (box (t, s, false)) =
        if K < t.val ∧ t.val < (starts s).length then ENNReal.ofReal x else 1 := by
    intro s t
    by_cases hin : K < t.val ∧ t.val < (starts s).length
    · obtain ⟨hK, hl⟩ := hin
      have hw : (starts s)[t.val]? = some (starts s)[t.val] := List.getElem?_eq_getElem hl
      generalize (starts s)[t.val] = w at hw
      have hws := hst s w (List.mem_of_getElem? hw)
      obtain ⟨c, wc, q, k1, k2, k3, _, k5, k6⟩ := in_class hv hws
      have hne : (starts s).take t.val ≠ [] := by
        intro e
        have := congrArg List.length e
        rw [List.length_take, List.length_nil] at this
        omega
      obtain ⟨p1, p2, p3, p4⟩ := nextProbs_spec hv hu hm hno hx hne (fun i hi => hst s i (List.mem_of_mem_take hi))
      have hq : 0 ≤ q := by
        have := k6 hprob (q : ℝ) (List.mem_map.mpr ⟨_, List.mem_of_getElem? k3, rfl⟩)
        exact_mod_cast this
      have hcl : c < (nextProbs v layers output excludeUnk ((starts s).take t.val)).length := by
        rw [p1]; exact (List.getElem?_eq_some_iff.mp k2).1
      have hpc : 0 ≤ (nextProbs v layers output excludeUnk ((starts s).take t.val)).getD c 0 := by
        rw [List.getD_eq_getElem?_getD, List.getElem?_eq_getElem hcl]
        exact p2 _ (List.getElem_mem hcl)
      refine ⟨drawProb (nextProbs v layers output excludeUnk ((starts s).take t.val)) c q, fun _ _ => ⟨?_, ?_⟩, ?_⟩
      · exact mul_nonneg hpc (by exact_mod_cast hq)
      · have := p4 w hws c wc q k2 k3 hq
        rw [List.length_take, Nat.min_eq_left (le_of_lt hl)] at this
        rw [List.take_add_one, hw]
        exact this
      · rw [if_pos ⟨hK, hl⟩]
        have e1 : box (t, s, true) = {u | pick (wc.probs.map fun x => ((x.2 : ℚ) : ℝ)) u = indexInClass v w} := by
          ext u
          simp only [box, Set.mem_ofPred_eq, if_true]
          constructor
          · intro h; exact h w hK hw c wc k1 k2
          · intro h w' _ hw' c' wc' h1 h2
            rw [hw] at hw'; cases hw'
            rw [k1] at h1; cases h1
            rw [k2] at h2; cases h2
            exact h
        have e2 : box (t, s, false) = {u | pick (nextProbs v layers output excludeUnk ((starts s).take t.val)) u = c} := by
          ext u
          simp only [box, Set.mem_ofPred_eq, Bool.false_eq_true, if_false]
          constructor
          · intro h; exact h w hK hw c wc k1 k2
          · intro h w' _ hw' c' wc' h1 h2
            rw [hw] at hw'; cases hw'
            rw [k1] at h1; cases h1
            exact h
        rw [e1, e2, hpick.law _ (k6 hprob) k5 (indexInClass v w) (q : ℝ) (by rw [List.getElem?_map, k3]; rfl),
          hpick.law _ p2 p3 c _ (List.getElem?_eq_getElem hcl), mul_comm]
        unfold drawProb
        rw [ENNReal.ofReal_mul hpc, List.getD_eq_getElem?_getD, List.getElem?_eq_getElem hcl]
        rfl
    · refine ⟨0, fun h1 h2 => absurd ⟨h1, h2⟩ hin, ?_⟩
      rw [if_neg hin]
      have : ∀ b, box (t, s, b) = Set.univ := by
        intro b
        ext u
        simp only [box, Set.mem_ofPred_eq, Set.mem_univ, iff_true]
        intro w hK hw
        exact absurd ⟨hK, (List.getElem?_eq_some_iff.mp hw).1⟩ hin
      rw [this, this, uniform01_univ, one_mul]
  choose f hf1 hf2 using hex
  let prob : Fin n → Nat → ℝ := fun s t => if h : t < K + length then f s ⟨t, h⟩ else 0
  have hpt : ∀ (s : Fin n) (t : Fin (K + length)), prob s t.val = f s t := by
    intro s t
    simp only [prob]
    rw [dif_pos t.isLt]
  refine ⟨prob, fun s t h1 h2 => ?_, ?_⟩
  · have ht : t < K + length := lt_of_lt_of_le h2 (hfit s)
    rw [hpt s ⟨t, ht⟩]
    exact hf1 s ⟨t, ht⟩ h1 h2
  -- the event
  have hevent : {ω | ∃ sequences,
          generate realAct ⟨false, excludeUnk, fun _ _ _ => []⟩ (layers.map Created.layer) output v
            (drawsOf (T := K + length) (n := n) pick ω) length n seed = .ok sequences ∧
          ∀ s : Fin n, ∃ sequence ids, sequences[s.val]? = some sequence ∧
            List.Forall₂ (fun w i => v.wordToId w = some i) sequence ids ∧ starts s <+: ids} = Set.pi Set.univ box := by
    ext ω
    obtain ⟨sequences, hs⟩ := C98_succeeds hv hu hm hf excludeUnk hx (R := drawsOf (T := K + length) (n := n) pick ω) (length := length)
      (n := n) hseed hlen htok (fun t s p hp => hpick.lt _ _ hp) (fun t s c hc => by
        have := hpick.lt (c.probs.map fun x => ((x.2 : ℚ) : ℝ)) (numberAt ω t s true) (by simpa using hc)
        rwa [List.length_map] at this)
    obtain ⟨g1, g2⟩ := C61 hv rfl hseed hlen hs
    have hget : ∀ s : Fin n, ∃ sequence, sequences[s.val]? = some sequence :=
      fun s => ⟨_, List.getElem?_eq_getElem (by rw [g1]; exact s.isLt)⟩
    -- one sequence
    have hone : ∀ (s : Fin n) (sequence : List Str), sequences[s.val]? = some sequence →
        ((∃ ids, List.Forall₂ (fun w i => v.wordToId w = some i) sequence ids ∧ starts s <+: ids) ↔
          ∀ (t : Fin (K + length)) (b : Bool), ω (t, s, b) ∈ box (t, s, b)) := by
      intro s sequence hseq
      obtain ⟨hl, hpre, cells, hc, hd⟩ := g2 s.val sequence hseq
      have hall : ∀ c ∈ cells, v.classOf[c.word]? = some c.cls ∧ c.mask = true := by
        intro c hmem
        obtain ⟨k, hk, rfl⟩ := List.mem_iff_getElem.mp hmem
        have := (List.forall₂_iff_get.mp hc).2 k (by rw [hc.length_eq]; exact hk) hk
        exact this.2
      have hids : List.Forall₂ (fun w i => v.wordToId w = some i) sequence (cells.map InputCell.word) := by
        rw [List.forall₂_map_right_iff]
        exact hc.imp fun _ _ hx => hx.1
      have huniq : ∀ {ws : List Str} {l l' : List Nat}, List.Forall₂ (fun w i => v.wordToId w = some i) ws l →
          List.Forall₂ (fun w i => v.wordToId w = some i) ws l' → l = l' := by
        intro ws l l' h1
        induction h1 generalizing l' with
        | nil => intro h2; cases h2; rfl
        | cons h _ ih =>
          intro h2
          cases h2 with
          | cons h' h2 =>
            rw [h] at h'
            cases h'
            rw [ih h2]
      have hlen' : cells.length = K + length := by rw [← hc.length_eq, hl]
      have htake : (starts s).take (K + 1) = (cells.map InputCell.word).take (K + 1) := by
        refine huniq (h0 s) ?_
        obtain ⟨rest, hr⟩ := hpre
        have hh := List.forall₂_take (K + 1) hids
        rw [← hr, List.take_append_of_le_length (by simp [K]), List.take_of_length_le (by simp [K])] at hh
        exact hh
      have hiff := prefix_iff (v := v) (layers := layers) (output := output) (excludeUnk := excludeUnk) (K := K)
        (R := drawsOf (T := K + length) (n := n) pick ω) (s := s.val) hall (fun t ht1 ht2 => hd t ht1 (by rw [hl]; omega)) hv (hst s) htake
        (by rw [hlen']; exact hfit s)
      have hnum : ∀ (t : Fin (K + length)) (b : Bool), numberAt ω t.val s.val b = ω (t, s, b) := by
        intro t b
        unfold numberAt
        rw [dif_pos ⟨t.isLt, s.isLt⟩]
      constructor
      · rintro ⟨ids, h1, h2⟩
        rw [huniq h1 hids] at h2
        intro t b w hK hw c wc k1 k2
        obtain ⟨e1, e2⟩ := hiff.mp h2 t.val w hK hw c wc k1 k2
        simp only [drawsOf, hnum] at e1 e2
        cases b with
        | true => simpa using e2
        | false => simpa using e1
      · intro h
        refine ⟨_, hids, hiff.mpr ?_⟩
        intro t w hK hw c wc k1 k2
        have ht : t < K + length := lt_of_lt_of_le (List.getElem?_eq_some_iff.mp hw).1 (hfit s)
        have e1 := h ⟨t, ht⟩ false w hK hw c wc k1 k2
        have e2 := h ⟨t, ht⟩ true w hK hw c wc k1 k2
        have h1 := hnum ⟨t, ht⟩ false
        have h2 := hnum ⟨t, ht⟩ true
        simp only at h1 h2 e1 e2
        simp only [drawsOf, h1, h2]
        exact ⟨by simpa using e1, by simpa using e2⟩
    simp only [Set.mem_ofPred_eq, Set.mem_pi, Set.mem_univ, forall_const]
    constructor
    · rintro ⟨sequences', hs', h⟩ ⟨t, s, b⟩
      rw [hs] at hs'
      cases hs'
      obtain ⟨sequence, ids, k1, k2, k3⟩ := h s
      exact (hone s sequence k1).mp ⟨ids, k2, k3⟩ t b
    · intro h
      refine ⟨sequences, hs, fun s => ?_⟩
      obtain ⟨sequence, hseq⟩ := hget s
      obtain ⟨ids, k2, k3⟩ := (hone s sequence hseq).mpr fun t b => h (t, s, b)
      exact ⟨sequence, ids, hseq, k2, k3⟩
  refine (congrArg (uniformNumbers (K + length) n) hevent).trans ?_
  unfold uniformNumbers
  rw [Measure.pi_pi, Fintype.prod_prod_type]
  simp only [Fintype.prod_prod_type, Fintype.prod_bool, hf2]
  rw [Finset.prod_comm]
  refine Finset.prod_congr rfl fun s _ => ?_
  have e : ∀ t : Fin (K + length), (if K < t.val ∧ t.val < (starts s).length then ENNReal.ofReal (f s t) else 1) =
      (fun t : Nat => if K < t ∧ t < (starts s).length then ENNReal.ofReal (prob s t) else 1) t.val := by
    intro t
    simp only [hpt]
  rw [Finset.prod_congr rfl fun t _ => e t,
    Fin.prod_univ_eq_prod_range (fun t : Nat => if K < t ∧ t < (starts s).length then ENNReal.ofReal (prob s t) else 1) (K + length),
    ← Finset.prod_filter]
  refine Finset.prod_congr ?_ fun _ _ => rfl
  ext t
  simp only [Finset.mem_filter, Finset.mem_range, Finset.mem_Ico]
  have := hfit s
  constructor
  · rintro ⟨_, h1, h2⟩; exact ⟨h1, h2⟩
  · rintro ⟨h1, h2⟩; exact ⟨lt_of_lt_of_le h2 this, h1, h2⟩

theorem fltLog_prod (l : List ℝ) (h : ∀ x ∈ l, 0 ≤ x) : Flt.sum (l.map fltLog) = fltLog l.prod := by
  induction l with
  | nil =>
    unfold fltLog
    rw [List.prod_nil, if_neg one_ne_zero, if_pos one_pos, Real.log_one]
    rfl
  | cons x l ih =>
    rw [List.map_cons, Flt.sum_cons, ih fun y hy => h y (List.mem_cons_of_mem _ hy), List.prod_cons,
      fltLog_mul (h x (by simp)) (List.prod_nonneg fun y hy => h y (List.mem_cons_of_mem _ hy))]

theorem fltLog_eq_fin {x z : ℝ} (h : fltLog x = .fin z) : x = Real.exp z := by
  unfold fltLog at h
  split at h
  · cases h
  · split at h
    · rename_i hx
      cases h
      rw [Real.exp_log hx]
    · cases h

theorem written_of_prefix {before sequence : List Str} (hb : eos ∉ before) (h : before ++ [eos] <+: sequence) :
    sampleWritten sequence = before ++ [eos] := by
  obtain ⟨rest, rfl⟩ := h
  unfold sampleWritten
  have : (before ++ [eos] ++ rest).idxOf? eos = some before.length := by
    rw [List.idxOf?, List.findIdx?_eq_some_iff_getElem]
    refine ⟨by simp, by simp, fun j hj => ?_⟩
    rw [List.getElem_append_left (by simp; omega), List.getElem_append_left hj]
    simp only [beq_iff_eq]
    intro e
    exact hb (e ▸ List.getElem_mem hj)
  rw [this]
  simp only
  rw [List.take_append_of_le_length (by simp), List.take_of_length_le (by simp)]

/-- Text scoring gives a log probability to every sentence of words that have a positive probability in their class. -/
theorem C128_scored (hv : Constructible P v) (hu : v.wordToId unk = some unkId) (hm : ModelOf env a v layers output)
    (hf : ∀ c ∈ layers, c.layer.Forward) (words : List Str) (ids : List Nat)
    (hids : List.Forall₂ (IdOf v false unkId) ([sos] ++ words ++ [eos]) ids) (hlt : ∀ i ∈ ids, i < v.numWords)
    (hpos : ∀ i ∈ ids.tail, 0 < (memberOf v i).2) :
    ∃ z, TextScore (scorerOf v unkId layers output false false) words z := by
  have hl : ids.length = words.length + 2 := by
    rw [← hids.length_eq]
    simp only [List.length_append, List.length_cons, List.length_nil]
    omega
  have hex : ∀ t, ∃ x : ℝ, t < words.length + 1 →
      (scorerOf v unkId layers output false false).WordScore (sentenceBatch ids) t 0 (.fin x) := by
    intro t
    by_cases ht : t < words.length + 1
    · have hlt' : t + 1 < ids.length := by omega
      have e : ids = ids.take (t + 1) ++ ids[t + 1] :: ids.drop (t + 2) := by
        rw [List.getElem_cons_drop, List.take_append_drop]
      have hlen' : (ids.take (t + 1)).length = t + 1 := by rw [List.length_take]; omega
      have hne : ids.take (t + 1) ≠ [] := by
        intro h
        rw [h] at hlen'
        simp at hlen'
      have hmem : ids[t + 1] ∈ ids.tail := by
        rw [List.mem_iff_getElem]
        exact ⟨t, by rw [List.length_tail]; omega, by rw [List.getElem_tail]⟩
      obtain ⟨x, hx⟩ := C96_finite hv hu hm false (by intro h; exact Bool.false_ne_true h.1) (ids.take (t + 1)) hne (ids[t + 1])
        (hpos _ hmem)
      have key := (score_prefix hv hu hm hf false false ids _ _ _ e hne hlt (.fin x)).mpr hx
      rw [hlen'] at key
      exact ⟨x, fun _ => key⟩
    · exact ⟨0, fun h => absurd h ht⟩
  choose x hx using hex
  refine ⟨((List.range (words.length + 1)).map x).sum, ids, ((List.range (words.length + 1)).map x).map Flt.fin, hids, ?_, sum_fin _⟩
  rw [List.map_map, List.forall₂_map_right_iff, List.forall₂_same]
  intro t ht
  exact hx t (List.mem_range.mp ht)

/-- C128, sentences.  The probability that a sentence is generated is the exponential of the log probability that text scoring gives to the
sentence. -/
theorem C128_sentence (hv : Constructible P v) (hu : v.wordToId unk = some unkId) (hm : ModelOf env a v layers output)
    (hno : Normalized layers output) (hf : ∀ c ∈ layers, c.layer.Forward ∧ ∀ b k i filters, c.layer ≠ .glu b k i filters)
    (excludeUnk : Bool) (hx : excludeUnk = true → 2 ≤ v.numClasses) (hprob : ∀ w, 0 ≤ probOf v w)
    {pick : List ℝ → ℝ → Nat} (hpick : DrawsFrom pick) {length : Nat} (words : List Str)
    (hshort : ∀ w ∈ [sos] ++ words ++ [eos], w ∈ v.idToWord.take v.numShortlist) (heos : eos ∉ words) (hlen : words.length + 2 ≤ length)
    (z : ℝ) (hz : TextScore (scorerOf v unkId layers output false excludeUnk) words z) :
    uniformNumbers length 1 {ω | ∃ sequence,
        generate realAct ⟨false, excludeUnk, fun _ _ _ => []⟩ (layers.map Created.layer) output v (drawsOf pick ω) length 1 [] =
          .ok [sequence] ∧
        sampleWritten sequence = [sos] ++ words ++ [eos]} = ENNReal.ofReal (Real.exp z) := by
  obtain ⟨ids, xs, hids, hxs, hsum⟩ := hz
  have hnd := constructible_nodup hv
  -- the words of the sentence
  have hget : ∀ w i, v.wordToId w = some i ↔ v.idToWord[i]? = some w := fun w i => wordToId_iff hnd
  have hids' : List.Forall₂ (fun w i => v.wordToId w = some i ∧ i < v.numShortlist) ([sos] ++ words ++ [eos]) ids := by
    rw [List.forall₂_iff_get] at hids ⊢
    refine ⟨hids.1, fun k h1 h2 => ?_⟩
    have hk := hids.2 k h1 h2
    have hmem := hshort _ (List.get_mem ([sos] ++ words ++ [eos]) ⟨k, h1⟩)
    obtain ⟨j, hj, he⟩ := List.mem_iff_getElem.mp hmem
    rw [List.length_take] at hj
    rw [List.getElem_take] at he
    have hj' : v.idToWord[j]? = some (([sos] ++ words ++ [eos]).get ⟨k, h1⟩) := by
      rw [List.getElem?_eq_getElem (by omega), he]
    have e : ids.get ⟨k, h2⟩ = j := idOf_unique hnd hk (.known _ _ hj' (fun h => by cases h))
    rw [e]
    exact ⟨(hget _ _).mpr hj', by omega⟩
  have hword : List.Forall₂ (fun w i => v.wordToId w = some i) ([sos] ++ words ++ [eos]) ids := hids'.imp fun _ _ h => h.1
  have hlt : ∀ i ∈ ids, i < v.numShortlist := by
    intro i hi
    obtain ⟨k, hk, rfl⟩ := List.mem_iff_getElem.mp hi
    exact ((List.forall₂_iff_get.mp hids').2 k (by rw [hids'.length_eq]; exact hk) hk).2
  have hl : ids.length = words.length + 2 := by
    rw [← hids.length_eq]
    simp only [List.length_append, List.length_cons, List.length_nil]
    omega
  have huniq : ∀ {ws : List Str} {l l' : List Nat}, List.Forall₂ (fun w i => v.wordToId w = some i) ws l →
      List.Forall₂ (fun w i => v.wordToId w = some i) ws l' → l = l' := fun h1 h2 =>
    forall₂_unique (fun _ _ _ h1 h2 => by rw [h1] at h2; exact Option.some.inj h2) h1 h2
  have huniq' : ∀ {ws ws' : List Str} {l : List Nat}, List.Forall₂ (fun w i => v.wordToId w = some i) ws l →
      List.Forall₂ (fun w i => v.wordToId w = some i) ws' l → ws = ws' := by
    intro ws ws' l h1 h2
    refine forall₂_unique (R := fun i w => v.wordToId w = some i) (fun i x y h1 h2 => ?_) h1.flip h2.flip
    rw [hget] at h1 h2
    rw [h1] at h2
    exact Option.some.inj h2
  obtain ⟨prob, hp1, hp2⟩ := C128 hv hu hm hno hf excludeUnk hx hprob hpick (length := length) (n := 1) (seed := []) (tokens := [])
    (.nil _ (by simp)) (by omega) (by simp) (T := length) (by simp) (fun _ => ids) (fun _ => hlt) (fun _ => by rw [hl]; exact hlen) (fun _ => by
      have := List.forall₂_take 1 hword
      simpa using this)
  simp only [List.length_nil, zero_add] at hp1 hp2
  -- the event
  have hevent : {ω | ∃ sequence,
        generate realAct ⟨false, excludeUnk, fun _ _ _ => []⟩ (layers.map Created.layer) output v
          (drawsOf (T := length) (n := 1) pick ω) length 1 [] = .ok [sequence] ∧
        sampleWritten sequence = [sos] ++ words ++ [eos]} =
      {ω | ∃ sequences,
          generate realAct ⟨false, excludeUnk, fun _ _ _ => []⟩ (layers.map Created.layer) output v
            (drawsOf (T := length) (n := 1) pick ω) length 1 [] = .ok sequences ∧
          ∀ s : Fin 1, ∃ sequence ids', sequences[s.val]? = some sequence ∧
            List.Forall₂ (fun w i => v.wordToId w = some i) sequence ids' ∧ ids <+: ids'} := by
    ext ω
    simp only [Set.mem_ofPred_eq]
    constructor
    · rintro ⟨sequence, hs, hw⟩
      refine ⟨[sequence], hs, fun s => ?_⟩
      obtain ⟨-, g2⟩ := C61 hv rfl (.nil _ (by simp) : Words [] []) (by omega) hs
      obtain ⟨-, -, cells, hc, -⟩ := g2 0 sequence rfl
      have hcells : List.Forall₂ (fun w i => v.wordToId w = some i) sequence (cells.map InputCell.word) := by
        rw [List.forall₂_map_right_iff]
        exact hc.imp fun _ _ hx => hx.1
      refine ⟨sequence, _, ?_, hcells, ?_⟩
      · have : s = 0 := Subsingleton.elim _ _
        subst this
        rfl
      · have hpre := (C61_written sequence).1
        rw [hw] at hpre
        obtain ⟨rest, hr⟩ := hpre
        rw [← hr] at hcells
        have hh := List.forall₂_take ([sos] ++ words ++ [eos]).length hcells
        rw [List.take_left] at hh
        rw [huniq hword hh]
        exact List.take_prefix _ _
    · rintro ⟨sequences, hs, h⟩
      obtain ⟨g1, -⟩ := C61 hv rfl (.nil _ (by simp) : Words [] []) (by omega) hs
      obtain ⟨sequence, hseq⟩ := List.length_eq_one_iff.mp g1
      subst hseq
      refine ⟨sequence, hs, ?_⟩
      obtain ⟨sequence', ids', k1, k2, rest, k3⟩ := h 0
      cases k1
      rw [← k3] at k2
      have hpre : [sos] ++ words ++ [eos] <+: sequence := by
        have hh := List.forall₂_take ids.length k2
        rw [List.take_left] at hh
        rw [huniq' hword hh]
        exact List.take_prefix _ _
      refine written_of_prefix ?_ hpre
      simp only [List.singleton_append, List.mem_cons, not_or]
      exact ⟨by decide, heos⟩
  rw [hevent, hp2, Fin.prod_univ_one]
  -- the product
  have hprod : ∏ t ∈ Finset.Ico 1 ids.length, ENNReal.ofReal (prob 0 t) =
      ENNReal.ofReal ((List.range (words.length + 1)).map fun t => prob 0 (t + 1)).prod := by
    rw [Finset.prod_Ico_eq_prod_range, hl, ← ENNReal.ofReal_prod_of_nonneg]
    · rw [show words.length + 2 - 1 = words.length + 1 by omega]
      congr 1
      generalize words.length + 1 = m
      induction m with
      | zero => rfl
      | succ m ih =>
        rw [Finset.prod_range_succ, List.range_succ, List.map_append, List.prod_append, ih]
        simp [Nat.add_comm]
    · intro i hi
      rw [Finset.mem_range] at hi
      exact (hp1 0 (1 + i) (by omega) (by omega)).1
  rw [hprod]
  congr 1
  apply fltLog_eq_fin
  rw [← fltLog_prod, ← hsum]
  · congr 1
    rw [List.map_map]
    symm
    refine forall₂_unique (fun t x y hx hy => C38_word_score_unique _ _ t 0 x y hx hy) hxs ?_
    rw [List.forall₂_map_right_iff, List.forall₂_same]
    intro t ht
    rw [List.mem_range] at ht
    have hw := (hp1 0 (t + 1) (by omega) (by omega)).2
    have hlt' : t + 1 < ids.length := by omega
    have e : ids = ids.take (t + 1) ++ ids[t + 1] :: ids.drop (t + 2) := by
      rw [List.getElem_cons_drop, List.take_append_drop]
    have hlen' : (ids.take (t + 1)).length = t + 1 := by rw [List.length_take]; omega
    have hne : ids.take (t + 1) ≠ [] := by
      intro h
      rw [h] at hlen'
      simp at hlen'
    obtain ⟨n, ps, hvi⟩ := hv.inv
    have key := (score_prefix hv hu hm (fun c hc => (hf c hc).1) false excludeUnk ids _ _ _ e hne
      (fun x hx => lt_of_lt_of_le (hlt x hx) hvi.short) (fltLog (prob 0 (t + 1)))).mpr (by
        rw [hlen']
        rw [List.take_add_one (i := t + 1), List.getElem?_eq_getElem hlt'] at hw
        exact hw)
    rw [hlen'] at key
    exact key
  · intro x hx
    obtain ⟨t, ht, rfl⟩ := List.mem_map.mp hx
    rw [List.mem_range] at ht
    exact (hp1 0 (t + 1) (by omega) (by omega)).1

end
/-- A way of drawing from a distribution, by inverting the cumulative distribution function. -/
noncomputable def invPick : List ℝ → ℝ → Nat
  | [], _ => 0
  | [_], _ => 0
  | x :: y :: rest, u => if u < x then 0 else 1 + invPick (y :: rest) (u - x)

theorem invPick_lt : ∀ (p : List ℝ) (u : ℝ), p ≠ [] → invPick p u < p.length
  | [], _, h => absurd rfl h
  | [_], _, _ => by simp [invPick]
  | x :: y :: rest, u, _ => by
    unfold invPick
    have := invPick_lt (y :: rest) (u - x) (by simp)
    split
    · simp
    · rw [List.length_cons]
      omega

theorem invPick_iff : ∀ (p : List ℝ) (_ : ∀ x ∈ p, 0 ≤ x) (u : ℝ) (_ : 0 ≤ u) (_ : u < p.sum) (i : Nat) (_ : i < p.length),
    invPick p u = i ↔ (p.take i).sum ≤ u ∧ u < (p.take (i + 1)).sum
  | [], _, _, _, _, _, h => by simp at h
  | [x], _, u, h0, h1, i, hi => by
    have : i = 0 := by simpa using hi
    subst this
    simp only [List.sum_cons, List.sum_nil, add_zero] at h1
    simp [invPick, h0, h1]
  | x :: y :: rest, hp, u, h0, h1, i, hi => by
    have hx := hp x (by simp)
    unfold invPick
    by_cases hu : u < x
    · rw [if_pos hu]
      cases i with
      | zero => simp [h0, hu]
      | succ j =>
        rw [List.take_succ_cons, List.sum_cons]
        have hs : 0 ≤ ((y :: rest).take j).sum := List.sum_nonneg fun z hz => hp z (List.mem_cons_of_mem _ (List.mem_of_mem_take hz))
        constructor
        · intro h; omega
        · rintro ⟨h, _⟩; linarith
    · rw [if_neg hu]
      cases i with
      | zero =>
        constructor
        · intro h; omega
        · rintro ⟨_, h⟩
          simp at h
          exact absurd h hu
      | succ j =>
        have ih := invPick_iff (y :: rest) (fun z hz => hp z (List.mem_cons_of_mem _ hz)) (u - x) (by linarith)
          (by rw [List.sum_cons] at h1; linarith) j (by simpa using hi)
        rw [List.take_succ_cons, List.take_succ_cons, List.sum_cons, List.sum_cons, show 1 + invPick (y :: rest) (u - x) = j + 1 ↔
          invPick (y :: rest) (u - x) = j by omega, ih]
        constructor
        · rintro ⟨h, h'⟩; constructor <;> linarith
        · rintro ⟨h, h'⟩; constructor <;> linarith

/-- C128.  There is a way of drawing that has the right distribution. -/
theorem C128_draws : DrawsFrom invPick := by
  refine ⟨invPick_lt, fun p hp hs i x hi => ?_⟩
  obtain ⟨hl, rfl⟩ := List.getElem?_eq_some_iff.mp hi
  have e : {u | invPick p u = i} ∩ Set.Ico 0 1 = Set.Ico (p.take i).sum (p.take (i + 1)).sum := by
    ext u
    simp only [Set.mem_inter_iff, Set.mem_ofPred_eq, Set.mem_Ico]
    constructor
    · rintro ⟨h, h0, h1⟩
      exact (invPick_iff p hp u h0 (by rw [hs]; exact h1) i hl).mp h
    · rintro ⟨h1, h2⟩
      have h0 : 0 ≤ (p.take i).sum := List.sum_nonneg fun z hz => hp z (List.mem_of_mem_take hz)
      have h3 : (p.take (i + 1)).sum ≤ 1 := by
        rw [← hs]
        conv => rhs; rw [← List.take_append_drop (i + 1) p, List.sum_append]
        have : 0 ≤ (p.drop (i + 1)).sum := List.sum_nonneg fun z hz => hp z (List.mem_of_mem_drop hz)
        linarith
      have h4 : 0 ≤ u ∧ u < 1 := ⟨by linarith, by linarith⟩
      exact ⟨(invPick_iff p hp u h4.1 (by rw [hs]; exact h4.2) i hl).mpr ⟨h1, h2⟩, h4⟩
  unfold uniform01
  rw [Measure.restrict_apply' measurableSet_Ico, e, Real.volume_Ico]
  congr 1
  rw [List.take_add_one, List.sum_append, List.getElem?_eq_getElem hl]
  simp

/-- A recurrent network, a sentence of two words, and its probability. -/
example : ∃ layers, ModelOf exampleModelEnv exampleRecurrent exScoreVocab layers 3 ∧
    ∃ z, TextScore (scorerOf exScoreVocab 5 layers 3 false false) ["a".toList, "c".toList] z ∧
      uniformNumbers 10 1 {ω | ∃ sequence,
        generate realAct ⟨false, false, fun _ _ _ => []⟩ (layers.map Created.layer) 3 exScoreVocab (drawsOf invPick ω) 10 1 [] =
          .ok [sequence] ∧
        sampleWritten sequence = [sos, "a".toList, "c".toList, eos]} = ENNReal.ofReal (Real.exp z) := by
  obtain ⟨layers, h1, h2, h3, _⟩ := exampleRecurrent_model
  have hu : exScoreVocab.wordToId unk = some 5 := by decide +kernel
  have hz : ∃ z, TextScore (scorerOf exScoreVocab 5 layers 3 false false) ["a".toList, "c".toList] z := by
    have hk : ∀ w i, exScoreVocab.idToWord[i]? = some w → IdOf exScoreVocab false 5 w i := fun w i h => .known w i h (fun h => by cases h)
    refine C128_scored exScoreVocab_constructible hu h1 (fun c hc => (h2 c hc).1) _ [3, 1, 2, 4]
      (.cons (hk _ _ (by decide +kernel)) (.cons (hk _ _ (by decide +kernel)) (.cons (hk _ _ (by decide +kernel))
        (.cons (hk _ _ (by decide +kernel)) .nil)))) (by decide +kernel) (by decide +kernel)
  obtain ⟨z, hz⟩ := hz
  exact ⟨layers, h1, z, hz, C128_sentence exScoreVocab_constructible hu h1 (normalized_softmax h3) h2 false (fun h => by cases h)
    exScoreVocab_nonneg C128_draws _ (by decide +kernel) (by decide) (by decide) z hz⟩

end TheanoLM
