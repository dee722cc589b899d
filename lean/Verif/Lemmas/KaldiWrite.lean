import Verif.Lemmas.KaldiLattice
import Verif.Lemmas.Vocabulary
import Mathlib.Algebra.Group.Basic
/-!
# Lemmas about writing Kaldi lattices and reading them back
-/
namespace TheanoLM

variable {S : Type}

/-- The links in the order in which they are written. -/
def writeOrder (ks : List (KLink S)) : List (KLink S) :=
  (List.range (maxBound ks)).flatMap (fun n => ks.filter (startIs n))

theorem flatMap_filter_perm (ks : List (KLink S)) (N : Nat) :
    ((List.range N).flatMap (fun n => ks.filter (startIs n))).Perm (ks.filter (fun k => decide (k.startNode < N))) := by
  induction N with
  | zero => simp
  | succ N ih =>
    rw [List.range_succ, List.flatMap_append]
    refine (List.Perm.append ih (List.Perm.refl _)).trans ?_
    have h := List.filter_append_perm (fun k : KLink S => decide (k.startNode < N))
      (ks.filter (fun k => decide (k.startNode < N + 1)))
    rw [List.filter_filter, List.filter_filter] at h
    refine (List.Perm.of_eq ?_).trans h
    congr 1
    · apply List.filter_congr
      intro k _
      rw [Bool.eq_iff_iff]
      simp only [Bool.and_eq_true, decide_eq_true_eq]
      omega
    · simp only [List.flatMap_cons, List.flatMap_nil, List.append_nil]
      apply List.filter_congr
      intro k _
      rw [Bool.eq_iff_iff]
      simp only [startIs, Bool.and_eq_true, Bool.not_eq_true', decide_eq_true_eq, decide_eq_false_iff_not]
      omega

theorem writeOrder_perm (ks : List (KLink S)) : (writeOrder ks).Perm ks := by
  unfold writeOrder
  refine (flatMap_filter_perm ks _).trans (List.Perm.of_eq ?_)
  rw [List.filter_eq_self]
  intro k hk
  simpa using bound_start hk

theorem flatMap_filter_start (ks : List (KLink S)) (N n : Nat) :
    ((List.range N).flatMap (fun n => ks.filter (startIs n))).filter (startIs n) =
      if n < N then ks.filter (startIs n) else [] := by
  induction N with
  | zero => simp
  | succ N ih =>
    rw [List.range_succ, List.flatMap_append, List.filter_append, ih]
    simp only [List.flatMap_cons, List.flatMap_nil, List.append_nil, List.filter_filter]
    by_cases h1 : n = N
    · subst h1
      rw [if_neg (by omega), if_pos (by omega), List.nil_append]
      apply List.filter_congr
      intro k _; simp
    · have : ks.filter (fun a => startIs n a && startIs N a) = [] := by
        rw [List.filter_eq_nil_iff]
        intro k _
        simp only [startIs, Bool.and_eq_true, decide_eq_true_eq]
        omega
      rw [this, List.append_nil]
      by_cases h2 : n < N
      · rw [if_pos h2, if_pos (by omega)]
      · rw [if_neg h2, if_neg (by omega)]

theorem writeOrder_filter (ks : List (KLink S)) (n : Nat) :
    (writeOrder ks).filter (startIs n) = ks.filter (startIs n) := by
  unfold writeOrder
  rw [flatMap_filter_start]
  split
  · rfl
  · symm
    rw [List.filter_eq_nil_iff]
    intro k hk
    have := bound_start hk
    simp only [startIs, decide_eq_true_eq]
    omega

/-- The first link that is written starts from the least node from which links start. -/
theorem writeOrder_head (ks : List (KLink S)) (k : KLink S) (h : (writeOrder ks).head? = some k) :
    ∀ x ∈ ks, k.startNode ≤ x.startNode := by
  intro x hx
  have hsorted : ∀ N, ((List.range N).flatMap (fun n => ks.filter (startIs n))).Pairwise
      (fun a b => a.startNode ≤ b.startNode) := by
    intro N
    induction N with
    | zero => simp
    | succ N ih =>
      rw [List.range_succ, List.flatMap_append, List.pairwise_append]
      refine ⟨ih, ?_, ?_⟩
      · simp only [List.flatMap_cons, List.flatMap_nil, List.append_nil]
        rw [List.pairwise_iff_getElem]
        intro i j hi hj hij
        have h1 := List.mem_filter.mp (List.getElem_mem hi)
        have h2 := List.mem_filter.mp (List.getElem_mem hj)
        simp only [startIs, decide_eq_true_eq] at h1 h2
        omega
      · intro a ha b hb
        simp only [List.mem_flatMap, List.mem_range, List.mem_filter, startIs, decide_eq_true_eq, List.mem_cons,
          List.not_mem_nil, or_false] at ha hb
        obtain ⟨n, hn, _, hs⟩ := ha
        obtain ⟨m, rfl, _, hs2⟩ := hb
        omega
  have hs := hsorted (maxBound ks)
  have hx' := (writeOrder_perm ks).mem_iff.mpr hx
  change (writeOrder ks).Pairwise _ at hs
  cases hw : writeOrder ks with
  | nil => rw [hw] at h; cases h
  | cons y ys =>
    rw [hw] at h hs hx'
    simp only [List.head?_cons, Option.some.injEq] at h
    subst h
    rcases List.mem_cons.mp hx' with rfl | hm
    · exact le_refl _
    · exact (List.pairwise_cons.mp hs).1 x hm

/-! ## Text of the links -/

def wordIdOf (wordToId : Str → Option ℤ) (k : KLink S) : ℤ := (wordToId (k.word.getD "<eps>".toList)).getD 0

def weightText [Neg S] (T : NumText S) (k : KLink S) : Str :=
  T.showScore (-k.lm) ++ ',' :: (T.showScore (-k.ac) ++ ',' :: k.transitions)

def lineWords [Neg S] (T : NumText S) (wordToId : Str → Option ℤ) (k : KLink S) : List Str :=
  match k.endNode with
  | none => [T.showInt k.startNode, weightText T k]
  | some e => [T.showInt k.startNode, T.showInt e, T.showInt (wordIdOf wordToId k), weightText T k]

theorem wordToId_link {idToWord : List (Option Str)} {wordToId : Str → Option ℤ} (hm : WordMaps idToWord wordToId)
    {k : KLink S} (hk : k.WordOk idToWord) :
    ∃ i : Nat, wordToId (k.word.getD "<eps>".toList) = some (i : ℤ) ∧ wordIdOf wordToId k = (i : ℤ) ∧
      idToWord[i]? = some (some (k.word.getD "<eps>".toList)) := by
  have key : ∃ i : Nat, wordToId (k.word.getD "<eps>".toList) = some (i : ℤ) ∧
      idToWord[i]? = some (some (k.word.getD "<eps>".toList)) := by
    rcases hk with hn | ⟨_, w, hw, _, i, hi⟩
    · rw [hn, Option.getD_none]
      obtain ⟨j, hj⟩ := hm.eps
      obtain ⟨i, rfl, hi⟩ := hm.to_word _ _ hj
      exact ⟨i, hj, hi⟩
    · rw [hw, Option.getD_some]
      exact ⟨i, hm.to_id i w hi, hi⟩
  obtain ⟨i, h1, h2⟩ := key
  exact ⟨i, h1, by unfold wordIdOf; rw [h1]; rfl, h2⟩

theorem kaldiLinkLine_eq [Neg S] {T : NumText S} {idToWord : List (Option Str)} {wordToId : Str → Option ℤ}
    (hm : WordMaps idToWord wordToId) (u : Str) (initial : Nat) {ks : List (KLink S)} {k : KLink S} (hk : k ∈ ks)
    (hw : k.WordOk idToWord) :
    kaldiLinkLine T wordToId (latticeOf u initial ks) (KLink.finish (maxBound ks) k) =
      .ok (joinSp (lineWords T wordToId k)) := by
  unfold kaldiLinkLine lineWords
  have hwt : kaldiWeightText T (KLink.finish (maxBound ks) k) = .ok (weightText T k) := rfl
  cases he : k.endNode with
  | none =>
    have hf : ((latticeOf u initial ks).nodes.getD (KLink.finish (maxBound ks) k).endNode Node.new).final = true := by
      rw [List.getD_eq_getElem?_getD]
      simp only [KLink.finish, he, Option.getD_none, latticeOf_getElem_final, Option.getD_some]
    rw [if_pos hf, hwt]
    rfl
  | some e =>
    have hf : ((latticeOf u initial ks).nodes.getD (KLink.finish (maxBound ks) k).endNode Node.new).final = false := by
      rw [List.getD_eq_getElem?_getD]
      simp only [KLink.finish, he, Option.getD_some, latticeOf_getElem_lt _ _ _ (bound_end hk he)]
    rw [if_neg (by rw [hf]; exact Bool.false_ne_true)]
    obtain ⟨i, h1, h2, _⟩ := wordToId_link hm hw
    have h1' : wordToId ((KLink.finish (maxBound ks) k).word.getD "<eps>".toList) = some (i : ℤ) := h1
    rw [h1', hwt, h2]
    simp only [KLink.finish, he, Option.getD_some, joinSp]

theorem mapE_map {α β γ : Type} {f : β → Except Err γ} {g : α → β} {h : α → γ} {l : List α}
    (H : ∀ a ∈ l, f (g a) = .ok (h a)) : mapE f (l.map g) = .ok (l.map h) := by
  induction l with
  | nil => rfl
  | cons a as ih =>
    rw [List.map_cons]
    unfold mapE
    rw [H a (by simp), ih (fun x hx => H x (by simp [hx]))]
    rfl

theorem writeKaldi_eq [Neg S] {T : NumText S} {idToWord : List (Option Str)} {wordToId : Str → Option ℤ}
    (hm : WordMaps idToWord wordToId) (u : Str) (initial : Nat) {ks : List (KLink S)}
    (hw : ∀ k ∈ ks, k.WordOk idToWord) :
    writeKaldi T wordToId (latticeOf u initial ks) =
      .ok (u :: ((writeOrder ks).map (fun k => joinSp (lineWords T wordToId k)) ++ [[]])) := by
  have hlinks : (latticeOf u initial ks).nodes.flatMap
      (fun n => n.outLinks.filterMap (fun l => (latticeOf u initial ks).links[l]?)) =
      (writeOrder ks).map (KLink.finish (maxBound ks)) := by
    unfold latticeOf writeOrder regNodes
    rw [List.flatMap_append, List.flatMap_map, List.map_flatMap]
    simp only [List.flatMap_cons, List.flatMap_nil, List.filterMap_nil, List.append_nil]
    congr 1
    funext n
    rw [← idxs_map (startIs n) ks, List.map_filterMap]
    congr 1
    funext l
    simp
  unfold writeKaldi
  simp only [hlinks]
  rw [mapE_map (h := fun k => joinSp (lineWords T wordToId k))
    (fun k hk => kaldiLinkLine_eq hm u initial ((writeOrder_perm ks).mem_iff.mp hk)
      (hw k ((writeOrder_perm ks).mem_iff.mp hk)))]
  rfl

/-! ## Reading the lines back -/

theorem isSpace_comma : isSpace ',' = false := by decide

theorem weightText_text [Neg S] {T : NumText S} (hT : T.Faithful) {k : KLink S} (hk : k.Clean) :
    weightText T k ≠ [] ∧ ∀ c ∈ weightText T k, isSpace c = false := by
  refine ⟨by simp [weightText], ?_⟩
  intro c hc
  simp only [weightText, List.mem_append, List.mem_cons] at hc
  rcases hc with hc | rfl | hc | rfl | hc
  · exact ((hT.score_text _).2 c hc).1
  · exact isSpace_comma
  · exact ((hT.score_text _).2 c hc).1
  · exact isSpace_comma
  · exact hk.2 c hc

theorem kaldiWeight_text [AddGroup S] {T : NumText S} (hT : T.Faithful) {k : KLink S} (hk : k.Clean) :
    kaldiWeight T (weightText T k) = .ok (k.lm, k.ac, k.transitions) := by
  have hsc : ∀ x : S, kaldiScore T (some (T.showScore x)) = .ok x := by
    intro x
    unfold kaldiScore
    simp only
    rw [if_neg (hT.score_text x).1, hT.score x]
  have hnc : ∀ x : S, ',' ∉ T.showScore x := fun x h => ((hT.score_text x).2 _ h).2 rfl
  unfold kaldiWeight weightText
  rw [splitOnChar_append _ _ (hnc _), splitOnChar_append _ _ (hnc _), splitOnChar_none _ hk.1]
  simp only [List.getElem?_cons_zero, List.getElem?_cons_succ, hsc, neg_neg, Option.getD_some]

theorem lineWords_text [Neg S] {T : NumText S} (hT : T.Faithful) (wordToId : Str → Option ℤ) {k : KLink S}
    (hk : k.Clean) : ∀ w ∈ lineWords T wordToId k, w ≠ [] ∧ ∀ c ∈ w, isSpace c = false := by
  intro w hw
  unfold lineWords at hw
  split at hw
  · simp only [List.mem_cons, List.not_mem_nil, or_false] at hw
    rcases hw with rfl | rfl
    · exact hT.int_text _
    · exact weightText_text hT hk
  · simp only [List.mem_cons, List.not_mem_nil, or_false] at hw
    rcases hw with rfl | rfl | rfl | rfl
    · exact hT.int_text _
    · exact hT.int_text _
    · exact hT.int_text _
    · exact weightText_text hT hk

theorem kaldiWord_back {idToWord : List (Option Str)} {wordToId : Str → Option ℤ}
    (hm : WordMaps idToWord wordToId) {k : KLink S} (hw : k.WordOk idToWord) :
    kaldiWord idToWord (wordIdOf wordToId k) = .ok k.word := by
  obtain ⟨i, _, h2, h3⟩ := wordToId_link hm hw
  rw [h2]
  unfold kaldiWord
  rw [pyIdx_nat (List.getElem?_eq_some_iff.mp h3).1, Option.bind_some, h3]
  simp only
  rcases hw with hn | ⟨_, w, hw, hr, _⟩
  · rw [hn]; rfl
  · unfold Reserved at hr
    rw [not_or, not_or, not_or] at hr
    rw [hw, Option.getD_some, if_neg hr.1, if_neg hr.2.1, if_neg (by rw [not_or]; exact hr.2.2)]

theorem toNat_succ (n : Nat) : ((n : ℤ) + 1).toNat = n + 1 := by omega

theorem kaldiLine_back [AddGroup S] {T : NumText S} (hT : T.Faithful) {idToWord : List (Option Str)}
    {wordToId : Str → Option ℤ} (hm : WordMaps idToWord wordToId) {k : KLink S} (hk : k.Clean)
    (hw : k.WordOk idToWord) (init : Option ℤ) (ks : List (KLink S)) :
    kaldiLine T idToWord (lineWords T wordToId k) (stateOf init ks) =
      .ok (stateOf (some (init.getD k.startNode)) (ks ++ [k])) := by
  have hadd : ∀ N, N = maxBound (ks ++ [k]) → addKLink (canon (some (init.getD k.startNode)) N ks) k =
      stateOf (some (init.getD k.startNode)) (ks ++ [k]) := by
    rintro N rfl
    rw [addKLink_canon]
    rfl
  have hmb := maxBound_append ks k
  unfold KLink.bound at hmb
  unfold kaldiLine lineWords
  cases he : k.endNode with
  | none =>
    rw [he] at hmb
    simp only [Option.map_none, Option.getD_none] at hmb
    simp only [kaldiFields, hT.int, kaldiWeight_text hT hk, stateOf, canon, extend_stateOf, toNat_succ,
      regNodes_length]
    rw [pyIdx_nat (by omega)]
    simp only
    have hword : k.word = none := by
      rcases hw with h | ⟨h, _⟩
      · exact h
      · exact absurd he h
    have hke : (⟨k.startNode, none, none, k.ac, k.lm, k.transitions⟩ : KLink S) = k := by
      cases k; simp_all
    rw [hke]
    exact congrArg Except.ok (hadd _ (by omega))
  | some e =>
    rw [he] at hmb
    simp only [Option.map_some, Option.getD_some] at hmb
    simp only [kaldiFields, hT.int, kaldiWeight_text hT hk, stateOf, canon, extend_stateOf, toNat_succ]
    rw [extendNodes_canon _ _ _ (fun k hk => le_trans (le_maxBound hk) (le_max_left _ _)), regNodes_length,
      toNat_succ, pyIdx_nat (by omega), pyIdx_nat (by omega), kaldiWord_back hm hw]
    simp only
    have hke : (⟨k.startNode, some e, k.word, k.ac, k.lm, k.transitions⟩ : KLink S) = k := by
      cases k; simp_all
    rw [hke]
    exact congrArg Except.ok (hadd _ (by omega))

theorem kaldiLoop_back [AddGroup S] {T : NumText S} (hT : T.Faithful) {idToWord : List (Option Str)}
    {wordToId : Str → Option ℤ} (hm : WordMaps idToWord wordToId) : ∀ (ks' : List (KLink S)),
    (∀ k ∈ ks', k.Clean ∧ k.WordOk idToWord) → ∀ (init : Option ℤ) (ks : List (KLink S)),
    kaldiLoop T idToWord (ks'.map (fun k => joinSp (lineWords T wordToId k)) ++ [[]]) (stateOf init ks) =
      .ok (stateOf (init.or (ks'.head?.map (fun k => (k.startNode : ℤ)))) (ks ++ ks')) := by
  intro ks'
  induction ks' with
  | nil =>
    intro _ init ks
    have : pySplit (strip []) = [] := by decide
    simp [kaldiLoop, this]
  | cons k ks' ih =>
    intro h init ks
    have hk := h k (by simp)
    rw [List.map_cons, List.cons_append, kaldiLoop]
    simp only [pySplit_strip, pySplit_of_Words (joinSp_Words _ (lineWords_text hT wordToId hk.1))]
    rw [if_neg (by unfold lineWords; split <;> simp), kaldiLine_back hT hm hk.1 hk.2]
    simp only
    rw [ih (fun x hx => h x (by simp [hx]))]
    have happ : ks ++ [k] ++ ks' = ks ++ k :: ks' := by simp
    rw [happ]
    cases init <;> rfl

theorem readKaldi_back [AddGroup S] {T : NumText S} (hT : T.Faithful) {idToWord : List (Option Str)}
    {wordToId : Str → Option ℤ} (hm : WordMaps idToWord wordToId) (u : Str) {ks : List (KLink S)}
    (h : ∀ k ∈ ks, k.Clean ∧ k.WordOk idToWord) {k : KLink S} (hk : (writeOrder ks).head? = some k) :
    readKaldi T (u :: ((writeOrder ks).map (fun k => joinSp (lineWords T wordToId k)) ++ [[]])) idToWord =
      .ok (latticeOf (strip u) k.startNode (writeOrder ks)) := by
  unfold readKaldi
  simp only
  have hempty : (KaldiSt.empty : KaldiSt S) = stateOf none [] := rfl
  rw [hempty, kaldiLoop_back hT hm _ (fun x hx => h x ((writeOrder_perm ks).mem_iff.mp hx))]
  simp only [List.nil_append, hk, Option.map_some, Option.none_or]
  unfold kaldiFinish
  simp only [stateOf, canon, regNodes_length]
  rw [pyIdx_nat (bound_start (List.mem_of_mem_head? hk))]
  rfl

end TheanoLM
