import Verif.Props.KaldiSpec
import Verif.Lemmas.Lattice
import Mathlib.Data.List.Forall2
/-!
# Lemmas about reading and writing Kaldi lattices
-/
namespace TheanoLM

variable {S : Type}

/-! ## Text -/

theorem splitOnChar_ne_nil (sep : Char) (s : Str) : splitOnChar sep s ≠ [] := by
  cases s with
  | nil => simp [splitOnChar]
  | cons c cs =>
    unfold splitOnChar
    split
    · simp
    · split <;> simp

theorem splitOnChar_commaFields (s : Str) : CommaFields s (splitOnChar ',' s) := by
  induction s with
  | nil => exact .last [] (by simp)
  | cons c cs ih =>
    unfold splitOnChar
    split
    · rename_i h
      subst h
      exact .cons [] cs _ (by simp) ih
    · rename_i h
      generalize splitOnChar ',' cs = fs at ih
      cases ih with
      | last w hw => exact .last _ (by simp [hw, Ne.symm h])
      | cons w rest fields hw hr => exact .cons (c :: w) rest fields (by simp [hw, Ne.symm h]) hr

theorem splitOnChar_none (w : Str) (h : ',' ∉ w) : splitOnChar ',' w = [w] := by
  induction w with
  | nil => rfl
  | cons c cs ih =>
    have hc : ¬ c = ',' := fun e => h (by simp [e])
    unfold splitOnChar
    rw [if_neg hc, ih (fun hm => h (List.mem_cons_of_mem _ hm))]

theorem splitOnChar_append (w rest : Str) (h : ',' ∉ w) :
    splitOnChar ',' (w ++ ',' :: rest) = w :: splitOnChar ',' rest := by
  induction w with
  | nil => simp [splitOnChar]
  | cons c cs ih =>
    have hc : ¬ c = ',' := fun e => h (by simp [e])
    rw [List.cons_append, splitOnChar, if_neg hc, ih (fun hm => h (List.mem_cons_of_mem _ hm))]

theorem commaFields_unique {s : Str} {fs : List Str} (h : CommaFields s fs) : splitOnChar ',' s = fs := by
  induction h with
  | last w hw => exact splitOnChar_none w hw
  | cons w rest fields hw _ ih => rw [splitOnChar_append _ _ hw, ih]

theorem commaFields_mem {s : Str} {fs : List Str} (h : CommaFields s fs) :
    ∀ f ∈ fs, ',' ∉ f ∧ ∀ c ∈ f, c ∈ s := by
  induction h with
  | last w hw => intro f hf; rw [List.mem_singleton.mp hf]; exact ⟨hw, fun c h => h⟩
  | cons w rest fields hw _ ih =>
    intro f hf
    rcases List.mem_cons.mp hf with rfl | hf
    · exact ⟨hw, fun c h => List.mem_append_left _ h⟩
    · obtain ⟨h1, h2⟩ := ih f hf
      exact ⟨h1, fun c h => List.mem_append_right _ (List.mem_cons_of_mem _ (h2 c h))⟩

theorem dropWhile_decomp (l : Str) : ∃ sp, l = sp ++ l.dropWhile isSpace ∧ ∀ c ∈ sp, isSpace c = true := by
  refine ⟨l.takeWhile isSpace, (List.takeWhile_append_dropWhile).symm, ?_⟩
  intro c hc
  exact List.all_eq_true.mp (List.all_takeWhile (p := isSpace) (l := l)) c hc

theorem pySplit_strip (l : Str) : pySplit (strip l) = pySplit l := by
  unfold strip
  rw [pySplit_rstrip]
  obtain ⟨sp, h1, h2⟩ := dropWhile_decomp l
  conv => rhs; rw [h1]
  exact (splitAux_spaces_append _ _ h2).symm

theorem pySplit_mem (l : Str) : ∀ w ∈ pySplit l, w ≠ [] ∧ ∀ c ∈ w, isSpace c = false := by
  obtain ⟨ws, hw⟩ := Words_total l
  rw [pySplit_of_Words hw]
  exact Words_mem hw

theorem strip_stripped (l : Str) : Stripped l (strip l) := by
  obtain ⟨pre, h1, h2⟩ := dropWhile_decomp l
  obtain ⟨post, h3, h4⟩ := rstrip_decomp (l.dropWhile isSpace)
  refine ⟨pre, post, ?_, h2, h4, ?_, ?_⟩
  · rw [List.append_assoc, strip, ← h3, ← h1]
  · intro c hc
    have hhead : (l.dropWhile isSpace).head? = some c := by
      rw [h3]
      unfold strip at hc
      rw [List.head?_append, hc]
      rfl
    have := List.head?_dropWhile_not isSpace l
    rw [hhead] at this
    simpa using this
  · intro c hc
    unfold strip rstrip at hc
    rw [List.getLast?_reverse] at hc
    have := List.head?_dropWhile_not isSpace (l.dropWhile isSpace).reverse
    rw [hc] at this
    simpa using this

theorem strip_strip (l : Str) : strip (strip l) = strip l := by
  have hr : ∀ l : Str, rstrip (rstrip l) = rstrip l := by
    intro l
    unfold rstrip
    rw [List.reverse_reverse]
    congr 1
    generalize l.reverse = m
    cases h : m.dropWhile isSpace with
    | nil => rfl
    | cons c cs =>
      have hc : isSpace c = false := by
        have := List.head_dropWhile_not isSpace (l := m) (by rw [h]; simp)
        simpa [h] using this
      rw [List.dropWhile_cons, if_neg (by simp [hc])]
  have hd : ∀ l : Str, (strip l).dropWhile isSpace = strip l := by
    intro l
    unfold strip
    cases h : l.dropWhile isSpace with
    | nil => rfl
    | cons c cs =>
      have hc : isSpace c = false := by
        have := List.head_dropWhile_not isSpace (l := l) (by rw [h]; simp)
        simpa [h] using this
      obtain ⟨sp, h1, h2⟩ := rstrip_decomp (c :: cs)
      cases hr : rstrip (c :: cs) with
      | nil =>
        rw [hr] at h1
        have := h2 c (by rw [← List.nil_append sp, ← h1]; simp)
        rw [hc] at this; cases this
      | cons d ds =>
        rw [hr] at h1
        simp only [List.cons_append, List.cons.injEq] at h1
        rw [List.dropWhile_cons, if_neg (by rw [← h1.1]; simp [hc])]
  have h0 : strip (strip l) = rstrip ((strip l).dropWhile isSpace) := rfl
  rw [h0, hd]
  unfold strip
  exact hr _

/-! ## Canonical states -/

/-- Indices of the elements that satisfy a predicate. -/
def idxs {α : Type} (p : α → Bool) (l : List α) : List Nat := (l.zipIdx.filter (fun q => p q.1)).map Prod.snd

theorem idxs_append_single {α : Type} (p : α → Bool) (l : List α) (x : α) :
    idxs p (l ++ [x]) = idxs p l ++ (if p x then [l.length] else []) := by
  unfold idxs
  rw [List.zipIdx_append, List.filter_append, List.map_append]
  congr 1
  by_cases h : p x <;> simp [h]

theorem mem_idxs {α : Type} {p : α → Bool} {l : List α} {i : Nat} :
    i ∈ idxs p l ↔ ∃ x, l[i]? = some x ∧ p x = true := by
  unfold idxs
  rw [List.mem_map]
  constructor
  · rintro ⟨⟨x, j⟩, hx, rfl⟩
    rw [List.mem_filter] at hx
    exact ⟨x, List.mk_mem_zipIdx_iff_getElem?.mp hx.1, hx.2⟩
  · rintro ⟨x, hx, hp⟩
    exact ⟨(x, i), List.mem_filter.mpr ⟨List.mk_mem_zipIdx_iff_getElem?.mpr hx, hp⟩, rfl⟩

theorem idxs_nodup {α : Type} (p : α → Bool) (l : List α) : (idxs p l).Nodup := by
  induction l using List.reverseRecOn with
  | nil => simp [idxs]
  | append_singleton l x ih =>
    rw [idxs_append_single]
    split
    · rw [List.nodup_append]
      refine ⟨ih, by simp, ?_⟩
      intro a ha b hb hab
      obtain ⟨y, hy, _⟩ := mem_idxs.mp ha
      have := (List.getElem?_eq_some_iff.mp hy).1
      simp at hb
      omega
    · simpa using ih

theorem idxs_map {α : Type} (p : α → Bool) (l : List α) : (idxs p l).filterMap (fun i => l[i]?) = l.filter p := by
  induction l using List.reverseRecOn with
  | nil => rfl
  | append_singleton l x ih =>
    rw [idxs_append_single, List.filterMap_append, List.filter_append]
    congr 1
    · rw [← ih]
      apply List.filterMap_congr
      intro i hi
      obtain ⟨y, hy, _⟩ := mem_idxs.mp hi
      have := (List.getElem?_eq_some_iff.mp hy).1
      rw [List.getElem?_append_left this]
    · by_cases h : p x <;> simp [h]

def startIs (n : Nat) (k : KLink S) : Bool := decide (k.startNode = n)
def endIs (n : Nat) (k : KLink S) : Bool := decide (k.endNode = some n)
def endFinal (k : KLink S) : Bool := decide (k.endNode = none)

/-- The nodes when the given links have been added to `N` nodes. -/
def regNodes (N : Nat) (ks : List (KLink S)) : List Node :=
  (List.range N).map (fun n => ⟨idxs (startIs n) ks, idxs (endIs n) ks, none, false⟩)

def canon (init : Option ℤ) (N : Nat) (ks : List (KLink S)) : KaldiSt S :=
  ⟨init, regNodes N ks, ks, idxs endFinal ks⟩

/-- The number of nodes that a link needs. -/
def KLink.bound (k : KLink S) : Nat := max (k.startNode + 1) ((k.endNode.map (· + 1)).getD 0)

theorem regNodes_length (N : Nat) (ks : List (KLink S)) : (regNodes N ks).length = N := by simp [regNodes]

theorem idxs_eq_nil {α : Type} {p : α → Bool} {l : List α} (h : ∀ x ∈ l, p x = false) : idxs p l = [] := by
  unfold idxs
  rw [List.map_eq_nil_iff, List.filter_eq_nil_iff]
  intro q hq
  have := h q.1 (List.fst_mem_of_mem_zipIdx hq)
  simp [this]

theorem extendNodes_canon (N : Nat) (ks : List (KLink S)) (s : ℤ) (h : ∀ k ∈ ks, k.bound ≤ N) :
    extendNodes (regNodes N ks) s = regNodes (max N (s + 1).toNat) ks := by
  unfold extendNodes
  rw [regNodes_length]
  apply List.ext_getElem?
  intro i
  by_cases hi : i < N
  · rw [List.getElem?_append_left (by rw [regNodes_length]; exact hi)]
    unfold regNodes
    rw [List.getElem?_map, List.getElem?_map, List.getElem?_range hi, List.getElem?_range (by omega)]
  · rw [List.getElem?_append_right (by rw [regNodes_length]; omega), regNodes_length]
    unfold regNodes
    by_cases hi2 : i < max N (s + 1).toNat
    · rw [List.getElem?_map, List.getElem?_range hi2, List.getElem?_replicate, if_pos (by omega)]
      have h1 : idxs (startIs i) ks = [] := by
        apply idxs_eq_nil
        intro k hk
        have := h k hk
        unfold KLink.bound at this
        simp only [startIs, decide_eq_false_iff_not]
        omega
      have h2 : idxs (endIs i) ks = [] := by
        apply idxs_eq_nil
        intro k hk
        have := h k hk
        unfold KLink.bound at this
        simp only [endIs, decide_eq_false_iff_not]
        intro he
        rw [he] at this
        simp at this
        omega
      simp [h1, h2, Node.new]
    · rw [List.getElem?_replicate, if_neg (by omega), List.getElem?_eq_none (by simp; omega)]

theorem addKLink_canon (init : Option ℤ) (N : Nat) (ks : List (KLink S)) (k : KLink S) :
    addKLink (canon init N ks) k = canon init N (ks ++ [k]) := by
  have hnodes : ∀ _ : Nat, regNodes N (ks ++ [k]) = (regNodes N ks).mapIdx (fun n node =>
      ⟨node.outLinks ++ (if startIs n k then [ks.length] else []),
        node.inLinks ++ (if endIs n k then [ks.length] else []), node.time, node.final⟩) := by
    intro _
    unfold regNodes
    apply List.ext_getElem?
    intro i
    rw [List.getElem?_map, List.getElem?_mapIdx, List.getElem?_map]
    by_cases hi : i < N
    · rw [List.getElem?_range hi]
      simp only [Option.map_some, idxs_append_single]
    · rw [List.getElem?_eq_none (by simp; omega)]; rfl
  unfold addKLink canon
  cases he : k.endNode with
  | some e =>
    simp only [KaldiSt.mk.injEq, true_and]
    refine ⟨?_, ?_⟩
    · rw [hnodes 0]
      apply List.ext_getElem?
      intro i
      rw [List.getElem?_modify, List.getElem?_modify, List.getElem?_mapIdx]
      cases hn : (regNodes N ks)[i]? with
      | none => simp
      | some node =>
        simp only [Option.map_some, Option.some.injEq, startIs, endIs, he, decide_eq_true_eq]
        by_cases h1 : k.startNode = i <;> by_cases h2 : e = i <;> simp [h1, h2]
    · rw [idxs_append_single]; simp [endFinal, he]
  | none =>
    simp only [KaldiSt.mk.injEq, true_and]
    refine ⟨?_, ?_⟩
    · rw [hnodes 0]
      apply List.ext_getElem?
      intro i
      rw [List.getElem?_modify, List.getElem?_mapIdx]
      cases hn : (regNodes N ks)[i]? with
      | none => simp
      | some node =>
        simp only [Option.map_some, startIs, endIs, he, decide_eq_true_eq]
        by_cases h1 : k.startNode = i <;> simp [h1]
    · rw [idxs_append_single]; simp [endFinal, he]

/-- The number of nodes that the links need. -/
def maxBound (ks : List (KLink S)) : Nat := (ks.map KLink.bound).foldr max 0

theorem maxBound_append (ks : List (KLink S)) (k : KLink S) : maxBound (ks ++ [k]) = max (maxBound ks) k.bound := by
  unfold maxBound
  induction ks with
  | nil => simp
  | cons x xs ih => simp only [List.cons_append, List.map_cons, List.foldr_cons, ih]; omega

theorem foldr_max_mono (l : List Nat) {a b : Nat} (h : a ≤ b) : l.foldr max a ≤ l.foldr max b := by
  induction l with
  | nil => exact h
  | cons x xs ih => simp only [List.foldr_cons]; omega

theorem le_maxBound {ks : List (KLink S)} {k : KLink S} (h : k ∈ ks) : k.bound ≤ maxBound ks := by
  unfold maxBound
  induction ks with
  | nil => simp at h
  | cons x xs ih =>
    simp only [List.map_cons, List.foldr_cons]
    rcases List.mem_cons.mp h with rfl | h
    · omega
    · have := ih h; omega

theorem maxBound_perm {ks ks' : List (KLink S)} (h : ks.Perm ks') : maxBound ks = maxBound ks' := by
  unfold maxBound
  induction h with
  | nil => rfl
  | cons x _ ih => simp only [List.map_cons, List.foldr_cons, ih]
  | swap x y l => simp only [List.map_cons, List.foldr_cons]; omega
  | trans _ _ ih1 ih2 => exact ih1.trans ih2

/-- The state after reading the given links. -/
def stateOf (init : Option ℤ) (ks : List (KLink S)) : KaldiSt S := canon init (maxBound ks) ks

theorem pyIdx_spec {n : Nat} {i : ℤ} {j : Nat} (h : pyIdx n i = some j) : NodeField n i j := by
  unfold pyIdx at h
  split at h
  · split at h
    · simp only [Option.some.injEq] at h
      exact ⟨by omega, fun _ => by omega⟩
    · cases h
  · split at h
    · simp only [Option.some.injEq] at h
      exact ⟨by omega, fun h0 => by omega⟩
    · cases h

theorem pyIdx_nat {n j : Nat} (h : j < n) : pyIdx n (j : ℤ) = some j := by
  unfold pyIdx
  rw [if_pos (by omega), if_pos (by omega)]
  simp

theorem pyIdx_lt {n : Nat} {i : ℤ} {j : Nat} (h : pyIdx n i = some j) : j < n := (pyIdx_spec h).1

theorem kaldiWord_spec {idToWord : List (Option Str)} {i : ℤ} {word : Option Str}
    (h : kaldiWord idToWord i = .ok word) : WordField idToWord i word := by
  unfold kaldiWord at h
  have item : ∀ x, (pyIdx idToWord.length i).bind (fun i => idToWord[i]?) = some x → PyItem idToWord i x := by
    intro x hx
    rw [Option.bind_eq_some_iff] at hx
    obtain ⟨n, hn, hx⟩ := hx
    unfold pyIdx at hn
    split at hn
    · split at hn
      · simp only [Option.some.injEq] at hn
        exact Or.inl ⟨n, by omega, hx⟩
      · cases hn
    · split at hn
      · simp only [Option.some.injEq] at hn
        exact Or.inr ⟨n, by omega, by omega, hx⟩
      · cases hn
  split at h
  · cases h
  · rename_i hx
    cases h
    exact .missing i (item _ hx)
  · rename_i w hx
    split at h
    · rename_i hw
      cases h
      subst hw
      exact .eps i (item _ hx)
    · split at h
      · cases h
      · split at h
        · cases h
        · rename_i h1 h2 h3
          cases h
          refine .word i w (item _ hx) ?_
          unfold Reserved
          rw [not_or] at h3
          intro hr
          rcases hr with hr | hr | hr | hr
          · exact h1 hr
          · exact h2 hr
          · exact h3.1 hr
          · exact h3.2 hr

theorem kaldiScore_spec [Zero S] [Neg S] {T : NumText S} {p : Option Str} {x : S} (h : kaldiScore T p = .ok x) :
    ScoreField T p (-x) := by
  unfold kaldiScore at h
  split at h
  · cases h; exact .missing
  · split at h
    · rename_i hp
      cases h; subst hp; exact .empty
    · rename_i hp
      split at h
      · cases h
      · rename_i y hy
        cases h
        exact .number _ _ hp hy

/-- The properties of a link that do not depend on the ID of the final node. -/
def WeightParts [Zero S] [Neg S] (T : NumText S) (weight : Str) (lm ac : S) (tr : Str) : Prop :=
  ∃ fields : List Str, CommaFields weight fields ∧ ScoreField T fields[0]? lm ∧ ScoreField T fields[1]? ac ∧
    tr = (fields[2]?).getD []

theorem kaldiWeight_spec [Zero S] [Neg S] {T : NumText S} {weight : Str} {lm ac : S} {tr : Str}
    (h : kaldiWeight T weight = .ok (lm, ac, tr)) : WeightParts T weight lm ac tr := by
  unfold kaldiWeight at h
  simp only at h
  split at h
  · cases h
  · rename_i graph hg
    split at h
    · cases h
    · rename_i a ha
      cases h
      exact ⟨_, splitOnChar_commaFields weight, kaldiScore_spec hg, kaldiScore_spec ha, rfl⟩

theorem WeightParts.field [Zero S] [Neg S] {T : NumText S} {weight : Str} {lm ac : S} {tr : Str}
    (h : WeightParts T weight lm ac tr) (s e : Nat) (w : Option Str) :
    WeightField T weight (⟨s, e, w, some ac, some lm, tr⟩ : Link S) := by
  obtain ⟨fields, h1, h2, h3, h4⟩ := h
  exact ⟨⟨fields, lm, ac, h1, h2, h3, rfl, rfl, h4⟩⟩

/-- The text of the transitions contains no commas and only characters of the weight. -/
theorem WeightParts.transitions [Zero S] [Neg S] {T : NumText S} {weight : Str} {lm ac : S} {tr : Str}
    (h : WeightParts T weight lm ac tr) : ',' ∉ tr ∧ ∀ c ∈ tr, c ∈ weight := by
  obtain ⟨fields, h1, h2, h3, h4⟩ := h
  cases hf : fields[2]? with
  | none => rw [h4, hf]; simp
  | some f =>
    rw [h4, hf]
    exact commaFields_mem h1 f (List.mem_of_getElem? hf)

theorem extend_stateOf (ks : List (KLink S)) (s : ℤ) :
    extendNodes (regNodes (maxBound ks) ks) s = regNodes (max (maxBound ks) (s + 1).toNat) ks :=
  extendNodes_canon _ _ _ (fun _ hk => le_maxBound hk)

theorem nodeField_mono {n m : Nat} {s : ℤ} {j : Nat} (h : NodeField n s j) (hm : n ≤ m) : NodeField m s j :=
  ⟨lt_of_lt_of_le h.1 hm, h.2⟩

theorem toNat_le_of_pyIdx {n : Nat} {i : ℤ} {j : Nat} (h : pyIdx n i = some j) (hi : 0 ≤ i) : (i + 1).toNat = j + 1 := by
  have := (pyIdx_spec h).2 hi
  omega

/-- What is known about the transitions text of a link. -/
def KLink.Clean (k : KLink S) : Prop := ',' ∉ k.transitions ∧ ∀ c ∈ k.transitions, isSpace c = false

/-- A word that the reader can put on a link. -/
def KLink.WordOk (idToWord : List (Option Str)) (k : KLink S) : Prop :=
  (k.word = none ∨ (k.endNode ≠ none ∧ ∃ w, k.word = some w ∧ ¬ Reserved w ∧ ∃ i : Nat, idToWord[i]? = some (some w)))

theorem WordField.ok {idToWord : List (Option Str)} {i : ℤ} {word : Option Str} (h : WordField idToWord i word) :
    word = none ∨ ∃ w, word = some w ∧ ¬ Reserved w ∧ ∃ i : Nat, idToWord[i]? = some (some w) := by
  cases h with
  | word w hi hr =>
    refine Or.inr ⟨w, rfl, hr, ?_⟩
    rcases hi with ⟨n, _, hn⟩ | ⟨n, _, _, hn⟩
    · exact ⟨n, hn⟩
    · exact ⟨n, hn⟩
  | eps hi => exact Or.inl rfl
  | missing hi => exact Or.inl rfl

theorem kaldiLine_spec [Zero S] [Neg S] {T : NumText S} {idToWord : List (Option Str)} {parts : List Str}
    {init : Option ℤ} {ks : List (KLink S)} {st' : KaldiSt S}
    (hp : ∀ w ∈ parts, ∀ c ∈ w, isSpace c = false)
    (h : kaldiLine T idToWord parts (stateOf init ks) = .ok st') :
    ∃ (from_ : ℤ) (k : KLink S), st' = stateOf (some (init.getD from_)) (ks ++ [k]) ∧ k.Clean ∧ k.WordOk idToWord ∧
      (∃ a, parts.head? = some a ∧ T.parseInt a = some from_) ∧
      ∀ final : Nat, maxBound (ks ++ [k]) ≤ final → ArcLine T idToWord final parts (k.finish final) := by
  unfold kaldiLine at h
  split at h
  · cases h
  · rename_i stateFrom target weight hf
    split at h
    · cases h
    · rename_i graph ac transitions hwt
      have hwp := kaldiWeight_spec hwt
      simp only [stateOf, canon, extend_stateOf] at h
      have hclean : (∀ c ∈ weight, isSpace c = false) → ',' ∉ transitions ∧ ∀ c ∈ transitions, isSpace c = false :=
        fun hw => ⟨hwp.transitions.1, fun c hc => hw c (hwp.transitions.2 c hc)⟩
      have hweight : ∀ c ∈ weight, isSpace c = false := by
        unfold kaldiFields at hf
        split at hf
        · split at hf
          · cases hf
          · cases hf; simp
        · split at hf
          · cases hf
          · cases hf; exact hp _ (by simp)
        · split at hf
          · cases hf; exact hp _ (by simp)
          · cases hf
        · cases hf
      have hhead : ∃ a, parts.head? = some a ∧ T.parseInt a = some stateFrom := by
        unfold kaldiFields at hf
        split at hf
        · split at hf
          · cases hf
          · rename_i s hs
            cases hf; exact ⟨_, rfl, hs⟩
        · split at hf
          · cases hf
          · rename_i s hs
            cases hf; exact ⟨_, rfl, hs⟩
        · split at hf
          · rename_i hs
            cases hf; exact ⟨_, rfl, hs⟩
          · cases hf
        · cases hf
      cases target with
      | some tw =>
        obtain ⟨stateTo, wordId⟩ := tw
        simp only at h
        rw [extendNodes_canon _ _ _ (fun k hk => le_trans (le_maxBound hk) (le_max_left _ _))] at h
        rw [regNodes_length] at h
        split at h
        · rename_i s e hs he
          split at h
          · cases h
          · rename_i word hword
            cases h
            have hs' := pyIdx_spec hs
            have he' := pyIdx_spec he
            have hmb : maxBound (ks ++ [(⟨s, some e, word, ac, graph, transitions⟩ : KLink S)]) =
                max (max (maxBound ks) (stateFrom + 1).toNat) (stateTo + 1).toNat := by
              rw [maxBound_append]
              simp only [KLink.bound, Option.map_some, Option.getD_some]
              have h1 := hs'.1
              have h2 := he'.1
              have h3 := hs'.2
              have h4 := he'.2
              by_cases ha : 0 ≤ stateFrom
              · have := h3 ha
                by_cases hb : 0 ≤ stateTo
                · have := h4 hb
                  omega
                · omega
              · by_cases hb : 0 ≤ stateTo
                · have := h4 hb
                  omega
                · omega
            refine ⟨stateFrom, ⟨s, some e, word, ac, graph, transitions⟩, ?_, hclean hweight, ?_, ?_, ?_⟩
            · have := addKLink_canon (some (init.getD stateFrom))
                (max (max (maxBound ks) (stateFrom + 1).toNat) (stateTo + 1).toNat) ks
                (⟨s, some e, word, ac, graph, transitions⟩ : KLink S)
              unfold stateOf
              rw [hmb, ← this]
              congr 1
            · rcases (kaldiWord_spec hword).ok with hn | hw
              · exact Or.inl hn
              · exact Or.inr ⟨by simp, hw⟩
            · exact hhead
            · intro final hfin
              rw [hmb] at hfin
              unfold kaldiFields at hf
              split at hf
              · split at hf <;> cases hf
              · split at hf <;> cases hf
              · rename_i a b c w
                split at hf
                · rename_i e0 i0 s0 h1 h2 h3
                  cases hf
                  exact .arc a b c _ _ _ _ _ h3 h1 h2 (nodeField_mono hs' hfin) (nodeField_mono he' hfin)
                    (kaldiWord_spec hword) (hwp.field _ _ _)
                · cases hf
              · cases hf
        · cases h
      | none =>
        simp only [regNodes_length] at h
        split at h
        · rename_i s hs
          cases h
          have hs' := pyIdx_spec hs
          have hmb : maxBound (ks ++ [(⟨s, none, none, ac, graph, transitions⟩ : KLink S)]) =
              max (maxBound ks) (stateFrom + 1).toNat := by
            rw [maxBound_append]
            simp only [KLink.bound, Option.map_none, Option.getD_none]
            have h1 := hs'.1
            have h3 := hs'.2
            by_cases ha : 0 ≤ stateFrom
            · have := h3 ha
              omega
            · omega
          refine ⟨stateFrom, ⟨s, none, none, ac, graph, transitions⟩, ?_, hclean hweight, Or.inl rfl, ?_, ?_⟩
          · have := addKLink_canon (some (init.getD stateFrom))
              (max (maxBound ks) (stateFrom + 1).toNat) ks
              (⟨s, none, none, ac, graph, transitions⟩ : KLink S)
            unfold stateOf
            rw [hmb, ← this]
            congr 1
          · exact hhead
          · intro final hfin
            rw [hmb] at hfin
            unfold kaldiFields at hf
            split at hf
            · rename_i a
              split at hf
              · cases hf
              · rename_i s0 h3
                cases hf
                exact .finalState a _ _ h3 (nodeField_mono hs' hfin) rfl rfl (hwp.field _ _ _)
            · rename_i a w
              split at hf
              · cases hf
              · rename_i s0 h3
                cases hf
                exact .finalWeight a _ _ _ h3 (nodeField_mono hs' hfin) rfl rfl (hwp.field _ _ _)
            · split at hf <;> cases hf
            · cases hf
        · cases h

/-- The lines that are not blank. -/
def nonblank (lines : List Str) : List Str := lines.filter (fun l => decide (pySplit l ≠ []))

theorem mem_nonblank {lines : List Str} {l : Str} :
    l ∈ nonblank lines ↔ l ∈ lines ∧ ¬ ∀ c ∈ l, isSpace c = true := by
  unfold nonblank
  rw [List.mem_filter, decide_eq_true_eq, ne_eq, pySplit_eq_nil_iff]

theorem kaldiLoop_spec [Zero S] [Neg S] {T : NumText S} {idToWord : List (Option Str)} :
    ∀ (lines : List Str) {init : Option ℤ} {ks : List (KLink S)} {st' : KaldiSt S},
    kaldiLoop T idToWord lines (stateOf init ks) = .ok st' →
    ∃ (init' : Option ℤ) (ks' : List (KLink S)), st' = stateOf init' (ks ++ ks') ∧
      (∀ k ∈ ks', k.Clean ∧ k.WordOk idToWord) ∧
      (∀ final : Nat, maxBound (ks ++ ks') ≤ final →
        List.Forall₂ (fun line k => ArcLine T idToWord final (pySplit line) (KLink.finish final k)) (nonblank lines) ks') ∧
      (∀ i, init = some i → init' = some i) ∧
      (init = none → (nonblank lines = [] ∧ init' = none) ∨
        ∃ (line a : Str) (i : ℤ), (nonblank lines).head? = some line ∧ (pySplit line).head? = some a ∧
          T.parseInt a = some i ∧ init' = some i) := by
  intro lines
  induction lines with
  | nil =>
    intro init ks st' h
    simp only [kaldiLoop, Except.ok.injEq] at h
    refine ⟨init, [], by simp [h], by simp, ?_, fun i hi => hi, fun hi => Or.inl ⟨rfl, hi⟩⟩
    intro _ _
    exact .nil
  | cons line lines ih =>
    intro init ks st' h
    unfold kaldiLoop at h
    simp only [pySplit_strip] at h
    split at h
    · rename_i hb
      have : nonblank (line :: lines) = nonblank lines := by
        unfold nonblank
        rw [List.filter_cons, if_neg (by simp [hb])]
      rw [this]
      exact ih h
    · rename_i hb
      have hnb : nonblank (line :: lines) = line :: nonblank lines := by
        unfold nonblank
        rw [List.filter_cons, if_pos (by simp [hb])]
      split at h
      · cases h
      · rename_i st1 hl
        obtain ⟨from_, k, rfl, hc, hw, ⟨a, ha, hp⟩, harc⟩ :=
          kaldiLine_spec (fun w hw => (pySplit_mem line w hw).2) hl
        obtain ⟨init', ks', rfl, h1, h2, h3, _⟩ := ih h
        have happ : ks ++ [k] ++ ks' = ks ++ k :: ks' := by simp
        rw [happ] at h2 ⊢
        refine ⟨init', k :: ks', rfl, ?_, ?_, ?_, ?_⟩
        · intro x hx
          rcases List.mem_cons.mp hx with rfl | hx
          · exact ⟨hc, hw⟩
          · exact h1 x hx
        · intro final hfin
          rw [hnb]
          refine .cons (harc final (le_trans ?_ hfin)) (h2 final hfin)
          unfold maxBound
          rw [List.map_append, List.map_append, List.foldr_append, List.foldr_append]
          apply foldr_max_mono
          simp
        · rintro i rfl
          exact h3 _ rfl
        · rintro rfl
          exact Or.inr ⟨line, a, from_, by rw [hnb]; rfl, ha, hp, h3 _ rfl⟩

/-! ## The lattice -/

/-- The lattice that has the given links. -/
def latticeOf (u : Str) (initial : Nat) (ks : List (KLink S)) : Lattice S :=
  ⟨regNodes (maxBound ks) ks ++ [⟨[], idxs endFinal ks, none, true⟩], ks.map (KLink.finish (maxBound ks)), initial,
    some u, none, none⟩

theorem kaldiFinish_spec {u : Str} {init : Option ℤ} {ks : List (KLink S)} {L : Lattice S}
    (h : kaldiFinish u (stateOf init ks) = .ok L) :
    ∃ (i : ℤ) (initial : Nat), init = some i ∧ NodeField (maxBound ks) i initial ∧ L = latticeOf u initial ks := by
  unfold kaldiFinish at h
  split at h
  · cases h
  · rename_i i hi
    simp only [stateOf, canon, regNodes_length] at h hi
    split at h
    · cases h
    · rename_i initial hini
      cases h
      exact ⟨i, initial, hi, pyIdx_spec hini, rfl⟩

theorem latticeOf_node {u : Str} {initial : Nat} {ks : List (KLink S)} {n : Nat} {node : Node}
    (h : (latticeOf u initial ks).nodes[n]? = some node) :
    (n < maxBound ks ∧ node = ⟨idxs (startIs n) ks, idxs (endIs n) ks, none, false⟩) ∨
      (n = maxBound ks ∧ node = ⟨[], idxs endFinal ks, none, true⟩) := by
  unfold latticeOf at h
  simp only at h
  by_cases hn : n < maxBound ks
  · left
    rw [List.getElem?_append_left (by rw [regNodes_length]; exact hn)] at h
    unfold regNodes at h
    rw [List.getElem?_map, List.getElem?_range hn] at h
    simp only [Option.map_some, Option.some.injEq] at h
    exact ⟨hn, h.symm⟩
  · right
    rw [List.getElem?_append_right (by rw [regNodes_length]; omega), regNodes_length] at h
    by_cases he : n = maxBound ks
    · subst he
      simp at h
      exact ⟨rfl, h.symm⟩
    · rw [List.getElem?_eq_none (by simp; omega)] at h
      cases h

theorem latticeOf_length (u : Str) (initial : Nat) (ks : List (KLink S)) :
    (latticeOf u initial ks).nodes.length = maxBound ks + 1 := by simp [latticeOf, regNodes_length]

theorem latticeOf_getElem_lt (u : Str) (initial : Nat) (ks : List (KLink S)) {n : Nat} (h : n < maxBound ks) :
    (latticeOf u initial ks).nodes[n]? = some ⟨idxs (startIs n) ks, idxs (endIs n) ks, none, false⟩ := by
  have hl := latticeOf_length u initial ks
  have := List.getElem?_eq_getElem (l := (latticeOf u initial ks).nodes) (i := n) (by omega)
  rcases latticeOf_node this with ⟨_, h2⟩ | ⟨h1, _⟩
  · rw [this, h2]
  · omega

theorem latticeOf_getElem_final (u : Str) (initial : Nat) (ks : List (KLink S)) :
    (latticeOf u initial ks).nodes[maxBound ks]? = some ⟨[], idxs endFinal ks, none, true⟩ := by
  have hl := latticeOf_length u initial ks
  have := List.getElem?_eq_getElem (l := (latticeOf u initial ks).nodes) (i := maxBound ks) (by omega)
  rcases latticeOf_node this with ⟨h1, _⟩ | ⟨_, h2⟩
  · omega
  · rw [this, h2]

theorem bound_start {ks : List (KLink S)} {k : KLink S} (h : k ∈ ks) : k.startNode < maxBound ks := by
  have := le_maxBound h
  unfold KLink.bound at this
  omega

theorem bound_end {ks : List (KLink S)} {k : KLink S} (h : k ∈ ks) {e : Nat} (he : k.endNode = some e) :
    e < maxBound ks := by
  have := le_maxBound h
  unfold KLink.bound at this
  rw [he] at this
  simp only [Option.map_some, Option.getD_some] at this
  omega

theorem latticeOf_wf {u : Str} {initial : Nat} {ks : List (KLink S)} (hi : initial < maxBound ks) :
    (latticeOf u initial ks).WF := by
  have hlinks : ∀ (l : Nat) (k : Link S), (latticeOf u initial ks).links[l]? = some k ↔
      ∃ x, ks[l]? = some x ∧ KLink.finish (maxBound ks) x = k := by
    intro l k
    simp only [latticeOf, List.getElem?_map, Option.map_eq_some_iff]
  constructor
  · rw [latticeOf_length]; exact Nat.lt_succ_of_lt hi
  · intro k hk
    rw [latticeOf_length]
    simp only [latticeOf, List.mem_map] at hk
    obtain ⟨x, hx, rfl⟩ := hk
    have h1 := bound_start hx
    refine ⟨Nat.lt_succ_of_lt h1, ?_⟩
    cases he : x.endNode with
    | none => simp [KLink.finish, he]
    | some e =>
      have := bound_end hx he
      simp only [KLink.finish, he, Option.getD_some]
      omega
  · intro node hnode
    obtain ⟨n, hn⟩ := List.mem_iff_getElem?.mp hnode
    rcases latticeOf_node hn with ⟨_, rfl⟩ | ⟨_, rfl⟩
    · exact idxs_nodup _ _
    · exact List.nodup_nil
  · intro n node hn l
    rcases latticeOf_node hn with ⟨h1, rfl⟩ | ⟨h1, rfl⟩
    · simp only [mem_idxs, startIs, decide_eq_true_eq, hlinks]
      constructor
      · rintro ⟨x, hx, hs⟩; exact ⟨_, ⟨x, hx, rfl⟩, hs⟩
      · rintro ⟨_, ⟨x, hx, rfl⟩, hs⟩; exact ⟨x, hx, hs⟩
    · simp only [hlinks, List.not_mem_nil, false_iff]
      rintro ⟨_, ⟨x, hx, rfl⟩, hs⟩
      have := bound_start (List.mem_of_getElem? hx)
      simp only [KLink.finish] at hs
      omega
  · intro node hnode
    obtain ⟨n, hn⟩ := List.mem_iff_getElem?.mp hnode
    rcases latticeOf_node hn with ⟨_, rfl⟩ | ⟨_, rfl⟩
    · exact idxs_nodup _ _
    · exact idxs_nodup _ _
  · intro n node hn l
    rcases latticeOf_node hn with ⟨h1, rfl⟩ | ⟨h1, rfl⟩
    · simp only [mem_idxs, endIs, decide_eq_true_eq, hlinks]
      constructor
      · rintro ⟨x, hx, hs⟩; exact ⟨_, ⟨x, hx, rfl⟩, by simp [KLink.finish, hs]⟩
      · rintro ⟨_, ⟨x, hx, rfl⟩, hs⟩
        refine ⟨x, hx, ?_⟩
        cases he : x.endNode with
        | none => simp only [KLink.finish, he, Option.getD_none] at hs; omega
        | some e => simp only [KLink.finish, he, Option.getD_some] at hs; rw [hs]
    · simp only [mem_idxs, endFinal, decide_eq_true_eq, hlinks]
      constructor
      · rintro ⟨x, hx, hs⟩; exact ⟨_, ⟨x, hx, rfl⟩, by simp [KLink.finish, hs, h1]⟩
      · rintro ⟨_, ⟨x, hx, rfl⟩, hs⟩
        refine ⟨x, hx, ?_⟩
        cases he : x.endNode with
        | none => rfl
        | some e =>
          have := bound_end (List.mem_of_getElem? hx) he
          simp only [KLink.finish, he, Option.getD_some] at hs
          omega

theorem readKaldi_spec [Zero S] [Neg S] {T : NumText S} {lines : List Str} {idToWord : List (Option Str)}
    {L : Lattice S} (h : readKaldi T lines idToWord = .ok L) :
    ∃ (header : Str) (rest : List Str) (ks : List (KLink S)) (initial : Nat) (i : ℤ) (line a : Str),
      lines = header :: rest ∧ L = latticeOf (strip header) initial ks ∧ NodeField (maxBound ks) i initial ∧
      (nonblank rest).head? = some line ∧ (pySplit line).head? = some a ∧ T.parseInt a = some i ∧
      (∀ k ∈ ks, k.Clean ∧ k.WordOk idToWord) ∧
      List.Forall₂ (fun line k => ArcLine T idToWord (maxBound ks) (pySplit line) (KLink.finish (maxBound ks) k))
        (nonblank rest) ks := by
  unfold readKaldi at h
  split at h
  · cases h
  · rename_i first rest
    split at h
    · cases h
    · rename_i st hl
      obtain ⟨init', ks, rfl, h1, h2, _, h4⟩ := kaldiLoop_spec rest (init := none) (ks := []) hl
      obtain ⟨i, initial, hi, hn, hL⟩ := kaldiFinish_spec h
      rw [List.nil_append] at hn hL h2
      rcases h4 rfl with ⟨_, h5⟩ | ⟨line, a, i', hh, ha, hp, hi'⟩
      · rw [h5] at hi; cases hi
      · rw [hi'] at hi
        cases hi
        exact ⟨first, rest, ks, initial, _, line, a, rfl, hL, hn, hh, ha, hp, h1, h2 _ (le_refl _)⟩

end TheanoLM
