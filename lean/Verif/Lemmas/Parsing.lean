import Verif.Model.Parsing
/-! # Helper lemmas about whitespace splitting and sentence starts -/
namespace TheanoLM

theorem splitAux_append_spaces (l sp cur : Str) (h : ∀ c ∈ sp, isSpace c = true) :
    splitAux (l ++ sp) cur = splitAux l cur := by
  induction l generalizing cur with
  | nil =>
    simp only [List.nil_append]
    induction sp generalizing cur with
    | nil => rfl
    | cons c sp ih =>
      have hc : isSpace c = true := h c (by simp)
      have hsp : ∀ c ∈ sp, isSpace c = true := fun d hd => h d (by simp [hd])
      have h0 := ih hsp []
      simp only [splitAux, hc, if_true, h0]
  | cons c l ih =>
    simp only [List.cons_append, splitAux]
    split
    · split <;> simp [ih]
    · exact ih _

theorem splitAux_spaces_append (pre l : Str) (h : ∀ c ∈ pre, isSpace c = true) :
    splitAux (pre ++ l) [] = splitAux l [] := by
  induction pre with
  | nil => rfl
  | cons c pre ih =>
    have hc : isSpace c = true := h c (by simp)
    simp only [List.cons_append, splitAux, hc, if_true]
    exact ih (fun d hd => h d (by simp [hd]))

theorem splitAux_word_append (w rest cur : Str) (h : ∀ c ∈ w, isSpace c = false) :
    splitAux (w ++ rest) cur = splitAux rest (cur ++ w) := by
  induction w generalizing cur with
  | nil => simp
  | cons c w ih =>
    have hc : isSpace c = false := h c (by simp)
    simp only [List.cons_append, splitAux, hc]
    rw [if_neg (by simp), ih _ (fun d hd => h d (by simp [hd]))]
    simp

theorem splitAux_flush (rest cur : Str) (hcur : cur ≠ [])
    (h : ∀ c, rest.head? = some c → isSpace c = true) :
    splitAux rest cur = cur :: splitAux rest [] := by
  cases rest with
  | nil => simp [splitAux, hcur]
  | cons c rest =>
    have hc := h c rfl
    simp [splitAux, hc, hcur]

theorem dropWhile_all {p : α → Bool} (l : List α) (h : ∀ a ∈ l, p a = true) : l.dropWhile p = [] := by
  induction l with
  | nil => rfl
  | cons a l ih => rw [List.dropWhile_cons, if_pos (h a (by simp))]; exact ih (fun b hb => h b (by simp [hb]))

theorem rstrip_decomp (l : Str) : ∃ sp, l = rstrip l ++ sp ∧ ∀ c ∈ sp, isSpace c = true := by
  refine ⟨(l.reverse.takeWhile isSpace).reverse, ?_, ?_⟩
  · have := List.takeWhile_append_dropWhile (p := isSpace) (l := l.reverse)
    have h2 := congrArg List.reverse this
    simp only [List.reverse_append, List.reverse_reverse] at h2
    exact h2.symm
  · intro c hc
    rw [List.mem_reverse] at hc
    exact List.all_eq_true.mp (List.all_takeWhile (p := isSpace) (l := l.reverse)) c hc

theorem pySplit_rstrip (l : Str) : pySplit (rstrip l) = pySplit l := by
  obtain ⟨sp, h1, h2⟩ := rstrip_decomp l
  conv => rhs; rw [h1]
  exact (splitAux_append_spaces _ _ _ h2).symm

theorem splitAux_ne_nil (l cur : Str) (h : cur ≠ []) : splitAux l cur ≠ [] := by
  induction l generalizing cur with
  | nil => simp [splitAux, h]
  | cons c l ih =>
    simp only [splitAux]
    split
    · simp
    · exact ih _ (by simp)

theorem rstrip_eq_nil_iff (l : Str) : rstrip l = [] ↔ ∀ c ∈ l, isSpace c = true := by
  constructor
  · intro h c hc
    obtain ⟨sp, h1, h2⟩ := rstrip_decomp l
    rw [h, List.nil_append] at h1
    exact h2 c (h1 ▸ hc)
  · intro h
    unfold rstrip
    rw [List.reverse_eq_nil_iff]
    exact dropWhile_all _ (fun a ha => h a (List.mem_reverse.mp ha))

theorem pySplit_eq_nil_iff (l : Str) : pySplit l = [] ↔ ∀ c ∈ l, isSpace c = true := by
  constructor
  · induction l with
    | nil => simp
    | cons c l ih =>
      intro h
      unfold pySplit at h ih
      simp only [splitAux] at h
      by_cases hc : isSpace c = true
      · simp only [hc, if_true] at h
        intro d hd
        rcases List.mem_cons.mp hd with rfl | hd
        · exact hc
        · exact ih h d hd
      · simp only [hc] at h
        exact absurd h (splitAux_ne_nil _ _ (by simp))
  · intro h
    have := splitAux_spaces_append l [] h
    simpa [pySplit, splitAux] using this

/-- The value of `utterance_from_line` in terms of the words of the line. -/
theorem utteranceFromLine_eq (l : Str) :
    utteranceFromLine l =
      .ok (if pySplit l = [] then [] else
        (if (pySplit l).head? = some sos then [] else [sos]) ++ pySplit l ++
        (if (pySplit l).getLast? = some eos then [] else [eos])) := by
  unfold utteranceFromLine
  simp only [pySplit_rstrip]
  by_cases h : rstrip l = []
  · have h2 : pySplit l = [] := (pySplit_eq_nil_iff l).mpr ((rstrip_eq_nil_iff l).mp h)
    simp [h, h2]
  · have h2 : pySplit l ≠ [] := by
      intro hc
      exact h ((rstrip_eq_nil_iff l).mpr ((pySplit_eq_nil_iff l).mp hc))
    rw [if_neg h, if_neg h2]
    obtain ⟨w, ws, hw⟩ := List.exists_cons_of_ne_nil h2
    rw [hw]
    simp only [List.head?_cons, Option.some.injEq]
    by_cases h3 : w = sos
    · subst h3
      simp only [ne_eq, not_true, if_false, if_true, List.nil_append]
      obtain ⟨x, hx⟩ : ∃ x, (sos :: ws).getLast? = some x := ⟨_, List.getLast?_eq_some_getLast (by simp)⟩
      rw [hx]
      simp only [Option.some.injEq]
      by_cases h4 : x = eos <;> simp [h4]
    · simp only [ne_eq, h3, not_false_eq_true, if_true, if_false]
      obtain ⟨x, hx⟩ : ∃ x, (w :: ws).getLast? = some x := ⟨_, List.getLast?_eq_some_getLast (by simp)⟩
      have hx2 : (sos :: w :: ws).getLast? = some x := by
        rw [List.getLast?_cons_cons]; exact hx
      rw [hx, hx2]
      simp only [Option.some.injEq]
      by_cases h4 : x = eos <;> simp [h4]

/-! ## Sentence starts -/

/-- All positions `q` with `a < q`, `q < len`, preceded by a newline. -/
def startsFrom (nl : α → Bool) (data : List α) (a : Nat) : List Nat :=
  (List.range data.length).filter (fun q => decide (a < q) && (data[q - 1]?.any nl))

theorem findFrom_none {nl : α → Bool} {data : List α} {pos : Nat} (h : findFrom nl data pos = none) :
    ∀ i x, pos ≤ i → data[i]? = some x → nl x = false := by
  intro i x hi hx
  unfold findFrom at h
  rw [Option.map_eq_none_iff, List.findIdx?_eq_none_iff] at h
  apply h
  rw [List.mem_iff_getElem?]
  exact ⟨i - pos, by rw [List.getElem?_drop]; rw [Nat.add_sub_cancel' hi]; exact hx⟩

theorem findFrom_some {nl : α → Bool} {data : List α} {pos p : Nat} (h : findFrom nl data pos = some p) :
    pos ≤ p ∧ p < data.length ∧ (∃ x, data[p]? = some x ∧ nl x = true) ∧
      ∀ i x, pos ≤ i → i < p → data[i]? = some x → nl x = false := by
  unfold findFrom at h
  rw [Option.map_eq_some_iff] at h
  obtain ⟨i, hi, rfl⟩ := h
  rw [List.findIdx?_eq_some_iff_getElem] at hi
  obtain ⟨hlt, hnl, hmin⟩ := hi
  rw [List.length_drop] at hlt
  refine ⟨by omega, by omega, ?_, ?_⟩
  · refine ⟨(data.drop pos)[i], ?_, hnl⟩
    rw [List.getElem_drop, List.getElem?_eq_getElem (by omega)]
    simp [Nat.add_comm]
  · intro j x h1 h2 hx
    have := hmin (j - pos) (by omega)
    rw [List.getElem_drop] at this
    have hj : j < data.length := by omega
    rw [List.getElem?_eq_getElem hj, Option.some.injEq] at hx
    have e : data[pos + (j - pos)]'(by omega) = data[j] := by congr 1; omega
    rw [e, hx] at this
    simpa using this

theorem filter_range_cons (P P' : Nat → Bool) (n k : Nat) (hk : k < n)
    (h1 : ∀ q, q < k → P q = false) (h2 : ∀ q, q ≤ k → P' q = false) (h3 : P k = true)
    (h4 : ∀ q, k < q → P q = P' q) :
    (List.range n).filter P = k :: (List.range n).filter P' := by
  have hr : List.range n = List.range k ++ k :: List.range' (k + 1) (n - k - 1) := by
    rw [List.range_eq_range', List.range_eq_range']
    have e : k :: List.range' (k + 1) (n - k - 1) = List.range' (0 + 1 * k) (n - k) := by
      obtain ⟨m, hm⟩ : ∃ m, n - k = m + 1 := ⟨n - k - 1, by omega⟩
      rw [hm, List.range'_succ]; simp
    rw [e, List.range'_append]
    congr 1; omega
  rw [hr, List.filter_append, List.filter_append, List.filter_cons, List.filter_cons]
  rw [if_pos h3, if_neg (by simp [h2 k (Nat.le_refl k)])]
  have e1 : (List.range k).filter P = [] := by
    rw [List.filter_eq_nil_iff]; intro q hq; simp [h1 q (List.mem_range.mp hq)]
  have e2 : (List.range k).filter P' = [] := by
    rw [List.filter_eq_nil_iff]; intro q hq; simp [h2 q (Nat.le_of_lt (List.mem_range.mp hq))]
  have e3 : (List.range' (k + 1) (n - k - 1)).filter P = (List.range' (k + 1) (n - k - 1)).filter P' := by
    apply List.filter_congr
    intro q hq
    rw [List.mem_range'_1] at hq
    exact h4 q (by omega)
  rw [e1, e2, e3]; rfl

theorem filter_range_skip (P P' : Nat → Bool) (n : Nat) (h : ∀ q, q < n → P q = P' q) :
    (List.range n).filter P = (List.range n).filter P' :=
  List.filter_congr (fun q hq => h q (List.mem_range.mp hq))

theorem startsFrom_none {nl : α → Bool} {data : List α} {pos : Nat} (h : findFrom nl data pos = none) :
    startsFrom nl data pos = [] := by
  have hn := findFrom_none h
  unfold startsFrom
  rw [List.filter_eq_nil_iff]
  intro q hq
  rw [List.mem_range] at hq
  simp only [Bool.and_eq_true, decide_eq_true_eq, not_and]
  intro h1 h2
  rw [List.getElem?_eq_getElem (by omega)] at h2
  have := hn (q - 1) data[q - 1] (by omega) (List.getElem?_eq_getElem (by omega))
  simp [this] at h2

theorem startsFrom_some {nl : α → Bool} {data : List α} {pos p : Nat} (h : findFrom nl data pos = some p) :
    startsFrom nl data pos =
      if p + 1 < data.length then (p + 1) :: startsFrom nl data (p + 1) else startsFrom nl data (p + 1) := by
  obtain ⟨h1, h2, ⟨x, hx, hxn⟩, h4⟩ := findFrom_some h
  have key : ∀ q, pos < q → q < p + 1 → (data[q - 1]?.any nl) = false := by
    intro q ha hb
    have hq : q - 1 < data.length := by omega
    rw [List.getElem?_eq_getElem hq]
    have := h4 (q - 1) data[q - 1] (by omega) (by omega) (List.getElem?_eq_getElem hq)
    simp [this]
  split
  · rename_i hlt
    unfold startsFrom
    apply filter_range_cons _ _ _ _ hlt
    · intro q hq
      by_cases hp : pos < q
      · simp [key q hp hq]
      · simp [hp]
    · intro q hq; simp; omega
    · simp [hx, hxn]; omega
    · intro q hq
      have : pos < q := by omega
      simp [hq, this]
  · rename_i hlt
    unfold startsFrom
    apply filter_range_skip
    intro q hq
    by_cases hp : pos < q
    · by_cases hp2 : p + 1 < q
      · simp [hp, hp2]
      · have : q < p + 1 := by omega
        simp [key q hp this]
    · have : ¬ (p + 1 < q) := by omega
      simp [hp, this]

theorem startsFrom_ge {nl : α → Bool} {data : List α} {pos : Nat} (h : data.length ≤ pos + 1) :
    startsFrom nl data pos = [] := by
  unfold startsFrom
  rw [List.filter_eq_nil_iff]
  intro q hq
  rw [List.mem_range] at hq
  simp; omega

theorem sentenceStartsLoop_eq (nl : α → Bool) (data : List α) (fuel pos : Nat) (acc : List Nat)
    (hf : data.length < fuel + pos) :
    sentenceStartsLoop nl data fuel pos acc = acc ++ startsFrom nl data pos := by
  induction fuel generalizing pos acc with
  | zero => simp [sentenceStartsLoop, startsFrom_ge (nl := nl) (data := data) (pos := pos) (by omega)]
  | succ fuel ih =>
    unfold sentenceStartsLoop
    cases hfnd : findFrom nl data pos with
    | none => simp [startsFrom_none hfnd]
    | some p =>
      have h1 := (findFrom_some hfnd).1
      simp only
      rw [startsFrom_some hfnd]
      split
      · rw [ih _ _ (by omega), List.append_assoc]; rfl
      · rw [ih _ _ (by omega)]

theorem readlineAt_none {nl : α → Bool} {data : List α} {pos : Nat} (h : findFrom nl data pos = none) :
    readlineAt nl data pos = data.drop pos := by
  unfold findFrom at h
  rw [Option.map_eq_none_iff] at h
  simp [readlineAt, h]

theorem readlineAt_some {nl : α → Bool} {data : List α} {pos p : Nat} (h : findFrom nl data pos = some p) :
    readlineAt nl data pos = (data.drop pos).take (p + 1 - pos) := by
  unfold findFrom at h
  rw [Option.map_eq_some_iff] at h
  obtain ⟨i, hi, rfl⟩ := h
  simp only [readlineAt, hi]
  congr 1; omega

theorem readlines_flatten (nl : α → Bool) (data : List α) (n pos : Nat) (hn : data.length - pos ≤ n) :
    readlineAt nl data pos ++ ((startsFrom nl data pos).map (readlineAt nl data)).flatten = data.drop pos := by
  induction n generalizing pos with
  | zero =>
    rw [startsFrom_ge (by omega)]
    have : data.drop pos = [] := List.drop_eq_nil_of_le (by omega)
    simp [readlineAt, this]
  | succ n ih =>
    cases hfnd : findFrom nl data pos with
    | none => simp [startsFrom_none hfnd, readlineAt_none hfnd]
    | some p =>
      obtain ⟨h1, h2, -, -⟩ := findFrom_some hfnd
      have hd : data.drop pos = (data.drop pos).take (p + 1 - pos) ++ data.drop (p + 1) := by
        have h := (List.take_append_drop (p + 1 - pos) (data.drop pos)).symm
        rw [List.drop_drop] at h
        rwa [show pos + (p + 1 - pos) = p + 1 by omega] at h
      rw [startsFrom_some hfnd, readlineAt_some hfnd]
      conv => rhs; rw [hd]
      congr 1
      split
      · rw [List.map_cons, List.flatten_cons]
        exact ih (p + 1) (by omega)
      · rename_i hlt
        rw [startsFrom_ge (by omega), List.drop_eq_nil_of_le (by omega)]; rfl

end TheanoLM
