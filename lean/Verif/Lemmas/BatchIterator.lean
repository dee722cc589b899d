import Verif.Model.BatchIterator
import Verif.Lemmas.Parsing
/-! # Helper lemmas about the batch iterators -/
namespace TheanoLM

/-- Cuts a list to pieces of `k + 1` elements. -/
def chunk (k : Nat) (l : List α) : List (List α) :=
  if h : l = [] then [] else l.take (k + 1) :: chunk k (l.drop (k + 1))
termination_by l.length
decreasing_by
  have : 0 < l.length := List.length_pos_iff.mpr h
  rw [List.length_drop]; omega

theorem chunk_nil (k : Nat) : chunk k ([] : List α) = [] := by unfold chunk; simp

theorem chunk_ne_nil (k : Nat) {l : List α} (h : l ≠ []) :
    chunk k l = l.take (k + 1) :: chunk k (l.drop (k + 1)) := by
  rw [chunk]; simp [h]

theorem chunk_flatten (k : Nat) (l : List α) : (chunk k l).flatten = l := by
  fun_induction chunk k l with
  | case1 => rfl
  | case2 l h ih => rw [List.flatten_cons, ih, List.take_append_drop]

theorem chunk_mem (k : Nat) (l : List α) : ∀ p ∈ chunk k l, p ≠ [] ∧ p.length ≤ k + 1 := by
  fun_induction chunk k l with
  | case1 => simp
  | case2 l h ih =>
    intro p hp
    rcases List.mem_cons.mp hp with rfl | hp
    · have : 0 < l.length := List.length_pos_iff.mpr h
      constructor
      · rw [ne_eq, List.take_eq_nil_iff]; simp [h]
      · rw [List.length_take]; omega
    · exact ih p hp

theorem chunk_dropLast (k : Nat) (l : List α) : ∀ p ∈ (chunk k l).dropLast, p.length = k + 1 := by
  fun_induction chunk k l with
  | case1 => simp
  | case2 l h ih =>
    intro p hp
    by_cases h2 : l.drop (k + 1) = []
    · rw [h2, chunk_nil] at hp; simp at hp
    · rw [chunk_ne_nil k h2] at hp ih
      rw [List.dropLast_cons_cons] at hp
      rcases List.mem_cons.mp hp with rfl | hp
      · rw [List.drop_eq_nil_iff] at h2
        rw [List.length_take]; omega
      · exact ih p hp

theorem chunk_length (k : Nat) (l : List α) : (chunk k l).length = (l.length + k) / (k + 1) := by
  fun_induction chunk k l with
  | case1 => simp [Nat.div_eq_of_lt]
  | case2 l h ih =>
    have : 0 < l.length := List.length_pos_iff.mpr h
    rw [List.length_cons, ih, List.length_drop]
    by_cases hl : l.length ≤ k + 1
    · have e1 : l.length - (k + 1) = 0 := by omega
      rw [e1, Nat.zero_add, Nat.div_eq_of_lt (by omega)]
      have : l.length + k = (l.length - 1) + (k + 1) := by omega
      rw [this, Nat.add_div_right _ (by omega), Nat.div_eq_of_lt (by omega)]
    · have : l.length + k = (l.length - (k + 1) + k) + (k + 1) := by omega
      rw [this, Nat.add_div_right _ (by omega)]

/-! ## Sources -/

/-- `rem s` is the list of lines that the source in state `s` is going to return. -/
structure Lawful (S : Source σ) (good : σ → Prop) (rem : σ → List (Str × Nat)) : Prop where
  nil : ∀ s, good s → rem s = [] →
    (S.readline s).1 = none ∧ rem (S.readline s).2 = [] ∧ good (S.readline s).2
  cons : ∀ s l ls, good s → rem s = l :: ls →
    (S.readline s).1 = some l ∧ rem (S.readline s).2 = ls ∧ good (S.readline s).2

/-- The pieces that `_read_sequence` takes from one buffer of words. -/
def piecesOf (maxLen : Option Nat) (u : List Tok) : List (List Tok) :=
  match maxLen with
  | none => if u = [] then [] else [u]
  | some m => chunk (m - 1) u

def longEnough (l : List (List Tok)) : List (List Tok) := l.filter (fun q => decide (2 ≤ q.length))

def lineToks (l : Str × Nat) : List Tok := (utterance l.1).map (fun w => (w, l.2))

/-- Sequences that the iterator is going to return. -/
def pend (cfg : IterCfg) (rem : σ → List (Str × Nat)) (st : IterSt σ) : List (List Tok) :=
  longEnough (piecesOf cfg.maxLen st.buffer ++
    ((rem st.src).map (fun l => piecesOf cfg.maxLen (lineToks l))).flatten)

/-- Number of iterations left. -/
def work (rem : σ → List (Str × Nat)) (st : IterSt σ) : Nat :=
  st.buffer.length + ((rem st.src).map (fun l => (lineToks l).length + 1)).sum

theorem takeSequence_spec (cfg : IterCfg) (hm : cfg.maxLen ≠ some 0) (st : IterSt σ) :
    (takeSequence cfg st).2.src = st.src ∧ (takeSequence cfg st).2.eof = st.eof ∧
    longEnough (piecesOf cfg.maxLen st.buffer) =
      longEnough [(takeSequence cfg st).1] ++ longEnough (piecesOf cfg.maxLen (takeSequence cfg st).2.buffer) ∧
    (takeSequence cfg st).2.buffer.length + (if st.buffer = [] then 0 else 1) ≤ st.buffer.length := by
  unfold takeSequence
  cases h : cfg.maxLen with
  | none =>
    refine ⟨rfl, rfl, ?_, ?_⟩
    · simp only [piecesOf, if_true]
      by_cases hb : st.buffer = []
      · simp [hb, longEnough]
      · simp [hb, longEnough]
    · by_cases hb : st.buffer = []
      · simp [hb]
      · have := List.length_pos_iff.mpr hb
        simp [hb]; omega
  | some m =>
    have hm0 : m ≠ 0 := by intro e; rw [e] at h; exact hm h
    obtain ⟨k, rfl⟩ : ∃ k, m = k + 1 := ⟨m - 1, by omega⟩
    refine ⟨rfl, rfl, ?_, ?_⟩
    · simp only [piecesOf, Nat.add_sub_cancel]
      by_cases hb : st.buffer = []
      · simp [hb, chunk_nil, longEnough]
      · rw [chunk_ne_nil k hb]
        simp only [longEnough]
        rw [← List.filter_append]; rfl
    · by_cases hb : st.buffer = []
      · simp [hb]
      · have := List.length_pos_iff.mpr hb
        simp [hb]; omega

theorem longEnough_append (a b : List (List Tok)) : longEnough (a ++ b) = longEnough a ++ longEnough b := by
  simp [longEnough]

theorem piecesOf_nil (m : Option Nat) : piecesOf m [] = [] := by
  cases m <;> simp [piecesOf, chunk_nil]

theorem readSequence_spec {S : Source σ} {good : σ → Prop} {rem : σ → List (Str × Nat)} (L : Lawful S good rem)
    (cfg : IterCfg) (hm : cfg.maxLen ≠ some 0) (st : IterSt σ) (hg : good st.src) :
    (readSequence S cfg st).2.eof = st.eof ∧ good (readSequence S cfg st).2.src ∧
    match (readSequence S cfg st).1 with
    | none => pend cfg rem st = [] ∧ (readSequence S cfg st).2.buffer = [] ∧
        rem (readSequence S cfg st).2.src = []
    | some q =>
      pend cfg rem st = longEnough [q] ++ pend cfg rem (readSequence S cfg st).2 ∧
      work rem (readSequence S cfg st).2 < work rem st := by
  unfold readSequence
  by_cases hb : st.buffer = []
  · rw [if_pos hb]
    cases hr : rem st.src with
    | nil =>
      obtain ⟨h1, h2, h3⟩ := L.nil _ hg hr
      rcases hrl : S.readline st.src with ⟨o, s⟩
      rw [hrl] at h1 h2 h3
      simp only at h1 h2 h3
      subst h1
      exact ⟨rfl, h3, by simp [pend, hb, hr, piecesOf_nil, longEnough], hb, h2⟩
    | cons l ls =>
      obtain ⟨h1, h2, h3⟩ := L.cons _ _ _ hg hr
      rcases hrl : S.readline st.src with ⟨o, s⟩
      rw [hrl] at h1 h2 h3
      simp only at h1 h2 h3
      subst h1
      rcases l with ⟨line, fid⟩
      simp only
      have T := takeSequence_spec cfg hm { st with src := s, buffer := (utterance line).map (fun w => (w, fid)) }
      obtain ⟨t1, t2, t3, t4⟩ := T
      refine ⟨t2, by rw [t1]; exact h3, ?_, ?_⟩
      · unfold pend
        rw [t1, hb, hr, piecesOf_nil, List.nil_append, List.map_cons, List.flatten_cons, h2]
        rw [longEnough_append, longEnough_append, ← List.append_assoc, ← t3]
        rfl
      · unfold work
        rw [t1, hb, hr, h2]
        simp only [List.length_nil, List.map_cons, List.sum_cons]
        simp only [List.length_map, lineToks] at t4 ⊢
        omega
  · rw [if_neg hb]
    obtain ⟨t1, t2, t3, t4⟩ := takeSequence_spec cfg hm st
    refine ⟨t2, by rw [t1]; exact hg, ?_, ?_⟩
    · unfold pend
      rw [t1, longEnough_append, longEnough_append, ← List.append_assoc, ← t3]
    · unfold work
      simp only
      rw [t1]
      rw [if_neg hb] at t4
      omega

/-- What one call of `__next__` does, in terms of the sequences to come. -/
theorem nextLoop_spec {S : Source σ} {good : σ → Prop} {rem : σ → List (Str × Nat)} (L : Lawful S good rem)
    (cfg : IterCfg) (hm : cfg.maxLen ≠ some 0) (fuel : Nat) (acc : List (List Tok)) (st : IterSt σ)
    (hg : good st.src) (he : st.eof = false) (hf : work rem st < fuel) (hacc : acc.length < cfg.batchSize) :
    ∃ r st', nextLoop S cfg fuel acc st = some (r, st') ∧
      ((acc.length + (pend cfg rem st).length < cfg.batchSize ∧ acc ++ pend cfg rem st = [] ∧ r = none ∧
          ∃ s, good s ∧ st' = { src := S.reset true s, buffer := [], eof := false }) ∨
       (acc.length + (pend cfg rem st).length < cfg.batchSize ∧ acc ++ pend cfg rem st ≠ [] ∧
          r = some (acc ++ pend cfg rem st) ∧ st'.buffer = [] ∧ st'.eof = true ∧ rem st'.src = [] ∧ good st'.src) ∨
       (cfg.batchSize ≤ acc.length + (pend cfg rem st).length ∧
          r = some ((acc ++ pend cfg rem st).take cfg.batchSize) ∧
          pend cfg rem st' = (acc ++ pend cfg rem st).drop cfg.batchSize ∧ st'.eof = false ∧ good st'.src ∧
          work rem st' < work rem st)) := by
  induction fuel generalizing acc st with
  | zero => omega
  | succ fuel ih =>
    have R := readSequence_spec L cfg hm st hg
    unfold nextLoop
    rcases hrs : readSequence S cfg st with ⟨o, st1⟩
    rw [hrs] at R
    obtain ⟨r1, r2, r3⟩ := R
    simp only at r1 r2 r3
    cases o with
    | none =>
      obtain ⟨r4, r5, r6⟩ := r3
      simp only
      by_cases ha : acc = []
      · rw [if_pos ha]
        refine ⟨_, _, rfl, .inl ⟨?_, ?_, rfl, st1.src, r2, ?_⟩⟩
        · rw [r4]; simpa using hacc
        · rw [r4, ha]; rfl
        · rw [r5, r1, he]
      · rw [if_neg ha]
        refine ⟨_, _, rfl, .inr (.inl ⟨?_, ?_, ?_, r5, rfl, r6, r2⟩)⟩
        · rw [r4]; simpa using hacc
        · simp [ha]
        · rw [r4, List.append_nil]
    | some q =>
      obtain ⟨r4, r5⟩ := r3
      simp only
      by_cases hq : q.length < 2
      · rw [if_pos hq]
        have hnil : longEnough [q] = [] := by simp [longEnough]; omega
        rw [hnil, List.nil_append] at r4
        obtain ⟨r, st', h1, h2⟩ := ih acc st1 r2 (by rw [r1, he]) (by omega) hacc
        refine ⟨r, st', h1, ?_⟩
        rw [r4]
        rcases h2 with h2 | h2 | ⟨a, b, c, d, e, f⟩
        · exact .inl h2
        · exact .inr (.inl h2)
        · exact .inr (.inr ⟨a, b, c, d, e, by omega⟩)
      · rw [if_neg hq]
        have hone : longEnough [q] = [q] := by simp [longEnough]; omega
        rw [hone, List.singleton_append] at r4
        by_cases hl : cfg.batchSize ≤ (acc ++ [q]).length
        · rw [if_pos hl]
          rw [List.length_append, List.length_singleton] at hl
          have hb : cfg.batchSize = acc.length + 1 := by omega
          refine ⟨_, _, rfl, .inr (.inr ⟨?_, ?_, ?_, by rw [r1, he], r2, r5⟩)⟩
          · rw [r4]; simp; omega
          · rw [r4, hb]
            rw [List.take_append]; simp [List.take_of_length_le]
          · rw [r4, hb]
            rw [List.drop_append]; simp
        · rw [if_neg hl]
          rw [List.length_append, List.length_singleton] at hl
          obtain ⟨r, st', h1, h2⟩ := ih (acc ++ [q]) st1 r2 (by rw [r1, he]) (by omega) (by simp; omega)
          refine ⟨r, st', h1, ?_⟩
          have e1 : acc ++ pend cfg rem st = acc ++ [q] ++ pend cfg rem st1 := by rw [r4]; simp
          have e2 : acc.length + (pend cfg rem st).length = (acc ++ [q]).length + (pend cfg rem st1).length := by
            rw [r4]; simp; omega
          rw [e1, e2]
          rcases h2 with h2 | h2 | ⟨a, b, c, d, e, f⟩
          · exact .inl h2
          · exact .inr (.inl h2)
          · exact .inr (.inr ⟨a, b, c, d, e, by omega⟩)

theorem readSequence_unlimited (S : Source σ) (cfg : IterCfg) (hm : cfg.maxLen = none) (st : IterSt σ) :
    (readSequence S cfg st).2.buffer = [] := by
  unfold readSequence
  split
  · rename_i h
    rcases S.readline st.src with ⟨_ | ⟨l, f⟩, s⟩
    · exact h
    · simp [takeSequence, hm]
  · simp [takeSequence, hm]

theorem nextLoop_unlimited (S : Source σ) (cfg : IterCfg) (hm : cfg.maxLen = none) (fuel : Nat) (acc : List (List Tok))
    (st : IterSt σ) {r : Option (List (List Tok))} {st' : IterSt σ}
    (h : nextLoop S cfg fuel acc st = some (r, st')) : st'.buffer = [] := by
  induction fuel generalizing acc st with
  | zero => simp [nextLoop] at h
  | succ fuel ih =>
    unfold nextLoop at h
    have hb := readSequence_unlimited S cfg hm st
    rcases hr : readSequence S cfg st with ⟨_ | q, st1⟩
    · rw [hr] at h hb
      simp only at h
      split at h
      · cases h; exact hb
      · cases h; exact hb
    · rw [hr] at h hb
      simp only at h
      split at h
      · exact ih _ _ h
      · split at h
        · cases h; exact hb
        · exact ih _ _ h

theorem nextLoop_inv {S : Source σ} {good : σ → Prop} {rem : σ → List (Str × Nat)} (L : Lawful S good rem)
    (cfg : IterCfg) (hm : cfg.maxLen ≠ some 0) (fuel : Nat) (acc : List (List Tok)) (st : IterSt σ)
    (hg : good st.src) (he : st.eof = false) {r : Option (List (List Tok))} {st' : IterSt σ}
    (h : nextLoop S cfg fuel acc st = some (r, st')) :
    (good st'.src ∨ ∃ s, good s ∧ st'.src = S.reset true s) ∧ (st'.eof = true → st'.buffer = [] ∧ rem st'.src = []) := by
  induction fuel generalizing acc st with
  | zero => simp [nextLoop] at h
  | succ fuel ih =>
    unfold nextLoop at h
    have R := readSequence_spec L cfg hm st hg
    rcases hr : readSequence S cfg st with ⟨_ | q, st1⟩
    · rw [hr] at h R
      simp only at h R
      obtain ⟨r1, r2, r3, r4, r5⟩ := R
      split at h
      · cases h
        exact ⟨.inr ⟨_, r2, rfl⟩, fun hc => by simp [r1, he] at hc⟩
      · cases h; exact ⟨.inl r2, fun _ => ⟨r4, r5⟩⟩
    · rw [hr] at h R
      simp only at h R
      obtain ⟨r1, r2, r3, r4⟩ := R
      split at h
      · exact ih _ _ r2 (by rw [r1, he]) h
      · split at h
        · cases h; exact ⟨.inl r2, fun hc => by rw [r1, he] at hc; cases hc⟩
        · exact ih _ _ r2 (by rw [r1, he]) h

/-- A pass returns the pending sequences cut to batches, and ends with a reset. -/
theorem runPass_spec {S : Source σ} {good : σ → Prop} {rem : σ → List (Str × Nat)} (L : Lawful S good rem)
    (cfg : IterCfg) (hm : cfg.maxLen ≠ some 0) (hb : 0 < cfg.batchSize) (n fuel : Nat) (st : IterSt σ)
    (hg : good st.src) (he : st.eof = false) (hf : work rem st < fuel) (hn : work rem st + 2 ≤ n) :
    ∃ s, good s ∧ runPass S cfg fuel n st =
      some (chunk (cfg.batchSize - 1) (pend cfg rem st), { src := S.reset true s, buffer := [], eof := false }) := by
  obtain ⟨k, hk⟩ : ∃ k, cfg.batchSize = k + 1 := ⟨cfg.batchSize - 1, by omega⟩
  induction n generalizing st with
  | zero => omega
  | succ n ih =>
    obtain ⟨r, st', h1, h2⟩ := nextLoop_spec L cfg hm fuel [] st hg he hf (by simpa using hb)
    have hnext : next S cfg fuel st = some (r, st') := by simp [next, he, h1]
    simp only [List.length_nil, Nat.zero_add, List.nil_append] at h2
    unfold runPass
    rw [hnext]
    rcases h2 with ⟨a, b, rfl, s, hs, rfl⟩ | ⟨a, b, rfl, hbuf, heof, -, hgood⟩ | ⟨a, rfl, hp, heof, hgood, hw⟩
    · exact ⟨s, hs, by simp [b, chunk_nil]⟩
    · refine ⟨st'.src, hgood, ?_⟩
      obtain ⟨n', rfl⟩ : ∃ n', n = n' + 1 := ⟨n - 1, by omega⟩
      have h3 : runPass S cfg fuel (n' + 1) st' =
          some ([], { src := S.reset true st'.src, buffer := [], eof := false }) := by
        unfold runPass
        simp [next, heof, hbuf]
      simp only [h3]
      rw [hk, Nat.add_sub_cancel, chunk_ne_nil k b, List.take_of_length_le (by omega),
        List.drop_of_length_le (by omega), chunk_nil]
    · obtain ⟨s, hs, h3⟩ := ih st' hgood heof (by omega) (by omega)
      refine ⟨s, hs, ?_⟩
      simp only [h3]
      have hne : pend cfg rem st ≠ [] := by
        intro hc; rw [hc] at a; simp at a; omega
      rw [hp, hk, Nat.add_sub_cancel, ← chunk_ne_nil k hne]

theorem lenLoop_spec {S : Source σ} {good : σ → Prop} {rem : σ → List (Str × Nat)} (L : Lawful S good rem)
    (cfg : IterCfg) (hm : cfg.maxLen ≠ some 0) (fuel num : Nat) (st : IterSt σ)
    (hg : good st.src) (hf : work rem st < fuel) :
    ∃ s, good s ∧ lenLoop S cfg fuel num st =
      some (num + (pend cfg rem st).length, { src := s, buffer := [], eof := st.eof }) := by
  induction fuel generalizing num st with
  | zero => omega
  | succ fuel ih =>
    have R := readSequence_spec L cfg hm st hg
    unfold lenLoop
    rcases hrs : readSequence S cfg st with ⟨o, st1⟩
    rw [hrs] at R
    obtain ⟨r1, r2, r3⟩ := R
    simp only at r1 r2 r3
    cases o with
    | none =>
      obtain ⟨r4, r5, r6⟩ := r3
      refine ⟨st1.src, r2, ?_⟩
      simp only [r4, List.length_nil, Nat.add_zero]
      rw [← r1, ← r5]
    | some q =>
      obtain ⟨r4, r5⟩ := r3
      simp only
      by_cases hq : q.length < 2
      · rw [if_pos hq]
        have hnil : longEnough [q] = [] := by simp [longEnough]; omega
        rw [hnil, List.nil_append] at r4
        obtain ⟨s, hs, h1⟩ := ih num st1 r2 (by omega)
        exact ⟨s, hs, by rw [h1, r4, r1]⟩
      · rw [if_neg hq]
        have hone : longEnough [q] = [q] := by simp [longEnough]; omega
        rw [hone, List.singleton_append] at r4
        obtain ⟨s, hs, h1⟩ := ih (num + 1) st1 r2 (by omega)
        refine ⟨s, hs, ?_⟩
        rw [h1, r4, r1, List.length_cons]
        congr 2; omega

/-! ## Lines -/

/-- The lines of a text, each with its newline. -/
def linesOf (nl : α → Bool) : List α → List (List α)
  | [] => []
  | c :: cs =>
    if nl c then [c] :: linesOf nl cs
    else match linesOf nl cs with
      | [] => [[c]]
      | l :: ls => (c :: l) :: ls

theorem linesOf_flatten (nl : α → Bool) (l : List α) : (linesOf nl l).flatten = l := by
  fun_induction linesOf nl l <;> simp_all

theorem linesOf_cons (nl : α → Bool) (rest : List α) (h : rest ≠ []) :
    linesOf nl rest = readlineAt nl rest 0 :: linesOf nl (rest.drop (readlineAt nl rest 0).length) := by
  have key : ∀ rest : List α, rest ≠ [] → linesOf nl rest =
      (match rest.findIdx? nl with | some i => rest.take (i + 1) | none => rest) ::
        linesOf nl (rest.drop (match rest.findIdx? nl with | some i => rest.take (i + 1) | none => rest).length) := by
    intro rest
    induction rest with
    | nil => simp
    | cons c cs ih =>
      intro _
      rw [List.findIdx?_cons]
      by_cases hc : nl c = true
      · simp [linesOf, hc]
      · have hc' : nl c = false := by simpa using hc
        simp only [linesOf, hc', Bool.false_eq_true, if_false]
        by_cases hcs : cs = []
        · subst hcs; simp [linesOf]
        · rw [ih hcs]
          cases cs.findIdx? nl <;> simp
  have := key rest h
  simp only [readlineAt, List.drop_zero]
  exact this

theorem readlineAt_zero (nl : α → Bool) (data : List α) (pos : Nat) :
    readlineAt nl data pos = readlineAt nl (data.drop pos) 0 := by simp [readlineAt]

theorem readlineAt_eq_nil (nl : α → Bool) (data : List α) (pos : Nat) :
    readlineAt nl data pos = [] ↔ data.drop pos = [] := by
  constructor
  · intro h
    rcases hd : data.drop pos with _ | ⟨c, cs⟩
    · rfl
    · exfalso
      simp only [readlineAt, hd, List.findIdx?_cons] at h
      by_cases hc : nl c = true
      · simp [hc] at h
      · simp only [hc] at h
        cases hf : cs.findIdx? nl <;> simp [hf] at h
  · intro h; simp [readlineAt, h]

theorem readlines_linesOf (nl : α → Bool) (data : List α) (n pos : Nat) (hn : data.length - pos ≤ n)
    (hpos : pos < data.length) :
    readlineAt nl data pos :: (startsFrom nl data pos).map (readlineAt nl data) = linesOf nl (data.drop pos) := by
  induction n generalizing pos with
  | zero => omega
  | succ n ih =>
    have hne : data.drop pos ≠ [] := by rw [ne_eq, List.drop_eq_nil_iff]; omega
    rw [linesOf_cons nl _ hne, ← readlineAt_zero]
    congr 1
    cases hfnd : findFrom nl data pos with
    | none => rw [startsFrom_none hfnd, readlineAt_none hfnd, List.drop_length]; rfl
    | some p =>
      obtain ⟨h1, h2, -, -⟩ := findFrom_some hfnd
      rw [startsFrom_some hfnd, readlineAt_some hfnd, List.drop_drop]
      have hl : pos + ((data.drop pos).take (p + 1 - pos)).length = p + 1 := by
        rw [List.length_take, List.length_drop]; omega
      rw [hl]
      split
      · rw [List.map_cons]; exact ih (p + 1) (by omega) (by omega)
      · rw [startsFrom_ge (by omega), List.drop_eq_nil_of_le (by omega)]; rfl

theorem findSentenceStarts_eq (nl : α → Bool) (data : List α) :
    findSentenceStarts nl data = 0 :: startsFrom nl data 0 := by
  unfold findSentenceStarts
  rw [sentenceStartsLoop_eq _ _ _ _ _ (by omega)]; rfl

theorem findSentenceStarts_lines (nl : α → Bool) (data : List α) (h : data ≠ []) :
    (findSentenceStarts nl data).map (readlineAt nl data) = linesOf nl data := by
  rw [findSentenceStarts_eq, List.map_cons,
    readlines_linesOf nl data data.length 0 (by omega) (List.length_pos_iff.mpr h), List.drop_zero]

/-! ## The linear source -/

def linTail : List Str → Nat → List (Str × Nat)
  | [], _ => []
  | f :: fs, k => (linesOf isNl f).map (fun l => (l, k)) ++ linTail fs (k + 1)

def linRem (files : List Str) (st : LinSt) : List (Str × Nat) :=
  (linesOf isNl ((files.getD st.fileId []).drop st.pos)).map (fun l => (l, st.fileId)) ++
    linTail (files.drop (st.fileId + 1)) (st.fileId + 1)

theorem linSkip_spec (files : List Str) (k : Nat) :
    match linTail (files.drop k) k with
    | [] => (linSkip (files.drop k) k).1 = none ∧ linRem files (linSkip (files.drop k) k).2 = []
    | l :: ls => (linSkip (files.drop k) k).1 = some l ∧ linRem files (linSkip (files.drop k) k).2 = ls := by
  induction hn : files.length - k generalizing k with
  | zero =>
    have h1 : files[k]? = none := List.getElem?_eq_none (by omega)
    have h2 : files.drop (k + 1) = [] := List.drop_of_length_le (by omega)
    rw [List.drop_of_length_le (by omega)]; simp [linTail, linSkip, linRem, h1, h2, linesOf]
  | succ n ih =>
    have hk : k < files.length := by omega
    rw [List.drop_eq_getElem_cons hk]
    have hgd : files.getD k [] = files[k] := by simp [List.getD, hk]
    simp only [linTail, linSkip]
    by_cases hl : readlineAt isNl files[k] 0 = []
    · have hd := (readlineAt_eq_nil _ _ _).mp hl
      rw [List.drop_zero] at hd
      simp only [hl, ne_eq, not_true_eq_false, if_false]
      rw [hd]
      simp only [linesOf, List.map_nil, List.nil_append]
      exact ih (k + 1) (by omega)
    · have hd : files[k] ≠ [] := by
        intro hc; apply hl; rw [readlineAt_eq_nil, hc]; rfl
      rw [linesOf_cons isNl _ hd]
      simp only [ne_eq, hl, not_false_eq_true, if_true, List.map_cons, List.cons_append, true_and]
      simp only [linRem, hgd]

theorem linear_lawful (files : List Str) : Lawful (linearSource files) (fun _ => True) (linRem files) := by
  have key : ∀ s, match linRem files s with
      | [] => (linReadline files s).1 = none ∧ linRem files (linReadline files s).2 = []
      | l :: ls => (linReadline files s).1 = some l ∧ linRem files (linReadline files s).2 = ls := by
    intro s
    unfold linReadline
    by_cases hl : readlineAt isNl (files.getD s.fileId []) s.pos = []
    · have hd := (readlineAt_eq_nil _ _ _).mp hl
      have hrem : linRem files s = linTail (files.drop (s.fileId + 1)) (s.fileId + 1) := by
        unfold linRem; rw [hd]; simp [linesOf]
      simp only [hl, ne_eq, not_true_eq_false, if_false]
      rw [hrem]
      exact linSkip_spec files (s.fileId + 1)
    · have hd : (files.getD s.fileId []).drop s.pos ≠ [] := fun hc => hl ((readlineAt_eq_nil _ _ _).mpr hc)
      simp only [ne_eq, hl, not_false_eq_true, if_true]
      have hrem : linRem files s = (readlineAt isNl (files.getD s.fileId []) s.pos, s.fileId) ::
          linRem files ⟨s.fileId, s.pos + (readlineAt isNl (files.getD s.fileId []) s.pos).length⟩ := by
        unfold linRem
        rw [linesOf_cons isNl _ hd, ← readlineAt_zero, List.map_cons, List.cons_append, List.drop_drop]
      rw [hrem]
      exact ⟨rfl, rfl⟩
  constructor
  · intro s _ h
    have := key s
    rw [h] at this
    exact ⟨this.1, this.2, trivial⟩
  · intro s l ls _ h
    have := key s
    rw [h] at this
    exact ⟨this.1, this.2, trivial⟩

theorem linRem_init (files : List Str) : linRem files ⟨0, 0⟩ = linTail files 0 := by
  cases files with
  | nil => simp [linRem, linTail, linesOf]
  | cons f fs => simp [linRem, linTail]

/-! ## The shuffling source -/

def shufLine (files : List Str) (i : Nat) : Str × Nat :=
  match (sentencePointers files)[i]? with
  | none => ([], 0)
  | some (subset, position) => (readlineAt isNl (files.getD subset []) position, subset)

def shufRem (files : List Str) (st : ShufSt) : List (Str × Nat) :=
  (st.order.drop st.nextLine).map (shufLine files)

def shufGood (files : List Str) (st : ShufSt) : Prop :=
  ∀ i ∈ st.order, i < (sentencePointers files).length

/-- Reading does not change the order, nor the number of shuffles. -/
theorem shuffling_lawful (files : List Str) (rand : Nat → List Nat) (o : List Nat) (c : Nat) :
    Lawful (shufflingSource files rand) (fun s => shufGood files s ∧ s.order = o ∧ s.shuffles = c) (shufRem files) := by
  constructor
  · intro s hg h
    have hlen : s.order.length ≤ s.nextLine := by
      simpa [shufRem] using h
    have : shufReadline files s = (none, s) := by
      simp [shufReadline, List.getElem?_eq_none hlen]
    simp only [shufflingSource, this]
    exact ⟨trivial, h, hg⟩
  · intro s l ls hg h
    have hlt : s.nextLine < s.order.length := by
      rcases Nat.lt_or_ge s.nextLine s.order.length with h1 | h1
      · exact h1
      · simp [shufRem, List.drop_of_length_le h1] at h
    unfold shufRem at h
    rw [List.drop_eq_getElem_cons hlt, List.map_cons] at h
    injection h with h1 h2
    have hi := hg.1 _ (List.getElem_mem hlt)
    have hp : (sentencePointers files)[s.order[s.nextLine]]? =
        some (sentencePointers files)[s.order[s.nextLine]] := List.getElem?_eq_getElem hi
    have : shufReadline files s = (some l, { s with nextLine := s.nextLine + 1 }) := by
      simp only [shufReadline, List.getElem?_eq_getElem hlt, hp]
      simp only [shufLine, hp] at h1
      rw [h1]
    refine ⟨by simp [shufflingSource, this], ?_, ?_⟩
    · simp only [shufflingSource, this, shufRem]; exact h2
    · simp only [shufflingSource, this]; exact hg

end TheanoLM
