import Verif.Lemmas.Vocabulary
/-!
# Lemmas: the vocabularies that the constructors build
-/
namespace TheanoLM

/-! ## Word IDs -/

theorem idxOf?_get {l : List Str} {w : Str} {i : Nat} (h : l.idxOf? w = some i) : l[i]? = some w := by
  induction l generalizing i with
  | nil => simp at h
  | cons a l ih =>
    rw [List.idxOf?_cons] at h
    split at h
    · rename_i ha
      cases h
      simp_all
    · cases hl : l.idxOf? w with
      | none => rw [hl] at h; cases h
      | some j =>
        rw [hl] at h
        cases h
        simpa using ih hl

theorem idxOf?_mem {l : List Str} {w : Str} (h : w ∈ l) : ∃ i, l.idxOf? w = some i := by
  cases hl : l.idxOf? w with
  | some i => exact ⟨i, rfl⟩
  | none => rw [List.idxOf?_eq_none_iff] at hl; exact absurd h hl

theorem wordToId_get {ws : List Str} {w : Str} {i : Nat} (h : wordToId ws w = some i) : ws[i]? = some w := by
  unfold wordToId at h
  cases hl : ws.reverse.idxOf? w with
  | none => rw [hl] at h; cases h
  | some j =>
    rw [hl] at h
    cases h
    have := idxOf?_get hl
    have hlt : j < ws.length := by
      have := (List.getElem?_eq_some_iff.mp this).1
      simpa using this
    rw [List.getElem?_reverse (by simpa using hlt)] at this
    exact this

theorem wordToId_mem {ws : List Str} {w : Str} (h : w ∈ ws) : ∃ i, wordToId ws w = some i := by
  obtain ⟨i, hi⟩ := idxOf?_mem (List.mem_reverse.mpr h)
  exact ⟨ws.length - 1 - i, by simp [wordToId, hi]⟩

theorem wordToId_none {ws : List Str} {w : Str} : wordToId ws w = none ↔ w ∉ ws := by
  constructor
  · intro h hm
    obtain ⟨i, hi⟩ := wordToId_mem hm
    rw [h] at hi; cases hi
  · intro h
    cases hw : wordToId ws w with
    | none => rfl
    | some i => exact absurd (List.mem_of_getElem? (wordToId_get hw)) h

theorem getElem?_inj_of_nodup {l : List α} (hn : l.Nodup) {i j : Nat} {a : α} (hi : l[i]? = some a) (hj : l[j]? = some a) :
    i = j := by
  obtain ⟨h1, h2⟩ := List.getElem?_eq_some_iff.mp hi
  obtain ⟨h3, h4⟩ := List.getElem?_eq_some_iff.mp hj
  exact (hn.getElem_inj_iff).mp (h2.trans h4.symm)

theorem wordToId_iff {ws : List Str} (hn : ws.Nodup) {w : Str} {i : Nat} : wordToId ws w = some i ↔ ws[i]? = some w := by
  constructor
  · exact wordToId_get
  · intro h
    obtain ⟨j, hj⟩ := wordToId_mem (List.mem_of_getElem? h)
    rw [hj, getElem?_inj_of_nodup hn (wordToId_get hj) h]

/-! ## Words from a file -/

/-- The lists after adding the entries `es`. -/
structure FInv [DecidableEq φ] (b : Build φ) (es : List (Option φ × ℚ × Str)) : Prop where
  inv : BInv b (es.map (fun e => e.2.1))
  words : b.words = es.map (fun e => e.2.2)
  fids : ∀ (i : Nat) (e : Option φ × ℚ × Str) (f : φ), es[i]? = some e → e.1 = some f → ∃ c, dictGet? b.fileIds f = some c ∧ b.classOf[i]? = some c
  fback : ∀ (f : φ) (c : Nat), dictGet? b.fileIds f = some c →
    ∃ (i : Nat) (e : Option φ × ℚ × Str), es[i]? = some e ∧ e.1 = some f ∧ b.classOf[i]? = some c
  same : ∀ i j c : Nat, b.classOf[i]? = some c → b.classOf[j]? = some c →
    i = j ∨ ∃ (f : φ) (e e' : Option φ × ℚ × Str), es[i]? = some e ∧ es[j]? = some e' ∧ e.1 = some f ∧ e'.1 = some f

theorem FInv.empty [DecidableEq φ] : FInv (Build.empty : Build φ) [] := by
  refine ⟨BInv.empty, rfl, ?_, ?_, ?_⟩ <;> simp [Build.empty, dictGet?]

theorem getElem?_append_one {l : List α} {a b : α} {i : Nat} (h : (l ++ [a])[i]? = some b) :
    l[i]? = some b ∨ i = l.length ∧ a = b := by
  rcases Nat.lt_trichotomy i l.length with hi | hi | hi
  · left; rwa [List.getElem?_append_left hi] at h
  · right; subst hi; simp at h; exact ⟨rfl, h⟩
  · rw [List.getElem?_eq_none (by simp; omega)] at h; cases h

theorem getElem?_append_of {l m : List α} {b : α} {i : Nat} (h : l[i]? = some b) : (l ++ m)[i]? = some b := by
  rw [List.getElem?_append_left]
  · exact h
  · exact (List.getElem?_eq_some_iff.mp h).1

theorem FInv.len [DecidableEq φ] {b : Build φ} {es : List (Option φ × ℚ × Str)} (h : FInv b es) :
    b.classOf.length = es.length := by
  rw [h.inv.len, h.words, List.length_map]

theorem FInv.step [DecidableEq φ] {b : Build φ} {es : List (Option φ × ℚ × Str)} (h : FInv b es) (fid : Option φ) (p : ℚ)
    {w : Str} (hw : w ∉ b.words) : ∃ b', addWord b fid p w = .ok b' ∧ FInv b' (es ++ [(fid, p, w)]) := by
  have hlen := h.len
  rw [addWord_eq, if_neg hw]
  cases hfid : fid.bind (dictGet? b.fileIds) with
  | some c =>
    refine ⟨_, rfl, ?_⟩
    cases fid with
    | none => cases hfid
    | some f =>
      simp only [Option.bind_some] at hfid
      obtain ⟨i0, e0, h01, h02, h03⟩ := h.fback f c hfid
      have hc : c < b.classes.length := h.inv.lt c (List.mem_of_getElem? h03)
      refine ⟨?_, ?_, ?_, ?_, ?_⟩
      · have := h.inv.stepOld hw p hc b.fileIds
        simpa using this
      · simp [stepOld, h.words]
      · intro i e f' he hf'
        rcases getElem?_append_one he with he | ⟨hi, he2⟩
        · obtain ⟨c', h1, h2⟩ := h.fids i e f' he hf'
          exact ⟨c', h1, getElem?_append_of h2⟩
        · subst hi; subst he2
          cases hf'
          exact ⟨c, hfid, by simp [stepOld, ← hlen]⟩
      · intro f' c' hc'
        obtain ⟨i, e, h1, h2, h3⟩ := h.fback f' c' hc'
        exact ⟨i, e, getElem?_append_of h1, h2, getElem?_append_of h3⟩
      · intro i j c' hi hj
        simp only [stepOld] at hi hj
        have key : ∀ i : Nat, b.classOf[i]? = some c → ∃ e : Option φ × ℚ × Str, es[i]? = some e ∧ e.1 = some f := by
          intro i hi
          rcases h.same i i0 c hi h03 with rfl | ⟨f', e, e', h1, h2, h3, h4⟩
          · exact ⟨e0, h01, h02⟩
          · rw [h01] at h2; cases h2
            rw [h02] at h4; cases h4
            exact ⟨e, h1, h3⟩
        rcases getElem?_append_one hi with hi | ⟨hi', hci⟩ <;> rcases getElem?_append_one hj with hj | ⟨hj', hcj⟩
        · rcases h.same i j c' hi hj with rfl | ⟨f', e, e', h1, h2, h3, h4⟩
          · exact .inl rfl
          · exact .inr ⟨f', e, e', getElem?_append_of h1, getElem?_append_of h2, h3, h4⟩
        · subst hcj
          obtain ⟨e, h1, h2⟩ := key i hi
          refine .inr ⟨f, e, (some f, p, w), getElem?_append_of h1, ?_, h2, rfl⟩
          rw [hj', hlen]; simp
        · subst hci
          obtain ⟨e, h1, h2⟩ := key j hj
          refine .inr ⟨f, (some f, p, w), e, ?_, getElem?_append_of h1, rfl, h2⟩
          rw [hi', hlen]; simp
        · exact .inl (by omega)
  | none =>
    refine ⟨_, rfl, ?_⟩
    have hfresh : ∀ i c : Nat, b.classOf[i]? = some c → c ≠ b.classes.length := by
      intro i c hi hc
      have := h.inv.lt c (List.mem_of_getElem? hi)
      omega
    have hnf : ∀ f, fid = some f → dictGet? b.fileIds f = none := by
      intro f hf; subst hf; simpa using hfid
    refine ⟨?_, ?_, ?_, ?_, ?_⟩
    · rw [List.map_append]
      exact h.inv.stepNew hw p _
    · simp [stepNew, h.words]
    · intro i e f' he hf'
      simp only [stepNew]
      rcases getElem?_append_one he with he | ⟨hi, he2⟩
      · obtain ⟨c', h1, h2⟩ := h.fids i e f' he hf'
        refine ⟨c', ?_, getElem?_append_of h2⟩
        cases fid with
        | none => exact h1
        | some f =>
          have hn := hnf f rfl
          simp only
          rw [dictSet_new _ _ _ ((dictGet?_none _ _).mp hn), dictGet?_append _ _ _ _ ((dictGet?_none _ _).mp hn), if_neg]
          · exact h1
          · intro hff; subst hff; rw [hn] at h1; cases h1
      · subst hi; subst he2
        simp only at hf'
        subst hf'
        have hn := hnf f' rfl
        refine ⟨b.classes.length, ?_, by simp [← hlen]⟩
        simp only
        rw [dictSet_new _ _ _ ((dictGet?_none _ _).mp hn), dictGet?_append _ _ _ _ ((dictGet?_none _ _).mp hn), if_pos rfl]
    · intro f' c' hc'
      simp only [stepNew] at hc' ⊢
      have hold : dictGet? b.fileIds f' = some c' → ∃ (i : Nat) (e : Option φ × ℚ × Str), (es ++ [(fid, p, w)])[i]? = some e ∧ e.1 = some f' ∧
          (b.classOf ++ [b.classes.length])[i]? = some c' := by
        intro hc'
        obtain ⟨i, e, h1, h2, h3⟩ := h.fback f' c' hc'
        exact ⟨i, e, getElem?_append_of h1, h2, getElem?_append_of h3⟩
      cases fid with
      | none => exact hold hc'
      | some f =>
        have hn := hnf f rfl
        simp only at hc'
        rw [dictSet_new _ _ _ ((dictGet?_none _ _).mp hn), dictGet?_append _ _ _ _ ((dictGet?_none _ _).mp hn)] at hc'
        split at hc'
        · rename_i hff
          cases hc'
          subst hff
          exact ⟨es.length, (some f', p, w), by simp, rfl, by simp [← hlen]⟩
        · exact hold hc'
    · intro i j c' hi hj
      simp only [stepNew] at hi hj
      rcases getElem?_append_one hi with hi | ⟨hi', hci⟩ <;> rcases getElem?_append_one hj with hj | ⟨hj', hcj⟩
      · rcases h.same i j c' hi hj with rfl | ⟨f', e, e', h1, h2, h3, h4⟩
        · exact .inl rfl
        · exact .inr ⟨f', e, e', getElem?_append_of h1, getElem?_append_of h2, h3, h4⟩
      · exact absurd hcj.symm (hfresh i c' hi)
      · exact absurd hci.symm (hfresh j c' hj)
      · exact .inl (by omega)

/-- Adds an entry for a special token, unless it exists. -/
def addTok (t : Str) (es : List (Option φ × ℚ × Str)) : List (Option φ × ℚ × Str) :=
  if t ∈ es.map (fun e => e.2.2) then es else es ++ [(none, 1, t)]

def withSpecials (es : List (Option φ × ℚ × Str)) : List (Option φ × ℚ × Str) := addTok unk (addTok eos (addTok sos es))

theorem FInv.addSpecial [DecidableEq φ] {b : Build φ} {es : List (Option φ × ℚ × Str)} (h : FInv b es) (t : Str) :
    FInv (addSpecial t b) (addTok t es) := by
  rw [addSpecial_eq]
  unfold addTok
  rw [← h.words]
  split
  · exact h
  · rename_i ht
    obtain ⟨b', h1, h2⟩ := h.step none 1 ht
    rw [addWord_eq, if_neg ht] at h1
    cases h1
    exact h2

theorem FInv.addSpecialTokens [DecidableEq φ] {b : Build φ} {es : List (Option φ × ℚ × Str)} (h : FInv b es) :
    ∃ b', addSpecialTokens b = .ok b' ∧ FInv b' (withSpecials es) ∧ (∀ t, t = sos ∨ t = eos ∨ t = unk → t ∈ b'.words) := by
  refine ⟨_, ?_, ((h.addSpecial sos).addSpecial eos).addSpecial unk, ?_⟩
  · unfold TheanoLM.addSpecialTokens
    rw [if_neg (by simp [h.inv.len])]
  · rintro t (rfl | rfl | rfl)
    · exact addSpecial_mono _ _ (addSpecial_mono _ _ (addSpecial_mem _ _))
    · exact addSpecial_mono _ _ (addSpecial_mem _ _)
    · exact addSpecial_mem _ _

theorem addOosWords_spec (ws os : List Str) (hn : ws.Nodup) :
    ∃ rest, addOosWords ws os = ws ++ rest ∧ (ws ++ rest).Nodup ∧ ∀ w, w ∈ rest ↔ w ∈ os ∧ w ∉ ws := by
  induction os generalizing ws with
  | nil => exact ⟨[], by simp [addOosWords, hn]⟩
  | cons w os ih =>
    unfold addOosWords
    split
    · rename_i hw
      obtain ⟨rest, h1, h2, h3⟩ := ih ws hn
      refine ⟨rest, h1, h2, ?_⟩
      intro x
      rw [h3]
      constructor
      · rintro ⟨h4, h5⟩; exact ⟨by simp [h4], h5⟩
      · rintro ⟨h4, h5⟩
        rcases List.mem_cons.mp h4 with rfl | h4
        · exact absurd hw h5
        · exact ⟨h4, h5⟩
    · rename_i hw
      obtain ⟨rest, h1, h2, h3⟩ := ih (ws ++ [w]) (nodup_append_singleton hn hw)
      refine ⟨w :: rest, by rw [h1]; simp, by simpa using h2, ?_⟩
      intro x
      simp only [List.mem_cons, h3, List.mem_append, List.not_mem_nil, or_false, not_or]
      constructor
      · rintro (rfl | ⟨h4, h5, h6⟩)
        · exact ⟨.inl rfl, hw⟩
        · exact ⟨.inr h4, h5⟩
      · rintro ⟨rfl | h4, h5⟩
        · exact .inl rfl
        · by_cases hx : x = w
          · exact .inl hx
          · exact .inr ⟨h4, h5, hx⟩

/-- The entries of the lines, by the model's own functions. -/
def fileEntries (P : Parsers) (fmt : VocFormat) (lines : List Str) : Except Err (List (Option FileId × ℚ × Str)) :=
  mapE (vocFields P fmt) ((lines.map pySplit).filter (fun fs => fs ≠ []))

theorem fromFileLoop_spec (P : Parsers) (fmt : VocFormat) (lines : List Str) (b : Build FileId)
    (es0 : List (Option FileId × ℚ × Str)) (h : FInv b es0) :
    (∃ es b', fileEntries P fmt lines = .ok es ∧ ((es0 ++ es).map (fun e => e.2.2)).Nodup ∧
      fromFileLoop P fmt lines b = .ok b' ∧ FInv b' (es0 ++ es)) ∨
    (∃ e, fromFileLoop P fmt lines b = .error e ∧
      ((∃ fs ∈ lines.map pySplit, fs ≠ [] ∧ vocFields P fmt fs = .error e) ∨
       e = .inputError ∧ ∃ n es, fileEntries P fmt (lines.take n) = .ok es ∧ ¬ ((es0 ++ es).map (fun e => e.2.2)).Nodup)) := by
  induction lines generalizing b es0 with
  | nil =>
    left
    refine ⟨[], b, rfl, ?_, rfl, ?_⟩
    · rw [List.append_nil, ← h.words]; exact h.inv.nodup
    · rw [List.append_nil]; exact h
  | cons line lines ih =>
    unfold fromFileLoop
    by_cases hf : pySplit line = []
    · simp only [hf, if_true]
      rcases ih b es0 h with ⟨es, b', h1, h2, h3, h4⟩ | ⟨e, h1, h2⟩
      · left
        refine ⟨es, b', ?_, h2, h3, h4⟩
        simpa [fileEntries, hf] using h1
      · right
        refine ⟨e, h1, ?_⟩
        rcases h2 with ⟨fs, h2, h3⟩ | ⟨h2, n, es, h3, h4⟩
        · exact .inl ⟨fs, by simp at h2 ⊢; exact .inr h2, h3⟩
        · refine .inr ⟨h2, n + 1, es, ?_, h4⟩
          simpa [fileEntries, hf] using h3
    · simp only [hf, if_false]
      cases hv : vocFields P fmt (pySplit line) with
      | error e =>
        right
        exact ⟨e, rfl, .inl ⟨pySplit line, by simp, hf, hv⟩⟩
      | ok en =>
        obtain ⟨fid, p, w⟩ := en
        simp only
        by_cases hw : w ∈ b.words
        · right
          refine ⟨.inputError, ?_, .inr ⟨rfl, 1, [(fid, p, w)], ?_, ?_⟩⟩
          · rw [addWord_eq, if_pos hw]
          · simp [fileEntries, hf, mapE, hv]
          · rw [h.words] at hw
            rw [List.map_append, List.nodup_append]
            rintro ⟨_, _, h3⟩
            exact h3 w hw w (by simp) rfl
        · obtain ⟨b1, hb1, hb2⟩ := h.step fid p hw
          rw [hb1]
          simp only
          rcases ih b1 _ hb2 with ⟨es, b', h1, h2, h3, h4⟩ | ⟨e, h1, h2⟩
          · left
            refine ⟨(fid, p, w) :: es, b', ?_, by simpa using h2, h3, by simpa using h4⟩
            unfold fileEntries at h1 ⊢
            simp [hf, mapE, hv] at h1 ⊢
            rw [h1]
          · right
            refine ⟨e, h1, ?_⟩
            rcases h2 with ⟨fs, h2, h3⟩ | ⟨h2, n, es, h3, h4⟩
            · exact .inl ⟨fs, by simp at h2 ⊢; exact .inr h2, h3⟩
            · refine .inr ⟨h2, n + 1, (fid, p, w) :: es, ?_, by simpa using h4⟩
              unfold fileEntries at h3 ⊢
              simp [hf, mapE, hv] at h3 ⊢
              rw [h3]

end TheanoLM
