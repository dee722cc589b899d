import Verif.Props.VocabularySpec
import Verif.Lemmas.VocabProbs
/-!
# Lemmas: the constructors of vocabularies and the specification
-/
namespace TheanoLM

theorem vocFields_iff (P : Parsers) (fmt : VocFormat) (ws : List Str) (e : Option FileId × ℚ × Str) :
    vocFields P fmt ws = .ok e ↔ EntryOf P fmt ws e := by
  constructor
  · intro h
    unfold vocFields at h
    split at h
    · cases h; exact .words _
    · split at h
      · rename_i hn; cases h; exact .classes _ _ _ hn
      · cases h
    · split at h
      · rename_i hn; cases h; exact .srilm _ _ _ _ hn
      · cases h
    · cases h
  · rintro (_ | _ | _)
    · rfl
    · rename_i h; simp [vocFields, h]
    · rename_i h; simp [vocFields, h]

theorem EntryOf_ne_nil {P : Parsers} {fmt : VocFormat} {ws : List Str} {e : Option FileId × ℚ × Str}
    (h : EntryOf P fmt ws e) : ws ≠ [] := by
  cases h <;> simp

theorem Words_pySplit (l : Str) : Words l (pySplit l) := by
  obtain ⟨ws, h⟩ := Words_total l
  rw [pySplit_of_Words h]; exact h

theorem Entries_iff (P : Parsers) (fmt : VocFormat) (lines : List Str) (es : List (Option FileId × ℚ × Str)) :
    Entries P fmt lines es ↔ fileEntries P fmt lines = .ok es := by
  constructor
  · intro h
    induction h with
    | nil => rfl
    | blank line lines es h hr ih =>
      unfold fileEntries at ih ⊢
      simpa [pySplit_of_Words h] using ih
    | cons line lines ws e es hw h hr ih =>
      unfold fileEntries at ih ⊢
      have := EntryOf_ne_nil h
      simp only [List.map_cons, pySplit_of_Words hw]
      rw [List.filter_cons, if_pos (by simp [this])]
      unfold mapE
      rw [(vocFields_iff P fmt ws e).mpr h, ih]
  · intro h
    induction lines generalizing es with
    | nil => cases h; exact .nil
    | cons line lines ih =>
      unfold fileEntries at h ih
      simp only [List.map_cons] at h
      rw [List.filter_cons] at h
      by_cases hl : pySplit line = []
      · rw [if_neg (by simp [hl])] at h
        exact .blank _ _ _ (hl ▸ Words_pySplit line) (ih es h)
      · rw [if_pos (by simp [hl])] at h
        unfold mapE at h
        cases hv : vocFields P fmt (pySplit line) with
        | error e => rw [hv] at h; cases h
        | ok e =>
          rw [hv] at h
          simp only at h
          split at h
          · cases h
          · rename_i es' hes'
            cases h
            exact .cons _ _ _ _ _ (Words_pySplit line) ((vocFields_iff _ _ _ _).mp hv) (ih es' hes')

theorem withSpecials_words (es : List (Option φ × ℚ × Str)) :
    withSpecials es = es ++ (missingSpecials (es.map (fun e => e.2.2))).map (fun t => (none, 1, t)) := by
  have h1 : eos ≠ sos := by decide
  have h2 : unk ≠ sos := by decide
  have h3 : unk ≠ eos := by decide
  unfold withSpecials addTok missingSpecials
  by_cases hs : sos ∈ es.map (fun e => e.2.2) <;> by_cases he : eos ∈ es.map (fun e => e.2.2) <;>
    by_cases hu : unk ∈ es.map (fun e => e.2.2) <;>
    simp only [hs, he, hu, h1, h2, h3, List.map_append, List.mem_append, List.map_cons, List.map_nil,
      List.mem_cons, List.not_mem_nil, List.filter_cons, List.filter_nil, not_true_eq_false, not_false_eq_true, decide_true, decide_false, if_true,
      if_false, or_false, Bool.false_eq_true, List.append_nil, List.append_assoc, List.cons_append,
      List.nil_append]

/-- Everything about a vocabulary that has been read from a file. -/
theorem fromFile_spec (P : Parsers) (lines : List Str) (fmt : VocFormat) (oos : List Str)
    (es : List (Option FileId × ℚ × Str)) (hes : Entries P fmt lines es) (hn : (es.map entryWord).Nodup) :
    ∃ b rest, FInv b (withSpecials es) ∧ (b.words ++ rest).Nodup ∧ (∀ w, w ∈ rest ↔ w ∈ oos ∧ w ∉ b.words) ∧
      (∀ t, t = sos ∨ t = eos ∨ t = unk → t ∈ b.words) ∧
      vocabFromFile P lines fmt oos = mkVocab (b.words ++ rest) b.classOf b.classes := by
  rw [Entries_iff] at hes
  unfold vocabFromFile
  rcases fromFileLoop_spec P fmt lines .empty [] FInv.empty with ⟨es', b, h1, _, h3, h4⟩ | ⟨e, _, h2⟩
  · rw [hes] at h1
    cases h1
    rw [h3]
    obtain ⟨b', h5, h6, h7⟩ := h4.addSpecialTokens
    simp only [h5]
    obtain ⟨rest, h8, h9, h10⟩ := addOosWords_spec b'.words oos h6.inv.nodup
    exact ⟨b', rest, h6, h9, h10, h7, by rw [h8]⟩
  · exfalso
    rcases h2 with ⟨fs, h2, h3, h4⟩ | ⟨_, n, es', h3, h4⟩
    · have := mapE_ok hes
      obtain ⟨x, hx, hxx⟩ : ∃ x ∈ es, vocFields P fmt fs = .ok x := by
        have hm : fs ∈ (lines.map pySplit).filter (fun fs => fs ≠ []) := by
          rw [List.mem_filter]; exact ⟨h2, by simpa using h3⟩
        clear h2
        revert hm this
        generalize (lines.map pySplit).filter (fun fs => fs ≠ []) = fss
        intro this
        clear hes hn
        induction this with
        | nil => simp
        | cons hab _ ih =>
          intro hm
          rcases List.mem_cons.mp hm with rfl | hm
          · exact ⟨_, by simp, hab⟩
          · obtain ⟨x, hx, hxx⟩ := ih hm
            exact ⟨x, by simp [hx], hxx⟩
      rw [h4] at hxx; cases hxx
    · apply h4
      rw [List.nil_append]
      refine hn.sublist (List.Sublist.map _ ?_)
      have hpre : ∃ es2, es = es' ++ es2 := by
        rename_i hl _
        clear h4 hn hl
        induction lines generalizing n es es' with
        | nil => simp [fileEntries, mapE] at h3 hes; subst h3; exact ⟨es, by simp⟩
        | cons l lines ih =>
          cases n with
          | zero => simp [fileEntries, mapE] at h3; subst h3; exact ⟨es, by simp⟩
          | succ n =>
            rw [List.take_succ_cons] at h3
            unfold fileEntries at h3 hes ih
            rw [List.map_cons, List.filter_cons] at h3 hes
            by_cases hl : pySplit l = []
            · rw [if_neg (by simp [hl])] at h3 hes
              exact ih es hes n es' h3
            · rw [if_pos (by simp [hl])] at h3 hes
              unfold mapE at h3 hes
              cases hv : vocFields P fmt (pySplit l) with
              | error e => rw [hv] at h3; cases h3
              | ok e =>
                rw [hv] at h3 hes
                simp only at h3 hes
                split at h3
                · cases h3
                · split at hes
                  · cases hes
                  · rename_i x1 hx1 _ x2 hx2
                    cases h3; cases hes
                    obtain ⟨es2, he⟩ := ih _ hx2 n _ hx1
                    exact ⟨es2, by rw [he]; rfl⟩
      obtain ⟨es2, rfl⟩ := hpre
      exact List.sublist_append_left _ _

theorem fromFile_error (P : Parsers) (lines : List Str) (fmt : VocFormat) (oos : List Str)
    (h : ¬ ∃ es, Entries P fmt lines es ∧ (es.map entryWord).Nodup) :
    ∃ e, vocabFromFile P lines fmt oos = .error e ∧
      ((∃ fs ∈ lines.map pySplit, fs ≠ [] ∧ vocFields P fmt fs = .error e) ∨ e = .inputError) := by
  rcases fromFileLoop_spec P fmt lines .empty [] FInv.empty with ⟨es', b, h1, h2, _, _⟩ | ⟨e, h1, h2⟩
  · exact absurd ⟨es', (Entries_iff _ _ _ _).mpr h1, h2⟩ h
  · refine ⟨e, ?_, ?_⟩
    · unfold vocabFromFile; rw [h1]
    · rcases h2 with h2 | ⟨h2, _⟩
      · exact .inl h2
      · exact .inr h2

theorem fromFile_entries {P : Parsers} {lines : List Str} {fmt : VocFormat} {oos : List Str} {v : Vocab}
    (h : vocabFromFile P lines fmt oos = .ok v) :
    ∃ es b rest, Entries P fmt lines es ∧ (es.map entryWord).Nodup ∧ FInv b (withSpecials es) ∧
      (∀ w, w ∈ rest ↔ w ∈ oos ∧ w ∉ b.words) ∧ v.idToWord = b.words ++ rest ∧ v.classOf = b.classOf ∧ v.unigram = none ∧
      VInv v b.classes.length (normProbs b.classOf ((withSpecials es).map (fun e => e.2.1))) := by
  have hex : ∃ es, Entries P fmt lines es ∧ (es.map entryWord).Nodup := by
    by_contra hc
    obtain ⟨e, h1, _⟩ := fromFile_error P lines fmt oos hc
    rw [h1] at h; cases h
  obtain ⟨es, h1, h2⟩ := hex
  obtain ⟨b, rest, h3, h4, h5, h6, h7⟩ := fromFile_spec P lines fmt oos es h1 h2
  rw [h7] at h
  obtain ⟨h8, h9, h10, h11⟩ := mkVocab_inv h3.inv (List.prefix_append _ _) h4 h6 h
  exact ⟨es, b, rest, h1, h2, h3, h5, h9, h10, h11, h8⟩

/-- The vocabulary before the probabilities are computed from the counts. -/
theorem fromWordCounts_base (wc : List (Str × Nat)) (n : Nat) (hk : (wc.map Prod.fst).Nodup)
    (hs : ∀ p ∈ wc, p.1 ≠ sos ∧ p.1 ≠ eos ∧ p.1 ≠ unk) (hn : 0 < n ∨ wc = []) :
    ∃ b b' ps v, wordCountsLoop n (sortByCount wc) 0 .empty = .ok b ∧ addSpecialTokens b = .ok b' ∧
      mkVocab b'.words b'.classOf b'.classes = .ok v ∧ VInv v (min wc.length n + 3) ps ∧ (∀ p ∈ ps, 0 ≤ p) ∧
      v.idToWord = (sortByCount wc).map Prod.fst ++ [sos, eos, unk] ∧
      v.classOf = (List.range wc.length).map (· % n) ++
        [min wc.length n, min wc.length n + 1, min wc.length n + 2] := by
  have hperm := sortByCount_perm wc
  have hlen : (sortByCount wc).length = wc.length := hperm.length_eq
  have hnd : ((sortByCount wc).map Prod.fst).Nodup := (hperm.map Prod.fst).nodup_iff.mpr hk
  have hb : ∃ b, wordCountsLoop n (sortByCount wc) 0 .empty = .ok b ∧ b.words = (sortByCount wc).map Prod.fst ∧
      BInv b (List.replicate b.words.length 1) ∧ b.classOf = (List.range b.words.length).map (· % n) ∧
      b.classes.length = min b.words.length n := by
    rcases hn with hn | rfl
    · have := wordCountsLoop_spec n hn (sortByCount wc) .empty BInv.empty rfl (by simp [Build.empty])
        (by simpa [Build.empty] using hnd)
      simpa [Build.empty] using this
    · exact ⟨.empty, rfl, rfl, BInv.empty, rfl, by simp [Build.empty]⟩
  obtain ⟨b, h1, h2, h3, h4, h5⟩ := hb
  have hwl : b.words.length = wc.length := by rw [h2, List.length_map, hlen]
  have hnot : ∀ t, t = sos ∨ t = eos ∨ t = unk → t ∉ b.words := by
    intro t ht hm
    rw [h2] at hm
    obtain ⟨p, hp, rfl⟩ := List.mem_map.mp hm
    obtain ⟨a1, a2, a3⟩ := hs p (hperm.mem_iff.mp hp)
    rcases ht with ht | ht | ht
    · exact a1 ht
    · exact a2 ht
    · exact a3 ht
  have n1 := hnot sos (.inl rfl)
  have n2 := hnot eos (.inr (.inl rfl))
  have n3 := hnot unk (.inr (.inr rfl))
  have d1 : eos ≠ sos := by decide
  have d2 : unk ≠ sos := by decide
  have d3 : unk ≠ eos := by decide
  let b1 := stepNew b sos 1 b.fileIds
  let b2 := stepNew b1 eos 1 b.fileIds
  let b3 := stepNew b2 unk 1 b.fileIds
  have hi1 : BInv b1 _ := h3.stepNew n1 1 b.fileIds
  have hi2 : BInv b2 _ := hi1.stepNew (word := eos) (by simp [b1, stepNew, n2, d1]) 1 b.fileIds
  have hi3 : BInv b3 _ := hi2.stepNew (word := unk) (by simp [b1, b2, stepNew, n3, d2, d3]) 1 b.fileIds
  have hadd : addSpecialTokens b = .ok b3 := by
    unfold addSpecialTokens
    rw [if_neg (by simp [h3.len])]
    rw [addSpecial_eq sos, if_neg n1, addSpecial_eq eos, if_neg (by simp [stepNew, n2, d1]), addSpecial_eq unk,
      if_neg (by simp [stepNew, n3, d2, d3])]
    rfl
  have hw3 : b3.words = b.words ++ [sos, eos, unk] := by simp [b1, b2, b3, stepNew]
  have hc3 : b3.classOf = b.classOf ++ [b.classes.length, b.classes.length + 1, b.classes.length + 2] := by
    simp [b1, b2, b3, stepNew]
  have hl3 : b3.classes.length = b.classes.length + 3 := by simp [b1, b2, b3, stepNew]
  have hps : ∀ ps : List ℚ, ps = List.replicate b.words.length 1 ++ [1] ++ [1] ++ [1] → ∀ p ∈ ps, p = 1 := by
    rintro ps rfl p hp
    simp only [List.mem_append, List.mem_replicate, List.mem_singleton] at hp
    rcases hp with ((⟨_, hp⟩ | hp) | hp) | hp <;> exact hp
  generalize hpsd : List.replicate b.words.length (1 : ℚ) ++ [1] ++ [1] ++ [1] = ps at hi3
  have hpos : ∀ c < b3.classes.length, 0 < classSum b3.classOf ps c := by
    intro c hc
    obtain ⟨i, hi⟩ := List.mem_iff_getElem?.mp (hi3.surj c hc)
    unfold classSum
    have e : (idsOf b3.classOf c).map (fun i => ps.getD i 0) = (idsOf b3.classOf c).map (fun _ => 1) := by
      apply List.map_congr_left
      intro j hj
      have hjl : j < ps.length := by
        have := idsOf_lt hj
        rw [hi3.plen, ← hi3.len]; exact this
      have := hps ps hpsd.symm ps[j] (List.getElem_mem hjl)
      simp [List.getD, hjl, this]
    rw [e, sum_const, mul_one]
    have := List.length_pos_of_ne_nil (List.ne_nil_of_mem (mem_idsOf.mpr hi))
    exact_mod_cast this
  have hsp : ∀ t, t = sos ∨ t = eos ∨ t = unk → t ∈ b3.words := by
    rintro t (rfl | rfl | rfl) <;> simp [hw3]
  have hmk : ∃ v, mkVocab b3.words b3.classOf b3.classes = .ok v := by
    rcases mkVocab_eq (ws := b3.words) hi3 (List.prefix_refl _) hsp with ⟨_, h⟩ | ⟨⟨c, hc, h0⟩, _⟩
    · exact ⟨_, h⟩
    · have := hpos c hc
      rw [h0] at this
      exact absurd this (lt_irrefl _)
  obtain ⟨v, hv⟩ := hmk
  obtain ⟨hi, hw, hc, _⟩ := mkVocab_inv hi3 (List.prefix_refl _) hi3.nodup hsp hv
  refine ⟨b, b3, normProbs b3.classOf ps, v, h1, hadd, hv, ?_, ?_, ?_, ?_⟩
  · have : b3.classes.length = min wc.length n + 3 := by rw [hl3, h5, hwl]
    rw [this] at hi
    exact hi
  · intro p hp
    unfold normProbs at hp
    obtain ⟨i, hi, rfl⟩ := List.mem_map.mp hp
    rw [List.mem_range] at hi
    apply div_nonneg
    · have hil : i < ps.length := by rw [hi3.plen, ← hi3.len]; exact hi
      have := hps ps hpsd.symm ps[i] (List.getElem_mem hil)
      simp [List.getD, hil, this]
    · apply le_of_lt
      apply hpos
      apply hi3.lt
      simp [List.getD, hi]
  · rw [hw, hw3, h2]
  · rw [hc, hc3, h4, h5, hwl]

/-- Everything about a vocabulary created from word counts. -/
theorem fromWordCounts_spec (wc : List (Str × Nat)) (nc : Option Nat) (hk : (wc.map Prod.fst).Nodup)
    (wc' : List (Str × Nat)) (hwc' : wc' = wc.filter (fun p => decide (p.1 ≠ sos ∧ p.1 ≠ eos ∧ p.1 ≠ unk)))
    (n : Nat) (hnc : n = nc.getD wc'.length) :
    (n = 0 ∧ wc' ≠ [] ∧ vocabFromWordCounts wc nc = .error .zeroDivision) ∨
    ∃ v ps, vocabFromWordCounts wc nc = .ok v ∧ VInv v (min wc'.length n + 3) ps ∧ (∀ p ∈ ps, 0 ≤ p) ∧
      v.idToWord = (sortByCount wc').map Prod.fst ++ [sos, eos, unk] ∧
      v.classOf = (List.range wc'.length).map (· % n) ++
        [min wc'.length n, min wc'.length n + 1, min wc'.length n + 2] ∧
      v.unigram = some (unigramOf v.idToWord wc') := by
  have hk' : (wc'.map Prod.fst).Nodup := by
    rw [hwc']; exact hk.sublist (List.Sublist.map _ List.filter_sublist)
  have hs : ∀ p ∈ wc', p.1 ≠ sos ∧ p.1 ≠ eos ∧ p.1 ≠ unk := by
    intro p hp
    rw [hwc', List.mem_filter] at hp
    simpa using hp.2
  unfold vocabFromWordCounts
  simp only [← hwc', ← hnc]
  by_cases hn : 0 < n ∨ wc' = []
  · right
    obtain ⟨b, b', ps, v, h1, h2, h3, h4, h5, h6, h7⟩ := fromWordCounts_base wc' n hk' hs hn
    rw [h1]
    simp only [h2, h3]
    obtain ⟨v', ps', g1, g2, g3, g4, g5, g6, g7⟩ := computeProbs_spec h4 wc' true
    refine ⟨v', ps', g1, g2, g7 rfl, by rw [g3, h6], by rw [g4, h7], ?_⟩
    rw [g5, g3]
  · left
    have hne : wc' ≠ [] := fun h => hn (.inr h)
    have hn0 : n = 0 := by
      by_contra h
      exact hn (.inl (by omega))
    refine ⟨hn0, hne, ?_⟩
    have : wordCountsLoop n (sortByCount wc') 0 .empty = .error .zeroDivision := by
      cases hsort : sortByCount wc' with
      | nil =>
        have := (sortByCount_perm wc').length_eq
        rw [hsort] at this
        exact absurd (List.length_eq_zero_iff.mp this.symm) hne
      | cons p l =>
        obtain ⟨w, c⟩ := p
        simp [wordCountsLoop, hn0, Build.empty]
    rw [this]

theorem getState_spec {v : Vocab} {n : Nat} {ps : List ℚ} (h : VInv v n ps) (old : VocabState)
    (h1 : ∀ o, old.classes = some o → o.length = v.classOf.length)
    (h2 : ∀ o, old.probs = some o → o.length = v.classOf.length)
    (h3 : ∀ u o, v.unigram = some u → old.unigram = some o → o.length = v.idToWord.length) :
    v.getState old = .ok ⟨some v.idToWord, some v.classOf, some ps,
      match v.unigram with | some u => some u | none => old.unigram⟩ := by
  unfold Vocab.getState
  have e1 : h5Assign old.classes v.classOf = .ok (some v.classOf) := by
    unfold h5Assign
    cases ho : old.classes with
    | none => rfl
    | some o => simp [h1 o ho]
  have e2 : h5Assign old.probs ps = .ok (some ps) := by
    unfold h5Assign
    cases ho : old.probs with
    | none => rfl
    | some o => simp [h2 o ho, h.plen]
  rw [e1]
  simp only [h.stateProbs, e2]
  cases hu : v.unigram with
  | none => rfl
  | some u =>
    have e3 : h5Assign old.unigram u = .ok (some u) := by
      unfold h5Assign
      cases ho : old.unigram with
      | none => rfl
      | some o => simp [h3 u o hu ho, h.uni u hu]
    simp only [e3]

/-- Adding out-of-shortlist words (train.py:255-262) keeps the invariant. -/
theorem VInv.extend {v : Vocab} {n : Nat} {ps : List ℚ} (h : VInv v n ps) (hu : v.unigram = none) (rest : List Str)
    (hn : (v.idToWord ++ rest).Nodup) : VInv { v with idToWord := v.idToWord ++ rest } n ps := by
  refine ⟨hn, ?_, h.plen, h.lt, h.surj, h.cls, ?_, h.sums, ?_, ?_⟩
  · have := h.short
    simp only [List.length_append]
    omega
  · intro t ht
    have := h.special t ht
    simp only
    rw [List.take_append_of_le_length h.short]
    exact this
  · simp only
    rw [h.normal, h.cls]
    apply dropWhile_length_congr
    apply List.rel_reverse
    rw [List.forall₂_same]
    intro k hk
    unfold classList at hk
    obtain ⟨c, _, rfl⟩ := List.mem_map.mp hk
    have hid : ∀ i ∈ idsOf v.classOf c, i < v.idToWord.length := by
      intro i hi
      have := (List.getElem?_eq_some_iff.mp (mem_idsOf.mp hi)).1
      have := h.short
      omega
    unfold isSpecialClass
    rcases hl : idsOf v.classOf c with _ | ⟨i, _ | ⟨j, l⟩⟩
    · rfl
    · have := hid i (by simp [hl])
      simp [List.getElem?_append_left this]
    · rfl
  · intro u hu'
    simp only at hu'
    rw [hu] at hu'
    cases hu'

theorem Constructible.inv {P : Parsers} {v : Vocab} (h : Constructible P v) : ∃ n ps, VInv v n ps := by
  induction h with
  | file lines fmt oos v h =>
    obtain ⟨_, _, _, _, _, _, _, _, _, _, h⟩ := fromFile_entries h
    exact ⟨_, _, h⟩
  | counts wc n v hk h =>
    rcases fromWordCounts_spec wc n hk _ rfl _ rfl with ⟨_, _, h1⟩ | ⟨v', ps, h1, h2, _⟩
    · rw [h] at h1; cases h1
    · rw [h] at h1; cases h1; exact ⟨_, _, h2⟩
  | probs v v' wc upd hv hk h ih =>
    obtain ⟨n, ps, ih⟩ := ih
    obtain ⟨v'', ps', g1, g2, _⟩ := computeProbs_spec ih wc upd
    rw [h] at g1; cases g1
    exact ⟨_, _, g2⟩
  | restored v v' st hv h h' ih =>
    obtain ⟨n, ps, ih⟩ := ih
    have := getState_spec ih ⟨none, none, none, none⟩ (by simp) (by simp) (by simp)
    rw [h] at this
    cases this
    have hr := ih.roundTrip
    have : (match v.unigram with | some u => some u | none => none) = v.unigram := by cases v.unigram <;> rfl
    simp only [this] at h'
    rw [hr] at h'
    cases h'
    exact ⟨n, ps, ih⟩
  | extended v rest hv hu hn ih =>
    obtain ⟨n, ps, ih⟩ := ih
    exact ⟨n, ps, ih.extend hu rest hn⟩

end TheanoLM
