import Verif.Props.SlfWriteSpec
/-!
# Lemmas about the tokenizer of the SLF reader
-/
namespace TheanoLM

theorem shSpace_iff {c : Char} : shSpace c = true ↔ SlfSpace c := by
  simp [shSpace, SlfSpace, or_assoc]

/-! ## From the fields to the tokens -/

theorem shTokens_quoted {t v : Str} (h : QuotedText t v) (rest tok : Str) (q : Bool) :
    shTokens (t ++ '"' :: rest) .quote tok q = shTokens rest .word (tok ++ v) true := by
  induction h generalizing tok q with
  | nil => simp [shTokens]
  | char c t v h1 h2 _ ih =>
    rw [List.cons_append, shTokens, if_neg h1, if_neg h2, ih]
    simp
  | escaped c t v h1 _ ih =>
    rw [List.cons_append, List.cons_append, shTokens, if_neg (by decide), if_pos rfl, shTokens]
    have : ¬ (c ≠ '\\' ∧ c ≠ '"') := by
      rintro ⟨h2, h3⟩
      rcases h1 with h1 | h1
      · exact h3 h1
      · exact h2 h1
    simp only [true_and, if_neg this, if_true]
    rw [ih]
    simp
  | backslash c t v h1 h2 _ ih =>
    rw [List.cons_append, List.cons_append, shTokens, if_neg (by decide), if_pos rfl, shTokens]
    simp only [true_and, if_pos (And.intro h2 h1), if_true]
    rw [ih]
    simp

theorem shTokens_word {t v : Str} (h : FieldText t v) (rest tok : Str) (q : Bool) :
    ∃ q', (q = true → q' = true) ∧ shTokens (t ++ rest) .word tok q = shTokens rest .word (tok ++ v) q' := by
  induction h generalizing tok q with
  | nil => exact ⟨q, id, by simp⟩
  | char c t v h1 h2 h3 h4 _ ih =>
    obtain ⟨q', hq, e⟩ := ih (tok ++ [c]) q
    refine ⟨q', hq, ?_⟩
    rw [List.cons_append, shTokens, if_neg (fun hs => h1 (shSpace_iff.mp hs)), if_neg h2, if_neg h3, if_neg h4, e]
    simp
  | escaped c t v _ ih =>
    obtain ⟨q', hq, e⟩ := ih (tok ++ [c]) q
    refine ⟨q', hq, ?_⟩
    rw [List.cons_append, List.cons_append, shTokens, if_neg (by decide), if_neg (by decide), if_neg (by decide), if_pos rfl, shTokens]
    simp only [Bool.false_eq_true, false_and, if_false]
    rw [e]
    simp
  | quoted t v t' v' hq _ ih =>
    obtain ⟨q', hq', e⟩ := ih (tok ++ v) true
    refine ⟨q', fun _ => hq' rfl, ?_⟩
    rw [List.cons_append, shTokens, if_neg (by decide), if_neg (by decide), if_pos rfl, List.append_assoc, List.cons_append,
      shTokens_quoted hq, e]
    simp

theorem shTokens_field {t v : Str} (h : FieldText t v) (ht : t ≠ []) (rest : Str) :
    ∃ q, (v = [] → q = true) ∧ shTokens (t ++ rest) .blank [] false = shTokens rest .word v q := by
  cases h with
  | nil => exact absurd rfl ht
  | char c t v h1 h2 h3 h4 h =>
    obtain ⟨q, hq, e⟩ := shTokens_word h rest [c] false
    refine ⟨q, fun h => (by cases h), ?_⟩
    rw [List.cons_append, shTokens, if_neg (fun hs => h1 (shSpace_iff.mp hs)), if_neg h2, if_neg h4, if_neg h3, e]
    simp
  | escaped c t v h =>
    obtain ⟨q, hq, e⟩ := shTokens_word h rest [c] false
    refine ⟨q, fun h => (by cases h), ?_⟩
    rw [List.cons_append, List.cons_append, shTokens, if_neg (by decide), if_neg (by decide), if_pos rfl, shTokens]
    simp only [Bool.false_eq_true, false_and, if_false]
    rw [List.nil_append, e]
    simp
  | quoted t v t' v' h1 h2 =>
    obtain ⟨q, hq, e⟩ := shTokens_word h2 rest v true
    refine ⟨q, fun _ => hq rfl, ?_⟩
    rw [List.cons_append, shTokens, if_neg (by decide), if_neg (by decide), if_neg (by decide), if_pos rfl, List.append_assoc,
      List.cons_append, shTokens_quoted h1, List.nil_append, e]

theorem shTokens_comment {t : Str} (ht : '\n' ∉ t) (rest : Str) :
    shTokens (t ++ rest) .comment [] false = shTokens rest .comment [] false := by
  induction t with
  | nil => rfl
  | cons c t ih =>
    rw [List.cons_append, shTokens, if_neg (fun h => ht (by simp [h])), ih (fun h => ht (List.mem_cons_of_mem _ h))]

theorem splitSlfLine_of_fields {line : Str} {fields : List Str} (h : SlfFields line fields) : splitSlfLine line = .ok fields := by
  unfold splitSlfLine
  induction h with
  | nil => rfl
  | space c cs fields h _ ih => rw [shTokens, if_pos (shSpace_iff.mpr h), ih]; rfl
  | comment t ht =>
    rw [shTokens, if_neg (by decide), if_pos rfl]
    have := shTokens_comment ht []
    rw [List.append_nil] at this
    rw [this]
    rfl
  | commentLine t cs fields ht _ ih =>
    rw [shTokens, if_neg (by decide), if_pos rfl, shTokens_comment ht, shTokens, if_pos rfl, ih]
  | field t v rest fields h1 h2 h3 h4 ih =>
    obtain ⟨q, hq, e⟩ := shTokens_field h1 h2 rest
    have hne : ¬ (v = [] ∧ q = false) := by
      rintro ⟨a, b⟩
      rw [hq a] at b
      cases b
    rw [e]
    cases rest with
    | nil =>
      have : fields = [] := by simpa [shTokens, shEmit] using ih.symm
      subst this
      show Except.ok _ = _
      rw [if_neg hne]
    | cons c rest =>
      rcases h3 c rfl with hc | rfl
      · simp only [shTokens, shSpace_iff.mpr hc, if_true] at ih ⊢
        have ih' : shTokens rest .blank [] false = .ok fields := by
          cases hr : shTokens rest .blank [] false with
          | error e => rw [hr] at ih; cases ih
          | ok x => rw [hr] at ih; cases ih; rfl
        rw [ih']
        show Except.ok _ = _
        rw [if_neg hne]
      · rw [show shTokens ('#' :: rest) .blank [] false = shTokens rest .comment [] false from rfl] at ih
        rw [show shTokens ('#' :: rest) .word v q = shEmit v q (shTokens rest .comment [] false) from rfl]
        rw [ih]
        show Except.ok _ = _
        rw [if_neg hne]

/-! ## From the tokens to the fields -/

/-- The rest of a field that is being read. -/
def WordRest (cs tok : Str) (fields : List Str) : Prop :=
  ∃ t v rest fields', cs = t ++ rest ∧ FieldText t v ∧ FieldEnd rest ∧ SlfFields rest fields' ∧ fields = (tok ++ v) :: fields'

theorem wordRest_cons {c : Char} {cs tok : Str} {fields : List Str} (h1 : ¬ SlfSpace c) (h2 : c ≠ '#') (h3 : c ≠ '"') (h4 : c ≠ '\\')
    (h : WordRest cs (tok ++ [c]) fields) : WordRest (c :: cs) tok fields := by
  obtain ⟨t, v, rest, f, rfl, a, b, d, rfl⟩ := h
  exact ⟨c :: t, c :: v, rest, f, rfl, .char c t v h1 h2 h3 h4 a, b, d, by simp⟩

theorem wordRest_field {t v rest : Str} {fields : List Str} (ht : t ≠ []) (h : FieldText t v) (he : FieldEnd rest) (hr : SlfFields rest fields) :
    SlfFields (t ++ rest) ([] ++ v :: fields) := .field t v rest fields h ht he hr

theorem shEmit_ok {tok : Str} {q : Bool} {r : Except Err (List Str)} {fields : List Str} (h : shEmit tok q r = .ok fields)
    (hq : tok ≠ [] ∨ q = true) : ∃ f, r = .ok f ∧ fields = tok :: f := by
  unfold shEmit at h
  cases r with
  | error e => cases h
  | ok f =>
    have : ¬ (tok = [] ∧ q = false) := by
      rintro ⟨a, b⟩
      rcases hq with hq | hq
      · exact hq a
      · rw [b] at hq; cases hq
    simp only [if_neg this] at h
    cases h
    exact ⟨f, rfl, rfl⟩

theorem shEmit_none {r : Except Err (List Str)} {fields : List Str} (h : shEmit [] false r = .ok fields) : r = .ok fields := by
  unfold shEmit at h
  cases r with
  | error e => cases h
  | ok f => simpa using h

theorem fields_of_tokens (cs : Str) :
    (∀ fields, shTokens cs .blank [] false = .ok fields → SlfFields cs fields) ∧
    (∀ fields, shTokens cs .comment [] false = .ok fields → SlfFields ('#' :: cs) fields) ∧
    (∀ tok q fields, (tok ≠ [] ∨ q = true) → shTokens cs .word tok q = .ok fields → WordRest cs tok fields) ∧
    (∀ tok q fields, shTokens cs .quote tok q = .ok fields →
      ∃ t v cs', cs = t ++ '"' :: cs' ∧ QuotedText t v ∧ WordRest cs' (tok ++ v) fields) ∧
    (∀ tok q fields, shTokens cs (.escape false) tok q = .ok fields →
      ∃ c cs', cs = c :: cs' ∧ WordRest cs' (tok ++ [c]) fields) ∧
    (∀ tok fields, shTokens cs (.escape true) tok true = .ok fields →
      ∃ c t v cs', cs = c :: (t ++ '"' :: cs') ∧ QuotedText t v ∧
        WordRest cs' ((if c ≠ '\\' ∧ c ≠ '"' then tok ++ ['\\', c] else tok ++ [c]) ++ v) fields) := by
  induction cs with
  | nil =>
    refine ⟨?_, ?_, ?_, ?_, ?_, ?_⟩
    · intro fields h; cases h; exact .nil
    · intro fields h; cases h; exact .comment [] (by simp)
    · intro tok q fields hq h
      rw [shTokens] at h
      obtain ⟨f, hf, rfl⟩ := shEmit_ok h hq
      cases hf
      exact ⟨[], [], [], [], rfl, .nil, fun c hc => (by cases hc), .nil, by simp⟩
    · intro tok q fields h; cases h
    · intro tok q fields h; cases h
    · intro tok fields h; cases h
  | cons c cs ih =>
    obtain ⟨ih1, ih2, ih3, ih4, ih5, ih6⟩ := ih
    have fld : ∀ {t v : Str} {fields : List Str}, WordRest cs v fields →
        (∀ t' v', FieldText t' v' → FieldText (t ++ t') (v ++ v')) → t ≠ [] → SlfFields (t ++ cs) fields := by
      rintro t v fields ⟨t', v', rest, f, rfl, a, b, d, rfl⟩ hk ht
      rw [← List.append_assoc]
      exact .field _ _ rest f (hk _ _ a) (by simp [ht]) b d
    refine ⟨?_, ?_, ?_, ?_, ?_, ?_⟩
    · intro fields h
      rw [shTokens] at h
      split at h
      · rename_i hs
        exact .space c cs fields (shSpace_iff.mp hs) (ih1 _ (shEmit_none h))
      · rename_i hs
        have hs' : ¬ SlfSpace c := fun h => hs (shSpace_iff.mpr h)
        split at h
        · rename_i hc; subst hc; exact ih2 _ h
        · rename_i hc
          split at h
          · rename_i he
            subst he
            obtain ⟨c, cs', rfl, t', v', rest, f, rfl, a, b, d, rfl⟩ := ih5 _ _ _ h
            exact .field ('\\' :: c :: t') (c :: v') rest f (.escaped c t' v' a) (by simp) b d
          · rename_i he
            split at h
            · rename_i hq
              subst hq
              obtain ⟨t, v, cs', rfl, hqt, t', v', rest, f, rfl, a, b, d, rfl⟩ := ih4 _ _ _ h
              have := SlfFields.field ('"' :: (t ++ '"' :: t')) (v ++ v') rest f (.quoted t v t' v' hqt a) (by simp) b d
              simpa using this
            · rename_i hq
              obtain ⟨t', v', rest, f, rfl, a, b, d, rfl⟩ := ih3 _ _ _ (.inl (by simp)) h
              exact .field (c :: t') (c :: v') rest f (.char c t' v' hs' hc hq he a) (by simp) b d
    · intro fields h
      rw [shTokens] at h
      split at h
      · rename_i hc
        subst hc
        exact .commentLine [] cs fields (by simp) (ih1 _ h)
      · rename_i hc
        have hf := ih2 _ h
        clear * - hf hc
        generalize hl : '#' :: cs = line at hf
        cases hf with
        | nil => cases hl
        | space c' cs' _ hs _ => cases hl; exact absurd hs (by unfold SlfSpace; decide)
        | comment t ht =>
          cases hl
          exact .comment (c :: cs) (by simp [ht, Ne.symm hc])
        | commentLine t cs' _ ht h' =>
          cases hl
          exact .commentLine (c :: t) cs' _ (by simp [ht, Ne.symm hc]) h'
        | field t v rest _ h1 h2 =>
          cases h1 with
          | nil => exact absurd rfl h2
          | char c' t v _ h2' => cases hl; exact absurd rfl h2'
          | escaped => cases hl
          | quoted => cases hl
    · intro tok q fields hq h
      rw [shTokens] at h
      split at h
      · rename_i hs
        obtain ⟨f, hf, rfl⟩ := shEmit_ok h hq
        refine ⟨[], [], c :: cs, f, rfl, .nil, ?_, .space c cs f (shSpace_iff.mp hs) (ih1 _ hf), by simp⟩
        intro d hd
        cases hd
        exact .inl (shSpace_iff.mp hs)
      · rename_i hs
        have hs' : ¬ SlfSpace c := fun h => hs (shSpace_iff.mpr h)
        split at h
        · rename_i hc
          subst hc
          obtain ⟨f, hf, rfl⟩ := shEmit_ok h hq
          refine ⟨[], [], '#' :: cs, f, rfl, .nil, ?_, ih2 _ hf, by simp⟩
          intro d hd
          cases hd
          exact .inr rfl
        · rename_i hc
          split at h
          · rename_i hqt
            subst hqt
            obtain ⟨t, v, cs', rfl, hqt, t', v', rest, f, rfl, a, b, d, rfl⟩ := ih4 _ _ _ h
            exact ⟨'"' :: (t ++ '"' :: t'), v ++ v', rest, f, by simp, .quoted t v t' v' hqt a, b, d, by simp⟩
          · rename_i hqt
            split at h
            · rename_i he
              subst he
              obtain ⟨c, cs', rfl, t', v', rest, f, rfl, a, b, d, rfl⟩ := ih5 _ _ _ h
              exact ⟨'\\' :: c :: t', c :: v', rest, f, rfl, .escaped c t' v' a, b, d, by simp⟩
            · rename_i he
              exact wordRest_cons hs' hc hqt he (ih3 _ _ _ (.inl (by simp)) h)
    · intro tok q fields h
      rw [shTokens] at h
      split at h
      · rename_i hc
        subst hc
        exact ⟨[], [], cs, rfl, .nil, by simpa using ih3 _ _ _ (.inr rfl) h⟩
      · rename_i hc
        split at h
        · rename_i he
          subst he
          obtain ⟨c, t, v, cs', rfl, hqt, hw⟩ := ih6 _ _ h
          by_cases hcc : c ≠ '\\' ∧ c ≠ '"'
          · rw [if_pos hcc] at hw
            exact ⟨'\\' :: c :: t, '\\' :: c :: v, cs', rfl, .backslash c t v hcc.2 hcc.1 hqt, by simpa using hw⟩
          · rw [if_neg hcc] at hw
            refine ⟨'\\' :: c :: t, c :: v, cs', rfl, .escaped c t v ?_ hqt, by simpa using hw⟩
            by_cases h1 : c = '\\'
            · exact .inr h1
            · exact .inl (not_not.mp fun h2 => hcc ⟨h1, h2⟩)
        · rename_i he
          obtain ⟨t, v, cs', rfl, hqt, hw⟩ := ih4 _ _ _ h
          exact ⟨c :: t, c :: v, cs', rfl, .char c t v hc he hqt, by simpa using hw⟩
    · intro tok q fields h
      rw [shTokens] at h
      simp only [Bool.false_eq_true, false_and, if_false] at h
      exact ⟨c, cs, rfl, ih3 _ _ _ (.inl (by simp)) h⟩
    · intro tok fields h
      rw [shTokens] at h
      simp only [true_and, if_true] at h
      obtain ⟨t, v, cs', rfl, hqt, hw⟩ := ih4 _ _ _ h
      refine ⟨c, t, v, cs', rfl, hqt, ?_⟩
      by_cases hcc : c ≠ '\\' ∧ c ≠ '"'
      · rw [if_pos hcc] at hw ⊢
        simpa using hw
      · rw [if_neg hcc] at hw ⊢
        exact hw

theorem splitSlfLine_iff {line : Str} {fields : List Str} : splitSlfLine line = .ok fields ↔ SlfFields line fields :=
  ⟨(fields_of_tokens line).1 fields, splitSlfLine_of_fields⟩

theorem shTokens_error (cs : Str) : ∀ (st : ShState) (tok : Str) (q : Bool) (e : Err), shTokens cs st tok q = .error e → e = .valueError := by
  have emit : ∀ {tok : Str} {q : Bool} {r : Except Err (List Str)} {e : Err}, shEmit tok q r = .error e → r = .error e := by
    intro tok q r e h
    unfold shEmit at h
    cases r with
    | error e' => cases h; rfl
    | ok f => cases h
  induction cs with
  | nil =>
    intro st tok q e h
    cases st <;> rw [shTokens] at h
    · cases emit h
    · cases emit h
    · cases h; rfl
    · cases emit h
    · cases h; rfl
  | cons c cs ih =>
    intro st tok q e h
    cases st <;> rw [shTokens] at h
    all_goals (repeat' split at h)
    all_goals first
      | exact ih _ _ _ _ h
      | exact ih _ _ _ _ (emit h)

end TheanoLM
