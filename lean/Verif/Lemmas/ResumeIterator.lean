import Verif.Props.TrainerResumeSpec
import Verif.Lemmas.BatchIterator
/-!
# The training data iterators of two processes
-/
set_option linter.unusedSectionVars false

namespace TheanoLM

variable {files : List Str} {rand : Nat → List Nat} {cfg : IterCfg}

theorem readSequence_work (hm : cfg.maxLen ≠ some 0) (st : IterSt ShufSt) {q : List Tok} {st1 : IterSt ShufSt}
    (h : readSequence (shufflingSource files rand) cfg st = (some q, st1)) : work (shufRem files) st1 < work (shufRem files) st := by
  unfold readSequence at h
  by_cases hb : st.buffer = []
  · rw [if_pos hb] at h
    simp only [shufflingSource, shufReadline] at h
    cases ho : st.src.order[st.src.nextLine]? with
    | none =>
      rw [ho] at h
      simp at h
    | some i =>
      rw [ho] at h
      simp only at h
      cases hp : (sentencePointers files)[i]? with
      | none =>
        rw [hp] at h
        simp at h
      | some sp =>
        obtain ⟨subset, position⟩ := sp
        rw [hp] at h
        simp only [Prod.mk.injEq, Option.some.injEq] at h
        obtain ⟨t1, _, _, t4⟩ := takeSequence_spec cfg hm { st with
          src := { st.src with nextLine := st.src.nextLine + 1 }
          buffer := (utterance (readlineAt isNl (files.getD subset []) position)).map (fun w => (w, subset)) }
        rw [h.2] at t1 t4
        obtain ⟨hlt, hoi⟩ := List.getElem?_eq_some_iff.mp ho
        have hrem : shufRem files st.src = (readlineAt isNl (files.getD subset []) position, subset) ::
            shufRem files { st.src with nextLine := st.src.nextLine + 1 } := by
          unfold shufRem
          rw [List.drop_eq_getElem_cons hlt, List.map_cons, hoi]
          simp only [shufLine, hp]
        unfold work
        rw [t1, hb, hrem]
        simp only [List.length_nil, List.map_cons, List.sum_cons, lineToks, List.length_map] at t4 ⊢
        omega
  · rw [if_neg hb] at h
    simp only [Prod.mk.injEq, Option.some.injEq] at h
    obtain ⟨t1, _, _, t4⟩ := takeSequence_spec cfg hm st
    rw [h.2, if_neg hb] at t4
    rw [h.2] at t1
    unfold work
    rw [t1]
    omega

theorem nextLoop_total (hm : cfg.maxLen ≠ some 0) (fuel : Nat) (acc : List (List Tok)) (st : IterSt ShufSt)
    (hf : work (shufRem files) st < fuel) : ∃ r, nextLoop (shufflingSource files rand) cfg fuel acc st = some r := by
  induction fuel generalizing acc st with
  | zero => omega
  | succ fuel ih =>
    unfold nextLoop
    cases hr : readSequence (shufflingSource files rand) cfg st with
    | mk o st1 =>
      cases o with
      | none =>
        simp only
        split <;> exact ⟨_, rfl⟩
      | some q =>
        have hw := readSequence_work hm st hr
        simp only
        split
        · exact ih _ _ (by omega)
        · split
          · exact ⟨_, rfl⟩
          · exact ih _ _ (by omega)

theorem next_total (hm : cfg.maxLen ≠ some 0) (st : IterSt ShufSt) :
    ∃ r, next (shufflingSource files rand) cfg (work (shufRem files) st + 1) st = some r := by
  unfold next
  split
  · exact ⟨_, rfl⟩
  · exact nextLoop_total hm _ _ _ (Nat.lt_succ_self _)

theorem nextLoop_more {σ : Type} (S : Source σ) (fuel d : Nat) (acc : List (List Tok)) (st : IterSt σ) {r : Option (List (List Tok)) × IterSt σ}
    (h : nextLoop S cfg fuel acc st = some r) : nextLoop S cfg (fuel + d) acc st = some r := by
  induction fuel generalizing acc st with
  | zero => cases h
  | succ fuel ih =>
    rw [Nat.add_right_comm]
    unfold nextLoop at h ⊢
    cases hr : readSequence S cfg st with
    | mk o st1 =>
      rw [hr] at h
      cases o with
      | none => exact h
      | some q =>
        simp only at h ⊢
        split
        · rename_i hq
          rw [if_pos hq] at h
          exact ih _ _ h
        · rename_i hq
          rw [if_neg hq] at h
          split
          · rename_i hc
            rw [if_pos hc] at h
            exact h
          · rename_i hc
            rw [if_neg hc] at h
            exact ih _ _ h

/-- The result does not depend on the number of iterations that are allowed. -/
theorem next_unique {σ : Type} (S : Source σ) (fuel fuel' : Nat) (st : IterSt σ) {r r' : Option (List (List Tok)) × IterSt σ}
    (h : next S cfg fuel st = some r) (h' : next S cfg fuel' st = some r') : r = r' := by
  unfold next at h h'
  split at h
  · rename_i he
    rw [if_pos he] at h'
    exact Option.some.inj (h.symm.trans h')
  · rename_i he
    rw [if_neg he] at h'
    have h1 := nextLoop_more S fuel fuel' [] st h
    have h2 := nextLoop_more S fuel' fuel [] st h'
    rw [Nat.add_comm] at h2
    exact Option.some.inj (h1.symm.trans h2)

theorem SamePosition.readSequence {i j : IterSt ShufSt} (h : SamePosition rand i j) :
    (readSequence (shufflingSource files rand) cfg j).1 = (readSequence (shufflingSource files rand) cfg i).1 ∧
    SamePosition rand (readSequence (shufflingSource files rand) cfg i).2 (readSequence (shufflingSource files rand) cfg j).2 := by
  obtain ⟨h1, h2, h3, h4, h5⟩ := h
  have htake : ∀ (i j : IterSt ShufSt), SamePosition rand i j →
      (takeSequence cfg j).1 = (takeSequence cfg i).1 ∧ SamePosition rand (takeSequence cfg i).2 (takeSequence cfg j).2 := by
    rintro i j ⟨h1, h2, h3, h4, h5⟩
    unfold takeSequence
    cases cfg.maxLen with
    | none => exact ⟨h3, h1, h2, rfl, h4, h5⟩
    | some m =>
      simp only
      rw [h3]
      exact ⟨rfl, h1, h2, rfl, h4, h5⟩
  obtain ⟨⟨o, n, c⟩, b, e⟩ := i
  obtain ⟨⟨o', n', c'⟩, b', e'⟩ := j
  simp only at h1 h2 h3 h4 h5
  subst h1 h2 h3 h4
  unfold TheanoLM.readSequence
  simp only
  split
  · simp only [shufflingSource, shufReadline]
    cases ho : o'[n']? with
    | none => exact ⟨rfl, rfl, rfl, rfl, rfl, h5⟩
    | some k =>
      simp only
      cases hp : (sentencePointers files)[k]? with
      | none => exact ⟨rfl, rfl, rfl, rfl, rfl, h5⟩
      | some sp =>
        obtain ⟨subset, position⟩ := sp
        simp only
        have := htake
          ⟨⟨o', n' + 1, c⟩, (utterance (readlineAt isNl (files.getD subset []) position)).map (fun w => (w, subset)), e'⟩
          ⟨⟨o', n' + 1, c'⟩, (utterance (readlineAt isNl (files.getD subset []) position)).map (fun w => (w, subset)), e'⟩
          ⟨rfl, rfl, rfl, rfl, h5⟩
        exact ⟨congrArg some this.1, this.2⟩
  · have := htake ⟨⟨o', n', c⟩, b', e'⟩ ⟨⟨o', n', c'⟩, b', e'⟩ ⟨rfl, rfl, rfl, rfl, h5⟩
    exact ⟨congrArg some this.1, this.2⟩

theorem SamePosition.reset {i j : IterSt ShufSt} (h : SamePosition rand i j) (b : Bool) :
    SamePosition rand { i with eof := b, src := (shufflingSource files rand).reset true i.src }
      { j with eof := b, src := (shufflingSource files rand).reset true j.src } := by
  refine ⟨?_, rfl, h.buffer, rfl, ?_⟩
  · exact h.rand 0
  · intro k
    have := h.rand (1 + k)
    rw [← Nat.add_assoc, ← Nat.add_assoc] at this
    exact this

theorem SamePosition.nextLoop {fuel : Nat} {acc : List (List Tok)} {i j : IterSt ShufSt} (h : SamePosition rand i j)
    {r : Option (List (List Tok)) × IterSt ShufSt}
    (hr : nextLoop (shufflingSource files rand) cfg fuel acc i = some r) :
    ∃ st, nextLoop (shufflingSource files rand) cfg fuel acc j = some (r.1, st) ∧ SamePosition rand r.2 st := by
  induction fuel generalizing acc i j with
  | zero => cases hr
  | succ fuel ih =>
    obtain ⟨r1, r2⟩ := h.readSequence (files := files) (cfg := cfg)
    unfold TheanoLM.nextLoop at hr ⊢
    cases hi : TheanoLM.readSequence (shufflingSource files rand) cfg i with
    | mk o i1 =>
      cases hj : TheanoLM.readSequence (shufflingSource files rand) cfg j with
      | mk o' j1 =>
        rw [hi, hj] at r1 r2
        simp only at r1 r2
        subst r1
        rw [hi] at hr
        cases o' with
        | none =>
          simp only at hr ⊢
          split
          · rename_i ha
            rw [if_pos ha] at hr
            cases hr
            have := r2.reset (files := files) i1.eof
            refine ⟨_, rfl, ?_⟩
            rw [r2.eof] at *
            exact this
          · rename_i ha
            rw [if_neg ha] at hr
            cases hr
            exact ⟨_, rfl, r2.order, r2.nextLine, r2.buffer, rfl, r2.rand⟩
        | some q =>
          simp only at hr ⊢
          split
          · rename_i hq
            rw [if_pos hq] at hr
            exact ih r2 hr
          · rename_i hq
            rw [if_neg hq] at hr
            split
            · rename_i hc
              rw [if_pos hc] at hr
              cases hr
              exact ⟨_, rfl, r2⟩
            · rename_i hc
              rw [if_neg hc] at hr
              exact ih r2 hr

section
variable {S X B : Type} {env : TrainEnv S X (IterSt ShufSt) ShufSaved B} {batch : List (List Tok) → B}

/-- The position determines the mini-batches. -/
theorem samePosition_iterators (hm : cfg.maxLen ≠ some 0) (h : UsesShuffling env files rand cfg batch) :
    SameIterators env (SamePosition rand) := by
  refine ⟨?_, ?_, ?_⟩
  · intro i j hij
    obtain ⟨r, hr⟩ := next_total (files := files) (rand := rand) hm i
    have hj : ∃ st, next (shufflingSource files rand) cfg (work (shufRem files) i + 1) j = some (r.1, st) ∧ SamePosition rand r.2 st := by
      unfold next at hr ⊢
      rw [hij.eof]
      split
      · rename_i he
        rw [if_pos he] at hr
        cases hr
        exact ⟨_, rfl, hij.reset false⟩
      · rename_i he
        rw [if_neg he] at hr
        exact hij.nextLoop hr
    obtain ⟨st, hj, hs⟩ := hj
    rw [h.next i _ r hr, h.next j _ _ hj]
    exact ⟨rfl, hs⟩
  · intro i j hij
    rw [h.save, h.save]
    unfold shufGetState
    rw [hij.order, hij.nextLine]
  · intro i j s hij
    by_cases hs : s.order = []
    · rw [h.empty i s hs, h.empty j s hs]
      exact hij
    · have hi := h.load i s hs
      have hj := h.load j s hs
      simp only [shufSetState, if_neg hs, Except.ok.injEq] at hi hj
      rw [← hi, ← hj]
      exact ⟨rfl, rfl, hij.buffer, hij.eof, hij.rand⟩

/-- The mini-batches are the same after restoring the position to a new iterator. -/
theorem restored_sameNext (hm : cfg.maxLen ≠ some 0) (h : UsesShuffling env files rand cfg batch) {i j : IterSt ShufSt}
    (ho : i.src.order ≠ []) (hb : i.buffer = []) (he : i.eof = true → i.src.order.length ≤ i.src.nextLine) (hjb : j.buffer = [])
    (hje : j.eof = false) (hr : ∀ k, rand (j.src.shuffles + k) = rand (i.src.shuffles + k)) :
    SameNext env (SamePosition rand) i (env.loadIter j (env.saveIter i)) := by
  have hl : env.loadIter j (env.saveIter i) = { j with src := { j.src with order := i.src.order, nextLine := i.src.nextLine } } := by
    have hs : (env.saveIter i).order ≠ [] := by
      rw [h.save]
      exact ho
    have := h.load j (env.saveIter i) hs
    simp only [shufSetState, if_neg hs, Except.ok.injEq] at this
    rw [← this, h.save]
    rfl
  rw [hl]
  cases hi : i.eof with
  | false =>
    have hs : SamePosition rand i { j with src := { j.src with order := i.src.order, nextLine := i.src.nextLine } } :=
      ⟨rfl, rfl, hjb.trans hb.symm, hje.trans hi.symm, hr⟩
    exact (samePosition_iterators hm h).next _ _ hs
  | true =>
    have hlen := he hi
    have h1 : next (shufflingSource files rand) cfg 1 i =
        some (none, { i with eof := false, src := (shufflingSource files rand).reset true i.src }) := by
      simp [next, hi]
    have h2 : next (shufflingSource files rand) cfg 1
        { j with src := { j.src with order := i.src.order, nextLine := i.src.nextLine } } =
        some (none, { j with src := (shufflingSource files rand).reset true { j.src with order := i.src.order, nextLine := i.src.nextLine } }) := by
      simp [next, hje, nextLoop, readSequence, hjb, shufflingSource, shufReadline, hlen]
    unfold SameNext
    rw [h.next _ _ _ h1, h.next _ _ _ h2]
    refine ⟨rfl, ?_, rfl, ?_, hje, ?_⟩
    · exact hr 0
    · exact hjb.trans hb.symm
    · intro k
      have := hr (1 + k)
      rw [← Nat.add_assoc, ← Nat.add_assoc] at this
      exact this

end

end TheanoLM
