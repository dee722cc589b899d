import Verif.Model.TextSampler
import Verif.Lemmas.NetworkConverse
import Verif.Lemmas.Vocabulary
/-!
# Lemmas about text generation
-/
namespace TheanoLM
set_option linter.unusedSectionVars false

variable {S : Type} [Add S] [Mul S] [Sub S] [Div S] [Zero S] [One S]

/-! ## The number of sequences does not change -/

theorem stepLayer_length {act : Act S} {opts : EvalOptions} {layer : Layer S} {k t index n : Nat} {state new : List (Arr3 S)}
    {row : List (Pos S)} {out : List (Elem S)} (hrow : row.length = n)
    (h : stepLayer act opts layer k t state index row = .ok (out, new)) (hn : ∀ a ∈ new, a.d1 = n) : out.length = n := by
  have hpoint : ∀ (l : Layer S), (stepLayer act opts l k t state index row =
      match pointRow (pointFun act opts l k t) 0 row with
      | .error e => .error e
      | .ok outs => .ok (outs, [])) → stepLayer act opts l k t state index row = .ok (out, new) → out.length = n := by
    intro l hstep hl
    rw [hstep] at hl
    cases hp : pointRow (pointFun act opts l k t) 0 row with
    | error e => rw [hp] at hl; cases hl
    | ok o =>
      rw [hp] at hl
      injection hl with hl
      injection hl with hl _
      rw [← hl, pointRow_length hp, hrow]
  cases layer with
  | recurrent kind b =>
    unfold stepLayer at h
    simp only at h
    cases hp : preactRow b row with
    | error e => rw [hp] at h; cases h
    | ok x =>
      rw [hp] at h
      simp only at h
      cases hw : getParam "step_input/W".toList none b.weights with
      | error e => rw [hw] at h; cases h
      | ok w =>
        rw [hw] at h
        simp only at h
        cases hr : readStates kind state index with
        | error e => rw [hr] at h; cases h
        | ok sts =>
          rw [hr] at h
          injection h with h
          injection h with h1 h2
          rw [← h1, hiddenOutput, List.length_map]
          rw [← h2] at hn
          cases kind
          · exact hn ⟨1, _, b.size, _⟩ List.mem_cons_self
          · exact hn ⟨1, _, b.size, _⟩ List.mem_cons_self
  | bidirectional kind f b => cases h
  | glu b fs is filters => cases h
  | _ => exact hpoint _ rfl h

theorem stepLayers_length {act : Act S} {opts : EvalOptions} {layers : List (Layer S)} {k t index n : Nat} {state new : List (Arr3 S)}
    {row r : List (Entry S)} (hrow : row.length = n)
    (h : stepLayers act opts t state k index layers row = .ok (r, new)) (hn : ∀ a ∈ new, a.d1 = n) : r.length = n := by
  induction layers generalizing k index row r new with
  | nil =>
    rw [stepLayers] at h
    injection h with h
    injection h with h _
    rw [← h, hrow]
  | cons layer layers ih =>
    rw [stepLayers] at h
    cases h1 : stepLayer act opts layer k t state index (gatherRow layer.inputs row) with
    | error e => rw [h1] at h; cases h
    | ok x =>
      obtain ⟨outs, new1⟩ := x
      rw [h1] at h
      simp only at h
      cases h2 : stepLayers act opts t state (k + 1) (index + layer.stateSizes.length) layers (addOutputs row outs) with
      | error e => rw [h2] at h; cases h
      | ok y =>
        obtain ⟨r', new2⟩ := y
        rw [h2] at h
        injection h with h
        injection h with h3 h4
        subst h3
        have ho := stepLayer_length (n := n) (by simp [gatherRow, hrow]) h1
          (fun a ha => hn a (by rw [← h4]; exact List.mem_append_left _ ha))
        exact ih (by rw [addOutputs_length, hrow, ho, Nat.min_self]) h2
          (fun a ha => hn a (by rw [← h4]; exact List.mem_append_right _ ha))

theorem stepNetwork_length {act : Act S} {opts : EvalOptions} {layers : List (Layer S)} {time : Nat} {st st' : RecState S}
    {cells : List InputCell} {row : List (Entry S)} (hc : cells.length = st.numSequences)
    (h : stepNetwork act opts layers time st cells = .ok (row, st')) :
    row.length = st.numSequences ∧ st'.numSequences = st.numSequences := by
  unfold stepNetwork at h
  cases h1 : stepLayers act opts time st.vars 0 0 layers (cells.map fun c => ⟨{ c with mask := true }, []⟩) with
  | error e => rw [h1] at h; cases h
  | ok x =>
    obtain ⟨r, new⟩ := x
    rw [h1] at h
    simp only at h
    cases h2 : st.set new with
    | error e => rw [h2] at h; cases h
    | ok st1 =>
      rw [h2] at h
      injection h with h
      injection h with h3 h4
      subst h3 h4
      unfold RecState.set at h2
      split at h2
      · cases h2
      · rename_i hlen
        split at h2
        · rename_i hall
          injection h2 with h2
          refine ⟨stepLayers_length (by rw [List.length_map, hc]) h1 ?_, by rw [← h2]⟩
          intro a ha
          obtain ⟨i, hi, rfl⟩ := List.getElem_of_mem ha
          have hlen' : new.length = st.sizes.length := by simpa using hlen
          have := List.all_eq_true.mp hall (new[i], st.sizes[i]) (by
            rw [List.mem_iff_getElem]
            exact ⟨i, by rw [List.length_zip]; omega, by rw [List.getElem_zip]⟩)
          unfold stateShapeOk at this
          simp only [Bool.and_eq_true, beq_iff_eq] at this
          exact this.1.2
        · cases h2

/-! ## The loops -/

/-- What a loop does from a time step on: it calls the step function with the previous input, and writes the next one to the result.
`good` is the relation between the time step, the output of the network, and the next input. -/
def Chain (act : Act S) (opts : EvalOptions) (layers : List (Layer S)) (good : Nat → List (Entry S) → List InputCell → Prop) :
    Nat → RecState S → List InputCell → List (List Nat) → List (List InputCell) → List (List (Entry S)) → RecState S →
      List (List Nat) → Prop
  | _, st, _, result, [], outs, st', result' => outs = [] ∧ st' = st ∧ result' = result
  | time, st, input, result, row :: rows, outs, st', result' =>
    ∃ e st1 outs1, outs = e :: outs1 ∧ stepNetwork act opts layers (time - 1) st input = .ok (e, st1) ∧ good time e row ∧
      time < result.length ∧
      Chain act opts layers good (time + 1) st1 row (result.set time (row.map InputCell.word)) rows outs1 st' result'

section
variable {act : Act S} {opts : EvalOptions} {layers : List (Layer S)} {good : Nat → List (Entry S) → List InputCell → Prop}

theorem Chain.append {rows1 rows2 : List (List InputCell)} {time : Nat} {st st1 st2 : RecState S} {input : List InputCell}
    {result result1 result2 : List (List Nat)} {outs1 outs2 : List (List (Entry S))}
    (h1 : Chain act opts layers good time st input result rows1 outs1 st1 result1)
    (h2 : Chain act opts layers good (time + rows1.length) st1 ((rows1.getLast?).getD input) result1 rows2 outs2 st2 result2) :
    Chain act opts layers good time st input result (rows1 ++ rows2) (outs1 ++ outs2) st2 result2 := by
  induction rows1 generalizing time st input result outs1 with
  | nil =>
    obtain ⟨rfl, rfl, rfl⟩ := h1
    exact h2
  | cons row rows ih =>
    obtain ⟨e, st', outs', rfl, hs, hg, hl, hc⟩ := h1
    refine ⟨e, st', outs' ++ outs2, rfl, hs, hg, hl, ih hc ?_⟩
    rw [List.length_cons, ← Nat.add_assoc, Nat.add_right_comm] at h2
    rw [show ((row :: rows).getLast?).getD input = (rows.getLast?).getD row by
      cases rows with
      | nil => rfl
      | cons r rows => rw [List.getLast?_cons_cons, List.getLast?_eq_some_getLast (by simp)]; rfl] at h2
    exact h2

theorem Chain.mono {good' : Nat → List (Entry S) → List InputCell → Prop} {rows : List (List InputCell)} {time : Nat}
    {st st1 : RecState S} {input : List InputCell} {result result1 : List (List Nat)} {outs : List (List (Entry S))}
    (hg : ∀ t e row, t < time + rows.length → good t e row → good' t e row)
    (h : Chain act opts layers good time st input result rows outs st1 result1) :
    Chain act opts layers good' time st input result rows outs st1 result1 := by
  induction rows generalizing time st input result outs with
  | nil => exact h
  | cons row rows ih =>
    obtain ⟨e, st', outs', rfl, hs, hgd, hl, hc⟩ := h
    rw [List.length_cons] at hg
    exact ⟨e, st', outs', rfl, hs, hg _ _ _ (by omega) hgd, hl, ih (fun t e row ht => hg t e row (by omega)) hc⟩

theorem Chain.outs_length {rows : List (List InputCell)} {time : Nat}
    {st st1 : RecState S} {input : List InputCell} {result result1 : List (List Nat)} {outs : List (List (Entry S))}
    (h : Chain act opts layers good time st input result rows outs st1 result1) : outs.length = rows.length := by
  induction rows generalizing time st input result outs with
  | nil => obtain ⟨rfl, _, _⟩ := h; rfl
  | cons row rows ih =>
    obtain ⟨e, st', outs', rfl, _, _, _, hc⟩ := h
    rw [List.length_cons, List.length_cons, ih hc]

theorem Chain.good_at {rows : List (List InputCell)} {time : Nat}
    {st st1 : RecState S} {input : List InputCell} {result result1 : List (List Nat)} {outs : List (List (Entry S))}
    (h : Chain act opts layers good time st input result rows outs st1 result1) {i : Nat} {row : List InputCell}
    (hr : rows[i]? = some row) : ∃ e, outs[i]? = some e ∧ good (time + i) e row := by
  induction rows generalizing time st input result outs i with
  | nil => cases hr
  | cons r rows ih =>
    obtain ⟨e, st', outs', rfl, _, hg, _, hc⟩ := h
    cases i with
    | zero => injection hr with hr; subst hr; exact ⟨e, rfl, hg⟩
    | succ i =>
      obtain ⟨e', h1, h2⟩ := ih hc hr
      exact ⟨e', h1, by rwa [show time + (i + 1) = time + 1 + i by omega]⟩

theorem Chain.result {rows : List (List InputCell)} {time : Nat}
    {st st1 : RecState S} {input : List InputCell} {result result1 : List (List Nat)} {outs : List (List (Entry S))}
    (h : Chain act opts layers good time st input result rows outs st1 result1) : result1.length = result.length ∧
      (rows ≠ [] → time + rows.length ≤ result.length) ∧ ∀ i, result1[i]? = if time ≤ i ∧ i < time + rows.length then
        (rows[i - time]?).map (fun row => row.map InputCell.word) else result[i]? := by
  induction rows generalizing time st input result outs with
  | nil =>
    obtain ⟨_, _, rfl⟩ := h
    exact ⟨rfl, fun h => absurd rfl h, fun i => by rw [List.length_nil, if_neg (by omega)]⟩
  | cons r rows ih =>
    obtain ⟨e, st', outs', rfl, _, hg, hl, hc⟩ := h
    obtain ⟨a1, a2, a3⟩ := ih hc
    rw [List.length_set] at a1 a2
    refine ⟨a1, ?_, ?_⟩
    · intro _
      rw [List.length_cons]
      by_cases hr : rows = []
      · subst hr; simp; omega
      · have := a2 hr; omega
    · intro i
      rw [a3 i, List.length_cons]
      by_cases h1 : time + 1 ≤ i ∧ i < time + 1 + rows.length
      · rw [if_pos h1, if_pos (by omega), show i - time = (i - (time + 1)) + 1 by omega, List.getElem?_cons_succ]
      · rw [if_neg h1]
        by_cases h2 : i = time
        · subst h2
          rw [if_pos (by omega), List.getElem?_set_self hl, Nat.sub_self]
          rfl
        · rw [if_neg (by omega), List.getElem?_set_ne (by omega)]

theorem Chain.steps {rows : List (List InputCell)} {time : Nat}
    {st st1 : RecState S} {input : List InputCell} {result result1 : List (List Nat)} {outs : List (List (Entry S))}
    (h : Chain act opts layers good (time + 1) st input result rows outs st1 result1) :
    stepsNetwork act opts layers time st ((input :: rows).dropLast) = .ok (outs, st1) := by
  induction rows generalizing time st input result outs with
  | nil => obtain ⟨rfl, rfl, _⟩ := h; rfl
  | cons r rows ih =>
    obtain ⟨e, st', outs', rfl, hs, _, _, hc⟩ := h
    rw [List.dropLast_cons_of_ne_nil (by simp), stepsNetwork]
    rw [Nat.add_sub_cancel] at hs
    rw [hs]
    simp only
    rw [ih hc]

/-- All rows have the same number of sequences. -/
theorem Chain.rect {rows : List (List InputCell)} {time n : Nat}
    {st st1 : RecState S} {input : List InputCell} {result result1 : List (List Nat)} {outs : List (List (Entry S))}
    (hg : ∀ t e row, good t e row → e.length = n → row.length = n) (hi : input.length = n) (hs : st.numSequences = n)
    (h : Chain act opts layers good time st input result rows outs st1 result1) :
    (∀ row ∈ rows, row.length = n) ∧ ∀ e ∈ outs, e.length = n := by
  induction rows generalizing time st input result outs with
  | nil => obtain ⟨rfl, _, _⟩ := h; exact ⟨by simp, by simp⟩
  | cons r rows ih =>
    obtain ⟨e, st', outs', rfl, hst, hgd, _, hc⟩ := h
    obtain ⟨l1, l2⟩ := stepNetwork_length (by rw [hi, hs]) hst
    rw [hs] at l1 l2
    have hr := hg _ _ _ hgd l1
    obtain ⟨b1, b2⟩ := ih hr l2 hc
    exact ⟨fun row hm => by rcases List.mem_cons.mp hm with rfl | hm; exacts [hr, b1 row hm],
      fun row hm => by rcases List.mem_cons.mp hm with rfl | hm; exacts [l1, b2 row hm]⟩

end

/-- The seed: the next input is a token of the seed in every sequence. -/
def SeedRow (v : Vocab) (seed : List Str) (n : Nat) (time : Nat) (row : List InputCell) : Prop :=
  ∃ token wordId classId, seed[time - 1]? = some token ∧ v.wordToId token = some wordId ∧ v.classOf[wordId]? = some classId ∧
    row = List.replicate n ⟨wordId, classId, true⟩

/-- The next input is drawn. -/
def SampledRow (output : Nat) (v : Vocab) (R : Draws S) (time : Nat) (e : List (Entry S)) (row : List InputCell) : Prop :=
  ∃ classIds, sampleClasses output R time e = .ok classIds ∧ sampleWords v R time classIds = .ok row

theorem setRow_ok {result result' : List (List Nat)} {time : Nat} {row : List Nat} (h : setRow result time row = .ok result') :
    time < result.length ∧ result' = result.set time row := by
  unfold setRow at h
  split at h
  · injection h with h
    exact ⟨by assumption, h.symm⟩
  · cases h

theorem samplerStep_ok {act : Act S} {opts : EvalOptions} {layers : List (Layer S)} {output : Nat} {R : Draws S} {time : Nat} {st st' : RecState S}
    {input : List InputCell} {classIds : List Nat} (h : samplerStep act opts layers output R time st input = .ok (classIds, st')) :
    ∃ e, stepNetwork act opts layers (time - 1) st input = .ok (e, st') ∧ sampleClasses output R time e = .ok classIds := by
  unfold samplerStep at h
  cases h1 : stepNetwork act opts layers (time - 1) st input with
  | error e => rw [h1] at h; cases h
  | ok x =>
    obtain ⟨e, st1⟩ := x
    rw [h1] at h
    simp only at h
    cases h2 : sampleClasses output R time e with
    | error e => rw [h2] at h; cases h
    | ok ids =>
      rw [h2] at h
      injection h with h
      injection h with h3 h4
      subst h3 h4
      exact ⟨e, rfl, h2⟩

theorem seedLoop_chain {act : Act S} {opts : EvalOptions} {layers : List (Layer S)} {output : Nat} {v : Vocab} {R : Draws S} {n time : Nat}
    {seed tokens : List Str} {st st' : RecState S} {input input' : List InputCell} {result result' : List (List Nat)} (ht : 1 ≤ time)
    (hseed : seed.drop (time - 1) = tokens)
    (h : seedLoop act opts layers output v R n time tokens st input result = .ok (st', input', result')) :
    ∃ rows outs, rows.length = tokens.length ∧ input' = (rows.getLast?).getD input ∧
      Chain act opts layers (fun t _ row => SeedRow v seed n t row) time st input result rows outs st' result' := by
  induction tokens generalizing time st input result with
  | nil =>
    rw [seedLoop] at h
    injection h with h
    injection h with h1 h
    injection h with h2 h3
    subst h1 h2 h3
    exact ⟨[], [], rfl, rfl, rfl, rfl, rfl⟩
  | cons token tokens ih =>
    rw [seedLoop] at h
    cases h1 : samplerStep act opts layers output R time st input with
    | error e => rw [h1] at h; cases h
    | ok x =>
      obtain ⟨classIds, st1⟩ := x
      rw [h1] at h
      simp only at h
      obtain ⟨e, he, _⟩ := samplerStep_ok h1
      cases h2 : v.wordToId token with
      | none => rw [h2] at h; cases h
      | some wordId =>
        rw [h2] at h
        simp only at h
        cases h3 : v.classOf[wordId]? with
        | none => rw [h3] at h; cases h
        | some classId =>
          rw [h3] at h
          simp only at h
          cases h4 : setRow result time ((List.replicate n (⟨wordId, classId, true⟩ : InputCell)).map InputCell.word) with
          | error e => rw [h4] at h; cases h
          | ok result1 =>
            rw [h4] at h
            simp only at h
            obtain ⟨hl, rfl⟩ := setRow_ok h4
            have hd : seed.drop (time + 1 - 1) = tokens := by
              rw [show time + 1 - 1 = (time - 1) + 1 by omega, ← List.drop_drop, hseed]
              rfl
            obtain ⟨rows, outs, a1, a2, a3⟩ := ih (by omega) hd h
            refine ⟨List.replicate n ⟨wordId, classId, true⟩ :: rows, e :: outs, by simp [a1], ?_, e, st1, outs, rfl, he, ?_, hl, a3⟩
            · rw [a2]
              cases rows with
              | nil => rfl
              | cons r rows => rw [List.getLast?_cons_cons, List.getLast?_eq_some_getLast (by simp)]; rfl
            · refine ⟨token, wordId, classId, ?_, h2, h3, rfl⟩
              have := congrArg (fun l => l[0]?) hseed
              rw [List.getElem?_drop] at this
              exact this

theorem sampleLoop_chain {act : Act S} {opts : EvalOptions} {layers : List (Layer S)} {output : Nat} {v : Vocab} {R : Draws S} {left time : Nat}
    {st st' : RecState S} {input input' : List InputCell} {result result' : List (List Nat)}
    (h : sampleLoop act opts layers output v R left time st input result = .ok (st', input', result')) :
    ∃ rows outs, rows.length = left ∧
      Chain act opts layers (fun t e row => time ≤ t ∧ SampledRow output v R t e row) time st input result rows outs st' result' := by
  suffices key : ∀ start, start ≤ time → ∃ rows outs, rows.length = left ∧
      Chain act opts layers (fun t e row => start ≤ t ∧ SampledRow output v R t e row) time st input result rows outs st' result' from
    key time (Nat.le_refl _)
  intro start hst
  induction left generalizing time st input result with
  | zero =>
    rw [sampleLoop] at h
    injection h with h
    injection h with h1 h
    injection h with h2 h3
    subst h1 h2 h3
    exact ⟨[], [], rfl, rfl, rfl, rfl⟩
  | succ left ih =>
    rw [sampleLoop] at h
    cases h1 : samplerStep act opts layers output R time st input with
    | error e => rw [h1] at h; cases h
    | ok x =>
      obtain ⟨classIds, st1⟩ := x
      rw [h1] at h
      simp only at h
      obtain ⟨e, he, hc⟩ := samplerStep_ok h1
      cases h2 : sampleWords v R time classIds with
      | error e => rw [h2] at h; cases h
      | ok row =>
        rw [h2] at h
        simp only at h
        cases h4 : setRow result time (row.map InputCell.word) with
        | error e => rw [h4] at h; cases h
        | ok result1 =>
          rw [h4] at h
          simp only at h
          obtain ⟨hl, rfl⟩ := setRow_ok h4
          obtain ⟨rows, outs, a1, a3⟩ := ih h (by omega)
          exact ⟨row :: rows, e :: outs, by simp [a1], e, st1, outs, rfl, he, ⟨hst, classIds, hc, h2⟩, hl, a3⟩

theorem sampledRow_length {output : Nat} {v : Vocab} {R : Draws S} {time : Nat} {e : List (Entry S)} {row : List InputCell}
    (h : SampledRow output v R time e row) : row.length = e.length := by
  obtain ⟨classIds, h1, h2⟩ := h
  rw [mapE_length h2, List.length_zipIdx, mapE_length h1, List.length_zipIdx]

/-- What is drawn for one sequence. -/
theorem sampledRow_get {output : Nat} {v : Vocab} {R : Draws S} {time : Nat} {e : List (Entry S)} {row : List InputCell}
    (h : SampledRow output v R time e row) {s : Nat} {c : InputCell} (hc : row[s]? = some c) :
    ∃ x p wc q, e[s]? = some x ∧ x.outs[output]? = some (.probs p) ∧ c.cls = R.cls time s p ∧ v.classes[c.cls]? = some wc ∧
      wc.probs[R.word time s wc]? = some (c.word, q) ∧ c.mask = true := by
  obtain ⟨classIds, h1, h2⟩ := h
  have g2 := mapE_getElem? h2 s
  rw [hc, List.getElem?_zipIdx] at g2
  cases hk : classIds[s]? with
  | none => rw [hk] at g2; cases g2
  | some classId =>
    rw [hk, Option.map_some, Option.bind_some, Nat.zero_add] at g2
    have g1 := mapE_getElem? h1 s
    rw [hk, List.getElem?_zipIdx] at g1
    cases hx : e[s]? with
    | none => rw [hx] at g1; cases g1
    | some x =>
      rw [hx, Option.map_some, Option.bind_some, Nat.zero_add] at g1
      unfold sampleClass at g1
      simp only at g1
      unfold sampleWord at g2
      simp only at g2
      cases ho : x.outs[output]? with
      | none => rw [ho] at g1; cases g1
      | some o =>
        rw [ho] at g1
        cases o with
        | id _ => cases g1
        | vec _ => cases g1
        | probs p =>
          injection g1 with g1
          cases hw : v.classes[classId]? with
          | none => rw [hw] at g2; cases g2
          | some wc =>
            rw [hw] at g2
            simp only at g2
            unfold WordClass.sample at g2
            cases hq : wc.probs[R.word time s wc]? with
            | none => rw [hq] at g2; cases g2
            | some q =>
              rw [hq] at g2
              injection g2 with g2
              subst g2
              exact ⟨x, p, wc, q.2, rfl, ho, g1, hw, hq, rfl⟩

end TheanoLM
