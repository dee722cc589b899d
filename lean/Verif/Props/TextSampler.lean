import Verif.Lemmas.TextSampler
import Verif.Lemmas.VocabConstruct
import Verif.Props.Network
import Verif.Props.Vocabulary
/-!
# C61: text generation
-/
namespace TheanoLM
set_option linter.unusedSectionVars false

/-! ## Specification -/

/-- `cells` are the words of the sequence, given by their ID and the ID of their class, as they are in a mini-batch. -/
def TokensOf (v : Vocab) (sequence : List Str) (cells : List InputCell) : Prop :=
  List.Forall₂ (fun w (c : InputCell) => v.wordToId w = some c.word ∧ v.classOf[c.word]? = some c.cls ∧ c.mask = true) sequence cells

/-- A mini-batch that contains one sequence. -/
def oneSequence (cells : List InputCell) : List (List InputCell) := cells.map fun c => [c]

section
variable {S : Type} [Add S] [Mul S] [Sub S] [Div S] [Zero S] [One S]

/-- Word number `t` is drawn from the network: its class is the one drawn from the output of the network, when the network is
evaluated for the preceding words, and it is the word drawn from that class. -/
def DrawnAt (act : Act S) (opts : EvalOptions) (layers : List (Layer S)) (output : Nat) (v : Vocab) (R : Draws S) (s : Nat)
    (cells : List InputCell) (t : Nat) : Prop :=
  ∃ out x p c wc q, evalNetwork act opts layers (oneSequence (cells.take t)) = .ok out ∧
    posAt out (t - 1) 0 = some x ∧ x.outs[output]? = some (.probs p) ∧
    cells[t]? = some c ∧ c.cls = R.cls t s p ∧ v.classes[c.cls]? = some wc ∧ wc.probs[R.word t s wc]? = some (c.word, q)

end

/-! ## Lemmas -/

theorem filterMap_get_of_rect {α : Type} {rows : List (List α)} {n s : Nat} (hr : ∀ row ∈ rows, row.length = n) (hs : s < n) :
    (column s rows).length = rows.length ∧ ∀ t : Nat, (column s rows)[t]? = posAt rows t s := by
  induction rows with
  | nil => exact ⟨rfl, fun t => by simp [column, posAt]⟩
  | cons row rows ih =>
    obtain ⟨h1, h2⟩ := ih fun r hm => hr r (List.mem_cons_of_mem _ hm)
    have hl : s < row.length := by rw [hr row List.mem_cons_self]; exact hs
    have e : column s (row :: rows) = row[s] :: column s rows := by
      unfold column
      rw [List.filterMap_cons, List.getElem?_eq_getElem hl]
    rw [e]
    refine ⟨by simp [h1], fun t => ?_⟩
    cases t with
    | zero => simp [posAt, hl]
    | succ t =>
      rw [List.getElem?_cons_succ, h2 t]
      rfl

theorem map_sel_column {α : Type} {rows : List (List α)} {n s : Nat} (hr : ∀ row ∈ rows, row.length = n) (hs : s < n) :
    rows.map (sel s 1) = (column s rows).map fun c => [c] := by
  induction rows with
  | nil => rfl
  | cons row rows ih =>
    have hl : s < row.length := by rw [hr row List.mem_cons_self]; exact hs
    have e : column s (row :: rows) = row[s] :: column s rows := by
      unfold column
      rw [List.filterMap_cons, List.getElem?_eq_getElem hl]
    rw [e, List.map_cons, List.map_cons, ih fun r hm => hr r (List.mem_cons_of_mem _ hm)]
    congr 1
    unfold sel
    rw [List.drop_eq_getElem_cons hl, List.take_succ_cons, List.take_zero]

theorem column_take {α : Type} {rows : List (List α)} {n s : Nat} (hr : ∀ row ∈ rows, row.length = n) (hs : s < n) (t : Nat) :
    column s (rows.take t) = (column s rows).take t := by
  apply List.ext_getElem?
  intro i
  rw [(filterMap_get_of_rect (fun row hm => hr row (List.mem_of_mem_take hm)) hs).2 i, List.getElem?_take]
  unfold posAt
  rw [List.getElem?_take]
  split
  · exact ((filterMap_get_of_rect hr hs).2 i).symm
  · rfl

theorem column_map {α β : Type} (f : α → β) (s : Nat) (rows : List (List α)) :
    column s (rows.map fun row => row.map f) = (column s rows).map f := by
  unfold column
  rw [List.filterMap_map, List.map_filterMap]
  congr 1
  funext row
  simp

/-- A word drawn from a class is in the vocabulary, and its class is that class. -/
theorem drawn_member {v : Vocab} {n : Nat} {ps : List ℚ} (hv : VInv v n ps) {k w i : Nat} {wc : WordClass} {q : ℚ}
    (hk : v.classes[k]? = some wc) (hw : wc.probs[i]? = some (w, q)) : v.classOf[w]? = some k := by
  have hkn : k < n := by
    have := (List.getElem?_eq_some_iff.mp hk).1
    rwa [hv.cls, classList_length] at this
  rw [hv.cls, classList_get hkn] at hk
  injection hk with hk
  subst hk
  have := List.mem_of_getElem? hw
  obtain ⟨j, hj, he⟩ := List.mem_map.mp this
  injection he with he _
  subst he
  exact mem_idsOf.mp hj

section
variable {S : Type} [Add S] [Mul S] [Sub S] [Div S] [Zero S] [One S]

/-! ## C61 -/

/-- **C61.**  As many sequences as requested are generated, whatever the random outcomes are.  Every sequence has the requested number
of tokens plus the tokens of the seed, begins with `<s>` and the tokens of the seed, and every other token is a word of the class
that is drawn from the distribution that the network gives after the preceding tokens.  (The requested number of tokens includes
`<s>`.) -/
theorem C61 {P : Parsers} {v : Vocab} (hv : Constructible P v) {act : Act S} {opts : EvalOptions} (ht : opts.training = false)
    {layers : List (Layer S)} {output : Nat} {R : Draws S} {length n : Nat} {seed : Str} {tokens : List Str} (hseed : Words seed tokens)
    (hlen : 1 ≤ length) {sequences : List (List Str)} (h : generate act opts layers output v R length n seed = .ok sequences) :
    sequences.length = n ∧ ∀ (s : Nat) (sequence : List Str), sequences[s]? = some sequence →
      sequence.length = tokens.length + length ∧ sos :: tokens <+: sequence ∧
      ∃ cells, TokensOf v sequence cells ∧
        ∀ t, tokens.length < t → t < sequence.length → DrawnAt act opts layers output v R s cells t := by
  obtain ⟨N, ps, hi⟩ := hv.inv
  unfold generate at h
  simp only at h
  rw [pySplit_of_Words hseed] at h
  cases h1 : v.wordToId sos with
  | none => rw [h1] at h; cases h
  | some sosId =>
    rw [h1] at h
    simp only at h
    cases h2 : v.classOf[sosId]? with
    | none => rw [h2] at h; cases h
    | some sosClass =>
      rw [h2] at h
      simp only at h
      cases h3 : mkRecState (S := S) (networkStateSizes layers) n none with
      | error e => rw [h3] at h; cases h
      | ok st =>
        rw [h3] at h
        simp only at h
        have hst : st.numSequences = n := by
          unfold mkRecState RecState.reset at h3
          injection h3 with h3
          rw [← h3]
        generalize hin : List.replicate n (⟨sosId, sosClass, true⟩ : InputCell) = input at h
        generalize hres : List.replicate (tokens.length + length) (List.replicate n sosId) = result at h
        cases h4 : seedLoop act opts layers output v R n 1 tokens st input result with
        | error e => rw [h4] at h; cases h
        | ok x =>
          obtain ⟨st1, input1, result1⟩ := x
          rw [h4] at h
          simp only at h
          cases h5 : sampleLoop act opts layers output v R (length - 1) (tokens.length + 1) st1 input1 result1 with
          | error e => rw [h5] at h; cases h
          | ok y =>
            obtain ⟨st2, input2, result2⟩ := y
            rw [h5] at h
            simp only at h
            obtain ⟨rows1, outs1, r1, hl1, c1⟩ := seedLoop_chain (seed := tokens) (tokens := tokens) (Nat.le_refl 1) rfl h4
            obtain ⟨rows2, outs2, r2, c2⟩ := sampleLoop_chain h5
            -- both loops together
            have c := Chain.append
              (good := fun t e row => (t ≤ tokens.length ∧ SeedRow v tokens n t row) ∨
                (tokens.length < t ∧ SampledRow output v R t e row))
              (Chain.mono (fun t e row ht hg => .inl ⟨by omega, hg⟩) c1)
              (outs2 := outs2) (rows2 := rows2) (st2 := st2) (result2 := result2) (by
                rw [r1, Nat.add_comm 1, ← hl1]
                exact Chain.mono (fun t e row _ hg => .inr ⟨by omega, hg.2⟩) c2)
            generalize hrows : rows1 ++ rows2 = rows at c
            generalize houts : outs1 ++ outs2 = outs at c
            have hrl : rows.length + 1 = tokens.length + length := by rw [← hrows, List.length_append, r1, r2]; omega
            have hin' : input.length = n := by rw [← hin, List.length_replicate]
            obtain ⟨hrect, herect⟩ := Chain.rect (n := n) (by
              rintro t e row (⟨_, _, _, _, _, _, _, rfl⟩ | ⟨_, hg⟩) he
              · exact List.length_replicate
              · rw [sampledRow_length hg, he]) hin' hst c
            have hall : ∀ row ∈ input :: rows, row.length = n := by
              intro row hm
              rcases List.mem_cons.mp hm with rfl | hm
              exacts [hin', hrect row hm]
            -- the result consists of the words of the inputs
            have hresult : result2 = (input :: rows).map fun row => row.map InputCell.word := by
              obtain ⟨a1, _, a3⟩ := Chain.result c
              apply List.ext_getElem?
              intro i
              rw [a3 i, List.getElem?_map]
              cases i with
              | zero =>
                rw [if_neg (by omega), ← hres, ← hin, List.getElem?_replicate, if_pos (by omega)]
                simp
              | succ i =>
                rw [List.getElem?_cons_succ]
                by_cases hi : i < rows.length
                · rw [if_pos (by omega)]; rfl
                · rw [if_neg (by omega), List.getElem?_eq_none (by omega : rows.length ≤ i), ← hres,
                    List.getElem?_eq_none (by rw [List.length_replicate]; omega)]
                  rfl
            have hsl := mapE_length h
            rw [List.length_map, List.length_range] at hsl
            refine ⟨hsl, fun s sequence hs => ?_⟩
            have hsn : s < n := by rw [← hsl]; exact (List.getElem?_eq_some_iff.mp hs).1
            -- the sequence is the column of the result
            have hseq : mapE (idWord v) ((column s (input :: rows)).map InputCell.word) = .ok sequence := by
              have := mapE_getElem? h s
              rw [hs, List.getElem?_map, List.getElem?_range hsn, Option.map_some, Option.bind_some, hresult, column_map] at this
              cases hm : mapE (idWord v) ((column s (input :: rows)).map InputCell.word) with
              | error e => rw [hm] at this; cases this
              | ok q => rw [hm] at this; injection this with this; rw [this]
            obtain ⟨hcl, hcg⟩ := filterMap_get_of_rect hall hsn
            have hlens : sequence.length = tokens.length + length := by
              rw [mapE_length hseq, List.length_map, hcl, List.length_cons, hrl]
            -- the word and the class of each cell
            have hcell : ∀ (t : Nat) (cell : InputCell), (column s (input :: rows))[t]? = some cell →
                v.classOf[cell.word]? = some cell.cls ∧ cell.mask = true ∧
                (t = 0 → cell.word = sosId) ∧
                (1 ≤ t → t ≤ tokens.length → ∃ token, tokens[t - 1]? = some token ∧ v.wordToId token = some cell.word) ∧
                (tokens.length < t → ∃ x p wc q, posAt outs (t - 1) s = some x ∧ x.outs[output]? = some (.probs p) ∧
                  cell.cls = R.cls t s p ∧ v.classes[cell.cls]? = some wc ∧ wc.probs[R.word t s wc]? = some (cell.word, q)) := by
              intro t cell hcell
              rw [hcg t] at hcell
              unfold posAt at hcell
              cases t with
              | zero =>
                rw [List.getElem?_cons_zero, Option.bind_some, ← hin, List.getElem?_replicate, if_pos hsn] at hcell
                injection hcell with hcell
                subst hcell
                exact ⟨h2, rfl, fun _ => rfl, fun h => absurd h (by omega), fun h => absurd h (by omega)⟩
              | succ t =>
                rw [List.getElem?_cons_succ] at hcell
                cases hr : rows[t]? with
                | none => rw [hr] at hcell; cases hcell
                | some row =>
                  rw [hr, Option.bind_some] at hcell
                  obtain ⟨e, he, hg⟩ := Chain.good_at c hr
                  rw [Nat.add_comm 1] at hg
                  rcases hg with ⟨hle, token, wordId, classId, g1, g2, g3, rfl⟩ | ⟨hlt, hg⟩
                  · rw [List.getElem?_replicate, if_pos hsn] at hcell
                    injection hcell with hcell
                    subst hcell
                    exact ⟨g3, rfl, fun h => absurd h (by omega), fun _ _ => ⟨token, g1, g2⟩, fun h => absurd h (by omega)⟩
                  · obtain ⟨x, p, wc, q, b1, b2, b3, b4, b5, b6⟩ := sampledRow_get hg hcell
                    refine ⟨drawn_member hi b4 b5, b6, fun h => absurd h (by omega), fun _ h => absurd h (by omega), fun _ => ?_⟩
                    refine ⟨x, p, wc, q, ?_, b2, b3, b4, b5⟩
                    unfold posAt
                    rw [show t + 1 - 1 = t from rfl, he]
                    exact b1
            -- the word of each ID
            have hword : ∀ (t : Nat) (cell : InputCell) (w : Str), (column s (input :: rows))[t]? = some cell →
                sequence[t]? = some w → v.idToWord[cell.word]? = some w := by
              intro t cell w hcl hw
              have := mapE_getElem? hseq t
              rw [hw, List.getElem?_map, hcl, Option.map_some, Option.bind_some] at this
              unfold idWord at this
              cases hx : v.idToWord[cell.word]? with
              | none => rw [hx] at this; cases this
              | some w' => rw [hx] at this; injection this with this; rw [this]
            have hid : ∀ (k : Nat) (w : Str), v.idToWord[k]? = some w → v.wordToId w = some k := by
              intro k w hw
              obtain ⟨j, hj⟩ := wordToId_mem (List.mem_of_getElem? hw)
              rw [Vocab.wordToId, hj, getElem?_inj_of_nodup hi.nodup (wordToId_get hj) hw]
            refine ⟨hlens, ?_, column s (input :: rows), ?_, ?_⟩
            · -- begins with <s> and the seed
              rw [List.prefix_iff_eq_take]
              apply List.ext_getElem?
              intro t
              rw [List.length_cons]
              by_cases htl : t < tokens.length + 1
              · rw [List.getElem?_take_of_lt htl]
                have hts : t < sequence.length := by omega
                have hcc : t < (column s (input :: rows)).length := by rw [hcl, List.length_cons]; omega
                have e1 := List.getElem?_eq_getElem hts
                have e2 := List.getElem?_eq_getElem hcc
                obtain ⟨_, _, z1, z2, _⟩ := hcell t _ e2
                have w := hword t _ _ e2 e1
                cases t with
                | zero =>
                  rw [List.getElem?_cons_zero]
                  rw [z1 rfl, wordToId_get h1] at w
                  rw [e1, ← w]
                | succ t =>
                  obtain ⟨token, k1, k2⟩ := z2 (by omega) (by omega)
                  rw [wordToId_get k2] at w
                  rw [List.getElem?_cons_succ]
                  rw [Nat.add_sub_cancel] at k1
                  rw [k1, e1, ← w]
              · rw [List.getElem?_eq_none (by rw [List.length_cons]; omega),
                  List.getElem?_eq_none (by rw [List.length_take]; omega)]
            · -- the IDs and the classes
              refine List.forall₂_iff_get.mpr ⟨by rw [hlens, hcl, List.length_cons, hrl], ?_⟩
              intro t t1 t2
              have e1 := List.getElem?_eq_getElem t1
              have e2 := List.getElem?_eq_getElem t2
              obtain ⟨z1, z2, _⟩ := hcell t _ e2
              exact ⟨hid _ _ (hword t _ _ e2 e1), z1, z2⟩
            · -- the other words are drawn
              intro t htl hts
              have hcc : t < (column s (input :: rows)).length := by rw [hcl, List.length_cons]; omega
              have e2 := List.getElem?_eq_getElem hcc
              obtain ⟨_, _, _, _, z⟩ := hcell t _ e2
              obtain ⟨x, p, wc, q, b1, b2, b3, b4, b5⟩ := z htl
              have hsteps := Chain.steps (time := 0) c
              have hdl : (input :: rows).dropLast.length = rows.length := by rw [List.length_dropLast, List.length_cons]; omega
              have hrpos : 0 < rows.length := by omega
              have hbatch := C60_converse (n := n) (by
                  intro hc
                  rw [hc] at hdl
                  simp at hdl
                  omega)
                (fun row hm => hall row (List.mem_of_mem_dropLast hm))
                (by
                  intro row hm cell hcm
                  obtain ⟨i, hi1, rfl⟩ := List.getElem_of_mem (List.mem_of_mem_dropLast hm)
                  obtain ⟨j, hj1, rfl⟩ := List.getElem_of_mem hcm
                  cases i with
                  | zero =>
                    have hm0 : ∀ c ∈ input, c.mask = true := by
                      intro c hc
                      rw [← hin] at hc
                      rw [List.eq_of_mem_replicate hc]
                    exact hm0 _ (List.getElem_mem _)
                  | succ i =>
                    have hir : i < rows.length := by simpa using hi1
                    obtain ⟨e, he, hg⟩ := Chain.good_at c (List.getElem?_eq_getElem hir)
                    have hg' : ∀ c ∈ rows[i], c.mask = true := by
                      rcases hg with ⟨_, _, _, _, _, _, _, hr⟩ | ⟨_, hg⟩
                      · intro c hc
                        rw [hr] at hc
                        rw [List.eq_of_mem_replicate hc]
                      · intro c hc
                        obtain ⟨k, hk, rfl⟩ := List.getElem_of_mem hc
                        obtain ⟨_, _, _, _, _, _, _, _, _, hm⟩ := sampledRow_get hg (List.getElem?_eq_getElem hk)
                        exact hm
                    exact hg' _ (List.getElem_mem _)) h3 hsteps
              have hfwd : ∀ layer ∈ layers, layer.Forward := by
                have : ∃ row rest, (input :: rows).dropLast = row :: rest := by
                  cases hd : (input :: rows).dropLast with
                  | nil => rw [hd] at hdl; simp at hdl; omega
                  | cons a b => exact ⟨a, b, rfl⟩
                obtain ⟨row, rest, hd⟩ := this
                obtain ⟨sq, _, hq⟩ := stepsNetwork_states hsteps
                obtain ⟨r, hr⟩ := hq 0 row (by rw [hd]; rfl)
                exact fun layer hm => (stepLayers_steppable hr layer hm).1
              unfold evalNetwork at hbatch
              have htake := evalLayers_sel ht s 1 (evalLayers_take hfwd hbatch t)
              have htk : ((input :: rows).dropLast).take t = (input :: rows).take t := by
                rw [List.dropLast_eq_take, List.take_take, List.length_cons]
                congr 1
                omega
              have hmm : ((((input :: rows).dropLast).map fun row => row.map fun c => (⟨c, []⟩ : Entry S)).take t).map (sel s 1) =
                  (oneSequence ((column s (input :: rows)).take t)).map fun row => row.map fun c => (⟨c, []⟩ : Entry S) := by
                rw [← List.map_take, htk, List.map_map]
                rw [show (sel s 1 ∘ fun row : List InputCell => row.map fun c => (⟨c, []⟩ : Entry S)) =
                  (fun row => row.map fun c => (⟨c, []⟩ : Entry S)) ∘ sel s 1 from funext fun row => sel_map s 1 _ row]
                rw [← List.map_map, map_sel_column (fun row hm => hall row (List.mem_of_mem_take hm)) hsn, column_take hall hsn]
                rfl
              rw [hmm] at htake
              refine ⟨_, x, p, (column s (input :: rows))[t], wc, q, htake, ?_, b2, e2, b3, b4, b5⟩
              rw [posAt_map_sel, ← b1]
              unfold posAt
              rw [List.getElem?_take_of_lt (by omega)]

/-- C61.  What is written of a sequence: the sequence up to and including the first `</s>`. -/
theorem C61_written (sequence : List Str) :
    sampleWritten sequence <+: sequence ∧ eos ∉ (sampleWritten sequence).dropLast ∧
      (eos ∈ sequence → (sampleWritten sequence).getLast? = some eos) ∧ (eos ∉ sequence → sampleWritten sequence = sequence) := by
  unfold sampleWritten
  cases h : sequence.idxOf? eos with
  | none =>
    have hn : eos ∉ sequence := List.idxOf?_eq_none_iff.mp h
    exact ⟨List.prefix_rfl, fun hm => hn (List.mem_of_mem_dropLast hm), fun hm => absurd hm hn, fun _ => rfl⟩
  | some pos =>
    have hg := idxOf?_get h
    obtain ⟨hp, he⟩ := List.getElem?_eq_some_iff.mp hg
    refine ⟨List.take_prefix _ _, ?_, ?_, fun hn => absurd (List.mem_of_getElem? hg) hn⟩
    · simp only
      rw [List.dropLast_eq_take, List.take_take, List.length_take, show min (min (pos + 1) sequence.length - 1) (pos + 1) = pos by omega]
      intro hm
      obtain ⟨i, hi, hie⟩ := List.getElem_of_mem hm
      rw [List.getElem_take] at hie
      rw [List.length_take] at hi
      rw [List.idxOf?, List.findIdx?_eq_some_iff_getElem] at h
      obtain ⟨_, _, h3⟩ := h
      exact h3 i (by omega) (by simp [hie])
    · intro _
      simp only
      rw [List.getLast?_eq_getElem?, List.length_take, Nat.min_eq_left (by omega), Nat.add_sub_cancel,
        List.getElem?_take_of_lt (by omega)]
      exact hg

/-! ### Generation succeeds -/

/-- A row of a mini-batch: `n` words of the shortlist with their classes. -/
def ValidRow (v : Vocab) (n : Nat) (row : List InputCell) : Prop :=
  row.length = n ∧ ∀ c ∈ row, v.classOf[c.word]? = some c.cls ∧ c.mask = true

theorem stepsNetwork_snoc {act : Act S} {opts : EvalOptions} {layers : List (Layer S)} {time : Nat} {st st1 st2 : RecState S}
    {pre : List (List InputCell)} {input : List InputCell} {out1 out2 : List (List (Entry S))}
    (h1 : stepsNetwork act opts layers time st pre = .ok (out1, st1))
    (h2 : stepsNetwork act opts layers time st (pre ++ [input]) = .ok (out2, st2)) :
    ∃ row, stepNetwork act opts layers (time + pre.length) st1 input = .ok (row, st2) ∧ out2 = out1 ++ [row] := by
  induction pre generalizing time st out1 out2 with
  | nil =>
    rw [stepsNetwork] at h1
    injection h1 with h1
    injection h1 with h1 h1'
    subst h1 h1'
    rw [List.nil_append, stepsNetwork] at h2
    cases h3 : stepNetwork act opts layers time st input with
    | error e => rw [h3] at h2; cases h2
    | ok x =>
      obtain ⟨row, st3⟩ := x
      rw [h3] at h2
      simp only at h2
      rw [stepsNetwork] at h2
      injection h2 with h2
      injection h2 with h2 h2'
      subst h2 h2'
      exact ⟨row, by simp, rfl⟩
  | cons cells pre ih =>
    rw [stepsNetwork] at h1
    rw [List.cons_append, stepsNetwork] at h2
    cases h3 : stepNetwork act opts layers time st cells with
    | error e => rw [h3] at h2; cases h2
    | ok x =>
      obtain ⟨row, st3⟩ := x
      rw [h3] at h1 h2
      simp only at h1 h2
      cases h4 : stepsNetwork act opts layers (time + 1) st3 pre with
      | error e => rw [h4] at h1; cases h1
      | ok y =>
        obtain ⟨o1, s1⟩ := y
        rw [h4] at h1
        injection h1 with h1
        injection h1 with h1 h1'
        subst h1 h1'
        cases h5 : stepsNetwork act opts layers (time + 1) st3 (pre ++ [input]) with
        | error e => rw [h5] at h2; cases h2
        | ok z =>
          obtain ⟨o2, s2⟩ := z
          rw [h5] at h2
          injection h2 with h2
          injection h2 with h2 h2'
          subst h2 h2'
          obtain ⟨r, hr, he⟩ := ih h4 h5
          refine ⟨r, ?_, by rw [he]; rfl⟩
          rw [List.length_cons, show time + (pre.length + 1) = time + 1 + pre.length by omega]
          exact hr

/-- **C61.**  Generation succeeds for every seed of words in the shortlist and all random outcomes, if the network can be evaluated
one time step at a time, and for all mini-batches of words gives a distribution of the classes. -/
theorem C61_succeeds {P : Parsers} {v : Vocab} (hv : Constructible P v) {act : Act S} {opts : EvalOptions}
    {layers : List (Layer S)} {output : Nat} {R : Draws S} {length n : Nat} {seed : Str} {tokens : List Str} (hseed : Words seed tokens)
    (hlen : 1 ≤ length) (htok : ∀ w ∈ tokens, w ∈ v.idToWord.take v.numShortlist)
    (hl : ∀ layer ∈ layers, layer.Forward ∧ ∀ b k i filters, layer ≠ .glu b k i filters)
    (hnet : ∀ batch : List (List InputCell), (∀ row ∈ batch, ValidRow v n row) →
      ∃ out, evalNetwork act opts layers batch = .ok out ∧
        ∀ row ∈ out, ∀ x ∈ row, ∃ p, x.outs[output]? = some (.probs p) ∧ p.length = v.numClasses)
    (hcls : ∀ t s (p : List S), p ≠ [] → R.cls t s p < p.length)
    (hword : ∀ t s (c : WordClass), c.probs ≠ [] → R.word t s c < c.probs.length) :
    ∃ sequences, generate act opts layers output v R length n seed = .ok sequences := by
  obtain ⟨N, ps, hi⟩ := hv.inv
  -- words of the shortlist
  have hshort : ∀ w ∈ v.idToWord.take v.numShortlist, ∃ k c, v.wordToId w = some k ∧ v.classOf[k]? = some c := by
    intro w hw
    obtain ⟨k, hk⟩ := wordToId_mem (List.mem_of_mem_take hw)
    obtain ⟨j, hj, he⟩ := List.getElem_of_mem hw
    rw [List.getElem_take] at he
    rw [List.length_take] at hj
    have hjk : j = k := getElem?_inj_of_nodup hi.nodup (List.getElem?_eq_some_iff.mpr ⟨by omega, he⟩) (wordToId_get hk)
    have : k < v.classOf.length := by
      have : v.numShortlist = v.classOf.length := rfl
      omega
    exact ⟨k, v.classOf[k], hk, List.getElem?_eq_getElem this⟩
  obtain ⟨st0, hst0⟩ : ∃ st0, mkRecState (S := S) (networkStateSizes layers) n none = .ok st0 := ⟨_, rfl⟩
  have hnpos : 0 < v.numClasses := by
    obtain ⟨k, c, h1, h2⟩ := hshort sos (hi.special sos (.inl rfl))
    have := hi.lt c (List.mem_of_getElem? h2)
    rw [VInv.numClasses hi]
    omega
  -- every step succeeds
  have hstep : ∀ (pre : List (List InputCell)) (input : List InputCell) (o : List (List (Entry S))) (st : RecState S),
      (∀ row ∈ pre, ValidRow v n row) → ValidRow v n input → stepsNetwork act opts layers 0 st0 pre = .ok (o, st) →
      ∃ row st', stepNetwork act opts layers pre.length st input = .ok (row, st') ∧
        stepsNetwork act opts layers 0 st0 (pre ++ [input]) = .ok (o ++ [row], st') ∧
        row.length = n ∧ ∀ x ∈ row, ∃ p, x.outs[output]? = some (.probs p) ∧ p.length = v.numClasses := by
    intro pre input o st hpre hin hst
    have hall : ∀ row ∈ pre ++ [input], ValidRow v n row := by
      intro row hm
      rcases List.mem_append.mp hm with hm | hm
      · exact hpre row hm
      · rw [List.mem_singleton.mp hm]; exact hin
    obtain ⟨out, ho, hp⟩ := hnet (pre ++ [input]) hall
    obtain ⟨st', hs⟩ := C60 hl (fun row hm => (hall row hm).1) (fun row hm c hc => ((hall row hm).2 c hc).2) ho hst0
    obtain ⟨row, hr, he⟩ := stepsNetwork_snoc hst hs
    rw [Nat.zero_add] at hr
    refine ⟨row, st', hr, by rw [hs, he], ?_, hp row (by rw [he]; simp)⟩
    have hcomplete := C57_complete (fun row hm => (hall row hm).1) ho
    have := congrArg (List.map List.length) hcomplete.1
    rw [he, List.map_append, List.map_append] at this
    have := congrArg List.getLast? this
    simp at this
    rw [this, hin.1]
  -- drawing
  have hdraw : ∀ (time : Nat) (row : List (Entry S)), row.length = n →
      (∀ x ∈ row, ∃ p, x.outs[output]? = some (.probs p) ∧ p.length = v.numClasses) →
      ∃ classIds, sampleClasses output R time row = .ok classIds ∧ ∃ cells, sampleWords v R time classIds = .ok cells ∧
        ValidRow v n cells := by
    intro time row hrl hrow
    obtain ⟨classIds, hc⟩ : ∃ classIds, sampleClasses output R time row = .ok classIds := by
      apply mapE_all
      intro x hx
      obtain ⟨p, hp, _⟩ := hrow x.1 (List.fst_mem_of_mem_zipIdx hx)
      exact ⟨R.cls time x.2 p, by unfold sampleClass; rw [hp]⟩
    refine ⟨classIds, hc, ?_⟩
    have hlt : ∀ k ∈ classIds, k < v.numClasses := by
      intro k hk
      obtain ⟨i, hi', rfl⟩ := List.getElem_of_mem hk
      have := mapE_getElem? hc i
      rw [List.getElem?_eq_getElem hi', List.getElem?_zipIdx] at this
      cases hx : row[i]? with
      | none => rw [hx] at this; cases this
      | some x =>
        rw [hx, Option.map_some, Option.bind_some] at this
        obtain ⟨p, hp, hpl⟩ := hrow x (List.mem_of_getElem? hx)
        unfold sampleClass at this
        simp only at this
        rw [hp] at this
        injection this with this
        rw [this, ← hpl]
        exact hcls _ _ p (by intro h; rw [h] at hpl; simp at hpl; omega)
    obtain ⟨cells, hcells⟩ : ∃ cells, sampleWords v R time classIds = .ok cells := by
      apply mapE_all
      intro x hx
      have hk := hlt x.1 (List.fst_mem_of_mem_zipIdx hx)
      have hkN : x.1 < N := by rwa [VInv.numClasses hi] at hk
      obtain ⟨i, hi', he⟩ := List.getElem_of_mem (hi.surj x.1 hkN)
      have hm : i ∈ idsOf v.classOf x.1 := mem_idsOf.mpr (List.getElem?_eq_some_iff.mpr ⟨hi', he⟩)
      have hcx : ∃ wc : WordClass, v.classes[x.1]? = some wc ∧ wc.probs ≠ [] := by
        refine ⟨_, by rw [hi.cls, classList_get hkN], ?_⟩
        intro hc
        simp only [List.map_eq_nil_iff] at hc
        rw [hc] at hm
        cases hm
      obtain ⟨wc, hwc, hne⟩ := hcx
      unfold sampleWord WordClass.sample
      rw [hwc]
      simp only
      have hq := List.getElem?_eq_getElem (hword time x.2 wc hne)
      generalize wc.probs[R.word time x.2 wc]'(hword time x.2 wc hne) = q at hq
      rw [hq]
      exact ⟨_, rfl⟩
    have hs : SampledRow output v R time row cells := ⟨classIds, hc, hcells⟩
    refine ⟨cells, hcells, by rw [sampledRow_length hs, hrl], fun c hm => ?_⟩
    obtain ⟨i, hi', rfl⟩ := List.getElem_of_mem hm
    obtain ⟨x, p, wc, q, _, _, _, b4, b5, b6⟩ := sampledRow_get hs (List.getElem?_eq_getElem hi')
    exact ⟨drawn_member hi b4 b5, b6⟩
  have hsampler : ∀ (pre : List (List InputCell)) (input : List InputCell) (o : List (List (Entry S))) (st : RecState S),
      (∀ row ∈ pre, ValidRow v n row) → ValidRow v n input → stepsNetwork act opts layers 0 st0 pre = .ok (o, st) →
      ∃ classIds o' st', samplerStep act opts layers output R (pre.length + 1) st input = .ok (classIds, st') ∧
        stepsNetwork act opts layers 0 st0 (pre ++ [input]) = .ok (o', st') ∧
        ∃ cells, sampleWords v R (pre.length + 1) classIds = .ok cells ∧ ValidRow v n cells := by
    intro pre input o st hpre hin hst
    obtain ⟨row, st', h1, h2, h3, h4⟩ := hstep pre input o st hpre hin hst
    obtain ⟨classIds, h5, cells, h6, h7⟩ := hdraw (pre.length + 1) row h3 h4
    refine ⟨classIds, _, st', ?_, h2, cells, h6, h7⟩
    unfold samplerStep
    rw [Nat.add_sub_cancel, h1]
    simp only
    rw [h5]
  -- valid IDs in the result
  let ValidIds : List (List Nat) → Prop := fun result => ∀ row ∈ result, ∀ k ∈ row, k < v.idToWord.length
  have hset : ∀ (result : List (List Nat)) (time : Nat) (row : List InputCell), ValidIds result → ValidRow v n row →
      ValidIds (result.set time (row.map InputCell.word)) := by
    intro result time row hr hrow r hm k hk
    rcases List.mem_or_eq_of_mem_set hm with hm | rfl
    · exact hr r hm k hk
    · obtain ⟨c, hc, rfl⟩ := List.mem_map.mp hk
      have := (List.getElem?_eq_some_iff.mp ((hrow.2 c hc).1)).1
      have := hi.short
      omega
  -- the loops
  have hseedLoop : ∀ (toks : List Str) (pre : List (List InputCell)) (input : List InputCell) (o : List (List (Entry S)))
      (st : RecState S) (result : List (List Nat)), (∀ w ∈ toks, w ∈ v.idToWord.take v.numShortlist) →
      (∀ row ∈ pre, ValidRow v n row) → ValidRow v n input → stepsNetwork act opts layers 0 st0 pre = .ok (o, st) →
      ValidIds result → pre.length + 1 + toks.length ≤ result.length →
      ∃ pre' input' o' st' result', seedLoop act opts layers output v R n (pre.length + 1) toks st input result = .ok (st', input', result') ∧
        (∀ row ∈ pre', ValidRow v n row) ∧ ValidRow v n input' ∧ stepsNetwork act opts layers 0 st0 pre' = .ok (o', st') ∧
        ValidIds result' ∧ result'.length = result.length ∧ pre'.length = pre.length + toks.length := by
    intro toks
    induction toks with
    | nil =>
      intro pre input o st result _ hpre hin hst hids _
      exact ⟨pre, input, o, st, result, rfl, hpre, hin, hst, hids, rfl, rfl⟩
    | cons tok toks ih =>
      intro pre input o st result htoks hpre hin hst hids hl
      obtain ⟨classIds, o', st', h1, h2, _⟩ := hsampler pre input o st hpre hin hst
      obtain ⟨k, c, h3, h4⟩ := hshort tok (htoks tok List.mem_cons_self)
      have hrow : ValidRow v n (List.replicate n ⟨k, c, true⟩) :=
        ⟨List.length_replicate, fun x hx => by rw [List.eq_of_mem_replicate hx]; exact ⟨h4, rfl⟩⟩
      rw [List.length_cons] at hl
      have hpre2 : ∀ row ∈ pre ++ [input], ValidRow v n row := by
        intro row hm
        rcases List.mem_append.mp hm with hm | hm
        · exact hpre row hm
        · rw [List.mem_singleton.mp hm]; exact hin
      obtain ⟨pre', input', o'', st'', result', a1, a2, a3, a4, a5, a6, a7⟩ := ih (pre ++ [input])
        (List.replicate n ⟨k, c, true⟩) o' st' (result.set (pre.length + 1) ((List.replicate n (⟨k, c, true⟩ : InputCell)).map InputCell.word))
        (fun w hw => htoks w (List.mem_cons_of_mem _ hw)) hpre2 hrow h2 (hset _ _ _ hids hrow)
        (by rw [List.length_append, List.length_set, List.length_singleton]; omega)
      refine ⟨pre', input', o'', st'', result', ?_, a2, a3, a4, a5, by rw [a6, List.length_set], ?_⟩
      · rw [seedLoop, h1]
        simp only
        rw [h3]
        simp only
        rw [h4]
        simp only
        rw [setRow, if_pos (by omega)]
        simp only
        rw [List.length_append, List.length_singleton] at a1
        exact a1
      · rw [a7, List.length_append, List.length_singleton, List.length_cons]
        omega
  have hsampleLoop : ∀ (left : Nat) (pre : List (List InputCell)) (input : List InputCell) (o : List (List (Entry S)))
      (st : RecState S) (result : List (List Nat)),
      (∀ row ∈ pre, ValidRow v n row) → ValidRow v n input → stepsNetwork act opts layers 0 st0 pre = .ok (o, st) →
      ValidIds result → pre.length + 1 + left ≤ result.length →
      ∃ st' input' result', sampleLoop act opts layers output v R left (pre.length + 1) st input result = .ok (st', input', result') ∧
        ValidIds result' := by
    intro left
    induction left with
    | zero =>
      intro pre input o st result hpre hin hst hids _
      exact ⟨st, input, result, rfl, hids⟩
    | succ left ih =>
      intro pre input o st result hpre hin hst hids hl
      obtain ⟨classIds, o', st', h1, h2, cells, h3, h4⟩ := hsampler pre input o st hpre hin hst
      have hpre2 : ∀ row ∈ pre ++ [input], ValidRow v n row := by
        intro row hm
        rcases List.mem_append.mp hm with hm | hm
        · exact hpre row hm
        · rw [List.mem_singleton.mp hm]; exact hin
      obtain ⟨st'', input', result', a1, a2⟩ := ih (pre ++ [input]) cells o' st'
        (result.set (pre.length + 1) (cells.map InputCell.word)) hpre2 h4 h2 (hset _ _ _ hids h4)
        (by rw [List.length_append, List.length_set, List.length_singleton]; omega)
      refine ⟨st'', input', result', ?_, a2⟩
      rw [sampleLoop, h1]
      simp only
      rw [h3]
      simp only
      rw [setRow, if_pos (by omega)]
      simp only
      rw [List.length_append, List.length_singleton] at a1
      exact a1
  -- put together
  obtain ⟨sosId, sosClass, h1, h2⟩ := hshort sos (hi.special sos (.inl rfl))
  have hrow0 : ValidRow v n (List.replicate n ⟨sosId, sosClass, true⟩) :=
    ⟨List.length_replicate, fun x hx => by rw [List.eq_of_mem_replicate hx]; exact ⟨h2, rfl⟩⟩
  have hids0 : ValidIds (List.replicate (tokens.length + length) (List.replicate n sosId)) := by
    intro row hm k hk
    rw [List.eq_of_mem_replicate hm] at hk
    rw [List.eq_of_mem_replicate hk]
    have := (List.getElem?_eq_some_iff.mp (wordToId_get h1)).1
    exact this
  obtain ⟨pre', input', o', st', result', a1, a2, a3, a4, a5, a6, a7⟩ := hseedLoop tokens [] (List.replicate n ⟨sosId, sosClass, true⟩)
    [] st0 (List.replicate (tokens.length + length) (List.replicate n sosId)) htok (by simp) hrow0 rfl hids0
    (by rw [List.length_replicate, List.length_nil]; omega)
  rw [List.length_replicate] at a6
  rw [List.length_nil, Nat.zero_add] at a7 a1
  obtain ⟨st'', input'', result'', b1, b2⟩ := hsampleLoop (length - 1) pre' input' o' st' result' a2 a3 a4 a5 (by omega)
  rw [a7] at b1
  have hfin : ∃ sequences, mapE (mapE (idWord v)) ((List.range n).map fun s => column s result'') = .ok sequences := by
    apply mapE_all
    intro ids hm
    obtain ⟨s, _, rfl⟩ := List.mem_map.mp hm
    apply mapE_all
    intro k hk
    obtain ⟨row, hrow, hks⟩ := List.mem_filterMap.mp hk
    have := b2 row hrow k (List.mem_of_getElem? hks)
    exact ⟨v.idToWord[k], by unfold idWord; rw [List.getElem?_eq_getElem this]⟩
  obtain ⟨sequences, hs⟩ := hfin
  refine ⟨sequences, ?_⟩
  unfold generate
  simp only
  rw [pySplit_of_Words hseed, h1]
  simp only
  rw [h2]
  simp only
  rw [hst0]
  simp only
  rw [a1]
  simp only
  rw [b1]
  exact hs

end

/-! ## A concrete case -/

/-- A vocabulary of the special tokens. -/
def exampleSpecials : Vocab :=
  ⟨[sos, eos, unk], [0, 1, 2], [⟨0, [(0, 1)]⟩, ⟨1, [(1, 1)]⟩, ⟨2, [(2, 1)]⟩], 0, none⟩

/-- Two sequences, with the network that has a layer of each kind: `<s>`, the seed, and three sampled words. -/
example : vocabFromFile ⟨fun _ => none, fun _ => none⟩ [] .words [] = .ok exampleSpecials ∧
    generate ratAct notTraining (exampleForward false) 9 exampleSpecials ⟨fun t s p => if p.length = 3 then (t * 2 + s) % 3 else 7, fun _ _ _ => 0⟩ 4 2
      " <unk>\n".toList = .ok [[sos, unk, eos, sos, unk], [sos, unk, unk, eos, sos]] := by decide +kernel

example : (List.map sampleWritten [[sos, unk, eos, sos, unk], [sos, unk, unk, unk, sos]]) =
    [[sos, unk, eos], [sos, unk, unk, unk, sos]] := by decide

/-- A word that is not in the vocabulary is an error. -/
example : generate ratAct notTraining (exampleForward false) 9 exampleSpecials ⟨fun _ _ _ => 0, fun _ _ _ => 0⟩ 4 2 "a".toList =
    .error .keyError := by decide +kernel

/-! ### The hypotheses of `C61_succeeds` -/

section
variable {S : Type} [Add S] [Mul S] [Sub S] [Div S] [Zero S] [One S]

theorem pointRow_forall {f : Nat → Pos S → Except Err (Elem S)} {inputs : List Nat} {pr pr' : Entry S → Prop} {row : List (Entry S)}
    {seq : Nat} (hf : ∀ s e, pr e → ∃ x, f s (e.cell, inputs.map fun k => e.outs[k]?) = .ok x ∧ pr' ⟨e.cell, e.outs ++ [x]⟩)
    (hr : ∀ e ∈ row, pr e) : ∃ outs, pointRow f seq (gatherRow inputs row) = .ok outs ∧ ∀ e ∈ addOutputs row outs, pr' e := by
  induction row generalizing seq with
  | nil => exact ⟨[], rfl, by simp [addOutputs]⟩
  | cons e row ih =>
    obtain ⟨x, h1, h2⟩ := hf seq e (hr e List.mem_cons_self)
    obtain ⟨outs, h3, h4⟩ := ih (seq := seq + 1) fun e he => hr e (List.mem_cons_of_mem _ he)
    refine ⟨x :: outs, ?_, ?_⟩
    · show pointRow f seq ((e.cell, inputs.map fun k => e.outs[k]?) :: gatherRow inputs row) = _
      rw [pointRow, h1]
      simp only
      rw [h3]
    · intro e' he'
      rcases List.mem_cons.mp he' with rfl | he'
      · exact h2
      · exact h4 e' he'

theorem pointRows_forall {f : Nat → Nat → Pos S → Except Err (Elem S)} {inputs : List Nat} {pr pr' : Entry S → Prop}
    {table : List (List (Entry S))} {time : Nat}
    (hf : ∀ t s e, pr e → ∃ x, f t s (e.cell, inputs.map fun k => e.outs[k]?) = .ok x ∧ pr' ⟨e.cell, e.outs ++ [x]⟩)
    (hr : ∀ row ∈ table, ∀ e ∈ row, pr e) :
    ∃ outs, pointRows f time (gather inputs table) = .ok outs ∧ ∀ row ∈ List.zipWith addOutputs table outs, ∀ e ∈ row, pr' e := by
  induction table generalizing time with
  | nil => exact ⟨[], rfl, by simp⟩
  | cons row table ih =>
    obtain ⟨x, h1, h2⟩ := pointRow_forall (seq := 0) (hf time) (hr row List.mem_cons_self)
    obtain ⟨outs, h3, h4⟩ := ih (time := time + 1) fun row he => hr row (List.mem_cons_of_mem _ he)
    refine ⟨x :: outs, ?_, ?_⟩
    · show pointRows f time (gatherRow inputs row :: gather inputs table) = _
      rw [pointRows, h1]
      simp only
      rw [h3]
    · intro r hr'
      rcases List.mem_cons.mp hr' with rfl | hr'
      · exact h2
      · exact h4 r hr'

end

/-- A network with a projection and an output layer. -/
def exampleUnigram : List (Layer ℚ) :=
  [.wordInput, .projection (exampleBasic [0] 1 [("W", [[1, 2, -1]])] []),
    .softmax (exampleBasic [1] 3 [("input/W", [[1], [0], [-1]])] [("input/b", [0, 1, 0])]) 2]

/-- The network gives a distribution of the three classes for every mini-batch. -/
theorem exampleUnigram_total (n : Nat) (batch : List (List InputCell)) (hb : ∀ row ∈ batch, ValidRow exampleSpecials n row) :
    ∃ out, evalNetwork ratAct notTraining exampleUnigram batch = .ok out ∧
      ∀ row ∈ out, ∀ x ∈ row, ∃ p, x.outs[2]? = some (.probs p) ∧ p.length = exampleSpecials.numClasses := by
  have h0 : ∀ row ∈ (batch.map fun row => row.map fun c => (⟨c, []⟩ : Entry ℚ)), ∀ e ∈ row, e.cell.word < 3 ∧ e.outs = [] := by
    intro row hm e he
    obtain ⟨r, hr, rfl⟩ := List.mem_map.mp hm
    obtain ⟨c, hc, rfl⟩ := List.mem_map.mp he
    exact ⟨(List.getElem?_eq_some_iff.mp ((hb r hr).2 c hc).1).1, rfl⟩
  obtain ⟨o1, e1, h1⟩ := pointRows_forall (time := 0) (f := pointFun ratAct notTraining (Layer.wordInput : Layer ℚ) 0)
    (inputs := []) (pr' := fun e => ∃ k, k < 3 ∧ e.outs = [.id k])
    (fun t s e he => ⟨.id e.cell.word, rfl, e.cell.word, he.1, by rw [he.2]; rfl⟩) h0
  obtain ⟨o2, e2, h2⟩ := pointRows_forall (time := 0) (inputs := [0])
    (f := pointFun ratAct notTraining (.projection (exampleBasic [0] 1 [("W", [[1, 2, -1]])] [])) 1)
    (pr' := fun e => ∃ k y, e.outs = [.id k, .vec [y]])
    (fun t s e he => by
      obtain ⟨k, hk, he⟩ := he
      have : k = 0 ∨ k = 1 ∨ k = 2 := by omega
      rw [he]
      rcases this with rfl | rfl | rfl
      · exact ⟨.vec [1], rfl, 0, 1, rfl⟩
      · exact ⟨.vec [2], rfl, 1, 2, rfl⟩
      · exact ⟨.vec [-1], rfl, 2, -1, rfl⟩) h1
  obtain ⟨o3, e3, h3⟩ := pointRows_forall (time := 0) (inputs := [1])
    (f := pointFun ratAct notTraining (.softmax (exampleBasic [1] 3 [("input/W", [[1], [0], [-1]])] [("input/b", [0, 1, 0])]) 2) 2)
    (pr' := fun e => ∃ p, e.outs[2]? = some (.probs p) ∧ p.length = 3)
    (fun t s e he => by
      obtain ⟨k, y, he⟩ := he
      rw [he]
      refine ⟨.probs (normalize (softmaxExps ratAct false 2 [dot [y] [1] + 0, dot [y] [0] + 1, dot [y] [-1] + 0])), rfl, ?_⟩
      exact ⟨_, rfl, by simp [normalize, softmaxExps]⟩) h2
  refine ⟨_, ?_, h3⟩
  unfold evalNetwork exampleUnigram
  rw [evalLayers, show evalLayer ratAct notTraining (Layer.wordInput : Layer ℚ) 0 = pointRows _ 0 from rfl,
    show (Layer.wordInput : Layer ℚ).inputs = [] from rfl, e1]
  simp only
  rw [evalLayers, show evalLayer ratAct notTraining (.projection (exampleBasic [0] 1 [("W", [[1, 2, -1]])] [])) (0 + 1) =
    pointRows _ 0 from rfl, show (Layer.projection (exampleBasic [0] 1 [("W", [[1, 2, -1]])] [])).inputs = [0] from rfl, e2]
  simp only
  rw [evalLayers, show evalLayer ratAct notTraining
    (.softmax (exampleBasic [1] 3 [("input/W", [[1], [0], [-1]])] [("input/b", [0, 1, 0])]) 2) (0 + 1 + 1) = pointRows _ 0 from rfl,
    show (Layer.softmax (exampleBasic [1] 3 [("input/W", [[1], [0], [-1]])] [("input/b", [0, 1, 0])]) 2).inputs = [1] from rfl, e3]
  rfl

/-- The hypotheses of `C61_succeeds`. -/
example (n : Nat) : ∃ sequences, generate ratAct notTraining exampleUnigram 2 exampleSpecials
    ⟨fun t s p => (t + s) % p.length, fun _ _ _ => 0⟩ 10 n "<unk> </s>".toList = .ok sequences := by
  refine C61_succeeds (P := ⟨fun _ => none, fun _ => none⟩) (.file [] .words [] _ (by decide +kernel)) (tokens := [unk, eos])
    (by
      obtain ⟨ws, hws⟩ := Words_total "<unk> </s>".toList
      have := pySplit_of_Words hws
      rw [← show pySplit "<unk> </s>".toList = [unk, eos] by decide, this]
      exact hws) (by omega) (by decide) ?_ (exampleUnigram_total n)
    (fun t s p hp => Nat.mod_lt _ (List.length_pos_iff.mpr hp)) (fun _ _ c hc => List.length_pos_iff.mpr hc)
  intro layer hl
  simp only [exampleUnigram, List.mem_cons, List.not_mem_nil, or_false] at hl
  rcases hl with rfl | rfl | rfl <;> exact ⟨fun _ _ _ => by simp, fun _ _ _ _ => by simp⟩

end TheanoLM
