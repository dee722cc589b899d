import Verif.Props.RescoredLattice
/-!
# The best path of a rescored lattice (C131)
-/
namespace TheanoLM

set_option linter.unusedSectionVars false

section
variable {S St : Type} [Field S] [LinearOrder S] [IsStrictOrderedRing S] {D : Decoder S St} {L : Lattice S} {idToWord : Nat → Option Str}
  {depth : Nat} {finals : List (Token S St)} {N : Lattice S}

/-- The score that a program that reads a lattice gives to a path: the language model scores are multiplied by a scale, and a
penalty is added for each word. -/
def latticeScore (scale penalty : S) (rs : List (Link S)) : S :=
  acOf rs + scale * lmOf rs + penalty * (pathText rs).length

/-- The words of a history are those of a path. -/
def SpellsPath (D : Decoder S St) (t : Token S St) (rs : List (Link S)) : Prop :=
  ∃ ws : List HistWord, t.history = .inl D.vocab.sos :: ws ++ [.inl D.vocab.eos] ∧ List.Forall₂ (HistIs D.vocab) (pathText rs) ws

/-- Returned tokens with the same history are the same token. -/
theorem returned_unique (hw : L.WF) {recombs : List (Recomb S St)} (hdec : decode D L = .ok (finals, recombs)) {t t' : Token S St}
    (ht : t ∈ finals) (ht' : t' ∈ finals) (he : t.history = t'.history) : t = t' := by
  have hh : t.hash = t'.hash := by
    obtain ⟨l1, n1, _, _, rfl⟩ := (decode_inv hw (path_keeps D L) hdec).1 t ht
    obtain ⟨l2, n2, _, _, rfl⟩ := (decode_inv hw (path_keeps D L) hdec).1 t' ht'
    rw [(computed_end (D := D) (L := L) l1).hash, (computed_end (D := D) (L := L) l2).hash, he]
  obtain ⟨sorted, st, h1, h2, h3, h4, rfl⟩ := decode_ok hdec
  subst h4
  exact List.inj_on_of_nodup_map (sortedRecombined_spec _).nodup ht ht' hh

/-- The words determine the history. -/
theorem hist_unique {V : DecVocab S} {tx : List Str} {ws ws' : List HistWord} (h : List.Forall₂ (HistIs V) tx ws)
    (h' : List.Forall₂ (HistIs V) tx ws') : ws = ws' := by
  induction h generalizing ws' with
  | nil => cases h'; rfl
  | @cons w x tx ws h1 _ ih =>
    cases h' with
    | @cons _ y _ ws' g1 g2 =>
      rw [ih g2]
      congr 1
      cases hz : V.wordToId w with
      | none => rw [h1.2 hz, g1.2 hz]
      | some i => rw [h1.1 i hz, g1.1 i hz]

/-- The scores of the paths of a rescored lattice, whatever the weight is: the language model scores of the original lattice are counted
once more with the weight of the network, and not with their own weight. -/
theorem rescored_total (hr : Rescorable D L idToWord) (hl : D.linear = false)
    (hz : ∀ k ∈ L.links, k.word = none → k.ac.getD 0 = 0 ∧ k.lm.getD 0 = 0) (hdec : decode D L = .ok (finals, []))
    (h : rescoredLattice L depth idToWord finals [] = .ok N)
    (rs : List (Link S)) (n : Nat) (hp : N.Path N.initial rs n) (hf : N.Final n) :
    ∃ t ∈ finals, SpellsPath D t rs ∧
      t.total = latticeScore (D.nnlmWeight * (D.lmScale.or L.lmScale).getD 1) ((D.wiPenalty.or L.wiPenalty).getD 0) rs +
        (1 - 2 * D.nnlmWeight) * t.latLm * (D.lmScale.or L.lmScale).getD 1 + (D.wiPenalty.or L.wiPenalty).getD 0 := by
  obtain ⟨t, ht, ws, h1, h2, h3, h4⟩ := C73_no_null_scores hr hz hdec h rs n hp hf
  refine ⟨t, ht, ⟨ws, h1, h2⟩, ?_⟩
  rw [C29_total hr.wf hl finals [] hdec t ht, h1]
  unfold latticeScore
  rw [h3, h4, h2.length_eq]
  simp only [List.cons_append, List.length_cons, List.length_append, List.length_nil]
  push_cast
  ring

/-- C131.  When the interpolation weight is one half, or the original lattice has no language model scores, the score of every complete
path of the rescored lattice is the total score of the hypothesis with the same words (apart from the penalty of the sentence end), if
the language model scale is multiplied by the weight; and the best path is the first hypothesis.  Missing: other weights. -/
theorem C131_partial (hr : Rescorable D L idToWord) (hl : D.linear = false)
    (hz : ∀ k ∈ L.links, k.word = none → k.ac.getD 0 = 0 ∧ k.lm.getD 0 = 0)
    (hw : 2 * D.nnlmWeight = 1 ∨ ∀ k ∈ L.links, k.lm.getD 0 = 0) (best : Token S St) (rest : List (Token S St))
    (hdec : decode D L = .ok (best :: rest, [])) (h : rescoredLattice L depth idToWord (best :: rest) [] = .ok N)
    {scale penalty : S} (hs : scale = D.nnlmWeight * (D.lmScale.or L.lmScale).getD 1)
    (hpen : penalty = (D.wiPenalty.or L.wiPenalty).getD 0) :
    (∀ (rs : List (Link S)) (n : Nat), N.Path N.initial rs n → N.Final n → ∃ t ∈ best :: rest, SpellsPath D t rs ∧
      t.total = latticeScore scale penalty rs + penalty) ∧
    ∃ (rs : List (Link S)) (n : Nat), N.Path N.initial rs n ∧ N.Final n ∧ SpellsPath D best rs ∧
      ∀ (rs' : List (Link S)) (n' : Nat), N.Path N.initial rs' n' → N.Final n' →
        latticeScore scale penalty rs' ≤ latticeScore scale penalty rs := by
  have key : ∀ (rs : List (Link S)) (n : Nat), N.Path N.initial rs n → N.Final n → ∃ t ∈ best :: rest, SpellsPath D t rs ∧
      t.total = latticeScore scale penalty rs + penalty := by
    intro rs n hp hf
    obtain ⟨t, ht, h1, h2⟩ := rescored_total hr hl hz hdec h rs n hp hf
    refine ⟨t, ht, h1, ?_⟩
    have h0 : (1 - 2 * D.nnlmWeight) * t.latLm = 0 := by
      rcases hw with hw | hw
      · rw [hw, sub_self, zero_mul]
      · obtain ⟨ls, m, hls, _, hd⟩ := C29_tokens hr.wf _ _ hdec t ht
        rw [hd.2.2]
        have : lmOf ls = 0 := by
          unfold lmOf
          refine List.sum_eq_zero fun x hx => ?_
          obtain ⟨k, hk, rfl⟩ := List.mem_map.mp hx
          obtain ⟨l1, l2, rfl⟩ := List.append_of_mem hk
          obtain ⟨_, _, h10⟩ := path_append_inv hls
          exact hw k (path_cons_inv h10).1
        rw [this, mul_zero]
    rw [h2, h0, zero_mul, add_zero, hs, hpen]
  refine ⟨key, ?_⟩
  obtain ⟨rs, n, ws, h1, h2, h3, h4⟩ := C35_contains_partial hr hdec h best (by simp)
  refine ⟨rs, n, h1, h2, ⟨ws, h3, h4⟩, fun rs' n' hp' hf' => ?_⟩
  obtain ⟨t, ht, ⟨ws', g1, g2⟩, g3⟩ := key rs n h1 h2
  obtain ⟨t', ht', _, g4⟩ := key rs' n' hp' hf'
  have hb : t = best := returned_unique hr.wf hdec ht (by simp) (by rw [g1, h3, hist_unique g2 h4])
  have hle : t'.total ≤ best.total := by
    rcases List.mem_cons.mp ht' with rfl | hr'
    · exact le_refl _
    · have hdesc := (C29_sorted _ _ hdec).2
      unfold Descending at hdesc
      rw [List.pairwise_cons] at hdesc
      exact hdesc.1 t' hr'
  rw [← hb, g3, g4] at hle
  exact (add_le_add_iff_right _).mp hle

end

/-- Concrete case for `C131_partial`: the weight is one half. -/
example : Rescorable exDecoder exRescLattice exVocabWord ∧ exDecoder.linear = false ∧ 2 * exDecoder.nnlmWeight = 1 ∧
    (∀ k ∈ exRescLattice.links, k.word = none → k.ac.getD 0 = 0 ∧ k.lm.getD 0 = 0) ∧
    ∃ r, decode exDecoder exRescLattice = .ok r ∧ r.2 = [] ∧ r.1.length = 4 ∧
      ∃ N, rescoredLattice exRescLattice 100 exVocabWord r.1 r.2 = .ok N ∧ N.links.length = 12 :=
  ⟨exRescLattice_ok, by decide +kernel, by decide +kernel, by decide +kernel, by decide +kernel⟩

/-- The default weight of the network. -/
def exFullWeight : Decoder ℚ (List Nat) := { exDecoder with nnlmWeight := 1, lmScale := none, wiPenalty := none }

/-- Words "a" and "c" in parallel; the language model that created the lattice did not expect "a". -/
def exUnexpected : Lattice ℚ := exWordLattice 2 [(0, 1, some "a".toList, -1, -20), (0, 1, some "c".toList, -9, -1)]

set_option synthInstance.maxSize 2000 in
theorem exUnexpected_rescored : ∃ r, decode exFullWeight exUnexpected = .ok r ∧ r.2 = [] ∧
    r.1.map (fun t => (t.history, t.ac, t.latLm, t.nnLm, t.total)) =
      [([.inl 0, .inl 3, .inl 1], -1, -20, -6, -7), ([.inl 0, .inr "c".toList, .inl 1], -9, -1, -4, -13)] ∧
    ∃ N, rescoredLattice exUnexpected 100 exVocabWord r.1 r.2 = .ok N ∧ N.initial = 0 ∧ N.nodes[3]? = some ⟨[], [], none, true⟩ ∧
      N.links = [⟨0, 1, some "a".toList, some (-1), some (-20), []⟩, ⟨1, 3, none, some 0, some (-6), []⟩,
        ⟨0, 2, some "c".toList, some (-9), some (-1), []⟩, ⟨2, 3, none, some 0, some (-4), []⟩] := by
  decide +kernel

theorem exUnexpected_ok : Rescorable exFullWeight exUnexpected exVocabWord where
  wf := wf_of_check _ (by decide +kernel)
  determinized := det_of_check (by decide +kernel)
  vocabulary := exVocab_inverse
  boundary := ⟨"<s>".toList, "</s>".toList, by decide +kernel, by decide +kernel, by decide +kernel⟩

/-- C131 does not hold for other weights.  With the default weight one, the language model scores of the original lattice have no effect on
the result of decoding, but they are in the rescored lattice, and its best path is not the first hypothesis. -/
theorem C131_violated : ∃ (D : Decoder ℚ (List Nat)) (L N : Lattice ℚ) (f : Nat → Option Str) (best : Token ℚ (List Nat))
    (rest : List (Token ℚ (List Nat))), Rescorable D L f ∧ D.linear = false ∧ D.nnlmWeight = 1 ∧ NoNulls L ∧
    D.lmScale.or L.lmScale = none ∧ D.wiPenalty.or L.wiPenalty = none ∧
    decode D L = .ok (best :: rest, []) ∧ rescoredLattice L 100 f (best :: rest) [] = .ok N ∧
    ∀ (rs : List (Link ℚ)) (n : Nat), N.Path N.initial rs n → N.Final n → SpellsPath D best rs →
      best.total ≠ latticeScore 1 0 rs ∧
      ∃ (rs' : List (Link ℚ)) (n' : Nat), N.Path N.initial rs' n' ∧ N.Final n' ∧ latticeScore 1 0 rs < latticeScore 1 0 rs' := by
  obtain ⟨⟨finals, recombs⟩, h1, h2, h3, N, h4, h5, h6, h7⟩ := exUnexpected_rescored
  cases h2
  obtain ⟨best, rest, rfl⟩ : ∃ best rest, finals = best :: rest := by
    cases finals with
    | nil => cases h3
    | cons b r => exact ⟨b, r, rfl⟩
  refine ⟨exFullWeight, exUnexpected, N, exVocabWord, best, rest, exUnexpected_ok, rfl, rfl, by unfold NoNulls; decide +kernel, rfl, rfl,
    h1, h4, fun rs n hp hf hs => ?_⟩
  obtain ⟨t, ht, ws, g1, g2, g3, g4⟩ := C73_no_null_scores exUnexpected_ok (by decide +kernel) h1 h4 rs n hp hf
  obtain ⟨ws', k1, k2⟩ := hs
  have hb : t = best := returned_unique exUnexpected_ok.wf h1 ht (by simp) (by rw [g1, k1, hist_unique g2 k2])
  subst hb
  simp only [List.map_cons, List.cons.injEq, Prod.mk.injEq] at h3
  obtain ⟨⟨e1, e2, e3, e4, e5⟩, _⟩ := h3
  have hsc : latticeScore (1 : ℚ) 0 rs = -27 := by
    unfold latticeScore
    rw [g3, g4, e2, e3, e4]
    norm_num
  rw [hsc, e5]
  refine ⟨by norm_num, [⟨0, 2, some "c".toList, some (-9), some (-1), []⟩, ⟨2, 3, none, some 0, some (-4), []⟩], 3, ?_,
    ⟨_, h6, rfl⟩, ?_⟩
  · rw [h5]
    exact .snoc [_] _ (.snoc [] _ .nil (by rw [h7]; simp)) (by rw [h7]; simp)
  · unfold latticeScore acOf lmOf
    norm_num

end TheanoLM
