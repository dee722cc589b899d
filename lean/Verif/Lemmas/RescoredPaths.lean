import Verif.Lemmas.RescoredBuild
/-!
# Lemmas about rescored lattices: paths of the finished lattice
-/
namespace TheanoLM

variable {S St : Type} {L : Lattice S}

set_option linter.unusedSectionVars false

section
variable [Field S] [LinearOrder S]
variable {sc sa : Prop} {F : Nat → List Str → S → Prop} {info : List (Nat × List Str)} {R : RLat S}

/-- The link object of the finished lattice. -/
def RLink.toLink (N : Nat) (k : RLink S) : Link S :=
  ⟨k.startNode, k.endNode.getD N, k.word, some k.ac, some k.lm, k.transitions⟩

theorem mem_toLattice {u : Option Str} {l : Link S} :
    l ∈ (R.toLattice u).links ↔ ∃ k ∈ R.links, l = k.toLink R.nodes.length := by
  unfold RLat.toLattice
  simp only [List.mem_map]
  constructor
  · rintro ⟨k, h1, rfl⟩; exact ⟨k, h1, rfl⟩
  · rintro ⟨k, h1, rfl⟩; exact ⟨k, h1, rfl⟩

theorem rpath_path {u : Option Str} {a b : Nat} {ws : List Str} (h : RPath R a ws b) :
    ∃ rs, (R.toLattice u).Path a rs b ∧ pathText rs = ws := by
  induction h with
  | nil a => exact ⟨[], .nil, rfl⟩
  | cons a b w ws k e h1 h2 h3 h4 _ ih =>
    obtain ⟨rs, h5, h6⟩ := ih
    have hm : k.toLink R.nodes.length ∈ (R.toLattice u).links := mem_toLattice.mpr ⟨k, h1, rfl⟩
    refine ⟨k.toLink R.nodes.length :: rs, ?_, ?_⟩
    · have := path_cons hm (ls := rs) (b := b) (by simpa [RLink.toLink, h4] using h5)
      simpa [RLink.toLink, h2] using this
    · rw [show k.toLink R.nodes.length :: rs = [k.toLink R.nodes.length] ++ rs from rfl, pathText_append, h6]
      simp [pathText, RLink.toLink, h3]

theorem hasFinal_path {u : Option Str} {ws : List Str} (h : HasFinal R ws) :
    ∃ rs, (R.toLattice u).Path 0 rs R.nodes.length ∧ pathText rs = ws := by
  obtain ⟨node, h1, k, h2, rfl, h4, h5⟩ := h
  obtain ⟨rs, h6, h7⟩ := rpath_path (u := u) h1
  have hm : k.toLink R.nodes.length ∈ (R.toLattice u).links := mem_toLattice.mpr ⟨k, h2, rfl⟩
  refine ⟨rs ++ [k.toLink R.nodes.length], ?_, ?_⟩
  · have := Lattice.Path.snoc rs _ h6 hm
    simpa [RLink.toLink, h4] using this
  · rw [pathText_append, h7]; simp [pathText, RLink.toLink, h5]

/-- The scores of a link are those of a part of a path in the original lattice, except that the transitions are
concatenated in reverse order of links. -/
def SameScores (r : Link S) (seg : List (Link S)) : Prop :=
  pathText seg = r.word.toList ∧ r.ac = some (acOf seg) ∧ r.lm = some (lmOf seg) ∧
    r.transitions = (seg.reverse.map Link.transitions).flatten

/-- As `SameScores`, with the language model score if `sc` holds, and the acoustic score and transitions if `sa` holds. -/
def KeepsScores (sc sa : Prop) (r : Link S) (seg : List (Link S)) : Prop :=
  pathText seg = r.word.toList ∧ (sc → r.lm = some (lmOf seg)) ∧
    (sa → r.ac = some (acOf seg) ∧ r.transitions = (seg.reverse.map Link.transitions).flatten)

theorem path_keepsScores (hI : RInv L sc sa F info R) {u : Option Str} {rs : List (Link S)} {v : Nat}
    (h : (R.toLattice u).Path 0 rs v) :
    (∃ b ws segs, info[v]? = some (b, ws) ∧ WordPath L L.initial (pathText rs) segs b ∧ (sc → ws = pathText rs) ∧
      List.Forall₂ (KeepsScores sc sa) rs segs) ∨
    (v = R.nodes.length ∧ ∃ rs' k b ws segs, rs = rs' ++ [k.toLink R.nodes.length] ∧ k ∈ R.links ∧ k.endNode = none ∧
      k.word = none ∧ k.ac = 0 ∧ k.transitions = [] ∧ pathText rs = pathText rs' ∧ F b ws k.lm ∧
      info[k.startNode]? = some (b, ws) ∧ WordPath L L.initial (pathText rs') segs b ∧ (sc → ws = pathText rs') ∧
      List.Forall₂ (KeepsScores sc sa) rs' segs) := by
  induction h with
  | nil => exact Or.inl ⟨L.initial, [], [], hI.root, .nil _, fun _ => rfl, .nil⟩
  | snoc rs l h hl ih =>
    obtain ⟨k, hk, rfl⟩ := mem_toLattice.mp hl
    have hlt := hI.start_lt hk
    rcases ih with ⟨b, ws, segs, h1, h2, h3, h4⟩ | ⟨h1, _⟩
    · have h1' : info[k.startNode]? = some (b, ws) := h1
      cases hke : k.endNode with
      | none =>
        obtain ⟨a, ws', g1, g2, g3, g4, g5⟩ := hI.fin k hk hke
        rw [h1'] at g2
        cases g2
        refine Or.inr ⟨by simp [RLink.toLink, hke], rs, k, b, ws, segs, rfl, hk, hke, g1, g3, g4, ?_, g5, h1', h2, h3, h4⟩
        rw [pathText_append]; simp [pathText, RLink.toLink, g1]
      | some e =>
        obtain ⟨w, seg, a, wsa, c, wsc, g1, g2, g3, g4, g5⟩ := hI.word k hk e hke
        rw [h1'] at g2
        cases g2
        refine Or.inl ⟨c, wsc, segs ++ [seg], by simpa [RLink.toLink, hke] using g3, ?_, fun hsc => ?_, ?_⟩
        · rw [pathText_append, show pathText [k.toLink R.nodes.length] = [w] by simp [pathText, RLink.toLink, g1]]
          exact h2.snoc g4
        · rw [(g5.1 hsc).1, h3 hsc, pathText_append]; simp [pathText, RLink.toLink, g1]
        · refine List.rel_append h4 (.cons ⟨?_, fun hsc => ?_, fun hsa => ⟨?_, ?_⟩⟩ .nil)
          · rw [(wordStep_path g4).2]; simp [RLink.toLink, g1]
          · simp [RLink.toLink, (g5.1 hsc).2]
          · simp [RLink.toLink, (g5.2 hsa).1]
          · simp [RLink.toLink, (g5.2 hsa).2]
    · simp only [RLink.toLink] at h1; omega

theorem path_inv (hI : RInv L sc sc F info R) {u : Option Str} {rs : List (Link S)} {v : Nat}
    (h : (R.toLattice u).Path 0 rs v) :
    (∃ b ws segs, info[v]? = some (b, ws) ∧ WordPath L L.initial (pathText rs) segs b ∧
      (sc → ws = pathText rs ∧ List.Forall₂ SameScores rs segs)) ∨
    (v = R.nodes.length ∧ ∃ rs' k b ws segs, rs = rs' ++ [k.toLink R.nodes.length] ∧ k ∈ R.links ∧ k.endNode = none ∧
      k.word = none ∧ k.ac = 0 ∧ k.transitions = [] ∧ pathText rs = pathText rs' ∧ F b ws k.lm ∧
      info[k.startNode]? = some (b, ws) ∧ WordPath L L.initial (pathText rs') segs b ∧
      (sc → ws = pathText rs' ∧ List.Forall₂ SameScores rs' segs)) := by
  have key : ∀ {rs : List (Link S)} {segs : List (List (Link S))}, List.Forall₂ (KeepsScores sc sc) rs segs → sc →
      List.Forall₂ SameScores rs segs := fun h hsc =>
    h.imp (fun r seg h => ⟨h.1, (h.2.2 hsc).1, h.2.1 hsc, (h.2.2 hsc).2⟩)
  rcases path_keepsScores hI h with ⟨b, ws, segs, h1, h2, h3, h4⟩ |
    ⟨h1, rs', k, b, ws, segs, e1, e2, e3, e4, e5, e6, e7, e8, e9, e10, e11, e12⟩
  · exact Or.inl ⟨b, ws, segs, h1, h2, fun hsc => ⟨h3 hsc, key h4 hsc⟩⟩
  · exact Or.inr ⟨h1, rs', k, b, ws, segs, e1, e2, e3, e4, e5, e6, e7, e8, e9, e10, fun hsc => ⟨e11 hsc, key e12 hsc⟩⟩

theorem build_ok {depth : Nat} {f : Nat → Option Str} {finals : List (Token S St)} {recombs : List (Recomb S St)}
    {R : RLat S} (h : buildRescored L depth f finals recombs = .ok R) : ∃ maps R1,
    wordMaps L depth (List.range L.nodes.length) = .ok maps ∧
    addAll (addFinal L maps depth f) finals ⟨[⟨[], []⟩], []⟩ = .ok R1 ∧
    addAll (addRecomb L maps depth f) recombs.reverse R1 = .ok R := by
  unfold buildRescored at h
  split at h
  · cases h
  · rename_i maps hm
    split at h
    · cases h
    · rename_i R1 h1
      exact ⟨maps, R1, hm, h1, h⟩

theorem addRecombs_inv (hw : L.WF) (hd : Determinized L) (hn : NoNulls L) (hpar : sa → ParallelSame L) {depth : Nat}
    {maps : List (List (Str × Nat))} (hm : wordMaps L depth (List.range L.nodes.length) = .ok maps)
    (f : Nat → Option Str) {F : Nat → List Str → S → Prop} (es : List (Recomb S St)) :
    ∀ {info : List (Nat × List Str)} {R R' : RLat S}, (∀ e ∈ es, RecombFor L f e) → RInv L False sa F info R →
    addAll (addRecomb L maps depth f) es R = .ok R' → ∃ info', RInv L False sa F info' R' := by
  induction es with
  | nil => intro info R R' _ hI h; cases h; exact ⟨info, hI⟩
  | cons e es ih =>
    intro info R R' he hI h
    unfold addAll at h
    split at h
    · cases h
    · rename_i R1 hf
      obtain ⟨info1, h1⟩ := addRecomb_inv hw hd hn hpar hm f (he e (by simp)) hI hf
      exact ih (fun e' he' => he e' (List.mem_cons_of_mem _ he')) h1 h

end
end TheanoLM
