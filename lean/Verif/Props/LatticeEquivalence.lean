import Verif.Props.Decoder
import Verif.Props.ScoreOutput
import Verif.Props.RescoredOutput
/-!
# Decoding equivalent lattices: C123
-/
set_option linter.unusedSectionVars false
namespace TheanoLM

variable {S St : Type} [Field S] [LinearOrder S] {D : Decoder S St} {L L' : Lattice S}

/-! ## Specification -/

/-- The words of a path; when the language model scores of unknown words are taken from the lattice, each word with the score of its link. -/
def labelsOf (D : Decoder S St) (ls : List (Link S)) : List (Str × Option S) :=
  ls.filterMap fun k => k.word.map fun w => (w, if D.unkFromLattice = true then k.lm else none)

/-- Two paths read the same words with the same total acoustic score and the same total language model score.  Neither the number of null
links nor the way how the scores are distributed among the links matters. -/
structure SameReading (D : Decoder S St) (ls ls' : List (Link S)) : Prop where
  labels : labelsOf D ls = labelsOf D ls'
  ac : acOf ls = acOf ls'
  lm : lmOf ls = lmOf ls'

/-- The lattices have the same readings, and the same default values of the decoding options. -/
structure EquivalentLattices (D : Decoder S St) (L L' : Lattice S) : Prop where
  forth : ∀ ls, L.Complete ls → ∃ ls', L'.Complete ls' ∧ SameReading D ls ls'
  back : ∀ ls', L'.Complete ls' → ∃ ls, L.Complete ls ∧ SameReading D ls ls'
  lmScale : L.lmScale = L'.lmScale
  wiPenalty : L.wiPenalty = L'.wiPenalty

/-- `L'` is `L` with nodes renumbered by `f`, nodes and links possibly in another order. -/
structure Renumbered (f : Nat → Nat) (L L' : Lattice S) : Prop where
  inj : ∀ m < L.nodes.length, ∀ n < L.nodes.length, f m = f n → m = n
  initial : L'.initial = f L.initial
  final : ∀ n < L.nodes.length, L'.Final (f n) ↔ L.Final n
  links : ∀ k, k ∈ L'.links ↔ ∃ l ∈ L.links, k = { l with startNode := f l.startNode, endNode := f l.endNode }
  lmScale : L.lmScale = L'.lmScale
  wiPenalty : L.wiPenalty = L'.wiPenalty

/-! ## Lemmas -/

theorem pathText_labels (D : Decoder S St) (ls : List (Link S)) : pathText ls = (labelsOf D ls).map Prod.fst := by
  induction ls with
  | nil => rfl
  | cons k ls ih =>
    unfold pathText labelsOf at *
    cases h : k.word with
    | none => rw [List.filterMap_cons_none h, ih, List.filterMap_cons_none (by rw [h]; rfl)]
    | some w => rw [List.filterMap_cons_some h, ih, List.filterMap_cons_some (by rw [h]; rfl)]; rfl

theorem addedPath_nulls {ls : List (Link S)} {h : List HistWord} {x : S} (hp : AddedPath D ls h x) (ks : List (Link S))
    (hk : labelsOf D ks = []) : AddedPath D (ls ++ ks) h x := by
  induction ks using List.reverseRecOn with
  | nil => rw [List.append_nil]; exact hp
  | append_singleton ks k ih =>
    unfold labelsOf at hk ih
    rw [List.filterMap_append, List.append_eq_nil_iff] at hk
    rw [← List.append_assoc]
    refine .null _ k h x (ih hk.1) ?_
    have := hk.2
    cases hw : k.word with
    | none => rfl
    | some w => simp [hw] at this

theorem addedPath_labels {ls : List (Link S)} {h : List HistWord} {x : S} (hp : AddedPath D ls h x) :
    ∀ ls', labelsOf D ls = labelsOf D ls' → AddedPath D ls' h x := by
  induction hp with
  | nil =>
    intro ls' hl
    exact addedPath_nulls .nil ls' hl.symm
  | null ls k h x hp hw ih =>
    intro ls' hl
    refine ih ls' ?_
    rw [← hl]
    unfold labelsOf
    rw [List.filterMap_append, List.filterMap_cons_none (by rw [hw]; rfl), List.filterMap_nil, List.append_nil]
  | word ls k before prev w text s x y hp hw hh hs hy ih =>
    intro ls' hl
    have hl' : labelsOf D ls' = labelsOf D ls ++ [(text, if D.unkFromLattice = true then k.lm else none)] := by
      rw [← hl]
      unfold labelsOf
      rw [List.filterMap_append, List.filterMap_cons_some (by rw [hw]; rfl), List.filterMap_nil]
    unfold labelsOf at hl'
    obtain ⟨l1, l2, rfl, e1, e2⟩ := List.filterMap_eq_append_iff.mp hl'
    obtain ⟨m1, k', m2, rfl, e3, e4, e5⟩ := List.filterMap_eq_cons_iff.mp e2
    have hm1 : labelsOf D m1 = [] := by
      unfold labelsOf
      rw [List.filterMap_eq_nil_iff]
      exact e3
    obtain ⟨t', hk', e6⟩ := Option.map_eq_some_iff.mp e4
    obtain ⟨rfl, e7⟩ := Prod.mk.inj e6
    have hs' : UnkScore D k' s := by
      refine ⟨fun hu => ?_, hs.2⟩
      simp only [hu, if_true] at e7
      rw [e7]
      exact hs.1 hu
    have h1 := addedPath_nulls (ih l1 e1.symm) m1 hm1
    have h2 := addedPath_nulls (AddedPath.word _ k' before prev w t' s x y h1 hk' hh hs' hy) m2 e5
    simpa [List.append_assoc] using h2

theorem addedComplete_labels {ls ls' : List (Link S)} {z : S} (hz : AddedComplete D ls z) (h : labelsOf D ls = labelsOf D ls') :
    AddedComplete D ls' z := by
  obtain ⟨before, prev, x, y, h1, h2, rfl⟩ := hz
  exact ⟨before, prev, x, y, addedPath_labels h1 ls' h, h2, rfl⟩

/-- Paths with the same reading end in tokens with the same words and scores. -/
theorem runEnd_reading (hl : D.linear = false) (h1 : L.lmScale = L'.lmScale) (h2 : L.wiPenalty = L'.wiPenalty) {ls ls' : List (Link S)}
    (h : SameReading D ls ls') : (runEnd D L ls).history = (runEnd D L' ls').history ∧ (runEnd D L ls).total = (runEnd D L' ls').total := by
  have ht : pathText ls = pathText ls' := by rw [pathText_labels D, pathText_labels D, h.labels]
  constructor
  · obtain ⟨⟨ws, a1, a2⟩, _⟩ := describes_end (D := D) (L := L) ls
    obtain ⟨⟨ws', b1, b2⟩, _⟩ := describes_end (D := D) (L := L') ls'
    rw [← ht] at b2
    have : ws = ws' := forall₂_unique (R := HistIs D.vocab) (fun _ _ _ x y => (histIs_eq x).symm.trans (histIs_eq y)) a2 b2
    rw [a1, b1, this]
  · obtain ⟨z, hz⟩ := addedComplete_exists (D := D) ls
    rw [runEnd_total hl, runEnd_total hl, addedComplete_run (L := L) hz, addedComplete_run (L := L') (addedComplete_labels hz h.labels)]
    unfold pathScore
    rw [h.ac, h.lm, h1, h2, ht]

/-! ## The properties -/

variable [IsStrictOrderedRing S]

/-- **C123** Decoding, without pruning, of two lattices with the same readings gives the same hypotheses with the same scores, and the
scores are in the same order.  (Only hypotheses that have exactly the same score may be in a different order.) -/
theorem C123_equivalent (hw : L.WF) (hw' : L'.WF) (hac : ∀ n : Nat, ¬ L.OnCycle n) (hac' : ∀ n : Nat, ¬ L'.OnCycle n)
    (hin : ∀ n : Nat, n < L.nodes.length → n ≠ L.initial → ∃ a : Nat, L.Edge a n)
    (hin' : ∀ n : Nat, n < L'.nodes.length → n ≠ L'.initial → ∃ a : Nat, L'.Edge a n) (hn : NoPruning D)
    (hpath : ∃ ls, L.Complete ls) (heq : EquivalentLattices D L L') :
    ∃ finals recomb finals' recomb', decode D L = .ok (finals, recomb) ∧ decode D L' = .ok (finals', recomb') ∧ finals ≠ [] ∧
      (finals.map fun t => (t.history, t.total)).Perm (finals'.map fun t => (t.history, t.total)) ∧
      finals.map Token.total = finals'.map Token.total := by
  obtain ⟨ls, n, hls⟩ := hpath
  obtain ⟨ls', ⟨n', hls'⟩, -⟩ := heq.forth ls ⟨n, hls⟩
  obtain ⟨finals, recomb, hd, hrep⟩ := decode_represents hw hac hin hn.unpruned ⟨ls, n, hls⟩
  obtain ⟨finals', recomb', hd', hrep'⟩ := decode_represents hw' hac' hin' hn.unpruned ⟨ls', n', hls'⟩
  refine ⟨finals, recomb, finals', recomb', hd, hd', (C29_sorted finals recomb hd).1, ?_⟩
  have hend := (decode_inv hw (path_keeps D L) hd).1
  have hend' := (decode_inv hw' (path_keeps D L') hd').1
  have nodup : ∀ {M : Lattice S} {fs : List (Token S St)} {rc}, M.WF → decode D M = .ok (fs, rc) → (fs.map Token.history).Nodup := by
    intro M fs rc hwM hdM
    obtain ⟨sorted, st, _, _, _, e, _⟩ := decode_ok hdM
    have hnd := (sortedRecombined_spec st.finals).nodup
    rw [← e] at hnd
    have : fs.map Token.hash = fs.map Token.history := by
      apply List.map_congr_left
      intro t ht
      obtain ⟨ls, n, _, _, rfl⟩ := (decode_inv hwM (path_keeps D M) hdM).1 t ht
      rw [(computed_end (D := D) (L := M) ls).hash, hn.limited]
    rw [← this]
    exact hnd
  have hnd := nodup hw hd
  have hnd' := nodup hw' hd'
  -- every hypothesis has one that is at least as good in the other result
  have forth : ∀ t ∈ finals, ∃ t' ∈ finals', t'.history = t.history ∧ t.total ≤ t'.total := by
    intro t ht
    obtain ⟨ls, n, h1, h2, rfl⟩ := hend t ht
    obtain ⟨ls', ⟨n', g1, g2⟩, hr⟩ := heq.forth ls ⟨n, h1, h2⟩
    obtain ⟨e1, e2⟩ := runEnd_reading hn.linear heq.lmScale heq.wiPenalty hr
    obtain ⟨t', ht', k1, k2⟩ := hrep' ls' n' g1 g2
    exact ⟨t', ht', by rw [hn.same k1, e1], by rw [e2]; exact k2⟩
  have back : ∀ t' ∈ finals', ∃ t ∈ finals, t.history = t'.history ∧ t'.total ≤ t.total := by
    intro t ht
    obtain ⟨ls', n', h1, h2, rfl⟩ := hend' t ht
    obtain ⟨ls, ⟨n, g1, g2⟩, hr⟩ := heq.back ls' ⟨n', h1, h2⟩
    obtain ⟨e1, e2⟩ := runEnd_reading hn.linear heq.lmScale heq.wiPenalty hr
    obtain ⟨t', ht', k1, k2⟩ := hrep ls n g1 g2
    exact ⟨t', ht', by rw [hn.same k1, e1], by rw [← e2]; exact k2⟩
  have uniq : ∀ {fs : List (Token S St)}, (fs.map Token.history).Nodup → ∀ a ∈ fs, ∀ b ∈ fs, a.history = b.history → a = b :=
    fun h a ha b hb e => List.inj_on_of_nodup_map h ha hb e
  have hperm : (finals.map fun t => (t.history, t.total)).Perm (finals'.map fun t => (t.history, t.total)) := by
    have nd : ∀ {fs : List (Token S St)}, (fs.map Token.history).Nodup → (fs.map fun t => (t.history, t.total)).Nodup := by
      intro fs h
      refine List.Nodup.of_map Prod.fst ?_
      rw [List.map_map]
      exact h
    rw [List.perm_ext_iff_of_nodup (nd hnd) (nd hnd')]
    intro a
    constructor
    · intro h
      obtain ⟨t, ht, rfl⟩ := List.mem_map.mp h
      obtain ⟨t', ht', e1, e2⟩ := forth t ht
      obtain ⟨t'', ht'', e3, e4⟩ := back t' ht'
      have := uniq hnd t'' ht'' t ht (e3.trans e1)
      subst this
      exact List.mem_map.mpr ⟨t', ht', by rw [e1, le_antisymm e2 e4]⟩
    · intro h
      obtain ⟨t, ht, rfl⟩ := List.mem_map.mp h
      obtain ⟨t', ht', e1, e2⟩ := back t ht
      obtain ⟨t'', ht'', e3, e4⟩ := forth t' ht'
      have := uniq hnd' t'' ht'' t ht (e3.trans e1)
      subst this
      exact List.mem_map.mpr ⟨t', ht', by rw [e1, le_antisymm e2 e4]⟩
  refine ⟨hperm, ?_⟩
  have hp := hperm.map Prod.snd
  rw [List.map_map, List.map_map] at hp
  have d1 : (finals.map Token.total).Pairwise (fun a b => b ≤ a) := List.pairwise_map.mpr (C29_sorted finals recomb hd).2
  have d2 : (finals'.map Token.total).Pairwise (fun a b => b ≤ a) := List.pairwise_map.mpr (C29_sorted finals' recomb' hd').2
  exact List.Perm.eq_of_pairwise (fun a b _ _ h1 h2 => le_antisymm h2 h1) d1 d2 hp

/-- **C123** The best hypothesis is the same, if it is better than the others. -/
theorem C123_best (hw : L.WF) (hw' : L'.WF) (hac : ∀ n : Nat, ¬ L.OnCycle n) (hac' : ∀ n : Nat, ¬ L'.OnCycle n)
    (hin : ∀ n : Nat, n < L.nodes.length → n ≠ L.initial → ∃ a : Nat, L.Edge a n)
    (hin' : ∀ n : Nat, n < L'.nodes.length → n ≠ L'.initial → ∃ a : Nat, L'.Edge a n) (hn : NoPruning D)
    (hpath : ∃ ls, L.Complete ls) (heq : EquivalentLattices D L L') :
    ∃ best rest recomb best' rest' recomb', decode D L = .ok (best :: rest, recomb) ∧ decode D L' = .ok (best' :: rest', recomb') ∧
      best'.total = best.total ∧ ((∀ t ∈ rest, t.total < best.total) → best'.history = best.history) := by
  obtain ⟨finals, recomb, finals', recomb', h1, h2, h3, h4, h5⟩ := C123_equivalent hw hw' hac hac' hin hin' hn hpath heq
  cases finals with
  | nil => exact absurd rfl h3
  | cons best rest =>
    cases finals' with
    | nil => simp at h5
    | cons best' rest' =>
      simp only [List.map_cons, List.cons.injEq] at h5
      refine ⟨best, rest, recomb, best', rest', recomb', h1, h2, h5.1.symm, fun hlt => ?_⟩
      have : (best'.history, best'.total) ∈ (best :: rest).map fun t => (t.history, t.total) := h4.mem_iff.mpr (by simp)
      obtain ⟨t, ht, e⟩ := List.mem_map.mp this
      obtain ⟨e1, e2⟩ := Prod.mk.inj e
      rcases List.mem_cons.mp ht with rfl | ht
      · exact e1.symm
      · exact absurd (hlt t ht) (by rw [e2, h5.1]; exact lt_irrefl _)

/-- **C123** In particular the numbers of the nodes and the order of nodes and links do not matter. -/
theorem C123_renumbered {f : Nat → Nat} (D : Decoder S St) (hw : L.WF) (h : Renumbered f L L') : EquivalentLattices D L L' := by
  have hread : ∀ ls : List (Link S), SameReading D ls (ls.map fun l => { l with startNode := f l.startNode, endNode := f l.endNode }) := by
    intro ls
    refine ⟨?_, ?_, ?_⟩
    · unfold labelsOf
      rw [List.filterMap_map]
      rfl
    · unfold acOf
      rw [List.map_map]
      rfl
    · unfold lmOf
      rw [List.map_map]
      rfl
  have hlt : ∀ {ls : List (Link S)} {n : Nat}, L.Path L.initial ls n → n < L.nodes.length := by
    intro ls n hp
    cases hp with
    | nil => exact hw.initial
    | snoc ls k _ hk => exact (hw.ends k hk).2
  refine ⟨?_, ?_, h.lmScale, h.wiPenalty⟩
  · rintro ls ⟨n, hp, hf⟩
    refine ⟨_, ⟨f n, ?_, (h.final n (hlt hp)).mpr hf⟩, hread ls⟩
    clear hf
    induction hp with
    | nil => rw [h.initial]; exact .nil
    | snoc ls k _ hk ih =>
      rw [List.map_append]
      exact .snoc _ { k with startNode := f k.startNode, endNode := f k.endNode } ih ((h.links _).mpr ⟨k, hk, rfl⟩)
  · rintro ls' ⟨n', hp, hf⟩
    have key : ∃ ls n, L.Path L.initial ls n ∧ n' = f n ∧
        ls' = ls.map fun l => { l with startNode := f l.startNode, endNode := f l.endNode } := by
      clear hf
      induction hp with
      | nil => exact ⟨[], L.initial, .nil, h.initial, rfl⟩
      | snoc ls' k _ hk ih =>
        obtain ⟨ls, n, g1, g2, rfl⟩ := ih
        obtain ⟨l, hl, rfl⟩ := (h.links k).mp hk
        have hs := h.inj _ (hlt g1) _ (hw.ends l hl).1 g2.symm
        subst hs
        exact ⟨ls ++ [l], l.endNode, .snoc ls l g1 hl, rfl, by rw [List.map_append]; rfl⟩
    obtain ⟨ls, n, g1, rfl, rfl⟩ := key
    exact ⟨ls, ⟨n, g1, (h.final n (hlt g1)).mp hf⟩, hread ls⟩

/-! ## Examples -/

/-- The lattice `exDecLattice` with the two middle nodes exchanged and the links in another order. -/
def exRenumbered : Lattice ℚ := exWordLattice 4
  [(1, 3, none, -1, 0), (2, 1, some "a".toList, -1, -1), (0, 2, some "c".toList, -1, -1), (2, 1, some "b".toList, -4, -1),
   (0, 2, some "a".toList, -2, -3)]

theorem exRenumbered_renumbered : Renumbered (fun n => [0, 2, 1, 3].getD n 0) exDecLattice exRenumbered := by
  refine ⟨by decide +kernel, rfl, ?_, fun k => ⟨fun h => ?_, fun h => ?_⟩, rfl, rfl⟩
  · have key : ∀ n < exDecLattice.nodes.length, (exRenumbered.nodes[[0, 2, 1, 3].getD n 0]?.map Node.final = some true ↔
        exDecLattice.nodes[n]?.map Node.final = some true) := by decide +kernel
    intro n hn
    have := key n hn
    rw [Option.map_eq_some_iff, Option.map_eq_some_iff] at this
    exact this
  · revert k
    decide +kernel
  · have key : ∀ l ∈ exDecLattice.links, ({ l with startNode := [0, 2, 1, 3].getD l.startNode 0, endNode := [0, 2, 1, 3].getD l.endNode 0 } :
        Link ℚ) ∈ exRenumbered.links := by decide +kernel
    obtain ⟨l, hl, rfl⟩ := h
    exact key l hl

theorem exRenumbered_acyclic : ∀ n : Nat, ¬ exRenumbered.OnCycle n := by
  have hlt : ∀ a b : Nat, exRenumbered.Edge a b → [0, 2, 1, 3].getD a 0 < [0, 2, 1, 3].getD b 0 := by
    rintro a b ⟨k, hk, rfl, rfl⟩
    revert k
    decide +kernel
  have htr : ∀ a b : Nat, Relation.TransGen exRenumbered.Edge a b → [0, 2, 1, 3].getD a 0 < [0, 2, 1, 3].getD b 0 := by
    intro a b h
    induction h with
    | single h => exact hlt _ _ h
    | tail _ h ih => exact lt_trans ih (hlt _ _ h)
  exact fun n h => lt_irrefl _ (htr n n h)

/-- A case that meets the hypotheses of C123: the four hypotheses are the same. -/
example : EquivalentLattices exDecoder exDecLattice exRenumbered ∧ exRenumbered.WF ∧
    ∃ finals recomb finals' recomb', decode exDecoder exDecLattice = .ok (finals, recomb) ∧
      decode exDecoder exRenumbered = .ok (finals', recomb') ∧ finals ≠ [] ∧
      (finals.map fun t => (t.history, t.total)).Perm (finals'.map fun t => (t.history, t.total)) ∧
      finals.map Token.total = finals'.map Token.total := by
  have hin : ∀ n < exDecLattice.nodes.length, n ≠ exDecLattice.initial → ∃ k ∈ exDecLattice.links, k.endNode = n := by decide +kernel
  have hin' : ∀ n < exRenumbered.nodes.length, n ≠ exRenumbered.initial → ∃ k ∈ exRenumbered.links, k.endNode = n := by decide +kernel
  have hw : exRenumbered.WF := wf_of_check _ (by decide +kernel)
  have heq := C123_renumbered exDecoder exDecLattice_wf exRenumbered_renumbered
  refine ⟨heq, hw, C123_equivalent exDecLattice_wf hw exDec_acyclic exRenumbered_acyclic
    (fun n hn h0 => by obtain ⟨k, h1, h2⟩ := hin n hn h0; exact ⟨k.startNode, k, h1, rfl, h2⟩)
    (fun n hn h0 => by obtain ⟨k, h1, h2⟩ := hin' n hn h0; exact ⟨k.startNode, k, h1, rfl, h2⟩) noPruning_ex ?_ heq⟩
  exact ⟨[⟨0, 1, some "a".toList, some (-2), some (-3), []⟩] ++ [⟨1, 2, some "b".toList, some (-4), some (-1), []⟩] ++
        [⟨2, 3, none, some (-1), some 0, []⟩], 3,
      .snoc _ ⟨2, 3, none, some (-1), some 0, []⟩ (.snoc _ ⟨1, 2, some "b".toList, some (-4), some (-1), []⟩
        (.snoc [] ⟨0, 1, some "a".toList, some (-2), some (-3), []⟩ .nil (by decide +kernel)) (by decide +kernel))
        (by decide +kernel),
      ⟨_, (by decide +kernel : exDecLattice.nodes[3]? = some (exDecLattice.nodes.getD 3 Node.new)), by decide +kernel⟩⟩

end TheanoLM
