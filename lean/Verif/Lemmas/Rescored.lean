import Verif.Props.RescoredSpec
import Mathlib.Tactic.Ring
import Mathlib.Data.List.Induction
/-!
# Lemmas about rescored lattices: following words in the original lattice
-/
namespace TheanoLM

variable {S St : Type} {L : Lattice S}

set_option linter.unusedSectionVars false

/-! ## Paths -/

theorem path_append {a b c : Nat} {ls ls' : List (Link S)} (h : L.Path a ls b) (h' : L.Path b ls' c) :
    L.Path a (ls ++ ls') c := by
  induction h' with
  | nil => simpa using h
  | snoc ls' k _ hk ih => rw [← List.append_assoc]; exact .snoc _ k ih hk

theorem path_single {k : Link S} (hk : k ∈ L.links) : L.Path k.startNode [k] k.endNode :=
  .snoc [] k .nil hk

theorem path_cons {k : Link S} {ls : List (Link S)} {b : Nat} (hk : k ∈ L.links) (h : L.Path k.endNode ls b) :
    L.Path k.startNode (k :: ls) b := path_append (path_single hk) h

theorem path_nil_inv {a b : Nat} (h : L.Path a [] b) : b = a := by
  generalize hl : ([] : List (Link S)) = l at h
  cases h with
  | nil => rfl
  | snoc ls k => simp at hl

theorem path_snoc_inv {a b : Nat} {ls : List (Link S)} {k : Link S} (h : L.Path a (ls ++ [k]) b) :
    L.Path a ls k.startNode ∧ k ∈ L.links ∧ b = k.endNode := by
  generalize hl : ls ++ [k] = l at h
  cases h with
  | nil => simp at hl
  | snoc ls' k' h hk =>
    obtain ⟨rfl, e⟩ := List.append_inj' hl rfl
    simp only [List.cons.injEq, and_true] at e
    subst e
    exact ⟨h, hk, rfl⟩

theorem path_append_inv {a c : Nat} {ls ls' : List (Link S)} (h : L.Path a (ls ++ ls') c) :
    ∃ b, L.Path a ls b ∧ L.Path b ls' c := by
  induction ls' using List.reverseRecOn generalizing c with
  | nil => exact ⟨c, by simpa using h, .nil⟩
  | append_singleton ls' k ih =>
    rw [← List.append_assoc] at h
    obtain ⟨h1, h2, rfl⟩ := path_snoc_inv h
    obtain ⟨b, h3, h4⟩ := ih h1
    exact ⟨b, h3, .snoc _ k h4 h2⟩

theorem path_cons_inv {a b : Nat} {k : Link S} {ls : List (Link S)} (h : L.Path a (k :: ls) b) :
    k ∈ L.links ∧ k.startNode = a ∧ L.Path k.endNode ls b := by
  obtain ⟨c, h1, h2⟩ := path_append_inv (ls := [k]) h
  obtain ⟨h3, h4, rfl⟩ := path_snoc_inv (ls := []) h1
  exact ⟨h4, path_nil_inv h3, h2⟩

theorem wordStep_cons_null {k : Link S} (hk : k ∈ L.links) (hn : k.word = none) {w : Str} {seg : List (Link S)} {b : Nat}
    (h : WordStep L k.endNode w seg b) : WordStep L k.startNode w (k :: seg) b := by
  obtain ⟨ns, k', rfl, h1, h2, h3⟩ := h
  refine ⟨k :: ns, k', rfl, ?_, h2, path_cons hk h3⟩
  intro x hx
  rcases List.mem_cons.mp hx with rfl | hx
  · exact hn
  · exact h1 x hx

theorem wordStep_single {k : Link S} (hk : k ∈ L.links) {w : Str} (hw : k.word = some w) :
    WordStep L k.startNode w [k] k.endNode := ⟨[], k, rfl, by simp, hw, path_single hk⟩

theorem wordStep_inv {a b : Nat} {w : Str} {seg : List (Link S)} (h : WordStep L a w seg b) :
    ∃ k ∈ L.links, k.startNode = a ∧ ((k.word = some w ∧ seg = [k] ∧ b = k.endNode) ∨
      (k.word = none ∧ ∃ seg', seg = k :: seg' ∧ WordStep L k.endNode w seg' b)) := by
  obtain ⟨ns, k, rfl, h1, h2, h3⟩ := h
  cases ns with
  | nil =>
    obtain ⟨h4, h5, h6⟩ := path_cons_inv h3
    exact ⟨k, h4, h5, Or.inl ⟨h2, rfl, path_nil_inv h6⟩⟩
  | cons x ns =>
    obtain ⟨h4, h5, h6⟩ := path_cons_inv h3
    exact ⟨x, h4, h5, Or.inr ⟨h1 x (by simp), ns ++ [k], rfl, ns, k, rfl, fun y hy => h1 y (List.mem_cons_of_mem _ hy),
      h2, h6⟩⟩

/-! ## Word maps -/

theorem concatE_ok {α : Type} (l : List (Except Err (List α))) : ∀ {r : List α}, concatE l = .ok r →
    (∀ x ∈ l, ∃ y, x = .ok y) ∧ ∀ a, a ∈ r ↔ ∃ y, .ok y ∈ l ∧ a ∈ y := by
  induction l with
  | nil => intro r h; cases h; simp
  | cons x l ih =>
    intro r h
    cases x with
    | error e => cases h
    | ok x =>
      unfold concatE at h
      cases hc : concatE l with
      | error e => rw [hc] at h; cases h
      | ok y =>
        rw [hc] at h
        cases h
        obtain ⟨h1, h2⟩ := ih hc
        refine ⟨?_, ?_⟩
        · intro z hz
          rcases List.mem_cons.mp hz with rfl | hz
          · exact ⟨x, rfl⟩
          · exact h1 z hz
        · intro a
          rw [List.mem_append, h2]
          constructor
          · rintro (h | ⟨y, h3, h4⟩)
            · exact ⟨x, by simp, h⟩
            · exact ⟨y, List.mem_cons_of_mem _ h3, h4⟩
          · rintro ⟨z, h3, h4⟩
            rcases List.mem_cons.mp h3 with h3 | h3
            · cases h3; exact Or.inl h4
            · exact Or.inr ⟨z, h3, h4⟩

/-- The outgoing links of a node of a well-formed lattice. -/
theorem outLinks_iff (hw : L.WF) {n l : Nat} :
    l ∈ L.outLinks n ↔ ∃ k, L.links[l]? = some k ∧ k.startNode = n := by
  unfold Lattice.outLinks
  rw [List.getD_eq_getElem?_getD]
  cases hn : L.nodes[n]? with
  | some nd => rw [Option.getD_some]; exact hw.out_iff n nd hn l
  | none =>
    constructor
    · intro h; cases h
    · rintro ⟨k, hk, rfl⟩
      have := (hw.ends k (List.mem_of_getElem? hk)).1
      rw [List.getElem?_eq_none_iff] at hn
      omega

/-- `nextWords` lists the words that follow when a link is taken. -/
theorem nextWords_spec (hw : L.WF) : ∀ (depth l : Nat) (ws : List Str) (k : Link S), nextWords L depth l = .ok ws →
    L.links[l]? = some k → ∀ w, w ∈ ws ↔ (k.word = some w ∨ (k.word = none ∧ ∃ seg b, WordStep L k.endNode w seg b)) := by
  intro depth
  induction depth with
  | zero => intro l ws k h; cases h
  | succ depth ih =>
    intro l ws k h hk w
    unfold nextWords at h
    rw [hk] at h
    simp only at h
    cases hkw : k.word with
    | some w' =>
      rw [hkw] at h
      cases h
      simp [eq_comm]
    | none =>
      rw [hkw] at h
      simp only at h
      obtain ⟨h1, h2⟩ := concatE_ok _ h
      rw [h2]
      constructor
      · rintro ⟨y, hy, hwy⟩
        obtain ⟨l', hl', he⟩ := List.mem_map.mp hy
        obtain ⟨k', hk', hs⟩ := (outLinks_iff hw).mp hl'
        refine Or.inr ⟨rfl, ?_⟩
        rw [← hs]
        rcases (ih l' y k' he hk' w).mp hwy with h3 | ⟨h3, seg, b, h4⟩
        · exact ⟨_, _, wordStep_single (List.mem_of_getElem? hk') h3⟩
        · exact ⟨_, _, wordStep_cons_null (List.mem_of_getElem? hk') h3 h4⟩
      · rintro (h3 | ⟨_, seg, b, h3⟩)
        · cases h3
        · obtain ⟨k', hk', hs, hcase⟩ := wordStep_inv h3
          obtain ⟨l', hl'⟩ := List.mem_iff_getElem?.mp hk'
          have hm : l' ∈ L.outLinks k.endNode := (outLinks_iff hw).mpr ⟨k', hl', hs⟩
          obtain ⟨y, hy⟩ := h1 _ (List.mem_map.mpr ⟨l', hm, rfl⟩)
          refine ⟨y, List.mem_map.mpr ⟨l', hm, hy⟩, (ih l' y k' hy hl' w).mpr ?_⟩
          rcases hcase with ⟨h4, _⟩ | ⟨h4, seg', _, h5⟩
          · exact Or.inl h4
          · exact Or.inr ⟨h4, seg', b, h5⟩

theorem wordMaps_getD (depth : Nat) (ns : List Nat) : ∀ {maps}, wordMaps L depth ns = .ok maps →
    ∀ (i n : Nat), ns[i]? = some n → ∃ m, maps[i]? = some m ∧ wordMap L depth n = .ok m := by
  induction ns with
  | nil => intro maps _ i n h; simp at h
  | cons a ns ih =>
    intro maps h i n hn
    unfold wordMaps at h
    cases hm : wordMap L depth a with
    | error e => rw [hm] at h; cases h
    | ok m =>
      rw [hm] at h
      simp only at h
      cases hms : wordMaps L depth ns with
      | error e => rw [hms] at h; cases h
      | ok ms =>
        rw [hms] at h
        cases h
        cases i with
        | zero => simp only [List.getElem?_cons_zero] at hn; cases hn; exact ⟨m, rfl, hm⟩
        | succ i => simpa using ih hms i n (by simpa using hn)

theorem mapGet_some {m : List (Str × Nat)} {w : Str} {l : Nat} (h : mapGet m w = some l) : (w, l) ∈ m := by
  unfold mapGet at h
  obtain ⟨p, hp, rfl⟩ := Option.map_eq_some_iff.mp h
  have h1 := List.mem_of_find?_eq_some hp
  have h2 := List.find?_some hp
  simp only [decide_eq_true_eq] at h2
  rw [← h2]
  simpa using h1

theorem mapGet_none {m : List (Str × Nat)} {w : Str} (h : mapGet m w = none) : ∀ l, (w, l) ∉ m := by
  unfold mapGet at h
  rw [Option.map_eq_none_iff, List.find?_eq_none] at h
  intro l hl
  exact h (w, l) (by simpa using hl) (by simp)

/-- The word map of a node. -/
theorem maps_spec (hw : L.WF) {depth : Nat} {maps : List (List (Str × Nat))}
    (hm : wordMaps L depth (List.range L.nodes.length) = .ok maps) {n : Nat} (hn : n < L.nodes.length) (w : Str) :
    (∀ l, mapGet (maps.getD n []) w = some l → ∃ k, L.links[l]? = some k ∧ k.startNode = n ∧
      (k.word = some w ∨ (k.word = none ∧ ∃ seg b, WordStep L k.endNode w seg b))) ∧
    (mapGet (maps.getD n []) w = none → ∀ seg b, ¬ WordStep L n w seg b) := by
  obtain ⟨m, hmm, hwm⟩ := wordMaps_getD depth _ hm n n (by rw [List.getElem?_range hn])
  rw [List.getD_eq_getElem?_getD, hmm, Option.getD_some]
  unfold wordMap at hwm
  obtain ⟨h1, h2⟩ := concatE_ok _ hwm
  constructor
  · intro l hl
    obtain ⟨y, hy, hwy⟩ := (h2 _).mp (mapGet_some hl)
    obtain ⟨l', hl', he⟩ := List.mem_map.mp hy
    cases hnw : nextWords L depth l' with
    | error e => rw [hnw] at he; cases he
    | ok ws =>
      rw [hnw] at he
      cases he
      obtain ⟨w', hw', e⟩ := List.mem_map.mp hwy
      cases e
      obtain ⟨k, hk, hs⟩ := (outLinks_iff hw).mp hl'
      exact ⟨k, hk, hs, (nextWords_spec hw depth _ ws k hnw hk _).mp hw'⟩
  · intro hnone seg b hstep
    obtain ⟨k, hk, hs, hcase⟩ := wordStep_inv hstep
    obtain ⟨l, hl⟩ := List.mem_iff_getElem?.mp hk
    have hlo : l ∈ L.outLinks n := (outLinks_iff hw).mpr ⟨k, hl, hs⟩
    obtain ⟨y, hy⟩ := h1 _ (List.mem_map.mpr ⟨l, hlo, rfl⟩)
    cases hnw : nextWords L depth l with
    | error e => rw [hnw] at hy; cases hy
    | ok ws =>
      have hin : w ∈ ws := by
        rw [nextWords_spec hw depth l ws k hnw hl w]
        rcases hcase with ⟨h4, _⟩ | ⟨h4, seg', _, h5⟩
        · exact Or.inl h4
        · exact Or.inr ⟨h4, seg', b, h5⟩
      refine mapGet_none hnone l ((h2 _).mpr ⟨ws.map (fun w => (w, l)), ?_, List.mem_map.mpr ⟨w, hin, rfl⟩⟩)
      exact List.mem_map.mpr ⟨l, hlo, by rw [hnw]⟩

section
variable [Field S] [LinearOrder S]

/-- Following a word in the original lattice. -/
theorem followWord_spec (hw : L.WF) {depth : Nat} {maps : List (List (Str × Nat))}
    (hm : wordMaps L depth (List.range L.nodes.length) = .ok maps) (w : Str) : ∀ (d n : Nat) (r : Option (Followed S)),
    n < L.nodes.length → followWord L maps w d n = .ok r →
    (r = none → ∀ seg b, ¬ WordStep L n w seg b) ∧
    (∀ x, r = some x → x.endNode < L.nodes.length ∧ ∃ seg, WordStep L n w seg x.endNode ∧ x.ac = acOf seg ∧
      x.lm = lmOf seg ∧ x.transitions = (seg.reverse.map Link.transitions).flatten) := by
  intro d
  induction d with
  | zero => intro n r _ h; cases h
  | succ d ih =>
    intro n r hn h
    obtain ⟨hs, hnone⟩ := maps_spec hw hm hn w
    unfold followWord at h
    cases hg : mapGet (maps.getD n []) w with
    | none =>
      rw [hg] at h
      cases h
      exact ⟨fun _ => hnone hg, fun x hx => by cases hx⟩
    | some l =>
      rw [hg] at h
      simp only at h
      obtain ⟨k, hk, hst, hcase⟩ := hs l hg
      have hkm := List.mem_of_getElem? hk
      have hke := (hw.ends k hkm).2
      rw [hk] at h
      simp only at h
      rcases hcase with hkw | ⟨hkw, seg0, b0, hstep⟩
      · rw [hkw] at h
        cases h
        refine ⟨(fun h => by cases h), fun x hx => ?_⟩
        cases hx
        refine ⟨hke, [k], ?_, ?_, ?_, ?_⟩
        · rw [← hst]; exact wordStep_single hkm hkw
        · simp [acOf]
        · simp [lmOf]
        · simp
      · rw [hkw] at h
        simp only at h
        cases hf : followWord L maps w d k.endNode with
        | error e => rw [hf] at h; cases h
        | ok r' =>
          obtain ⟨h1, h2⟩ := ih k.endNode r' hke hf
          rw [hf] at h
          cases r' with
          | none => exact absurd hstep (h1 rfl seg0 b0)
          | some x' =>
            cases h
            refine ⟨(fun h => by cases h), fun x hx => ?_⟩
            cases hx
            obtain ⟨h3, seg, h4, h5, h6, h7⟩ := h2 x' rfl
            refine ⟨h3, k :: seg, ?_, ?_, ?_, ?_⟩
            · rw [← hst]; exact wordStep_cons_null hkm hkw h4
            · simp only [acOf, List.map_cons, List.sum_cons] at *; rw [h5]; ring
            · simp only [lmOf, List.map_cons, List.sum_cons] at *; rw [h6]; ring
            · simp only [h7, List.reverse_cons, List.map_append, List.flatten_append]
              simp

end
end TheanoLM
