import Verif.Lemmas.RescoredPaths
/-!
# Lemmas about rescored lattices: the construction succeeds
-/
namespace TheanoLM

variable {S St : Type} {L : Lattice S}

set_option linter.unusedSectionVars false

theorem concatE_total {α : Type} (l : List (Except Err (List α))) (h : ∀ x ∈ l, ∃ y, x = .ok y) :
    ∃ r, concatE l = .ok r := by
  induction l with
  | nil => exact ⟨[], rfl⟩
  | cons x l ih =>
    obtain ⟨y, rfl⟩ := h x (by simp)
    obtain ⟨r, hr⟩ := ih (fun x hx => h x (List.mem_cons_of_mem _ hx))
    exact ⟨y ++ r, by simp [concatE, hr]⟩

theorem nextWords_total (hw : L.WF) (r : Nat → Nat) (hr : ∀ k ∈ L.links, k.word = none → r k.endNode < r k.startNode) :
    ∀ (d l : Nat) (k : Link S), L.links[l]? = some k → r k.startNode < d → ∃ ws, nextWords L d l = .ok ws := by
  intro d
  induction d with
  | zero => intro l k _ h; omega
  | succ d ih =>
    intro l k hk hd
    unfold nextWords
    rw [hk]
    simp only
    cases hkw : k.word with
    | some w => exact ⟨_, rfl⟩
    | none =>
      simp only
      apply concatE_total
      intro x hx
      obtain ⟨l', hl', rfl⟩ := List.mem_map.mp hx
      obtain ⟨k', hk', hs⟩ := (outLinks_iff hw).mp hl'
      have := hr k (List.mem_of_getElem? hk) hkw
      exact ih l' k' hk' (by rw [hs]; omega)

theorem wordMaps_total (hw : L.WF) (r : Nat → Nat) (hr : ∀ k ∈ L.links, k.word = none → r k.endNode < r k.startNode)
    (d : Nat) (hd : ∀ n, r n < d) (ns : List Nat) : ∃ maps, wordMaps L d ns = .ok maps := by
  induction ns with
  | nil => exact ⟨[], rfl⟩
  | cons n ns ih =>
    obtain ⟨ms, hms⟩ := ih
    have : ∃ m, wordMap L d n = .ok m := by
      unfold wordMap
      apply concatE_total
      intro x hx
      obtain ⟨l, hl, rfl⟩ := List.mem_map.mp hx
      obtain ⟨k, hk, hs⟩ := (outLinks_iff hw).mp hl
      obtain ⟨ws, h⟩ := nextWords_total hw r hr d l k hk (hd _)
      rw [h]
      exact ⟨_, rfl⟩
    obtain ⟨m, hm⟩ := this
    exact ⟨m :: ms, by simp [wordMaps, hm, hms]⟩

section
variable [Field S] [LinearOrder S]

theorem followWord_total (hw : L.WF) (r : Nat → Nat) (hr : ∀ k ∈ L.links, k.word = none → r k.endNode < r k.startNode)
    {depth : Nat} {maps : List (List (Str × Nat))}
    (hm : wordMaps L depth (List.range L.nodes.length) = .ok maps) (w : Str) : ∀ (d n : Nat), n < L.nodes.length →
    r n < d → ∃ x, followWord L maps w d n = .ok x := by
  intro d
  induction d with
  | zero => intro n _ h; omega
  | succ d ih =>
    intro n hn hd
    unfold followWord
    cases hg : mapGet (maps.getD n []) w with
    | none => exact ⟨_, rfl⟩
    | some l =>
      obtain ⟨k, hk, hs, hc⟩ := (maps_spec hw hm hn w).1 l hg
      simp only [hk]
      cases hkw : k.word with
      | some w' => exact ⟨_, rfl⟩
      | none =>
        have hkm := List.mem_of_getElem? hk
        have := hr k hkm hkw
        obtain ⟨x, hx⟩ := ih k.endNode (hw.ends k hkm).2 (by rw [hs] at this; omega)
        rw [hx]
        cases x with
        | none => exact ⟨_, rfl⟩
        | some x => exact ⟨_, rfl⟩

/-- The maps of the new lattice point to links that do not end in the final node. -/
def MapsValid (R : RLat S) : Prop := ∀ nd ∈ R.nodes, ∀ p ∈ nd.wordToLink, ∃ (k : RLink S) (e : Nat),
  R.links[p.2]? = some k ∧ k.endNode = some e

theorem MapsValid.addLink {R : RLat S} (h : MapsValid R) (k : RLink S) (hk : k.word = none ∨ ∃ e, k.endNode = some e) :
    MapsValid (R.addLink k) := by
  intro nd hnd p hp
  obtain ⟨u, hu⟩ := List.mem_iff_getElem?.mp hnd
  simp only [RLat.addLink] at hu ⊢
  rw [modify_getElem?] at hu
  have hold : ∀ nd' ∈ R.nodes, p ∈ nd'.wordToLink → ∃ (k' : RLink S) (e : Nat), (R.links ++ [k])[p.2]? = some k' ∧
      k'.endNode = some e := by
    intro nd' h1 h2
    obtain ⟨k', e, h3, h4⟩ := h nd' h1 p h2
    exact ⟨k', e, getElem?_append_of_some h3, h4⟩
  split at hu
  · obtain ⟨nd', hnd', rfl⟩ := Option.map_eq_some_iff.mp hu
    have hm := List.mem_of_getElem? hnd'
    cases hw : k.word with
    | none => rw [hw] at hp; exact hold nd' hm hp
    | some w =>
      rw [hw] at hp
      simp only [List.mem_append, List.mem_singleton] at hp
      rcases hp with hp | rfl
      · exact hold nd' hm hp
      · rcases hk with hk | ⟨e, he⟩
        · rw [hw] at hk; cases hk
        · exact ⟨k, e, by simp, he⟩
  · exact hold nd (List.mem_of_getElem? hu) hp

theorem MapsValid.addNode {R : RLat S} (h : MapsValid R) : MapsValid { R with nodes := R.nodes ++ [⟨[], []⟩] } := by
  intro nd hnd p hp
  rcases List.mem_append.mp hnd with h1 | h1
  · exact h nd h1 p hp
  · simp only [List.mem_singleton] at h1; subst h1; cases hp

theorem MapsValid.get {R : RLat S} (h : MapsValid R) {u : Nat} {w : Str} {l : Nat}
    (hg : mapGet (R.nodes.getD u ⟨[], []⟩).wordToLink w = some l) : ∃ (k : RLink S) (e : Nat),
    R.links[l]? = some k ∧ k.endNode = some e := by
  have hm := mapGet_some hg
  rw [List.getD_eq_getElem?_getD] at hm
  cases hnd : R.nodes[u]? with
  | none => rw [hnd] at hm; cases hm
  | some nd => rw [hnd, Option.getD_some] at hm; exact h nd (List.mem_of_getElem? hnd) _ hm

section
variable (hw : L.WF) (r : Nat → Nat) (hr : ∀ k ∈ L.links, k.word = none → r k.endNode < r k.startNode)
    {depth : Nat} (hd : ∀ n, r n < depth) {maps : List (List (Str × Nat))}
    (hm : wordMaps L depth (List.range L.nodes.length) = .ok maps)
include hw hr hd hm

theorem followWords_total (create : Bool) (ws : List Str) : ∀ (R : RLat S) (node orig : Nat), MapsValid R →
    orig < L.nodes.length →
    (create = false ∧ followWords L maps depth create ws R node orig = .error .nodeNotFound) ∨
    ∃ R' node', followWords L maps depth create ws R node orig = .ok (R', node') ∧ MapsValid R' := by
  induction ws with
  | nil => intro R node orig hv _; exact Or.inr ⟨R, node, rfl, hv⟩
  | cons w ws ih =>
    intro R node orig hv ho
    unfold followWords
    obtain ⟨x, hx⟩ := followWord_total hw r hr hm w depth orig ho (hd _)
    have hs := (followWord_spec hw hm w depth orig x ho hx).2
    rw [hx]
    cases x with
    | none => exact ih R node orig hv ho
    | some x =>
      obtain ⟨he, _⟩ := hs x rfl
      simp only
      cases hg : mapGet (R.nodes.getD node ⟨[], []⟩).wordToLink w with
      | some l =>
        obtain ⟨k, e, hk, hke⟩ := hv.get hg
        simp only [hk, hke]
        exact ih R e _ hv he
      | none =>
        simp only
        cases create with
        | false => exact Or.inl ⟨rfl, rfl⟩
        | true => exact ih _ _ _ (hv.addNode.addLink _ (Or.inr ⟨_, rfl⟩)) he

theorem addFinals_total (f : Nat → Option Str) (ts : List (Token S St)) : ∀ R : RLat S, MapsValid R →
    (∀ t ∈ ts, ∃ ws, historyWords f t.history.tail = .ok ws) →
    ∃ R', addAll (addFinal L maps depth f) ts R = .ok R' ∧ MapsValid R' := by
  induction ts with
  | nil => intro R hv _; exact ⟨R, rfl, hv⟩
  | cons t ts ih =>
    intro R hv h
    obtain ⟨ws, hws⟩ := h t (by simp)
    rcases followWords_total hw r hr hd hm true ws R 0 L.initial hv hw.initial with ⟨h1, _⟩ | ⟨R1, node, h1, h2⟩
    · cases h1
    · have h3 : ∃ R2, addFinal L maps depth f R t = .ok R2 ∧ MapsValid R2 := by
        unfold addFinal followIds
        rw [hws]
        simp only [h1]
        split
        · exact ⟨R1, rfl, h2⟩
        · exact ⟨_, rfl, h2.addLink _ (Or.inl rfl)⟩
      obtain ⟨R2, h4, h5⟩ := h3
      unfold addAll
      rw [h4]
      exact ih R2 h5 (fun t ht => h t (List.mem_cons_of_mem _ ht))

theorem addRecombs_total (f : Nat → Option Str) (es : List (Recomb S St)) : ∀ R : RLat S, MapsValid R →
    (∀ e ∈ es, ∃ (a : HistWord) (x : Str), e.1.history.getLast? = some a ∧ e.2.1.getLast? = some a ∧
      historyWords f [a] = .ok [x] ∧ (∃ ws, historyWords f e.1.history.dropLast.tail = .ok ws) ∧
      ∃ ws, historyWords f e.2.1.dropLast.tail = .ok ws) →
    ∃ R', addAll (addRecomb L maps depth f) es R = .ok R' := by
  induction es with
  | nil => intro R hv _; exact ⟨R, rfl⟩
  | cons e es ih =>
    intro R hv h
    obtain ⟨a, x, g1, g2, g3, ⟨ws, g4⟩, ⟨ws', g5⟩⟩ := h e (by simp)
    have h3 : ∃ R2, addRecomb L maps depth f R e = .ok R2 ∧ MapsValid R2 := by
      unfold addRecomb
      rw [g1, g2]
      simp only [ne_eq, not_true_eq_false, if_false, g3]
      unfold followIds
      rw [g4, g5]
      simp only
      rcases followWords_total hw r hr hd hm false ws' R 0 L.initial hv hw.initial with ⟨_, h1⟩ | ⟨R1, node, h1, h2⟩
      · rw [h1]; exact ⟨R, rfl, hv⟩
      · rw [h1]
        simp only
        cases hg : mapGet (R.nodes.getD node ⟨[], []⟩).wordToLink x with
        | none => exact ⟨R, rfl, hv⟩
        | some l =>
          obtain ⟨k, en, hk, hke⟩ := hv.get hg
          simp only [hk]
          rcases followWords_total hw r hr hd hm true ws R 0 L.initial hv hw.initial with ⟨h4, _⟩ | ⟨R2, node2, h4, h5⟩
          · cases h4
          · rw [h4]
            exact ⟨_, rfl, h5.addLink _ (Or.inr ⟨en, hke⟩)⟩
    obtain ⟨R2, h4, h5⟩ := h3
    unfold addAll
    rw [h4]
    exact ih R2 h5 (fun t ht => h t (List.mem_cons_of_mem _ ht))

end
end
end TheanoLM
