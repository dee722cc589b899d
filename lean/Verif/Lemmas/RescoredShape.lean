import Verif.Lemmas.RescoredTotal
/-!
# Lemmas about rescored lattices: the shape of the lattice

These hold also for lattices that are not determinized.
-/
namespace TheanoLM

variable {S St : Type} {L : Lattice S}

set_option linter.unusedSectionVars false

section
variable [Field S] [LinearOrder S]

/-- The invariant.  Every node has an outgoing link, with the possible exception of the nodes `exc`. -/
structure Tidy (P : Str → Prop) (Q : Char → Prop) (exc : Nat → Prop) (R : RLat S) : Prop where
  nonempty : 0 < R.nodes.length
  starts : ∀ k ∈ R.links, k.startNode < R.nodes.length
  ends : ∀ k ∈ R.links, ∀ e, k.endNode = some e → e < R.nodes.length
  words : ∀ k ∈ R.links, ∀ w, k.word = some w → P w
  trans : ∀ k ∈ R.links, ∀ c ∈ k.transitions, Q c
  finals : ∀ k ∈ R.links, (k.endNode = none ↔ k.word = none)
  outs : ∀ (u : Nat) (nd : RNode), R.nodes[u]? = some nd →
    ∀ l : Nat, l ∈ nd.outLinks ↔ ∃ k : RLink S, R.links[l]? = some k ∧ k.startNode = u
  nodup : ∀ nd ∈ R.nodes, nd.outLinks.Pairwise (· < ·)
  maps : ∀ (u : Nat) (nd : RNode), R.nodes[u]? = some nd → ∀ p ∈ nd.wordToLink, ∃ k : RLink S, R.links[p.2]? = some k ∧
    k.startNode = u ∧ k.word = some p.1
  closed : ∀ n < R.nodes.length, ¬ exc n → ∃ k ∈ R.links, k.startNode = n

variable {P : Str → Prop} {Q : Char → Prop} {exc : Nat → Prop} {R : RLat S}

theorem Tidy.except {exc' : Nat → Prop} (h : Tidy P Q exc R)
    (hn : ∀ n < R.nodes.length, exc n → ¬ exc' n → ∃ k ∈ R.links, k.startNode = n) : Tidy P Q exc' R :=
  { h with
    closed := fun i hi hne => by
      by_cases hin : exc i
      · exact hn i hi hin hne
      · exact h.closed i hi hin }

theorem Tidy.addNode (h : Tidy P Q exc R) : Tidy P Q (fun n => exc n ∨ n = R.nodes.length) { R with nodes := R.nodes ++ [⟨[], []⟩] } := by
  have hnew : ∀ (u : Nat) (nd : RNode), (R.nodes ++ [(⟨[], []⟩ : RNode)])[u]? = some nd →
      R.nodes[u]? = some nd ∨ (u = R.nodes.length ∧ nd = ⟨[], []⟩) := by
    intro u nd hu
    rw [List.getElem?_append] at hu
    split at hu
    · exact .inl hu
    · have := (List.getElem?_eq_some_iff.mp hu).1
      simp only [List.length_singleton] at this
      have hl : u = R.nodes.length := by omega
      subst hl
      simp only [Nat.sub_self, List.getElem?_cons_zero, Option.some.injEq] at hu
      exact .inr ⟨rfl, hu.symm⟩
  constructor
  · simp
  · intro k hk; have := h.starts k hk; simp; omega
  · intro k hk e he; have := h.ends k hk e he; simp; omega
  · exact h.words
  · exact h.trans
  · exact h.finals
  · intro u nd hu l
    rcases hnew u nd hu with hu | ⟨rfl, rfl⟩
    · exact h.outs u nd hu l
    · constructor
      · intro hl; cases hl
      · rintro ⟨k, h1, h2⟩
        have := h.starts k (List.mem_of_getElem? h1)
        omega
  · intro nd hnd
    rcases List.mem_append.mp hnd with h1 | h1
    · exact h.nodup nd h1
    · simp only [List.mem_singleton] at h1; subst h1; exact List.Pairwise.nil
  · intro u nd hu p hp
    rcases hnew u nd hu with hu | ⟨rfl, rfl⟩
    · exact h.maps u nd hu p hp
    · cases hp
  · intro n hn hne
    simp only [List.length_append, List.length_singleton] at hn
    push Not at hne
    exact h.closed n (by omega) hne.1

theorem Tidy.get (h : Tidy P Q exc R) {u : Nat} {w : Str} {l : Nat}
    (hg : mapGet (R.nodes.getD u ⟨[], []⟩).wordToLink w = some l) : ∃ (k : RLink S) (e : Nat), R.links[l]? = some k ∧
      k.startNode = u ∧ k.word = some w ∧ k.endNode = some e := by
  have hm := mapGet_some hg
  rw [List.getD_eq_getElem?_getD] at hm
  cases hnd : R.nodes[u]? with
  | none => rw [hnd] at hm; cases hm
  | some nd =>
    rw [hnd, Option.getD_some] at hm
    obtain ⟨k, h1, h2, h3⟩ := h.maps u nd hnd _ hm
    cases he : k.endNode with
    | none =>
      have := (h.finals k (List.mem_of_getElem? h1)).mp he
      rw [h3] at this
      cases this
    | some e => exact ⟨k, e, h1, h2, h3, he⟩

theorem Tidy.addLink (h : Tidy P Q exc R) (k : RLink S) (hs : k.startNode < R.nodes.length)
    (he : ∀ e, k.endNode = some e → e < R.nodes.length) (hw : ∀ w, k.word = some w → P w) (hq : ∀ c ∈ k.transitions, Q c)
    (hf : k.endNode = none ↔ k.word = none) : Tidy P Q exc (R.addLink k) where
  nonempty := by simpa [RLat.addLink] using h.nonempty
  starts := by
    intro k' hk'
    simp only [RLat.addLink, List.length_modify, List.mem_append, List.mem_singleton] at hk' ⊢
    rcases hk' with hk' | rfl
    · exact h.starts k' hk'
    · exact hs
  ends := by
    intro k' hk'
    simp only [RLat.addLink, List.length_modify, List.mem_append, List.mem_singleton] at hk' ⊢
    rcases hk' with hk' | rfl
    · exact h.ends k' hk'
    · exact he
  words := by
    intro k' hk'
    simp only [RLat.addLink, List.mem_append, List.mem_singleton] at hk'
    rcases hk' with hk' | rfl
    · exact h.words k' hk'
    · exact hw
  trans := by
    intro k' hk'
    simp only [RLat.addLink, List.mem_append, List.mem_singleton] at hk'
    rcases hk' with hk' | rfl
    · exact h.trans k' hk'
    · exact hq
  finals := by
    intro k' hk'
    simp only [RLat.addLink, List.mem_append, List.mem_singleton] at hk'
    rcases hk' with hk' | rfl
    · exact h.finals k' hk'
    · exact hf
  outs := by
    intro u nd hnd l
    simp only [RLat.addLink, modify_getElem?] at hnd ⊢
    have hsplit : (∃ k' : RLink S, (R.links ++ [k])[l]? = some k' ∧ k'.startNode = u) ↔
        (∃ k' : RLink S, R.links[l]? = some k' ∧ k'.startNode = u) ∨ (l = R.links.length ∧ k.startNode = u) := by
      rw [List.getElem?_append]
      constructor
      · rintro ⟨k', h1, h2⟩
        split at h1
        · exact .inl ⟨k', h1, h2⟩
        · rename_i hge
          have := (List.getElem?_eq_some_iff.mp h1).1
          simp only [List.length_singleton] at this
          have hl : l = R.links.length := by omega
          subst hl
          simp only [Nat.sub_self, List.getElem?_cons_zero, Option.some.injEq] at h1
          exact .inr ⟨rfl, by rw [h1]; exact h2⟩
      · rintro (⟨k', h1, h2⟩ | ⟨rfl, h2⟩)
        · rw [if_pos (List.getElem?_eq_some_iff.mp h1).1]
          exact ⟨k', h1, h2⟩
        · exact ⟨k, by simp, h2⟩
    rw [hsplit]
    split at hnd
    · rename_i heq
      obtain ⟨nd', hnd', rfl⟩ := Option.map_eq_some_iff.mp hnd
      simp only [List.mem_append, List.mem_singleton, h.outs u nd' hnd' l, heq, and_true]
    · rename_i hne
      rw [h.outs u nd hnd l]
      simp [hne]
  nodup := by
    intro nd hnd
    obtain ⟨u, hu⟩ := List.mem_iff_getElem?.mp hnd
    simp only [RLat.addLink, modify_getElem?] at hu
    split at hu
    · obtain ⟨nd', hnd', rfl⟩ := Option.map_eq_some_iff.mp hu
      rw [List.pairwise_append]
      refine ⟨h.nodup nd' (List.mem_of_getElem? hnd'), List.pairwise_singleton _ _, fun a ha b hb => ?_⟩
      rw [List.mem_singleton] at hb
      obtain ⟨k', h1, _⟩ := (h.outs u nd' hnd' a).mp ha
      rw [hb]
      exact (List.getElem?_eq_some_iff.mp h1).1
    · exact h.nodup nd (List.mem_of_getElem? hu)
  maps := by
    intro u nd hnd p hp
    simp only [RLat.addLink, modify_getElem?] at hnd ⊢
    have hold : ∀ nd', R.nodes[u]? = some nd' → p ∈ nd'.wordToLink → ∃ k' : RLink S, (R.links ++ [k])[p.2]? = some k' ∧
        k'.startNode = u ∧ k'.word = some p.1 := by
      intro nd' h1 h2
      obtain ⟨k', h3, h4⟩ := h.maps u nd' h1 p h2
      exact ⟨k', getElem?_append_of_some h3, h4⟩
    split at hnd
    · rename_i heq
      obtain ⟨nd', hnd', rfl⟩ := Option.map_eq_some_iff.mp hnd
      cases hkw : k.word with
      | none => rw [hkw] at hp; exact hold nd' hnd' hp
      | some w =>
        rw [hkw] at hp
        simp only [List.mem_append, List.mem_singleton] at hp
        rcases hp with hp | rfl
        · exact hold nd' hnd' hp
        · exact ⟨k, by simp, heq, hkw⟩
    · exact hold nd hnd hp
  closed := by
    intro n hn hne
    simp only [RLat.addLink, List.length_modify] at hn ⊢
    obtain ⟨k', h1, h2⟩ := h.closed n hn hne
    exact ⟨k', List.mem_append_left _ h1, h2⟩

theorem mem_addLink {k k' : RLink S} : k' ∈ (R.addLink k).links ↔ k' ∈ R.links ∨ k' = k := by
  simp [RLat.addLink]

theorem tidy_init : Tidy P Q (fun n => n = 0) (⟨[⟨[], []⟩], []⟩ : RLat S) := by
  constructor
  · simp
  · intro k hk; cases hk
  · intro k hk; cases hk
  · intro k hk; cases hk
  · intro k hk; cases hk
  · intro k hk; cases hk
  · intro u nd hu l
    have := List.mem_of_getElem? hu
    simp only [List.mem_singleton] at this
    subst this
    simp
  · intro nd hnd
    simp only [List.mem_singleton] at hnd
    subst hnd
    exact List.Pairwise.nil
  · intro u nd hu p hp
    have := List.mem_of_getElem? hu
    simp only [List.mem_singleton] at this
    subst this
    cases hp
  · intro n hn hne
    simp only [List.length_singleton] at hn
    omega

section
variable (hw : L.WF) (hP : ∀ k ∈ L.links, ∀ w, k.word = some w → P w) (hQ : ∀ k ∈ L.links, ∀ c ∈ k.transitions, Q c)
    {depth : Nat} {maps : List (List (Str × Nat))}
    (hm : wordMaps L depth (List.range L.nodes.length) = .ok maps)
include hw hP hQ hm

theorem wordStep_word {a b : Nat} {w : Str} {seg : List (Link S)} (h : WordStep L a w seg b) : P w := by
  obtain ⟨ns, k, rfl, _, h2, h3⟩ := h
  obtain ⟨_, _, h4⟩ := path_append_inv h3
  exact hP k (path_cons_inv h4).1 w h2

theorem wordStep_trans {a b : Nat} {w : Str} {seg : List (Link S)} (h : WordStep L a w seg b) :
    ∀ c ∈ (seg.reverse.map Link.transitions).flatten, Q c := by
  intro c hc
  obtain ⟨tr, h1, h2⟩ := List.mem_flatten.mp hc
  obtain ⟨k, h3, rfl⟩ := List.mem_map.mp h1
  rw [List.mem_reverse] at h3
  obtain ⟨ns, _, _, _, _, h4⟩ := h
  obtain ⟨l1, l2, rfl⟩ := List.append_of_mem h3
  obtain ⟨_, _, h5⟩ := path_append_inv h4
  exact hQ k (path_cons_inv h5).1 c h2

theorem followWords_tidy (create : Bool) (ws : List Str) : ∀ (R : RLat S) (node orig : Nat) (R' : RLat S) (node' : Nat),
    Tidy P Q (fun n => n = node) R → node < R.nodes.length → orig < L.nodes.length →
    followWords L maps depth create ws R node orig = .ok (R', node') →
    Tidy P Q (fun n => n = node') R' ∧ node' < R'.nodes.length := by
  induction ws with
  | nil => intro R node orig R' node' h hn _ he; cases he; exact ⟨h, hn⟩
  | cons w ws ih =>
    intro R node orig R' node' h hn ho he
    unfold followWords at he
    cases hx : followWord L maps w depth orig with
    | error e => rw [hx] at he; cases he
    | ok x =>
      have hs := (followWord_spec hw hm w depth orig x ho hx).2
      rw [hx] at he
      cases x with
      | none => exact ih R node orig R' node' h hn ho he
      | some x =>
        obtain ⟨hx1, seg, hseg, _, _, htr⟩ := hs x rfl
        simp only at he
        cases hg : mapGet (R.nodes.getD node ⟨[], []⟩).wordToLink w with
        | some l =>
          obtain ⟨k, e, hk, hks, _, hke⟩ := h.get hg
          simp only [hg, hk, hke] at he
          have hkm := List.mem_of_getElem? hk
          exact ih R e _ R' node' (h.except fun n _ hnn _ => ⟨k, hkm, by rw [hks, hnn]⟩) (h.ends k hkm e hke) hx1 he
        | none =>
          simp only [hg] at he
          cases create with
          | false => cases he
          | true =>
            simp only [Bool.true_eq_false, if_false] at he
            refine ih _ _ _ R' node' ?_ ?_ hx1 he
            · have h2 := h.addNode.addLink ⟨node, some R.nodes.length, some w, x.ac, x.lm, x.transitions⟩ (by simp; omega)
                (by intro e he; cases he; simp) (by intro w' hw'; cases hw'; exact wordStep_word hw hP hQ hm hseg)
                (by dsimp only; rw [htr]; exact wordStep_trans hw hP hQ hm hseg) (by simp)
              refine h2.except fun n _ hnn hne => ⟨_, mem_addLink.mpr (.inr rfl), ?_⟩
              rcases hnn with hnn | hnn
              · exact hnn.symm
              · exact (hne hnn).elim
            · simp [RLat.addLink]

theorem followWords_nodes (create : Bool) (ws : List Str) : ∀ (R : RLat S) (node orig : Nat) (R' : RLat S) (node' : Nat),
    followWords L maps depth create ws R node orig = .ok (R', node') → R.nodes.length ≤ R'.nodes.length := by
  induction ws with
  | nil => intro R node orig R' node' he; cases he; exact le_refl _
  | cons w ws ih =>
    intro R node orig R' node' he
    unfold followWords at he
    split at he
    · cases he
    · exact ih _ _ _ _ _ he
    · split at he
      · split at he
        · cases he
        · split at he
          · cases he
          · exact ih _ _ _ _ _ he
      · split at he
        · cases he
        · have := ih _ _ _ _ _ he
          simp [RLat.addLink] at this
          omega

theorem addFinal_tidy (f : Nat → Option Str) (R R' : RLat S) (t : Token S St) (h : Tidy P Q (fun n => n = 0) R)
    (he : addFinal L maps depth f R t = .ok R') : Tidy P Q (fun _ => False) R' := by
  unfold addFinal followIds at he
  cases hh : historyWords f t.history.tail with
  | error e => rw [hh] at he; cases he
  | ok ws =>
    rw [hh] at he
    simp only at he
    cases hf : followWords L maps depth true ws R 0 L.initial with
    | error e => rw [hf] at he; cases he
    | ok p =>
      obtain ⟨R1, node⟩ := p
      obtain ⟨h1, h2⟩ := followWords_tidy hw hP hQ hm true ws R 0 L.initial R1 node h h.nonempty hw.initial hf
      rw [hf] at he
      simp only at he
      split at he
      · rename_i hany
        cases he
        obtain ⟨l, hl, hlk⟩ := List.any_eq_true.mp hany
        rw [List.getD_eq_getElem?_getD, List.getElem?_eq_getElem h2, Option.getD_some] at hl
        obtain ⟨k, hk1, hk2⟩ := (h1.outs node _ (List.getElem?_eq_getElem h2) l).mp hl
        exact h1.except fun n _ hn _ => ⟨k, List.mem_of_getElem? hk1, by rw [hk2, hn]⟩
      · cases he
        refine (h1.addLink ⟨node, none, none, 0, t.nnLm, []⟩ h2 (by intro e he; cases he) (by intro w hw'; cases hw')
          (by intro c hc; cases hc) (by simp)).except
          fun n _ hn _ => ⟨_, mem_addLink.mpr (.inr rfl), hn.symm⟩

theorem addFinals_tidy (f : Nat → Option Str) (ts : List (Token S St)) : ∀ (R R' : RLat S), Tidy P Q (fun n => n = 0) R → ts ≠ [] →
    addAll (addFinal L maps depth f) ts R = .ok R' → Tidy P Q (fun _ => False) R' := by
  induction ts with
  | nil => intro R R' _ h; exact (h rfl).elim
  | cons t ts ih =>
    intro R R' h _ he
    unfold addAll at he
    cases h1 : addFinal L maps depth f R t with
    | error e => rw [h1] at he; cases he
    | ok R1 =>
      rw [h1] at he
      have h2 := addFinal_tidy hw hP hQ hm f R R1 t h h1
      by_cases hts : ts = []
      · subst hts; cases he; exact h2
      · exact ih R1 R' (h2.except fun n _ hn _ => hn.elim) hts he

theorem addRecomb_tidy (f : Nat → Option Str) (R R' : RLat S) (e : Recomb S St) (h : Tidy P Q (fun _ => False) R)
    (he : addRecomb L maps depth f R e = .ok R') : Tidy P Q (fun _ => False) R' := by
  unfold addRecomb at he
  split at he
  · rename_i a b _ _
    split at he
    · cases he
    · split at he
      · cases he
      · cases he
      · rename_i word _ _
        split at he
        · cases he; exact h
        · cases he
        · rename_i recombFrom _
          cases hg : mapGet (R.nodes.getD recombFrom ⟨[], []⟩).wordToLink word with
          | none => rw [hg] at he; cases he; exact h
          | some l =>
            obtain ⟨k, en, hk, _, hkw, hke⟩ := h.get hg
            have hkm := List.mem_of_getElem? hk
            simp only [hg, hk] at he
            unfold followIds at he
            cases hh : historyWords f e.1.history.dropLast.tail with
            | error e' => rw [hh] at he; cases he
            | ok ws =>
              rw [hh] at he
              simp only at he
              cases hf : followWords L maps depth true ws R 0 L.initial with
              | error e => rw [hf] at he; cases he
              | ok p =>
                obtain ⟨R1, node⟩ := p
                obtain ⟨h1, h2⟩ := followWords_tidy hw hP hQ hm true ws R 0 L.initial R1 node
                  (h.except fun n _ hn _ => hn.elim) h.nonempty hw.initial hf
                rw [hf] at he
                simp only at he
                cases he
                have hlen : R.nodes.length ≤ R1.nodes.length := followWords_nodes hw hP hQ hm true ws R 0 L.initial R1 node hf
                refine (h1.addLink _ h2 ?_ ?_ ?_ ?_).except fun n _ hn _ => ⟨_, mem_addLink.mpr (.inr rfl), hn.symm⟩
                · intro e' he'
                  have := h.ends k hkm e' he'
                  omega
                · intro w hw'
                  cases hw'
                  exact h.words k hkm _ hkw
                · exact h.trans k hkm
                · simp [hke]
  · cases he

theorem addRecombs_tidy (f : Nat → Option Str) (es : List (Recomb S St)) : ∀ (R R' : RLat S), Tidy P Q (fun _ => False) R →
    addAll (addRecomb L maps depth f) es R = .ok R' → Tidy P Q (fun _ => False) R' := by
  induction es with
  | nil => intro R R' h he; cases he; exact h
  | cons t ts ih =>
    intro R R' h he
    unfold addAll at he
    cases h1 : addRecomb L maps depth f R t with
    | error e => rw [h1] at he; cases he
    | ok R1 => rw [h1] at he; exact ih R1 R' (addRecomb_tidy hw hP hQ hm f R R1 t h h1) he

end

theorem buildRescored_tidy (hw : L.WF) (hP : ∀ k ∈ L.links, ∀ w, k.word = some w → P w)
    (hQ : ∀ k ∈ L.links, ∀ c ∈ k.transitions, Q c) {depth : Nat} {f : Nat → Option Str}
    {finals : List (Token S St)} {recombs : List (Recomb S St)} (hne : finals ≠ []) {R : RLat S}
    (h : buildRescored L depth f finals recombs = .ok R) : Tidy P Q (fun _ => False) R := by
  obtain ⟨maps, R1, hm, h1, h2⟩ := build_ok h
  exact addRecombs_tidy hw hP hQ hm f _ R1 R (addFinals_tidy hw hP hQ hm f finals _ R1 tidy_init hne h1) h2

end
end TheanoLM
