import Verif.Lemmas.RescoredPaths
/-!
# Lemmas about rescored lattices: the nodes where the words of kept tokens lead
-/
namespace TheanoLM

variable {S St : Type} {L : Lattice S}

set_option linter.unusedSectionVars false

section
variable [Field S] [LinearOrder S]

/-- The node that a word leads to in the new lattice. -/
def leadStep (R : RLat S) (u : Nat) (w : Str) : Option Nat :=
  ((mapGet (R.nodes.getD u ⟨[], []⟩).wordToLink w).bind (fun l => R.links[l]?)).bind RLink.endNode

/-- The node that words lead to in the new lattice. -/
def lead (R : RLat S) : List Str → Nat → Option Nat
  | [], u => some u
  | w :: ws, u => (leadStep R u w).bind (lead R ws)

theorem lead_append (R : RLat S) (p q : List Str) : ∀ u : Nat, lead R (p ++ q) u = (lead R p u).bind (lead R q) := by
  induction p with
  | nil => intro u; rfl
  | cons w p ih =>
    intro u
    simp only [List.cons_append, lead, ih]
    cases leadStep R u w <;> rfl

theorem lead_snoc {R : RLat S} {p : List Str} {w : Str} {u v : Nat} :
    lead R (p ++ [w]) u = some v ↔ ∃ x, lead R p u = some x ∧ leadStep R x w = some v := by
  rw [lead_append, Option.bind_eq_some_iff]
  simp [lead]

/-- The words of kept tokens lead to different nodes: `names` are the words that lead to each node.  Every link satisfies a
condition on the names of its nodes, its word, and its language model score. -/
structure NInv (Kept : List Str → Prop)
    (G : List Str → Option (List Str) → Option Str → S → Prop) (names : List (List Str)) (R : RLat S) : Prop where
  len : names.length = R.nodes.length
  root : names[0]? = some []
  entry : ∀ (u : Nat) (nd : RNode), R.nodes[u]? = some nd → ∀ p ∈ nd.wordToLink, ∃ (k : RLink S) (e : Nat),
    R.links[p.2]? = some k ∧ k.startNode = u ∧ k.word = some p.1 ∧ k.endNode = some e ∧ e < R.nodes.length
  step : ∀ (u e : Nat) (w : Str) (nm : List Str), names[u]? = some nm → leadStep R u w = some e → Kept (nm ++ [w]) →
    names[e]? = some (nm ++ [w])
  good : ∀ k ∈ R.links, ∃ nm, names[k.startNode]? = some nm ∧
    ((∃ v nm', k.endNode = some v ∧ names[v]? = some nm' ∧ G nm (some nm') k.word k.lm) ∨
      (k.endNode = none ∧ G nm none k.word k.lm))

variable {Kept : List Str → Prop} {G : List Str → Option (List Str) → Option Str → S → Prop}
  {names : List (List Str)} {R R' : RLat S}

/-- A step is a link. -/
theorem NInv.link (h : NInv Kept G names R) {u e : Nat} {w : Str} (hs : leadStep R u w = some e) :
    e < R.nodes.length ∧ ∃ k ∈ R.links, k.startNode = u ∧ k.word = some w ∧ k.endNode = some e := by
  unfold leadStep at hs
  rw [Option.bind_eq_some_iff] at hs
  obtain ⟨k, hs, hke⟩ := hs
  rw [Option.bind_eq_some_iff] at hs
  obtain ⟨l, hg, hk⟩ := hs
  have hm := mapGet_some hg
  rw [List.getD_eq_getElem?_getD] at hm
  cases hnd : R.nodes[u]? with
  | none => rw [hnd] at hm; cases hm
  | some nd =>
    rw [hnd, Option.getD_some] at hm
    obtain ⟨k', e', h1, h2, h3, h4, h5⟩ := h.entry u nd hnd _ hm
    simp only at h1 h3
    rw [hk] at h1
    cases h1
    rw [hke] at h4
    cases h4
    exact ⟨h5, k, List.mem_of_getElem? hk, h2, h3, hke⟩

/-- The words of a kept token lead to the node with its name. -/
theorem NInv.name (h : NInv Kept G names R) (hpre : ∀ p w, Kept (p ++ [w]) → Kept p) (q : List Str) : Kept q →
    ∀ v, lead R q 0 = some v → names[v]? = some q := by
  induction q using List.reverseRecOn with
  | nil => intro _ v hv; cases hv; exact h.root
  | append_singleton q w ih =>
    intro hk v hv
    obtain ⟨x, h1, h2⟩ := lead_snoc.mp hv
    exact h.step x v w q (ih (hpre q w hk) x h1) h2 hk

theorem NInv.lead_lt (h : NInv Kept G names R) {ws : List Str} {v : Nat} (hv : lead R ws 0 = some v) :
    v < R.nodes.length := by
  cases ws using List.reverseRecOn with
  | nil =>
    cases hv
    have := (List.getElem?_eq_some_iff.mp h.root).1
    rw [h.len] at this
    exact this
  | append_singleton q w =>
    obtain ⟨x, _, h2⟩ := lead_snoc.mp hv
    exact (h.link h2).1

theorem lead_mono (hs : ∀ u w e, leadStep R u w = some e → leadStep R' u w = some e) (ws : List Str) :
    ∀ u v, lead R ws u = some v → lead R' ws u = some v := by
  induction ws with
  | nil => intro u v h; exact h
  | cons w ws ih =>
    intro u v h
    simp only [lead, Option.bind_eq_some_iff] at h ⊢
    obtain ⟨x, h1, h2⟩ := h
    exact ⟨x, hs u w x h1, ih x v h2⟩

theorem mapGet_append (m : List (Str × Nat)) (w : Str) (l : Nat) (w' : Str) :
    mapGet (m ++ [(w, l)]) w' = if w = w' then some l else mapGet m w' := by
  unfold mapGet
  rw [List.reverse_append]
  simp only [List.reverse_cons, List.reverse_nil, List.nil_append, List.singleton_append, List.find?_cons]
  by_cases h : w = w' <;> simp [h]

/-- A new node does not change the steps. -/
theorem leadStep_addNode (u : Nat) (w : Str) :
    leadStep { R with nodes := R.nodes ++ [⟨[], []⟩] } u w = leadStep R u w := by
  unfold leadStep
  simp only
  congr 2
  rw [List.getD_eq_getElem?_getD, List.getD_eq_getElem?_getD, List.getElem?_append]
  split
  · rfl
  · rename_i hge
    rw [List.getElem?_eq_none (l := R.nodes) (by omega)]
    cases hi : u - R.nodes.length with
    | zero => rfl
    | succ i => rfl

theorem NInv.addNode (h : NInv Kept G names R) (nm : List Str) :
    NInv Kept G (names ++ [nm]) { R with nodes := R.nodes ++ [⟨[], []⟩] } where
  len := by simp [h.len]
  root := getElem?_append_of_some h.root
  entry := by
    intro u nd hu p hp
    simp only [List.getElem?_append] at hu
    split at hu
    · obtain ⟨k, e, h1, h2, h3, h4, h5⟩ := h.entry u nd hu p hp
      exact ⟨k, e, h1, h2, h3, h4, by simp; omega⟩
    · have : nd = ⟨[], []⟩ := by
        have := List.mem_of_getElem? hu
        simpa using this
      subst this
      cases hp
  step := by
    intro u e w nm' hu hs hk
    rw [leadStep_addNode] at hs
    obtain ⟨_, k, hk', _⟩ := h.link hs
    have hlt : u < names.length := by
      rw [h.len]
      by_contra hge
      unfold leadStep at hs
      rw [List.getD_eq_getElem?_getD, List.getElem?_eq_none (by omega)] at hs
      cases hs
    rw [List.getElem?_append_left hlt] at hu
    exact getElem?_append_of_some (h.step u e w nm' hu hs hk)
  good := by
    intro k hk
    obtain ⟨n1, h1, h2⟩ := h.good k hk
    refine ⟨n1, getElem?_append_of_some h1, ?_⟩
    rcases h2 with ⟨v, n2, a1, a2, a3⟩ | h2
    · exact Or.inl ⟨v, n2, a1, getElem?_append_of_some a2, a3⟩
    · exact Or.inr h2

/-- A new link changes one step. -/
theorem leadStep_addLink (h : NInv Kept G names R) (u e : Nat) (w : Str) (ac lm : S) (tr : Str) (hu : u < R.nodes.length)
    (v : Nat) (w' : Str) : leadStep (R.addLink ⟨u, some e, some w, ac, lm, tr⟩) v w' =
      if u = v ∧ w = w' then some e else leadStep R v w' := by
  unfold leadStep RLat.addLink
  simp only
  rw [List.getD_eq_getElem?_getD, modify_getElem?]
  by_cases huv : u = v
  · subst huv
    rw [if_pos rfl, List.getElem?_eq_getElem hu]
    simp only [Option.map_some, Option.getD_some]
    rw [mapGet_append]
    by_cases hww : w = w'
    · rw [if_pos hww, if_pos ⟨trivial, hww⟩]
      simp
    · rw [if_neg hww, if_neg (fun h => hww h.2)]
      rw [List.getD_eq_getElem?_getD, List.getElem?_eq_getElem hu, Option.getD_some]
      cases hg : mapGet (R.nodes[u]).wordToLink w' with
      | none => rfl
      | some l =>
        obtain ⟨k, e', h1, _⟩ := h.entry u _ (List.getElem?_eq_getElem hu) _ (mapGet_some hg)
        simp only at h1
        simp only [Option.bind_some, h1, getElem?_append_of_some h1]
  · rw [if_neg huv, if_neg (fun h => huv h.1), List.getD_eq_getElem?_getD]
    cases hnd : R.nodes[v]? with
    | none => rfl
    | some nd =>
      rw [Option.getD_some]
      cases hg : mapGet nd.wordToLink w' with
      | none => rfl
      | some l =>
        obtain ⟨k, e', h1, _⟩ := h.entry v nd hnd _ (mapGet_some hg)
        simp only at h1
        simp only [Option.bind_some, h1, getElem?_append_of_some h1]

theorem NInv.addLink (h : NInv Kept G names R) {u e : Nat} {w : Str} (ac lm : S) (tr : Str) (hu : u < R.nodes.length)
    (he : e < R.nodes.length)
    (hn : ∀ nm, names[u]? = some nm → Kept (nm ++ [w]) → names[e]? = some (nm ++ [w]))
    (hg : ∃ nm nm', names[u]? = some nm ∧ names[e]? = some nm' ∧ G nm (some nm') (some w) lm) :
    NInv Kept G names (R.addLink ⟨u, some e, some w, ac, lm, tr⟩) where
  len := by simp [RLat.addLink, h.len]
  root := h.root
  entry := by
    intro v nd hv p hp
    simp only [RLat.addLink, List.length_modify] at hv ⊢
    rw [modify_getElem?] at hv
    split at hv
    · rename_i huv
      subst huv
      obtain ⟨nd0, h0, rfl⟩ := Option.map_eq_some_iff.mp hv
      rcases List.mem_append.mp hp with hp | hp
      · obtain ⟨k, e', h1, h2⟩ := h.entry u nd0 h0 p hp
        exact ⟨k, e', getElem?_append_of_some h1, h2⟩
      · rw [List.mem_singleton.mp hp]
        exact ⟨_, e, by simp; rfl, rfl, rfl, rfl, he⟩
    · obtain ⟨k, e', h1, h2⟩ := h.entry v nd hv p hp
      exact ⟨k, e', getElem?_append_of_some h1, h2⟩
  step := by
    intro v e' w' nm hv hs hk
    rw [leadStep_addLink h u e w ac lm tr hu] at hs
    split at hs
    · rename_i huv
      obtain ⟨rfl, rfl⟩ := huv
      cases hs
      exact hn nm hv hk
    · exact h.step v e' w' nm hv hs hk
  good := by
    intro k hk
    rcases List.mem_append.mp hk with hk | hk
    · exact h.good k hk
    · rw [List.mem_singleton.mp hk]
      obtain ⟨nm, nm', h1, h2, h3⟩ := hg
      exact ⟨nm, h1, Or.inl ⟨e, nm', rfl, h2, h3⟩⟩

/-- A link to the final node does not change the steps. -/
theorem leadStep_addFinal (h : NInv Kept G names R) (u : Nat) (ac lm : S) (tr : Str) (v : Nat) (w' : Str) :
    leadStep (R.addLink ⟨u, none, none, ac, lm, tr⟩) v w' = leadStep R v w' := by
  unfold leadStep RLat.addLink
  simp only
  rw [List.getD_eq_getElem?_getD, List.getD_eq_getElem?_getD, modify_getElem?]
  have key : ∀ nd : RNode, R.nodes[v]? = some nd →
      ((mapGet nd.wordToLink w').bind (fun l => (R.links ++ [⟨u, none, none, ac, lm, tr⟩])[l]?)).bind RLink.endNode =
      ((mapGet nd.wordToLink w').bind (fun l => R.links[l]?)).bind RLink.endNode := by
    intro nd hnd
    cases hg : mapGet nd.wordToLink w' with
    | none => rfl
    | some l =>
      obtain ⟨k, e', h1, _⟩ := h.entry v nd hnd _ (mapGet_some hg)
      simp only at h1
      simp only [Option.bind_some, h1, getElem?_append_of_some h1]
  cases hnd : R.nodes[v]? with
  | none => split <;> rfl
  | some nd =>
    split
    · simpa using key nd hnd
    · simpa using key nd hnd

theorem NInv.addFinal (h : NInv Kept G names R) (u : Nat) (ac lm : S) (tr : Str)
    (hg : ∃ nm, names[u]? = some nm ∧ G nm none none lm) :
    NInv Kept G names (R.addLink ⟨u, none, none, ac, lm, tr⟩) where
  len := by simp [RLat.addLink, h.len]
  root := h.root
  entry := by
    intro v nd hv p hp
    simp only [RLat.addLink, List.length_modify] at hv ⊢
    rw [modify_getElem?] at hv
    have : ∃ nd0 : RNode, R.nodes[v]? = some nd0 ∧ p ∈ nd0.wordToLink := by
      split at hv
      · obtain ⟨nd0, h0, rfl⟩ := Option.map_eq_some_iff.mp hv
        exact ⟨nd0, h0, hp⟩
      · exact ⟨nd, hv, hp⟩
    obtain ⟨nd0, h0, hp0⟩ := this
    obtain ⟨k, e', h1, h2⟩ := h.entry v nd0 h0 p hp0
    exact ⟨k, e', getElem?_append_of_some h1, h2⟩
  step := by
    intro v e' w' nm hv hs hk
    rw [leadStep_addFinal h] at hs
    exact h.step v e' w' nm hv hs hk
  good := by
    intro k hk
    rcases List.mem_append.mp hk with hk | hk
    · exact h.good k hk
    · rw [List.mem_singleton.mp hk]
      obtain ⟨nm, h1, h2⟩ := hg
      exact ⟨nm, h1, Or.inr ⟨rfl, h2⟩⟩

theorem ninv_init : NInv Kept G [[]] (⟨[⟨[], []⟩], []⟩ : RLat S) where
  len := rfl
  root := rfl
  entry := by
    intro u nd h
    cases u with
    | zero => simp at h; subst h; simp
    | succ u => simp at h
  step := by
    intro u e w nm _ hs _
    unfold leadStep at hs
    cases u <;> cases hs
  good := by simp

/-- The condition on the links that are created when words are followed. -/
def LinksGood (L : Lattice S) (Kept : List Str → Prop) (G : List Str → Option (List Str) → Option Str → S → Prop) : Prop :=
  ∀ (pre : List Str) (w : Str) (segs : List (List (Link S))) (seg : List (Link S)) (a b : Nat), Kept (pre ++ [w]) →
    WordPath L L.initial pre segs a → WordStep L a w seg b → G pre (some (pre ++ [w])) (some w) (lmOf seg)

/-- Following the words of a kept token, from a node that its first words lead to. -/
theorem followWords_kept (hw : L.WF) (hd : Determinized L) (hpre : ∀ p w, Kept (p ++ [w]) → Kept p)
    (hG : LinksGood L Kept G) {depth : Nat}
    {maps : List (List (Str × Nat))} (hm : wordMaps L depth (List.range L.nodes.length) = .ok maps) (create : Bool)
    (suf : List Str) {orig b : Nat} {ws : List Str} {segs : List (List (Link S))} (hp : WordPath L orig ws segs b) :
    (∀ w ∈ suf, ∀ k ∈ L.links, k.word ≠ some w) → ∀ {names : List (List Str)} {R R' : RLat S} {node node' : Nat}
      {pre : List Str}, NInv Kept G names R → orig < L.nodes.length → (∃ segs0, WordPath L L.initial pre segs0 orig) →
    lead R pre 0 = some node → Kept (pre ++ ws) →
    followWords L maps depth create (ws ++ suf) R node orig = .ok (R', node') →
    ∃ names', NInv Kept G names' R' ∧ lead R' (pre ++ ws) 0 = some node' ∧
      (∀ u w e, leadStep R u w = some e → leadStep R' u w = some e) := by
  induction hp with
  | nil a =>
    intro hsuf
    induction suf with
    | nil =>
      intro names R R' node node' pre hI _ _ hl hk h
      cases h
      exact ⟨names, hI, by simpa using hl, fun _ _ _ h => h⟩
    | cons w suf ih =>
      intro names R R' node node' pre hI hlt h0 hl hk h
      rw [List.nil_append] at h
      unfold followWords at h
      cases hf : followWord L maps w depth a with
      | error e => rw [hf] at h; cases h
      | ok r =>
        obtain ⟨_, hsome⟩ := followWord_spec hw hm w depth a r hlt hf
        rw [hf] at h
        cases r with
        | none => exact ih (fun w' hw' => hsuf w' (List.mem_cons_of_mem _ hw')) hI hlt h0 hl hk h
        | some r =>
          obtain ⟨_, seg, hstep, _⟩ := hsome r rfl
          exact absurd hstep (not_step (hsuf w (by simp)) _ _ _)
  | cons a b c w ws seg segs h1 _ ih =>
    intro hsuf names R R' node node' pre hI hlt h0 hl hk h
    rw [List.cons_append] at h
    unfold followWords at h
    cases hf : followWord L maps w depth a with
    | error e => rw [hf] at h; cases h
    | ok r =>
      obtain ⟨hnone, hsome⟩ := followWord_spec hw hm w depth a r hlt hf
      rw [hf] at h
      cases r with
      | none => exact absurd h1 (hnone rfl _ _)
      | some r =>
        obtain ⟨hre, seg', hstep, _, hlm, _⟩ := hsome r rfl
        obtain ⟨rfl, rfl⟩ := hd _ _ _ _ _ _ h1 hstep
        simp only at h
        have h0' : ∃ segs0, WordPath L L.initial (pre ++ [w]) segs0 r.endNode := by
          obtain ⟨segs0, h0⟩ := h0
          exact ⟨_, h0.snoc h1⟩
        have hk1 : Kept ((pre ++ [w]) ++ ws) := by rw [List.append_assoc]; exact hk
        have hall : ∀ q : List Str, Kept ((pre ++ [w]) ++ q) → Kept (pre ++ [w]) := by
          intro q
          induction q using List.reverseRecOn with
          | nil => intro h; simpa using h
          | append_singleton q x ihq => intro h; rw [← List.append_assoc] at h; exact ihq (hpre _ _ h)
        have hkw : Kept (pre ++ [w]) := hall ws hk1
        have hname := hI.name hpre pre (hpre _ _ hkw) node hl
        have hnode := hI.lead_lt hl
        cases hg : mapGet (R.nodes.getD node ⟨[], []⟩).wordToLink w with
        | some l =>
          rw [hg] at h
          simp only at h
          cases hrl : R.links[l]? with
          | none => rw [hrl] at h; cases h
          | some k =>
            rw [hrl] at h
            simp only at h
            cases hke : k.endNode with
            | none => rw [hke] at h; cases h
            | some e =>
              rw [hke] at h
              simp only at h
              have hst : leadStep R node w = some e := by
                unfold leadStep
                rw [hg]
                simp [hrl, hke]
              obtain ⟨names', g1, g2, g3⟩ := ih hsuf hI hre h0' (lead_snoc.mpr ⟨node, hl, hst⟩) hk1 h
              exact ⟨names', g1, by rw [List.append_assoc] at g2; exact g2, g3⟩
        | none =>
          rw [hg] at h
          simp only at h
          cases create with
          | false => cases h
          | true =>
            simp only [Bool.true_eq_false, if_false] at h
            have hA := hI.addNode (pre ++ [w])
            have hnew : (names ++ [pre ++ [w]])[R.nodes.length]? = some (pre ++ [w]) := by
              rw [← hI.len]; simp
            have hB := hA.addLink (u := node) (e := R.nodes.length) (w := w) r.ac r.lm r.transitions (by simp; omega)
              (by simp) (fun nm hnm _ => by
                rw [getElem?_append_of_some hname] at hnm
                cases hnm
                exact hnew)
              ⟨pre, pre ++ [w], getElem?_append_of_some hname, hnew, by
                obtain ⟨segs0, h0⟩ := h0
                rw [hlm]
                exact hG pre w segs0 _ _ _ hkw h0 h1⟩
            have hs0 : leadStep R node w = none := by
              unfold leadStep; rw [hg]; rfl
            have hstep : ∀ u w' e, leadStep R u w' = some e →
                leadStep (RLat.addLink { R with nodes := R.nodes ++ [⟨[], []⟩] }
                  ⟨node, some R.nodes.length, some w, r.ac, r.lm, r.transitions⟩) u w' = some e := by
              intro u w' e he
              rw [leadStep_addLink hA _ _ _ _ _ _ (by simp; omega), leadStep_addNode]
              rw [if_neg]
              · exact he
              · rintro ⟨rfl, rfl⟩
                rw [hs0] at he; cases he
            have hnext : lead (RLat.addLink { R with nodes := R.nodes ++ [⟨[], []⟩] }
                  ⟨node, some R.nodes.length, some w, r.ac, r.lm, r.transitions⟩) (pre ++ [w]) 0 =
                some R.nodes.length := by
              refine lead_snoc.mpr ⟨node, lead_mono hstep _ _ _ hl, ?_⟩
              rw [leadStep_addLink hA _ _ _ _ _ _ (by simp; omega), if_pos ⟨rfl, rfl⟩]
            obtain ⟨names', g1, g2, g3⟩ := ih hsuf hB hre h0' hnext hk1 h
            exact ⟨names', g1, by rw [List.append_assoc] at g2; exact g2, fun u w' e he => g3 u w' e (hstep u w' e he)⟩

end
end TheanoLM
