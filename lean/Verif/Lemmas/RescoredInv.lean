import Verif.Lemmas.Rescored
/-!
# Lemmas about rescored lattices: the invariant of the lattice that is being created
-/
namespace TheanoLM

variable {S St : Type} {L : Lattice S}

set_option linter.unusedSectionVars false

section
variable [Field S] [LinearOrder S]

/-- The invariant.  `info` tells for each node of the new lattice the node of the original lattice that it represents,
and the words that lead to it.  If `sc` holds, the new lattice is a tree, and the links have the language model scores of
the original lattice; if `sa` holds, the links have the acoustic scores and transitions of the original lattice. -/
structure RInv (L : Lattice S) (sc sa : Prop) (F : Nat → List Str → S → Prop) (info : List (Nat × List Str)) (R : RLat S) :
    Prop where
  len : R.nodes.length = info.length
  root : info[0]? = some (L.initial, [])
  inNodes : ∀ p ∈ info, p.1 < L.nodes.length
  word : ∀ k ∈ R.links, ∀ e, k.endNode = some e → ∃ (w : Str) (seg : List (Link S)) (a : Nat) (ws : List Str) (b : Nat) (ws' : List Str), k.word = some w ∧
    info[k.startNode]? = some (a, ws) ∧ info[e]? = some (b, ws') ∧ WordStep L a w seg b ∧
    (sc → ws' = ws ++ [w] ∧ k.lm = lmOf seg) ∧ (sa → k.ac = acOf seg ∧
      k.transitions = (seg.reverse.map Link.transitions).flatten)
  fin : ∀ k ∈ R.links, k.endNode = none → ∃ a ws, k.word = none ∧ info[k.startNode]? = some (a, ws) ∧ k.ac = 0 ∧
    k.transitions = [] ∧ F a ws k.lm
  maps : ∀ (u : Nat) (nd : RNode), R.nodes[u]? = some nd → ∀ p ∈ nd.wordToLink, ∃ k : RLink S, R.links[p.2]? = some k ∧ k.startNode = u ∧
    k.word = some p.1 ∧ k.endNode ≠ none
  outs : ∀ (u : Nat) (nd : RNode), R.nodes[u]? = some nd →
    ∀ l : Nat, l ∈ nd.outLinks ↔ ∃ k : RLink S, R.links[l]? = some k ∧ k.startNode = u

variable {sc sa : Prop} {F : Nat → List Str → S → Prop} {info : List (Nat × List Str)} {R : RLat S}

theorem RInv.mono (h : RInv L sc sa F info R) (sc' : Prop) (hs : sc' → sc) (sa' : Prop) (hsa : sa' → sa) (F' : Nat → List Str → S → Prop)
    (hF : ∀ a ws x, F a ws x → F' a ws x) : RInv L sc' sa' F' info R where
  len := h.len
  root := h.root
  inNodes := h.inNodes
  word := fun k hk e he => by
    obtain ⟨w, seg, a, ws, b, ws', h1, h2, h3, h4, h5⟩ := h.word k hk e he
    exact ⟨w, seg, a, ws, b, ws', h1, h2, h3, h4, fun hsc => h5.1 (hs hsc), fun hac => h5.2 (hsa hac)⟩
  fin := fun k hk he => by
    obtain ⟨a, ws, h1, h2, h3, h4, h5⟩ := h.fin k hk he
    exact ⟨a, ws, h1, h2, h3, h4, hF _ _ _ h5⟩
  maps := h.maps
  outs := h.outs

theorem RInv.start_lt (h : RInv L sc sa F info R) {k : RLink S} (hk : k ∈ R.links) : k.startNode < R.nodes.length := by
  rw [h.len]
  cases he : k.endNode with
  | none =>
    obtain ⟨a, ws, _, h2, _⟩ := h.fin k hk he
    exact (List.getElem?_eq_some_iff.mp h2).1
  | some e =>
    obtain ⟨w, seg, a, ws, b, ws', _, h2, _⟩ := h.word k hk e he
    exact (List.getElem?_eq_some_iff.mp h2).1

theorem rinv_init (hi : L.initial < L.nodes.length) : RInv L sc sa F [(L.initial, [])] ⟨[⟨[], []⟩], []⟩ where
  len := rfl
  root := rfl
  inNodes := by simpa using hi
  word := by simp
  fin := by simp
  maps := by
    intro u nd h
    cases u with
    | zero => simp at h; subst h; simp
    | succ u => simp at h
  outs := by
    intro u nd h
    cases u with
    | zero => simp at h; subst h; simp
    | succ u => simp at h

theorem getElem?_append_of_some {α : Type} {l l' : List α} {i : Nat} {x : α} (h : l[i]? = some x) :
    (l ++ l')[i]? = some x := by
  rw [List.getElem?_append_left (List.getElem?_eq_some_iff.mp h).1, h]

theorem RInv.addNode (h : RInv L sc sa F info R) (b : Nat) (ws : List Str) (hb : b < L.nodes.length) :
    RInv L sc sa F (info ++ [(b, ws)]) { R with nodes := R.nodes ++ [⟨[], []⟩] } where
  len := by simp [h.len]
  root := getElem?_append_of_some h.root
  inNodes := by
    intro p hp
    rcases List.mem_append.mp hp with hp | hp
    · exact h.inNodes p hp
    · simp only [List.mem_singleton] at hp; subst hp; exact hb
  word := fun k hk e he => by
    obtain ⟨w, seg, a, ws, b, ws', h1, h2, h3, h4, h5⟩ := h.word k hk e he
    exact ⟨w, seg, a, ws, b, ws', h1, getElem?_append_of_some h2, getElem?_append_of_some h3, h4, h5⟩
  fin := fun k hk he => by
    obtain ⟨a, ws, h1, h2, h3, h4, h5⟩ := h.fin k hk he
    exact ⟨a, ws, h1, getElem?_append_of_some h2, h3, h4, h5⟩
  maps := by
    intro u nd hu
    simp only [List.getElem?_append] at hu
    split at hu
    · exact h.maps u nd hu
    · have : nd = ⟨[], []⟩ := by
        have := List.mem_of_getElem? hu
        simpa using this
      subst this
      simp
  outs := by
    intro u nd hu l
    simp only [List.getElem?_append] at hu
    split at hu
    · exact h.outs u nd hu l
    · rename_i hge
      have : nd = ⟨[], []⟩ := by
        have := List.mem_of_getElem? hu
        simpa using this
      subst this
      constructor
      · intro hl; cases hl
      · rintro ⟨k, hk, rfl⟩
        exact absurd (h.start_lt (List.mem_of_getElem? hk)) hge

theorem modify_getElem? {α : Type} (l : List α) (f : α → α) (i j : Nat) :
    (l.modify i f)[j]? = if i = j then l[j]?.map f else l[j]? := by
  rw [List.getElem?_modify]
  split <;> simp

theorem RInv.addLink (h : RInv L sc sa F info R) (k : RLink S) (hs : k.startNode < R.nodes.length)
    (hword : ∀ e, k.endNode = some e → ∃ (w : Str) (seg : List (Link S)) (a : Nat) (ws : List Str) (b : Nat) (ws' : List Str), k.word = some w ∧
      info[k.startNode]? = some (a, ws) ∧ info[e]? = some (b, ws') ∧ WordStep L a w seg b ∧
      (sc → ws' = ws ++ [w] ∧ k.lm = lmOf seg) ∧ (sa → k.ac = acOf seg ∧
        k.transitions = (seg.reverse.map Link.transitions).flatten))
    (hfin : k.endNode = none → ∃ a ws, k.word = none ∧ info[k.startNode]? = some (a, ws) ∧ k.ac = 0 ∧
      k.transitions = [] ∧ F a ws k.lm) : RInv L sc sa F info (R.addLink k) where
  len := by simp [RLat.addLink, h.len]
  root := h.root
  inNodes := h.inNodes
  word := fun k' hk e he => by
    rcases List.mem_append.mp hk with hk | hk
    · exact h.word k' hk e he
    · simp only [List.mem_singleton] at hk; subst hk; exact hword e he
  fin := fun k' hk he => by
    rcases List.mem_append.mp hk with hk | hk
    · exact h.fin k' hk he
    · simp only [List.mem_singleton] at hk; subst hk; exact hfin he
  maps := by
    intro u nd hu p hp
    simp only [RLat.addLink] at hu ⊢
    rw [modify_getElem?] at hu
    have hold : ∀ nd', R.nodes[u]? = some nd' → p ∈ nd'.wordToLink → ∃ k', (R.links ++ [k])[p.2]? = some k' ∧
        k'.startNode = u ∧ k'.word = some p.1 ∧ k'.endNode ≠ none := by
      intro nd' h1 h2
      obtain ⟨k', h3, h4⟩ := h.maps u nd' h1 p h2
      exact ⟨k', getElem?_append_of_some h3, h4⟩
    split at hu
    · rename_i he
      obtain ⟨nd', hnd', rfl⟩ := Option.map_eq_some_iff.mp hu
      cases hw : k.word with
      | none => rw [hw] at hp; exact hold nd' hnd' hp
      | some w =>
        rw [hw] at hp
        simp only [List.mem_append, List.mem_singleton] at hp
        rcases hp with hp | rfl
        · exact hold nd' hnd' hp
        · refine ⟨k, by simp, he, hw, fun hn => ?_⟩
          obtain ⟨_, _, h1, _⟩ := hfin hn
          rw [hw] at h1; cases h1
    · exact hold nd hu hp
  outs := by
    intro u nd hu l
    simp only [RLat.addLink] at hu ⊢
    rw [modify_getElem?] at hu
    have hlinks : (∃ k', (R.links ++ [k])[l]? = some k' ∧ k'.startNode = u) ↔
        ((∃ k', R.links[l]? = some k' ∧ k'.startNode = u) ∨ (l = R.links.length ∧ k.startNode = u)) := by
      rcases Nat.lt_trichotomy l R.links.length with hlt | rfl | hgt
      · rw [List.getElem?_append_left hlt]
        constructor
        · exact Or.inl
        · rintro (h | ⟨rfl, _⟩)
          · exact h
          · omega
      · simp
      · rw [List.getElem?_append_right (by omega), List.getElem?_eq_none (by simp; omega),
          List.getElem?_eq_none (by omega)]
        simp; omega
    rw [hlinks]
    split at hu
    · rename_i he
      obtain ⟨nd', hnd', rfl⟩ := Option.map_eq_some_iff.mp hu
      simp only [List.mem_append, List.mem_singleton]
      rw [h.outs u nd' hnd' l]
      simp [he]
    · rename_i he
      rw [h.outs u nd hu l]
      simp [he]

/-- The words that are followed, and the node in the original lattice: words that are not found are skipped. -/
inductive Takes (L : Lattice S) : Nat → List Str → List Str → Nat → Prop
  | nil (a : Nat) : Takes L a [] [] a
  | skip (a : Nat) (w : Str) (ws ws' : List Str) (b : Nat) : (∀ seg c, ¬ WordStep L a w seg c) → Takes L a ws ws' b →
      Takes L a (w :: ws) ws' b
  | take (a : Nat) (w : Str) (ws ws' : List Str) (b c : Nat) (seg : List (Link S)) : WordStep L a w seg c →
      Takes L c ws ws' b → Takes L a (w :: ws) (w :: ws') b

/-- Paths of word links in the new lattice. -/
inductive RPath (R : RLat S) : Nat → List Str → Nat → Prop
  | nil (a : Nat) : RPath R a [] a
  | cons (a b : Nat) (w : Str) (ws : List Str) (k : RLink S) (e : Nat) : k ∈ R.links → k.startNode = a →
      k.word = some w → k.endNode = some e → RPath R e ws b → RPath R a (w :: ws) b

theorem RPath.mono {R' : RLat S} (hR : ∀ k ∈ R.links, k ∈ R'.links) {a b : Nat} {ws : List Str} (h : RPath R a ws b) :
    RPath R' a ws b := by
  induction h with
  | nil => exact .nil _
  | cons a b w ws k e h1 h2 h3 h4 _ ih => exact .cons a b w ws k e (hR k h1) h2 h3 h4 ih

/-- Following words from a node of the new lattice. -/
theorem followWords_inv (hw : L.WF) (hd : Determinized L) {depth : Nat} {maps : List (List (Str × Nat))}
    (hm : wordMaps L depth (List.range L.nodes.length) = .ok maps) (create : Bool) (ws : List Str) :
    ∀ (info : List (Nat × List Str)) (R R' : RLat S) (node node' orig : Nat) (pre : List Str), RInv L sc sa F info R →
    info[node]? = some (orig, pre) → followWords L maps depth create ws R node orig = .ok (R', node') →
    ∃ info' b ws' pre', RInv L sc sa F info' R' ∧ (∃ t, info' = info ++ t) ∧ (∃ t, R'.links = R.links ++ t) ∧
      (create = false → R' = R) ∧ info'[node']? = some (b, pre') ∧ (sc → pre' = pre ++ ws') ∧
      Takes L orig ws ws' b ∧ RPath R' node ws' node' := by
  induction ws with
  | nil =>
    intro info R R' node node' orig pre hI hn h
    cases h
    exact ⟨info, orig, [], pre, hI, ⟨[], by simp⟩, ⟨[], by simp⟩, fun _ => rfl, hn, fun _ => by simp, .nil _, .nil _⟩
  | cons w ws ih =>
    intro info R R' node node' orig pre hI hn h
    have horig : orig < L.nodes.length := hI.inNodes _ (List.mem_of_getElem? hn)
    unfold followWords at h
    cases hf : followWord L maps w depth orig with
    | error e => rw [hf] at h; cases h
    | ok r =>
      obtain ⟨hnone, hsome⟩ := followWord_spec hw hm w depth orig r horig hf
      rw [hf] at h
      cases r with
      | none =>
        obtain ⟨info', b, ws', pre', h1, h2, h3, h4, h5, h6, h7, h8⟩ := ih info R R' node node' orig pre hI hn h
        exact ⟨info', b, ws', pre', h1, h2, h3, h4, h5, h6, .skip _ _ _ _ _ (hnone rfl) h7, h8⟩
      | some r =>
        obtain ⟨hre, seg, hstep, hac, hlm, htr⟩ := hsome r rfl
        simp only at h
        have hnode : node < R.nodes.length := by rw [hI.len]; exact (List.getElem?_eq_some_iff.mp hn).1
        obtain ⟨nd, hnd⟩ : ∃ nd, R.nodes[node]? = some nd := ⟨_, List.getElem?_eq_getElem hnode⟩
        rw [List.getD_eq_getElem?_getD, hnd, Option.getD_some] at h
        cases hg : mapGet nd.wordToLink w with
        | some l =>
          rw [hg] at h
          simp only at h
          obtain ⟨k, hk, hks, hkw, hke⟩ := hI.maps node nd hnd _ (mapGet_some hg)
          simp only at hk hkw
          rw [hk] at h
          simp only at h
          have hkm := List.mem_of_getElem? hk
          cases hkn : k.endNode with
          | none => exact absurd hkn hke
          | some e =>
            rw [hkn] at h
            simp only at h
            obtain ⟨w', seg', a, wsa, b, wsb, g1, g2, g3, g4, g5⟩ := hI.word k hkm e hkn
            rw [hkw] at g1
            cases g1
            rw [hks, hn] at g2
            cases g2
            obtain ⟨rfl, rfl⟩ := hd _ _ _ _ _ _ hstep g4
            obtain ⟨info', b, ws', pre', h1, h2, h3, h4, h5, h6, h7, h8⟩ := ih info R R' e node' _ wsb hI g3 h
            obtain ⟨t, ht⟩ := h3
            refine ⟨info', b, w :: ws', pre', h1, h2, ⟨t, ht⟩, h4, h5, fun hsc => ?_, .take _ _ _ _ _ _ _ hstep h7,
              .cons _ _ _ _ k e (by rw [ht]; exact List.mem_append_left _ hkm) hks hkw hkn h8⟩
            rw [h6 hsc, (g5.1 hsc).1, List.append_assoc]; rfl
        | none =>
          rw [hg] at h
          simp only at h
          cases create with
          | false => cases h
          | true =>
            simp only [Bool.true_eq_false, if_false] at h
            have hA := hI.addNode r.endNode (pre ++ [w]) hre
            have hnew : (info ++ [(r.endNode, pre ++ [w])])[R.nodes.length]? = some (r.endNode, pre ++ [w]) := by
              rw [hI.len]; simp
            have hB := hA.addLink ⟨node, some R.nodes.length, some w, r.ac, r.lm, r.transitions⟩ (by simp; omega)
              (fun e he => by
                cases he
                exact ⟨w, seg, orig, pre, r.endNode, pre ++ [w], rfl, getElem?_append_of_some hn, hnew, hstep,
                  fun _ => ⟨rfl, hlm⟩, fun _ => ⟨hac, htr⟩⟩) (fun he => by cases he)
            obtain ⟨info', b, ws', pre', h1, h2, h3, h4, h5, h6, h7, h8⟩ :=
              ih _ _ R' R.nodes.length node' _ (pre ++ [w]) hB hnew h
            obtain ⟨t, ht⟩ := h2
            obtain ⟨u, hu⟩ := h3
            refine ⟨info', b, w :: ws', pre', h1, ⟨(r.endNode, pre ++ [w]) :: t, by simp [ht]⟩,
              ⟨⟨node, some R.nodes.length, some w, r.ac, r.lm, r.transitions⟩ :: u, by rw [hu]; simp [RLat.addLink]⟩,
              (fun h => by cases h), h5, fun hsc => ?_, .take _ _ _ _ _ _ _ hstep h7,
              .cons _ _ _ _ ⟨node, some R.nodes.length, some w, r.ac, r.lm, r.transitions⟩ R.nodes.length
                (by rw [hu]; simp [RLat.addLink]) rfl rfl rfl h8⟩
            rw [h6 hsc, List.append_assoc]; rfl

end
end TheanoLM
