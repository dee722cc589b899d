import Verif.Lemmas.SlfLattice
/-!
# Lemmas about moving words from nodes to links
-/
namespace TheanoLM

variable {S : Type}

/-- There is a link from `a` to `b`. -/
def EdgeIn (ks : List (Link S)) (a b : Nat) : Prop := ∃ k ∈ ks, k.startNode = a ∧ k.endNode = b

/-- The word of the end node has been moved to the link. -/
def Resolved (words : Nat → Option (Option Str)) (k0 k : Link S) : Prop :=
  ∃ w, k = { k0 with word := w } ∧ (words k0.endNode = none → w = k0.word) ∧
    ∀ x, words k0.endNode = some x → k0.word = none ∧ w = x

structure VisitInv (words : Nat → Option (Option Str)) (ks0 : List (Link S)) (initial : Nat) (stack V : List Nat)
    (links : List (Link S)) : Prop where
  len : links.length = ks0.length
  nodup : stack.Nodup
  stack_mem : ∀ l ∈ stack, ∃ k0, ks0[l]? = some k0 ∧ k0.startNode ∈ V
  init : initial ∈ V
  reach : ∀ n ∈ V, Relation.ReflTransGen (EdgeIn ks0) initial n
  pending : ∀ l k0, ks0[l]? = some k0 → (l ∈ stack ∨ k0.startNode ∉ V) → links[l]? = some k0
  done : ∀ l k0, ks0[l]? = some k0 → l ∉ stack → k0.startNode ∈ V → k0.endNode ∈ V ∧
    ∃ k, links[l]? = some k ∧ Resolved words k0 k

theorem visit_step {words : Nat → Option (Option Str)} {ks0 : List (Link S)} {initial : Nat} {l : Nat}
    {stack V : List Nat} {links : List (Link S)} (hi : VisitInv words ks0 initial (l :: stack) V links) {k0 k : Link S}
    (hk0 : ks0[l]? = some k0) (hres : Resolved words k0 k) (out : List Nat)
    (hout : ∀ m, m ∈ out ↔ k0.endNode ∉ V ∧ ∃ k1, ks0[m]? = some k1 ∧ k1.startNode = k0.endNode)
    (hnd : out.Nodup) (V' : List Nat) (hV' : ∀ n, n ∈ V' ↔ n ∈ V ∨ n = k0.endNode) :
    VisitInv words ks0 initial (out ++ stack) V' (links.set l k) := by
  have hlt : l < links.length := by rw [hi.len]; exact (List.getElem?_eq_some_iff.mp hk0).1
  have hnd' := List.nodup_cons.mp hi.nodup
  obtain ⟨k0', hk0', hsV⟩ := hi.stack_mem l (by simp)
  rw [hk0] at hk0'
  cases hk0'
  constructor
  · rw [List.length_set]; exact hi.len
  · rw [List.nodup_append]
    refine ⟨hnd, hnd'.2, ?_⟩
    intro a ha b hb hab
    subst hab
    obtain ⟨h1, k1, hk1, hs1⟩ := (hout a).mp ha
    obtain ⟨k2, hk2, hs2⟩ := hi.stack_mem a (by simp [hb])
    rw [hk1] at hk2
    cases hk2
    rw [hs1] at hs2
    exact h1 hs2
  · intro m hm
    rcases List.mem_append.mp hm with hm | hm
    · obtain ⟨_, k1, hk1, hs1⟩ := (hout m).mp hm
      exact ⟨k1, hk1, (hV' _).mpr (Or.inr hs1)⟩
    · obtain ⟨k1, hk1, hs1⟩ := hi.stack_mem m (by simp [hm])
      exact ⟨k1, hk1, (hV' _).mpr (Or.inl hs1)⟩
  · exact (hV' _).mpr (Or.inl hi.init)
  · intro n hn
    rcases (hV' n).mp hn with h | h
    · exact hi.reach n h
    · rw [h]
      exact (hi.reach _ hsV).tail ⟨k0, List.mem_of_getElem? hk0, rfl, rfl⟩
  · intro m k1 hk1 hm
    have hml : m ≠ l := by
      rintro rfl
      rw [hk0] at hk1
      cases hk1
      rcases hm with hm | hm
      · rcases List.mem_append.mp hm with hm | hm
        · obtain ⟨h1, k2, hk2, hs2⟩ := (hout m).mp hm
          rw [hk0] at hk2
          cases hk2
          rw [← hs2] at h1
          exact h1 hsV
        · exact hnd'.1 hm
      · exact hm ((hV' _).mpr (Or.inl hsV))
    rw [List.getElem?_set_ne (Ne.symm hml)]
    apply hi.pending m k1 hk1
    rcases hm with hm | hm
    · rcases List.mem_append.mp hm with hm | hm
      · obtain ⟨h1, k2, hk2, hs2⟩ := (hout m).mp hm
        rw [hk1] at hk2
        cases hk2
        right
        rw [hs2]; exact h1
      · left; simp [hm]
    · right
      exact fun h => hm ((hV' _).mpr (Or.inl h))
  · intro m k1 hk1 hm hs
    rw [List.mem_append, not_or] at hm
    by_cases hml : m = l
    · subst hml
      rw [hk0] at hk1
      cases hk1
      refine ⟨(hV' _).mpr (Or.inr rfl), k, ?_, hres⟩
      rw [List.getElem?_set_self hlt]
    · rw [List.getElem?_set_ne (Ne.symm hml)]
      have hsV1 : k1.startNode ∈ V := by
        rcases (hV' _).mp hs with h | h
        · exact h
        · by_contra hn
          exact hm.1 ((hout m).mpr ⟨by rw [← h]; exact hn, k1, hk1, h⟩)
      obtain ⟨h1, h2⟩ := hi.done m k1 hk1 (by simp [hml, hm.2]) hsV1
      exact ⟨(hV' _).mpr (Or.inl h1), h2⟩

theorem slfVisit_spec {words : Nat → Option (Option Str)} {wordsL : List (Option (Option Str))} {nodes : List Node}
    {ks0 : List (Link S)} {initial : Nat}
    (hw : ∀ k ∈ ks0, wordsL.getD k.endNode none = words k.endNode)
    (hn : ∀ k ∈ ks0, (nodes.getD k.endNode Node.new).outLinks = idxs (sIs k.endNode) ks0) :
    ∀ (fuel : Nat) {stack V : List Nat} {links links' : List (Link S)}, VisitInv words ks0 initial stack V links →
      slfVisit wordsL nodes fuel stack V links = some (.ok links') → ∃ V', VisitInv words ks0 initial [] V' links' := by
  intro fuel
  induction fuel with
  | zero =>
    intro stack V links links' hi h
    cases stack with
    | nil => cases h; exact ⟨V, hi⟩
    | cons l stack => cases h
  | succ fuel ih =>
    intro stack V links links' hi h
    cases stack with
    | nil => cases h; exact ⟨V, hi⟩
    | cons l stack =>
      obtain ⟨k0, hk0, hsV⟩ := hi.stack_mem l (by simp)
      have hl := hi.pending l k0 hk0 (Or.inl (by simp))
      have hmem := List.mem_of_getElem? hk0
      unfold slfVisit at h
      rw [hl] at h
      simp only [hw k0 hmem, hn k0 hmem] at h
      -- the word of the link
      have main : ∀ (k : Link S), Resolved words k0 k → ∀ out V', (out = (if k0.endNode ∈ V then [] else
          idxs (sIs k0.endNode) ks0)) → V' = (if k0.endNode ∈ V then V else k0.endNode :: V) →
          slfVisit wordsL nodes fuel (out ++ stack) V' (links.set l k) = some (.ok links') →
          ∃ V', VisitInv words ks0 initial [] V' links' := by
        intro k hk out V' ho hV' hrun
        refine ih (visit_step hi hk0 hk out ?_ ?_ V' ?_) hrun
        · intro m
          rw [ho]
          split
          · rename_i hin; simp [hin]
          · rename_i hin
            rw [mem_idxs]
            simp [hin, sIs]
        · rw [ho]
          split
          · simp
          · exact idxs_nodup _ _
        · intro n
          rw [hV']
          split
          · rename_i hin
            constructor
            · exact Or.inl
            · rintro (h | rfl)
              · exact h
              · exact hin
          · rw [List.mem_cons]; exact or_comm
      have key : ∀ k : Link S, Resolved words k0 k →
          (if k0.endNode ∈ V then slfVisit wordsL nodes fuel stack V (links.set l k)
            else slfVisit wordsL nodes fuel (idxs (sIs k0.endNode) ks0 ++ stack) (k0.endNode :: V) (links.set l k)) =
            some (.ok links') → ∃ V', VisitInv words ks0 initial [] V' links' := by
        intro k hk hrun
        refine main k hk _ _ rfl rfl ?_
        by_cases hin : k0.endNode ∈ V
        · rw [if_pos hin] at hrun
          rw [if_pos hin, if_pos hin]
          exact hrun
        · rw [if_neg hin] at hrun
          rw [if_neg hin, if_neg hin]
          exact hrun
      have hset : links.set l k0 = links := by
        apply List.ext_getElem?
        intro i
        by_cases hil : l = i
        · subst hil
          rw [List.getElem?_set_self (List.getElem?_eq_some_iff.mp hl).1, hl]
        · rw [List.getElem?_set_ne hil]
      cases hwe : words k0.endNode with
      | none =>
        rw [hwe] at h
        have hres : Resolved words k0 k0 := ⟨k0.word, rfl, fun _ => rfl, fun x hx => by rw [hwe] at hx; cases hx⟩
        refine key k0 hres ?_
        rw [hset]
        cases hkw : k0.word with
        | none => rw [hkw] at h; exact h
        | some w => rw [hkw] at h; exact h
      | some x =>
        rw [hwe] at h
        cases hkw : k0.word with
        | some w => rw [hkw] at h; simp at h
        | none =>
          rw [hkw] at h
          refine key { k0 with word := x } ⟨x, rfl, fun hn => ?_, fun y hy => ?_⟩ h
          · rw [hwe] at hn; cases hn
          · rw [hwe] at hy; cases hy; exact ⟨hkw, rfl⟩

theorem idxs_length {α : Type} (p : α → Bool) (l : List α) : (idxs p l).length = l.countP p := by
  induction l using List.reverseRecOn with
  | nil => rfl
  | append_singleton l x ih =>
    rw [idxs_append_single, List.length_append, ih, List.countP_append]
    by_cases h : p x <;> simp [h]

theorem count_split (ks : List (Link S)) (V : List Nat) (e : Nat) (he : e ∉ V) :
    ks.countP (sIs e) + ks.countP (fun k => decide (k.startNode ∉ e :: V)) ≤
      ks.countP (fun k => decide (k.startNode ∉ V)) := by
  induction ks with
  | nil => simp
  | cons k ks ihk =>
    rw [List.countP_cons, List.countP_cons, List.countP_cons]
    have e1 : (sIs e k = true) ↔ k.startNode = e := by simp [sIs]
    by_cases h1 : k.startNode = e
    · have h2 : k.startNode ∉ V := by rw [h1]; exact he
      rw [if_pos (e1.mpr h1), if_neg (by simp [h1]), if_pos (by simpa using h2)]
      omega
    · by_cases h2 : k.startNode ∈ V
      · rw [if_neg (fun h => h1 (e1.mp h)), if_neg (by simp [h2]), if_neg (by simp [h2])]
        omega
      · rw [if_neg (fun h => h1 (e1.mp h)), if_pos (by simp [h1, h2]), if_pos (by simp [h2])]
        omega

/-- Every link is visited at most once. -/
theorem slfVisit_terminates {wordsL : List (Option (Option Str))} {nodes : List Node} {ks0 : List (Link S)}
    (hn : ∀ n, (nodes.getD n Node.new).outLinks = idxs (sIs n) ks0 ∨ (nodes.getD n Node.new).outLinks = []) :
    ∀ (fuel : Nat) (stack V : List Nat) (links : List (Link S)),
      stack.length + ks0.countP (fun k => decide (k.startNode ∉ V)) ≤ fuel →
      slfVisit wordsL nodes fuel stack V links ≠ none := by
  intro fuel
  induction fuel with
  | zero =>
    intro stack V links h
    cases stack with
    | nil => simp [slfVisit]
    | cons l stack => simp at h
  | succ fuel ih =>
    intro stack V links h
    cases stack with
    | nil => simp [slfVisit]
    | cons l stack =>
      have hcount : ∀ e, e ∉ V → (nodes.getD e Node.new).outLinks.length +
          ks0.countP (fun k => decide (k.startNode ∉ e :: V)) ≤ ks0.countP (fun k => decide (k.startNode ∉ V)) := by
        intro e he
        have hle : ks0.countP (sIs e) + ks0.countP (fun k => decide (k.startNode ∉ e :: V)) ≤
            ks0.countP (fun k => decide (k.startNode ∉ V)) := by
          exact count_split ks0 V e he
        rcases hn e with h1 | h1
        · rw [h1, idxs_length]; exact hle
        · rw [h1]; simp only [List.length_nil]; omega
      have hstep : ∀ (e : Nat) (links' : List (Link S)),
          (if e ∈ V then slfVisit wordsL nodes fuel stack V links'
            else slfVisit wordsL nodes fuel ((nodes.getD e Node.new).outLinks ++ stack) (e :: V) links') ≠ none := by
        intro e links'
        rw [List.length_cons] at h
        split
        · exact ih _ _ _ (by omega)
        · rename_i he
          refine ih _ _ _ ?_
          have := hcount e he
          rw [List.length_append]
          omega
      unfold slfVisit
      split
      · simp
      · rename_i link hl
        split
        · simp
        · exact hstep _ _

end TheanoLM
