import Verif.Props.DecoderSpec
import Mathlib.Data.List.Nodup
import Mathlib.Tactic.Linarith
import Mathlib.Tactic.Ring
import Mathlib.Order.Basic
/-!
# Lemmas about the lattice decoder: sorting, recombination and pruning
-/
namespace TheanoLM

variable {S St : Type}

set_option linter.unusedSectionVars false

theorem limited_iff (order : Option Nat) (h h' : List HistWord) :
    limitedHistory order h = limitedHistory order h' ↔ SameRecent order h h' := by
  unfold limitedHistory SameRecent
  match order with
  | none => exact Iff.rfl
  | some 0 => exact Iff.rfl
  | some (n + 1) =>
    simp only
    rw [List.take_reverse, List.take_reverse, List.reverse_inj]

theorem sameRecent_symm {order : Option Nat} {h h' : List HistWord} (e : SameRecent order h h') :
    SameRecent order h' h := by
  rw [← limited_iff] at e ⊢; exact e.symm

section
variable [Field S] [LinearOrder S]

theorem sorted_desc (tokens : List (Token S St)) :
    Descending (tokens.insertionSort (fun a b => b.total ≤ a.total)) := by
  have : Std.Total (fun a b : Token S St => b.total ≤ a.total) := ⟨fun a b => le_total _ _⟩
  have : IsTrans (Token S St) (fun a b => b.total ≤ a.total) := ⟨fun a b c h1 h2 => le_trans h2 h1⟩
  exact List.pairwise_insertionSort _ tokens

/-- What the recombination loop does. -/
structure RecombSpec (ts kept : List (Token S St)) (r : List (Token S St) × List (Recomb S St)) : Prop where
  sub : r.1.Sublist ts
  nodup : (r.1.map Token.hash).Nodup
  disj : ∀ t ∈ r.1, ∀ k ∈ kept, k.hash ≠ t.hash
  recs : ∀ e ∈ r.2, ∃ k ∈ kept ++ r.1, k.hash = e.1.hash ∧ e.2.1 = k.history ∧ e.2.2 = k.nnLm ∧ e.1.total ≤ k.total
  perm : (r.1 ++ r.2.map Prod.fst).Perm ts

theorem recombineLoop_spec (ts : List (Token S St)) : ∀ kept : List (Token S St), Descending ts →
    (∀ k ∈ kept, ∀ t ∈ ts, t.total ≤ k.total) → RecombSpec ts kept (recombineLoop ts kept) := by
  induction ts with
  | nil => intro kept _ _; constructor <;> simp [recombineLoop]
  | cons t ts ih =>
    intro kept hs hk
    unfold Descending at hs
    rw [List.pairwise_cons] at hs
    unfold recombineLoop
    split
    · rename_i hf
      rw [List.find?_eq_none] at hf
      have h := ih (kept ++ [t]) hs.2 (by
        intro k hk' t' ht'
        rcases List.mem_append.mp hk' with h1 | h1
        · exact hk k h1 t' (List.mem_cons_of_mem _ ht')
        · rw [List.mem_singleton.mp h1]; exact hs.1 t' ht')
      constructor
      · exact h.sub.cons_cons t
      · rw [List.map_cons, List.nodup_cons]
        refine ⟨?_, h.nodup⟩
        intro hm
        obtain ⟨t', ht', he⟩ := List.mem_map.mp hm
        exact h.disj t' ht' t (by simp) he.symm
      · intro t' ht' k hk'
        rcases List.mem_cons.mp ht' with rfl | h1
        · simpa using hf k hk'
        · exact h.disj t' h1 k (List.mem_append_left _ hk')
      · intro e he
        obtain ⟨k, hk', h1⟩ := h.recs e he
        exact ⟨k, by simpa using hk', h1⟩
      · exact h.perm.cons t
    · rename_i k hf
      have hkm := List.mem_of_find?_eq_some hf
      have hkh := List.find?_some hf
      have h := ih kept hs.2 (fun k' hk' t' ht' => hk k' hk' t' (List.mem_cons_of_mem _ ht'))
      constructor
      · exact h.sub.cons t
      · exact h.nodup
      · exact h.disj
      · intro e he
        rcases List.mem_cons.mp he with rfl | h1
        · exact ⟨k, List.mem_append_left _ hkm, by simpa using hkh, rfl, rfl, hk k hkm t (by simp)⟩
        · exact h.recs e h1
      · simp only [List.map_cons]
        exact (List.perm_middle).trans (h.perm.cons t)

theorem recombineLoop_head {t : Token S St} {ts : List (Token S St)} :
    (recombineLoop (t :: ts) []).1.head? = some t := by
  simp [recombineLoop]

/-- What sorting and recombination do. -/
structure SortSpec (ts : List (Token S St)) (r : List (Token S St) × List (Recomb S St)) : Prop where
  desc : Descending r.1
  nodup : (r.1.map Token.hash).Nodup
  recs : ∀ e ∈ r.2, ∃ k ∈ r.1, k.hash = e.1.hash ∧ e.2.1 = k.history ∧ e.2.2 = k.nnLm ∧ e.1.total ≤ k.total
  perm : (r.1 ++ r.2.map Prod.fst).Perm ts
  ne_nil : ts ≠ [] → r.1 ≠ []

theorem sortedRecombined_spec (ts : List (Token S St)) : SortSpec ts (sortedRecombined ts) := by
  have hd := sorted_desc ts
  have hp := List.perm_insertionSort (fun a b : Token S St => b.total ≤ a.total) ts
  have h := recombineLoop_spec _ [] hd (by simp)
  constructor
  · exact hd.sublist h.sub
  · exact h.nodup
  · intro e he
    obtain ⟨k, hk, h1⟩ := h.recs e he
    exact ⟨k, by simpa [sortedRecombined] using hk, h1⟩
  · exact h.perm.trans hp
  · intro hne
    unfold sortedRecombined
    cases hm : ts.insertionSort (fun a b => b.total ≤ a.total) with
    | nil => rw [hm] at hp; exact absurd hp.symm.eq_nil hne
    | cons t l =>
      have := recombineLoop_head (t := t) (ts := l)
      intro e
      rw [e] at this
      cases this

/-- Every token is represented by a kept token. -/
theorem SortSpec.kept {ts : List (Token S St)} {r : List (Token S St) × List (Recomb S St)} (h : SortSpec ts r)
    {t : Token S St} (ht : t ∈ ts) : ∃ k ∈ r.1, k.hash = t.hash ∧ t.total ≤ k.total := by
  rcases List.mem_append.mp (h.perm.mem_iff.mpr ht) with h1 | h1
  · exact ⟨t, h1, rfl, le_refl _⟩
  · obtain ⟨e, he, rfl⟩ := List.mem_map.mp h1
    obtain ⟨k, hk, h2, _, _, h3⟩ := h.recs e he
    exact ⟨k, hk, h2, h3⟩

theorem SortSpec.subset {ts : List (Token S St)} {r : List (Token S St) × List (Recomb S St)} (h : SortSpec ts r)
    {t : Token S St} (ht : t ∈ r.1) : t ∈ ts := h.perm.mem_iff.mp (List.mem_append_left _ ht)

theorem SortSpec.recomb_mem {ts : List (Token S St)} {r : List (Token S St) × List (Recomb S St)} (h : SortSpec ts r)
    {e : Recomb S St} (he : e ∈ r.2) : e.1 ∈ ts :=
  h.perm.mem_iff.mp (List.mem_append_right _ (List.mem_map.mpr ⟨e, he, rfl⟩))

/-- The number of tokens that the beam leaves. -/
theorem keepTokens_spec (tokens : List (Token S St)) (th : S) (n : Nat) (hn : n ≤ tokens.length) :
    keepTokens tokens th n ≤ n ∧ (1 ≤ n → 1 ≤ keepTokens tokens th n) ∧
    (∀ (i : Nat) (t : Token S St), keepTokens tokens th n ≤ i → i < n → tokens[i]? = some t → t.total ≤ th) ∧
    (∀ (i : Nat) (t : Token S St), keepTokens tokens th n = i + 2 → tokens[i + 1]? = some t → th < t.total) := by
  induction n using keepTokens.induct with
  | tokens => exact tokens
  | threshold => exact th
  | case1 => simp [keepTokens]
  | case2 => simp [keepTokens]; intro i t h; omega
  | case3 n hnone =>
    rw [List.getElem?_eq_none_iff] at hnone
    omega
  | case4 n t ht hle ih =>
    obtain ⟨h1, h2, h3, h4⟩ := ih (by omega)
    have he : keepTokens tokens th (n + 2) = keepTokens tokens th (n + 1) := by
      rw [keepTokens]; simp only [ht]; exact if_pos hle
    rw [he]
    refine ⟨by omega, fun _ => h2 (by omega), ?_, h4⟩
    intro i t' hi hi2 ht'
    by_cases hin : i = n + 1
    · subst hin; rw [ht] at ht'; cases ht'; exact hle
    · exact h3 i t' hi (by omega) ht'
  | case5 n t ht hle =>
    have he : keepTokens tokens th (n + 2) = n + 2 := by
      rw [keepTokens]; simp only [ht]; exact if_neg hle
    rw [he]
    refine ⟨le_refl _, fun _ => by omega, fun i t' h1 h2 _ => by omega, ?_⟩
    intro i t' hi ht'
    have : i = n := by omega
    subst this
    rw [ht] at ht'
    cases ht'
    exact not_le.mp hle

/-- The tokens that the beam leaves. -/
def beamTokens (D : Decoder S St) (divider : Nat) (best : S) (ts : List (Token S St)) : List (Token S St) :=
  match D.beam with
  | none => ts
  | some beam => ts.take (keepTokens ts (best - max (beam / (divider : S)) D.absMinBeam) ts.length)

theorem pruneTokens_eq (D : Decoder S St) (divider : Nat) (best : S) (ts : List (Token S St)) :
    pruneTokens D divider best ts =
      (limitTokens D divider (beamTokens D divider best (sortedRecombined ts).1), (sortedRecombined ts).2) := rfl

theorem beamTokens_prefix (D : Decoder S St) (divider : Nat) (best : S) (ts : List (Token S St)) :
    beamTokens D divider best ts <+: ts := by
  unfold beamTokens
  split
  · exact List.prefix_refl _
  · exact List.take_prefix _ _

theorem limitTokens_prefix (D : Decoder S St) (divider : Nat) (ts : List (Token S St)) :
    limitTokens D divider ts <+: ts := by
  unfold limitTokens
  split
  · exact List.prefix_refl _
  · exact List.take_prefix _ _

theorem pruneTokens_prefix (D : Decoder S St) (divider : Nat) (best : S) (ts : List (Token S St)) :
    (pruneTokens D divider best ts).1 <+: (sortedRecombined ts).1 := by
  rw [pruneTokens_eq]
  exact (limitTokens_prefix _ _ _).trans (beamTokens_prefix _ _ _ _)

theorem beamTokens_ne_nil (D : Decoder S St) (divider : Nat) (best : S) {ts : List (Token S St)} (h : ts ≠ []) :
    beamTokens D divider best ts ≠ [] := by
  unfold beamTokens
  split
  · exact h
  · have hl : 1 ≤ ts.length := List.length_pos_iff.mpr h
    rename_i beam _
    have := (keepTokens_spec ts (best - max (beam / (divider : S)) D.absMinBeam) ts.length (le_refl _)).2.1 hl
    intro e
    rw [List.take_eq_nil_iff] at e
    rcases e with e | e
    · omega
    · exact h e

/-- A prefix of a descending list: everything outside it is at most everything inside. -/
theorem prefix_desc {ts r : List (Token S St)} (hd : Descending ts) (hp : r <+: ts) {t k : Token S St} (ht : t ∈ ts)
    (htr : t ∉ r) (hk : k ∈ r) : t.total ≤ k.total := by
  obtain ⟨q, rfl⟩ := hp
  unfold Descending at hd
  rw [List.pairwise_append] at hd
  rcases List.mem_append.mp ht with h | h
  · exact absurd h htr
  · exact hd.2.2 k hk t h

end
end TheanoLM
