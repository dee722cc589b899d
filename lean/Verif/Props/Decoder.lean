import Verif.Lemmas.DecoderComplete
import Verif.Model.DecodeCommand
import Verif.Props.Lattice
import Verif.Props.Vocabulary
/-!
# Properties of the lattice decoder (C29-C34)
-/
namespace TheanoLM

variable {S St : Type} [Field S] [LinearOrder S] {D : Decoder S St} {L : Lattice S}

set_option linter.unusedSectionVars false

/-! ## C29: scores add up along paths -/

/-- The token describes the complete path: its history is `<s>`, the words of the path, and `</s>`, and its scores are
the sums over the path. -/
def DescribesPath (D : Decoder S St) (ls : List (Link S)) (t : Token S St) : Prop :=
  (∃ ws : List HistWord, t.history = .inl D.vocab.sos :: ws ++ [.inl D.vocab.eos] ∧
    List.Forall₂ (HistIs D.vocab) (pathText ls) ws) ∧ t.ac = acOf ls ∧ t.latLm = lmOf ls

theorem describes_end (ls : List (Link S)) : DescribesPath D ls (runEnd D L ls) := by
  obtain ⟨h1, h2, h3⟩ := runPath_attrs (D := D) (L := L) ls
  obtain ⟨g1, g2, g3⟩ := propagateEnd_attrs (D := D) (decLmScale D L) (decWiPenalty D L) (runPath D L ls)
  refine ⟨⟨pathWords D.vocab ls, ?_, forall₂_histIs _ _⟩, ?_, ?_⟩
  · unfold runEnd; rw [g1, h1]
  · unfold runEnd; rw [g2, h2]
  · unfold runEnd; rw [g3, h3]

/-- C29: every token that is returned describes a path from the initial node to a final node. -/
theorem C29_tokens (hw : L.WF) (finals : List (Token S St)) (recomb : List (Recomb S St))
    (h : decode D L = .ok (finals, recomb)) :
    ∀ t ∈ finals, ∃ (ls : List (Link S)) (n : Nat), L.Path L.initial ls n ∧ L.Final n ∧ DescribesPath D ls t := by
  intro t ht
  obtain ⟨ls, n, h1, h2, rfl⟩ := (decode_inv hw (path_keeps D L) h).1 t ht
  exact ⟨ls, n, h1, h2, describes_end ls⟩

/-- C29: the tokens are returned in descending order of total log probability, and there is at least one. -/
theorem C29_sorted (finals : List (Token S St)) (recomb : List (Recomb S St))
    (h : decode D L = .ok (finals, recomb)) : finals ≠ [] ∧ Descending finals := by
  obtain ⟨sorted, st, h1, h2, h3, rfl, rfl⟩ := decode_ok h
  exact ⟨(sortedRecombined_spec _).ne_nil h3, (sortedRecombined_spec _).desc⟩

/-- C29: the total log probability is the acoustic log probability, plus the interpolated language model log probability
multiplied by the scale, plus the word insertion penalty for every word and for `</s>`. -/
theorem C29_total (hw : L.WF) (hl : D.linear = false) (finals : List (Token S St)) (recomb : List (Recomb S St))
    (h : decode D L = .ok (finals, recomb)) :
    ∀ t ∈ finals, t.total = t.ac +
      (D.nnlmWeight * t.nnLm + (1 - D.nnlmWeight) * t.latLm) * (D.lmScale.or L.lmScale).getD 1 +
      (D.wiPenalty.or L.wiPenalty).getD 0 * ((t.history.length : S) - 1) := by
  intro t ht
  obtain ⟨ls, n, h1, h2, rfl⟩ := (decode_inv hw (path_keeps D L) h).1 t ht
  obtain ⟨_, hg, htot⟩ := computed_end (D := D) (L := L) ls
  rw [htot, hg]
  unfold graphLogprob
  simp only [hl, Bool.false_eq_true, if_false, loglinear_eq]
  unfold decLmScale decWiPenalty
  ring

/-- C29: a token that was recombined describes a path too: its history is the words of the path, with or without `</s>`,
and the history that is recorded with it belongs to a path to the same node, or is the history of a returned token. -/
theorem C29_recombined (hw : L.WF) (finals : List (Token S St)) (recomb : List (Recomb S St))
    (h : decode D L = .ok (finals, recomb)) :
    ∀ e ∈ recomb,
      (∃ (ls ls' : List (Link S)) (n : Nat) (ws ws' : List HistWord), L.Path L.initial ls n ∧ L.Path L.initial ls' n ∧
        e.1.history = .inl D.vocab.sos :: ws ∧ List.Forall₂ (HistIs D.vocab) (pathText ls) ws ∧
        e.1.ac = acOf ls ∧ e.1.latLm = lmOf ls ∧
        e.2.1 = .inl D.vocab.sos :: ws' ∧ List.Forall₂ (HistIs D.vocab) (pathText ls') ws' ∧
        SameRecent D.recombinationOrder e.1.history e.2.1) ∨
      (∃ (ls : List (Link S)) (n : Nat), L.Path L.initial ls n ∧ L.Final n ∧ DescribesPath D ls e.1 ∧
        ∃ k ∈ finals, e.2.1 = k.history ∧ e.2.2 = k.nnLm ∧ e.1.total ≤ k.total ∧
          SameRecent D.recombinationOrder e.1.history k.history) := by
  intro e he
  obtain ⟨hfin, hrec⟩ := decode_inv hw (path_keeps D L) h
  rcases hrec e he with ⟨n, ls, ls', h1, h2, h3, h4, h5, h6, h7⟩ | ⟨⟨ls, n, h1, h2, h3⟩, k, hk, h4, h5, h6, h7⟩
  · left
    obtain ⟨a1, a2, a3⟩ := runPath_attrs (D := D) (L := L) ls
    obtain ⟨b1, b2, b3⟩ := runPath_attrs (D := D) (L := L) ls'
    refine ⟨ls, ls', n, pathWords D.vocab ls, pathWords D.vocab ls', h1, h2, by rw [h3, a1], forall₂_histIs _ _,
      by rw [h3, a2], by rw [h3, a3], by rw [h4, b1], forall₂_histIs _ _, ?_⟩
    rw [h3, h4, ← limited_iff, ← (computed_run (D := D) (L := L) ls).hash, ← (computed_run (D := D) (L := L) ls').hash]
    exact h6.symm
  · right
    refine ⟨ls, n, h1, h2, by rw [h3]; exact describes_end ls, k, hk, h5, h6, h7, ?_⟩
    obtain ⟨ls', n', _, _, rfl⟩ := hfin k hk
    rw [h3] at h4 ⊢
    rw [← limited_iff, ← (computed_end (D := D) (L := L) ls).hash, ← (computed_end (D := D) (L := L) ls').hash]
    exact h4.symm

/-! ## C31: recombination -/

/-- The hashes of the tokens have been computed from the histories, as is the case for every token that the decoder
creates. -/
def Hashed (D : Decoder S St) (ts : List (Token S St)) : Prop :=
  ∀ t ∈ ts, t.hash = limitedHistory D.recombinationOrder t.history

theorem hash_iff {ts : List (Token S St)} (hh : Hashed D ts) {a b : Token S St} (ha : a ∈ ts) (hb : b ∈ ts) :
    a.hash = b.hash ↔ SameRecent D.recombinationOrder a.history b.history := by
  rw [hh a ha, hh b hb]; exact limited_iff _ _ _

/-- C31: recombination. -/
theorem C31_recombination (ts : List (Token S St)) (hh : Hashed D ts) (kept : List (Token S St))
    (dropped : List (Recomb S St)) (h : sortedRecombined ts = (kept, dropped)) :
    (∀ e ∈ dropped, ∃ k ∈ kept, SameRecent D.recombinationOrder k.history e.1.history ∧ e.1.total ≤ k.total ∧
      e.2.1 = k.history ∧ e.2.2 = k.nnLm) ∧
    (kept ++ dropped.map Prod.fst).Perm ts ∧ Descending kept ∧
    kept.Pairwise (fun a b => ¬ SameRecent D.recombinationOrder a.history b.history) := by
  have hs := sortedRecombined_spec ts
  rw [h] at hs
  refine ⟨?_, hs.perm, hs.desc, ?_⟩
  · intro e he
    obtain ⟨k, hk, h1, h2, h3, h4⟩ := hs.recs e he
    exact ⟨k, hk, (hash_iff hh (hs.subset hk) (hs.recomb_mem he)).mp h1, h4, h2, h3⟩
  · have := List.pairwise_map.mp hs.nodup
    exact this.imp_of_mem (fun {a b} ha hb hab hc => hab ((hash_iff hh (hs.subset ha) (hs.subset hb)).mpr hc))

/-! ## C30: pruning -/

/-- The tokens of a node after pruning. -/
theorem prune_tokens {sorted : List Nat} {node : Nat} {st st' : DecSt S St} (h : prune D L sorted node st = .ok st') :
    ∃ (divider : Nat) (best : S), limitDivider D sorted.length = .ok divider ∧
      bestLogprob D L sorted st.best node = .ok best ∧ st.tokens.getD node [] ≠ [] ∧
      st'.tokens.getD node [] = (pruneTokens D divider best (st.tokens.getD node [])).1 := by
  obtain ⟨hne, divider, best, h1, h2, rfl⟩ := prune_spec h
  refine ⟨divider, best, h1, h2, hne, ?_⟩
  have hlt : node < st.tokens.length := by
    by_contra hge
    apply hne
    rw [List.getD_eq_getElem?_getD, List.getElem?_eq_none (by omega)]
    rfl
  simp only
  rw [List.getD_eq_getElem?_getD, List.getElem?_set_self hlt, Option.getD_some]

/-- C30: the tokens that pruning leaves in a node. -/
theorem C30_pruning (sorted : List Nat) (node : Nat) (st st' : DecSt S St) (ts kept : List (Token S St))
    (hts : ts = st.tokens.getD node []) (hkept : kept = st'.tokens.getD node []) (hh : Hashed D ts)
    (h : prune D L sorted node st = .ok st')
    (hlim : ∀ m : Nat, D.maxTokens = some m → D.pruneExtraLimit = none ∧ 1 ≤ m ∨ 1 ≤ D.absMinMaxTokens) :
    kept ≠ [] ∧ (∀ k ∈ kept, k ∈ ts) ∧ Descending kept ∧
    kept.Pairwise (fun a b => ¬ SameRecent D.recombinationOrder a.history b.history) ∧
    (∃ k ∈ kept, ∀ t ∈ ts, t.total ≤ k.total) ∧
    (∀ t ∈ ts, (∃ k ∈ kept, SameRecent D.recombinationOrder k.history t.history ∧ t.total ≤ k.total) ∨
      ∀ k ∈ kept, t.total ≤ k.total) := by
  obtain ⟨divider, best, hd, hb, hne, he⟩ := prune_tokens h
  rw [← hkept, ← hts] at he
  rw [← hts] at hne
  have hs := sortedRecombined_spec ts
  have hpre := pruneTokens_prefix D divider best ts
  rw [← he] at hpre
  have hdesc := hs.desc
  have hkd : Descending kept := hdesc.sublist hpre.sublist
  have hkne : kept ≠ [] := by
    rw [he, pruneTokens_eq]
    have h1 := beamTokens_ne_nil D divider best (hs.ne_nil hne)
    simp only
    unfold limitTokens
    split
    · exact h1
    · rename_i m hm
      intro e
      rw [List.take_eq_nil_iff] at e
      rcases e with e | e
      · rcases hlim m hm with ⟨h2, h3⟩ | h2
        · unfold limitDivider at hd
          rw [h2] at hd
          cases hd
          rw [Nat.div_one] at e
          omega
        · omega
      · exact h1 e
  refine ⟨hkne, fun k hk => hs.subset (hpre.subset hk), hkd, ?_, ?_, ?_⟩
  · have := List.pairwise_map.mp (hs.nodup.sublist (hpre.sublist.map Token.hash))
    exact this.imp_of_mem (fun {a b} ha hb hab hc =>
      hab ((hash_iff hh (hs.subset (hpre.subset ha)) (hs.subset (hpre.subset hb))).mpr hc))
  · cases hk : kept with
    | nil => exact absurd hk hkne
    | cons k rest =>
      refine ⟨k, by simp, ?_⟩
      intro t ht
      obtain ⟨k', hk', _, h2⟩ := hs.kept ht
      refine le_trans h2 ?_
      obtain ⟨q, hq⟩ := hpre
      rw [hk] at hq
      rw [← hq] at hk' hdesc
      unfold Descending at hdesc
      rw [List.cons_append, List.pairwise_cons] at hdesc
      rw [List.cons_append] at hk'
      rcases List.mem_cons.mp hk' with rfl | h3
      · exact le_refl _
      · exact hdesc.1 _ h3
  · intro t ht
    obtain ⟨k', hk', h1, h2⟩ := hs.kept ht
    by_cases hm : k' ∈ kept
    · exact Or.inl ⟨k', hm, (hash_iff hh (hs.subset hk') ht).mp h1, h2⟩
    · exact Or.inr (fun k hk => le_trans h2 (prefix_desc hdesc hpre hk' hm hk))

/-- C30: the limit on the number of tokens. -/
theorem C30_limit (sorted : List Nat) (node : Nat) (st st' : DecSt S St) (h : prune D L sorted node st = .ok st')
    (m : Nat) (hm : D.maxTokens = some m) (hr : D.pruneExtraLimit = none) (ha : D.absMinMaxTokens = 0) :
    (st'.tokens.getD node []).length ≤ m := by
  obtain ⟨divider, best, hd, hb, hne, he⟩ := prune_tokens h
  rw [he, pruneTokens_eq]
  unfold limitDivider at hd
  rw [hr] at hd
  cases hd
  simp only [limitTokens, hm, ha, List.length_take, Nat.div_one]
  omega

/-- The best log probability that beam pruning of a node compares to. -/
def IsBest (L : Lattice S) (sorted : List Nat) (best : List (Option S)) (node : Nat) (b : S) : Prop :=
  (∃ n ∈ sorted, best.getD n none = some b) ∧
  (∀ n ∈ sorted, ∀ (x y : ℚ) (v : S), L.time node = some x → L.time n = some y → x ≤ y →
    best.getD n none = some v → v ≤ b) ∧
  (L.time node = none → ∀ l₁ l₂ : List Nat, sorted = l₁ ++ node :: l₂ → node ∉ l₁ → ∀ n ∈ node :: l₂, ∀ v : S,
    best.getD n none = some v → v ≤ b)

theorem maxBest_spec (l : List (Option S)) : ∀ b, maxBest l = some b →
    some b ∈ l ∧ ∀ x, some x ∈ l → x ≤ b := by
  induction l with
  | nil => intro b h; cases h
  | cons o l ih =>
    intro b h
    cases o with
    | none =>
      obtain ⟨h1, h2⟩ := ih b h
      exact ⟨List.mem_cons_of_mem _ h1, fun x hx => h2 x (by simpa using hx)⟩
    | some v =>
      unfold maxBest at h
      cases hm : maxBest l with
      | none =>
        rw [hm] at h
        cases h
        refine ⟨by simp, fun x hx => ?_⟩
        rcases List.mem_cons.mp hx with hx | hx
        · cases hx; exact le_refl _
        · exfalso
          clear ih
          induction l with
          | nil => cases hx
          | cons o l ih =>
            cases o with
            | none => exact ih hm (List.mem_cons_of_mem _ (by simpa using hx)) (by simpa using hx)
            | some w => unfold maxBest at hm; split at hm <;> cases hm
      | some w =>
        rw [hm] at h
        cases h
        obtain ⟨h1, h2⟩ := ih w hm
        refine ⟨?_, fun x hx => ?_⟩
        · rcases max_choice v w with hx | hx
          · rw [hx]; simp
          · rw [hx]; exact List.mem_cons_of_mem _ h1
        · rcases List.mem_cons.mp hx with hx | hx
          · cases hx; exact le_max_left _ _
          · exact le_trans (h2 x hx) (le_max_right _ _)

theorem mem_drop_of_findIdx {l : List Nat} {p : Nat → Bool} {i : Nat} (h : l.findIdx? p = some i) {n : Nat}
    (hn : n ∈ l) (hp : p n = true) : n ∈ l.drop i := by
  obtain ⟨hi, h1, h2⟩ := List.findIdx?_eq_some_iff_getElem.mp h
  obtain ⟨j, hj, rfl⟩ := List.getElem_of_mem hn
  have : i ≤ j := by
    by_contra hlt
    exact h2 j (by omega) hp
  exact List.mem_drop_iff_getElem.mpr ⟨j - i, by omega, by congr 1; omega⟩

/-- C30: the beam is relative to the best log probability of any node at the same or later time. -/
theorem C30_best (sorted : List Nat) (node : Nat) (best : List (Option S)) (b : S) (hbeam : D.beam ≠ none)
    (h : bestLogprob D L sorted best node = .ok b) : IsBest L sorted best node b := by
  unfold bestLogprob at h
  split at h
  · rename_i hb; exact absurd hb hbeam
  · split at h
    · cases h
    · rename_i i hi
      split at h
      · cases h
      · rename_i b' hb'
        cases h
        obtain ⟨h1, h2⟩ := maxBest_spec _ _ hb'
        refine ⟨?_, ?_, ?_⟩
        · obtain ⟨n, hn, he⟩ := List.mem_map.mp h1
          exact ⟨n, List.mem_of_mem_drop hn, he⟩
        · intro n hn x y v hx hy hxy hv
          apply h2 v
          rw [List.mem_map]
          refine ⟨n, ?_, hv⟩
          unfold timeBegin at hi
          rw [hx] at hi
          simp only at hi
          split at hi
          · rename_i i' hi'
            cases hi
            exact mem_drop_of_findIdx hi' hn (by rw [hy]; simpa using hxy)
          · rename_i hnone
            rw [List.findIdx?_eq_none_iff] at hnone
            have := hnone n hn
            rw [hy] at this
            simp only [decide_eq_false_iff_not] at this
            exact absurd hxy this
        · intro hnt l₁ l₂ hs hn1 n hn v hv
          apply h2 v
          rw [List.mem_map]
          refine ⟨n, ?_, hv⟩
          unfold timeBegin at hi
          rw [hnt] at hi
          simp only at hi
          split at hi
          · cases hi
          · rename_i i' hi'
            cases hi
            have hii : i = l₁.length := by
              rw [hs, List.findIdx?_append] at hi'
              have h0 : l₁.findIdx? (fun n => n == node) = none := by
                rw [List.findIdx?_eq_none_iff]
                intro a ha
                simp only [beq_eq_false_iff_ne]
                exact fun e => hn1 (e ▸ ha)
              rw [h0] at hi'
              rw [List.findIdx?_cons] at hi'
              simpa using hi'.symm
            rw [hs, hii, List.drop_left]
            exact hn

theorem updateBest_spec (ts : List (Token S St)) (old : Option S) :
    (∀ t ∈ ts, ∃ x, updateBest old ts = some x ∧ t.total ≤ x) ∧
    (∀ y, old = some y → ∃ x, updateBest old ts = some x ∧ y ≤ x) ∧
    ∀ x, updateBest old ts = some x → old = some x ∨ ∃ t ∈ ts, t.total = x := by
  induction ts generalizing old with
  | nil =>
    have : updateBest old ([] : List (Token S St)) = old := by cases old <;> rfl
    rw [this]
    exact ⟨fun t h => (by cases h), fun y h => ⟨y, h, le_refl _⟩, fun x h => Or.inl h⟩
  | cons t ts ih =>
    cases old with
    | none =>
      show (∀ t' ∈ t :: ts, ∃ x, updateBest (some t.total) ts = some x ∧ t'.total ≤ x) ∧ _ ∧
        ∀ x, updateBest (some t.total) ts = some x → _
      obtain ⟨h1, h2, h3⟩ := ih (some t.total)
      refine ⟨?_, fun y h => (by cases h), ?_⟩
      · intro t' ht'
        rcases List.mem_cons.mp ht' with rfl | ht'
        · exact h2 _ rfl
        · exact h1 t' ht'
      · intro x hx
        rcases h3 x hx with h | ⟨t', ht', h⟩
        · cases h; exact Or.inr ⟨t, List.mem_cons_self, rfl⟩
        · exact Or.inr ⟨t', List.mem_cons_of_mem _ ht', h⟩
    | some b =>
      show (∀ t' ∈ t :: ts, ∃ x, updateBest (some (if b < t.total then t.total else b)) ts = some x ∧ t'.total ≤ x) ∧
        (∀ y, some b = some y → ∃ x, updateBest (some (if b < t.total then t.total else b)) ts = some x ∧ y ≤ x) ∧
        ∀ x, updateBest (some (if b < t.total then t.total else b)) ts = some x → _
      obtain ⟨h1, h2, h3⟩ := ih (some (if b < t.total then t.total else b))
      have hb : b ≤ (if b < t.total then t.total else b) := by
        split
        · rename_i h; exact le_of_lt h
        · exact le_refl _
      have ht : t.total ≤ (if b < t.total then t.total else b) := by
        split
        · exact le_refl _
        · rename_i h; exact not_lt.mp h
      obtain ⟨x0, hx0, hle⟩ := h2 _ rfl
      refine ⟨?_, ?_, ?_⟩
      · intro t' ht'
        rcases List.mem_cons.mp ht' with rfl | ht'
        · exact ⟨x0, hx0, ht.trans hle⟩
        · exact h1 t' ht'
      · intro y hy; cases hy
        exact ⟨x0, hx0, hb.trans hle⟩
      · intro x hx
        rcases h3 x hx with h | ⟨t', ht', h⟩
        · by_cases hlt : b < t.total
          · rw [if_pos hlt] at h; cases h; exact Or.inr ⟨t, List.mem_cons_self, rfl⟩
          · rw [if_neg hlt] at h; exact Or.inl h
        · exact Or.inr ⟨t', List.mem_cons_of_mem _ ht', h⟩

theorem prune_best {sorted : List Nat} {node : Nat} {st st' : DecSt S St} (h : prune D L sorted node st = .ok st') :
    st'.best = st.best := by
  unfold prune at h
  simp only at h
  split at h
  · cases h
  · split at h
    · cases h
    · split at h
      · cases h
      · cases h; rfl

/-- C30: the best log probability of a node, which the beam is relative to, is the maximum over all the tokens that have been
propagated to the node. -/
theorem C30_best_updated (lmScale wiPenalty : S) (sorted : List Nat) (nodeTokens : List (Token S St)) (st st' : DecSt S St)
    (l : Nat) (k : Link S) (hk : L.links[l]? = some k)
    (h : decodeLink D L lmScale wiPenalty sorted nodeTokens st l = .ok st') (hn : k.endNode < st.best.length) :
    (∀ t ∈ nodeTokens, ∃ x, st'.best[k.endNode]? = some (some x) ∧ (propagateLink D lmScale wiPenalty k t).total ≤ x) ∧
    (∀ y, st.best[k.endNode]? = some (some y) → ∃ x, st'.best[k.endNode]? = some (some x) ∧ y ≤ x) ∧
    (∀ x, st'.best[k.endNode]? = some (some x) → st.best[k.endNode]? = some (some x) ∨
      ∃ t ∈ nodeTokens, (propagateLink D lmScale wiPenalty k t).total = x) ∧
    ∀ n, n ≠ k.endNode → st'.best[n]? = st.best[n]? := by
  have hb : st'.best = st.best.modify k.endNode
      (fun b => updateBest b (nodeTokens.map (propagateLink D lmScale wiPenalty k))) := by
    unfold decodeLink at h
    rw [hk] at h
    simp only at h
    split at h
    · cases h; rfl
    · split at h
      · exact prune_best h
      · cases h; rfl
  have hend : st'.best[k.endNode]? =
      some (updateBest (st.best[k.endNode]) (nodeTokens.map (propagateLink D lmScale wiPenalty k))) := by
    rw [hb, List.getElem?_modify_eq, List.getElem?_eq_getElem hn]; rfl
  have hold : st.best[k.endNode]? = some (st.best[k.endNode]) := List.getElem?_eq_getElem hn
  obtain ⟨h1, h2, h3⟩ := updateBest_spec (nodeTokens.map (propagateLink D lmScale wiPenalty k)) (st.best[k.endNode])
  refine ⟨?_, ?_, ?_, ?_⟩
  · intro t ht
    obtain ⟨x, hx, hle⟩ := h1 _ (List.mem_map_of_mem ht)
    exact ⟨x, by rw [hend, hx], hle⟩
  · intro y hy
    rw [hold] at hy
    obtain ⟨x, hx, hle⟩ := h2 y (Option.some.inj hy)
    exact ⟨x, by rw [hend, hx], hle⟩
  · intro x hx
    rw [hend] at hx
    rcases h3 x (Option.some.inj hx) with h | ⟨t, ht, h⟩
    · left; rw [hold, h]
    · right
      obtain ⟨t', ht', rfl⟩ := List.mem_map.mp ht
      exact ⟨t', ht', h⟩
  · intro n hne
    rw [hb, List.getElem?_modify]
    simp [Ne.symm hne]

/-- C30: propagating tokens through a link does not drop any tokens, unless there are more than twice the token limit. -/
theorem C30_intermediate (lmScale wiPenalty : S) (sorted : List Nat) (nodeTokens : List (Token S St)) (st st' : DecSt S St)
    (l : Nat) (k : Link S) (hk : L.links[l]? = some k)
    (h : decodeLink D L lmScale wiPenalty sorted nodeTokens st l = .ok st') (hn : k.endNode < st.tokens.length)
    (hm : ∀ m, D.maxTokens = some m → (st.tokens.getD k.endNode []).length + nodeTokens.length ≤ 2 * m) :
    st'.tokens.getD k.endNode [] =
      st.tokens.getD k.endNode [] ++ nodeTokens.map (propagateLink D lmScale wiPenalty k) := by
  have hget : (st.tokens.modify k.endNode
      (fun ts => ts ++ nodeTokens.map (propagateLink D lmScale wiPenalty k))).getD k.endNode [] =
      st.tokens.getD k.endNode [] ++ nodeTokens.map (propagateLink D lmScale wiPenalty k) := by
    rw [List.getD_eq_getElem?_getD, List.getD_eq_getElem?_getD, List.getElem?_modify_eq, List.getElem?_eq_getElem hn]
    rfl
  unfold decodeLink at h
  rw [hk] at h
  simp only at h
  split at h
  · cases h; exact hget
  · rename_i m hm'
    rw [hget] at h
    have := hm m hm'
    rw [List.length_append, List.length_map, if_neg (by omega)] at h
    cases h
    exact hget

/-- What beam pruning and the limit on the number of tokens leave, when both are divided by `divider`. -/
theorem beam_kept (sorted : List Nat) (node : Nat) (st st' : DecSt S St) (ts kept : List (Token S St))
    (hts : ts = st.tokens.getD node []) (hkept : kept = st'.tokens.getD node []) (hh : Hashed D ts)
    (h : prune D L sorted node st = .ok st') (beam : S) (hbeam : D.beam = some beam) (divider : Nat)
    (hd : limitDivider D sorted.length = .ok divider) :
    ∃ best : S, IsBest L sorted st.best node best ∧
      (∀ (k : Token S St) (rest : List (Token S St)), kept = k :: rest → ∀ t ∈ rest,
        best - max (beam / divider) D.absMinBeam < t.total) ∧
      (∀ t ∈ ts, best - max (beam / divider) D.absMinBeam < t.total →
        (∃ k ∈ kept, SameRecent D.recombinationOrder k.history t.history ∧ t.total ≤ k.total) ∨
        ∃ m, D.maxTokens = some m ∧ kept.length = max (m / divider) D.absMinMaxTokens) := by
  obtain ⟨divider', best, hd', hb, hne, he⟩ := prune_tokens h
  rw [hd] at hd'
  cases hd'
  rw [← hkept, ← hts] at he
  refine ⟨best, C30_best sorted node st.best best (by rw [hbeam]; simp) hb, ?_⟩
  set threshold := best - max (beam / divider) D.absMinBeam with hth
  have hs := sortedRecombined_spec ts
  have hk : kept = limitTokens D divider ((sortedRecombined ts).1.take
      (keepTokens (sortedRecombined ts).1 threshold (sortedRecombined ts).1.length)) := by
    rw [he, pruneTokens_eq]
    simp only [beamTokens, hbeam, hth]
  obtain ⟨q1, q2, q3, q4⟩ := keepTokens_spec (sortedRecombined ts).1 threshold _ (le_refl _)
  set r := (sortedRecombined ts).1 with hrdef
  set n := keepTokens r threshold r.length with hn
  obtain ⟨c, hc, hcm⟩ : ∃ c, kept = r.take c ∧ c ≤ n ∧ (c < n → ∃ m, D.maxTokens = some m ∧
      c = max (m / divider) D.absMinMaxTokens) := by
    rw [hk]
    unfold limitTokens
    cases hm : D.maxTokens with
    | none => exact ⟨n, rfl, le_refl _, fun h => absurd h (lt_irrefl _)⟩
    | some m =>
      refine ⟨min (max (m / divider) D.absMinMaxTokens) n, by simp only [List.take_take], min_le_right _ _, ?_⟩
      intro hlt
      exact ⟨m, rfl, by omega⟩
  obtain ⟨hcn, hcm⟩ := hcm
  constructor
  · intro k rest hkr t ht
    -- the last token above the beam is above the threshold, and the others are at least as good
    have hlen : kept.length = min c r.length := by rw [hc, List.length_take]
    obtain ⟨j, hj⟩ : ∃ j, n = j + 2 := by
      rw [hkr] at hlen
      have : 0 < rest.length := List.length_pos_of_mem ht
      simp only [List.length_cons] at hlen
      exact ⟨n - 2, by omega⟩
    have hlt : j + 1 < r.length := by omega
    have hlast := q4 j r[j + 1] hj (List.getElem?_eq_getElem hlt)
    refine lt_of_lt_of_le hlast ?_
    have htk : t ∈ kept := by rw [hkr]; exact List.mem_cons_of_mem _ ht
    obtain ⟨i, hi, hti⟩ := List.getElem_of_mem htk
    have hir : i < r.length := by omega
    have hti' : r[i] = t := by
      rw [← hti]
      simp only [hc, List.getElem_take]
    rcases Nat.lt_or_ge i (j + 1) with hlt2 | hge
    · have := List.pairwise_iff_getElem.mp hs.desc i (j + 1) hir hlt hlt2
      rw [← hti']; exact this
    · have hij : i = j + 1 := by omega
      subst hij
      rw [hti']
  · intro t ht htot
    obtain ⟨k, hkm, h1, h2⟩ := hs.kept ht
    obtain ⟨i, hi, hki⟩ := List.getElem_of_mem hkm
    by_cases hin : i < c
    · refine Or.inl ⟨k, ?_, (hash_iff hh (hs.subset hkm) ht).mp h1, h2⟩
      rw [hc, List.mem_take_iff_getElem]
      exact ⟨i, by omega, hki⟩
    · right
      by_cases hcn' : c < n
      · obtain ⟨m, hm, e⟩ := hcm hcn'
        exact ⟨m, hm, by rw [hc, List.length_take, ← e]; omega⟩
      · have := q3 i k (by omega) hi (by rw [List.getElem?_eq_getElem hi, hki])
        exact absurd (lt_of_lt_of_le htot h2) (not_lt.mpr this)

/-- C30: with the beam as the only limit, a node is left with the best token, and exactly the recombined tokens whose
log probability is greater than the best log probability minus the beam; if more tokens than one are left, every token
dropped by the beam is worse than them. -/
theorem C30_beam (sorted : List Nat) (node : Nat) (st st' : DecSt S St) (ts kept : List (Token S St))
    (hts : ts = st.tokens.getD node []) (hkept : kept = st'.tokens.getD node []) (hh : Hashed D ts)
    (h : prune D L sorted node st = .ok st') (beam : S) (hbeam : D.beam = some beam) (hb0 : 0 ≤ beam)
    (hr : D.pruneExtraLimit = none) (ha : D.absMinBeam = 0) (hm : D.maxTokens = none) :
    ∃ best : S, IsBest L sorted st.best node best ∧
      (∀ (k : Token S St) (rest : List (Token S St)), kept = k :: rest → ∀ t ∈ rest, best - beam < t.total) ∧
      (∀ t ∈ ts, best - beam < t.total →
        ∃ k ∈ kept, SameRecent D.recombinationOrder k.history t.history ∧ t.total ≤ k.total) := by
  have hd : limitDivider D sorted.length = .ok 1 := by unfold limitDivider; rw [hr]
  obtain ⟨best, h1, h2, h3⟩ := beam_kept sorted node st st' ts kept hts hkept hh h beam hbeam 1 hd
  simp only [Nat.cast_one, div_one, ha, max_eq_left hb0] at h2 h3
  refine ⟨best, h1, h2, fun t ht htot => ?_⟩
  rcases h3 t ht htot with h4 | ⟨m, h4, _⟩
  · exact h4
  · rw [hm] at h4; cases h4

/-! ## C32: optimality -/

section Optimal

theorem path_trans {n : Nat} {ls : List (Link S)} (hp : L.Path L.initial ls n) :
    Relation.ReflTransGen L.Edge L.initial n := by
  induction hp with
  | nil => exact .refl
  | snoc ls k _ hk ih => exact ih.tail ⟨k, hk, rfl, rfl⟩

/-- The nodes of an acyclic lattice in which all nodes but one have incoming links. -/
theorem sorted_acyclic (hw : L.WF) (hac : ∀ n : Nat, ¬ L.OnCycle n)
    (hin : ∀ n : Nat, n < L.nodes.length → n ≠ L.initial → ∃ a : Nat, L.Edge a n) :
    ∃ sorted : List Nat, sortedNodes L (L.nodes.length + 1) = some (.ok sorted) ∧ sorted.Nodup ∧
      (∀ n, n ∈ sorted ↔ n < L.nodes.length) ∧
      (∀ a b : Nat, b ∈ sorted → L.Edge a b → Before sorted a b) := by
  obtain ⟨r, hr, hperm⟩ := C24_complete L hw hac hin (L.nodes.length + 1) (le_refl _)
  obtain ⟨hh, hnd, _, ht⟩ := C24_partial L hw _ r hr
  have hmem : ∀ n, n ∈ r ↔ n < L.nodes.length := fun n => by rw [hperm.mem_iff, List.mem_range]
  have hno : ∀ a : Nat, ¬ L.Edge a L.initial := by
    intro a he
    obtain ⟨k, hk, h1, h2⟩ := he
    have har : a ∈ r := by rw [hmem, ← h1]; exact (hw.ends k hk).1
    obtain ⟨P, Q, hs⟩ := List.append_of_mem har
    obtain ⟨ls, hp⟩ := path_exists hnd ht (fun n hn => hin n ((hmem n).mp hn)) P.length P Q a rfl hs
    exact hac L.initial (Relation.TransGen.tail' (path_trans hp) ⟨k, hk, h1, h2⟩)
  exact ⟨r, hr, hnd, hmem, C24_topological L hw hno _ r hr⟩

variable [IsStrictOrderedRing S]

/-- Every complete path is represented in the result, if recombination makes no difference. -/
theorem decode_keeps (hw : L.WF) (hac : ∀ n : Nat, ¬ L.OnCycle n)
    (hin : ∀ n : Nat, n < L.nodes.length → n ≠ L.initial → ∃ a : Nat, L.Edge a n) (hn : Unlimited D) (hx : Extends D L)
    (hpath : ∃ (ls : List (Link S)) (n : Nat), L.Path L.initial ls n ∧ L.Final n) :
    ∃ (finals : List (Token S St)) (recomb : List (Recomb S St)), decode D L = .ok (finals, recomb) ∧
      ∀ (ls : List (Link S)) (n : Nat), L.Path L.initial ls n → L.Final n →
        ∃ t ∈ finals, SameRecent D.recombinationOrder t.history (runEnd D L ls).history ∧
          (runEnd D L ls).total ≤ t.total := by
  obtain ⟨sorted, hs, hnd, hmem, ht⟩ := sorted_acyclic hw hac hin
  obtain ⟨st, hst, hf⟩ := decodeNodes_all hw hn hx hnd ht (fun n hn => hin n ((hmem n).mp hn)) sorted (done := [])
    (by simp) (decInit_inv (path_keeps D L)) (decInit_cinv hw)
    (by intro ls n _ _ h; cases h)
  have hi := decodeNodes_inv hw (path_keeps D L) sorted (decInit_inv (path_keeps D L)) hst
  have hrep : ∀ (ls : List (Link S)) (n : Nat), L.Path L.initial ls n → L.Final n →
      ∃ t ∈ st.finals, SameRecent D.recombinationOrder t.history (runEnd D L ls).history ∧
        (runEnd D L ls).total ≤ t.total := by
    intro ls n hp hfn
    refine hf ls n hp hfn ?_
    rw [hmem]
    obtain ⟨nd, h1, _⟩ := hfn
    exact (List.getElem?_eq_some_iff.mp h1).1
  have hne : st.finals ≠ [] := by
    obtain ⟨ls, n, hp, hfn⟩ := hpath
    obtain ⟨t, ht', _⟩ := hrep ls n hp hfn
    exact List.ne_nil_of_mem ht'
  refine ⟨(sortedRecombined st.finals).1, st.recomb ++ (sortedRecombined st.finals).2, ?_, ?_⟩
  · unfold decode
    rw [hs]
    simp only
    rw [hst]
    simp only
    rw [if_neg hne]
  · intro ls n hp hfn
    obtain ⟨t, ht', h1, h2⟩ := hrep ls n hp hfn
    obtain ⟨k, hk, h3, h4⟩ := (sortedRecombined_spec st.finals).kept ht'
    refine ⟨k, hk, ?_, le_trans h2 h4⟩
    obtain ⟨l1, n1, _, _, rfl⟩ := hi.fin t ht'
    obtain ⟨l2, n2, _, _, rfl⟩ := hi.fin k ((sortedRecombined_spec st.finals).subset hk)
    rw [(computed_end (D := D) (L := L) l1).hash, (computed_end (D := D) (L := L) l2).hash, limited_iff] at h3
    exact sameRecent_trans h3 h1

/-- Every complete path is represented in the result. -/
theorem decode_represents (hw : L.WF) (hac : ∀ n : Nat, ¬ L.OnCycle n)
    (hin : ∀ n : Nat, n < L.nodes.length → n ≠ L.initial → ∃ a : Nat, L.Edge a n) (hn : Unpruned D)
    (hpath : ∃ (ls : List (Link S)) (n : Nat), L.Path L.initial ls n ∧ L.Final n) :
    ∃ (finals : List (Token S St)) (recomb : List (Recomb S St)), decode D L = .ok (finals, recomb) ∧
      ∀ (ls : List (Link S)) (n : Nat), L.Path L.initial ls n → L.Final n →
        ∃ t ∈ finals, SameRecent D.recombinationOrder t.history (runEnd D L ls).history ∧
          (runEnd D L ls).total ≤ t.total :=
  decode_keeps hw hac hin hn.unlimited hn.extends hpath

/-- C32: without pruning, the first token is at least as good as every complete path, when the neural network score of
a path is the sum of the scores that the decoder adds; the result also contains a token with the words of every path. -/
theorem C32_best (hw : L.WF) (hac : ∀ n : Nat, ¬ L.OnCycle n)
    (hin : ∀ n : Nat, n < L.nodes.length → n ≠ L.initial → ∃ a : Nat, L.Edge a n) (hn : NoPruning D)
    (hpath : ∃ (ls : List (Link S)) (n : Nat), L.Path L.initial ls n ∧ L.Final n) :
    ∃ (best : Token S St) (rest : List (Token S St)) (recomb : List (Recomb S St)),
      decode D L = .ok (best :: rest, recomb) ∧
      (∃ (ls : List (Link S)) (n : Nat) (z : S), L.Path L.initial ls n ∧ L.Final n ∧ AddedComplete D ls z ∧
        best.total = pathScore D L ls z) ∧
      ∀ (ls : List (Link S)) (n : Nat), L.Path L.initial ls n → L.Final n →
        (∀ z : S, AddedComplete D ls z → pathScore D L ls z ≤ best.total) ∧
        ∃ t ∈ best :: rest, ∃ ws : List HistWord, t.history = .inl D.vocab.sos :: ws ++ [.inl D.vocab.eos] ∧
          List.Forall₂ (HistIs D.vocab) (pathText ls) ws := by
  obtain ⟨finals, recomb, hd, hrep⟩ := decode_represents hw hac hin hn.unpruned hpath
  obtain ⟨hne, hdesc⟩ := C29_sorted finals recomb hd
  cases finals with
  | nil => exact absurd rfl hne
  | cons best rest =>
    have hle : ∀ t ∈ best :: rest, t.total ≤ best.total := by
      intro t ht
      rcases List.mem_cons.mp ht with rfl | h
      · exact le_refl _
      · unfold Descending at hdesc
        exact (List.pairwise_cons.mp hdesc).1 t h
    refine ⟨best, rest, recomb, hd, ?_, ?_⟩
    · obtain ⟨ls, n, h1, h2, h3⟩ := (decode_inv hw (path_keeps D L) hd).1 best (by simp)
      obtain ⟨z, hz⟩ := addedComplete_exists (D := D) ls
      refine ⟨ls, n, z, h1, h2, hz, ?_⟩
      rw [h3, runEnd_total hn.linear, addedComplete_run hz]
    · intro ls n hp hf
      obtain ⟨t, ht, h1, h2⟩ := hrep ls n hp hf
      constructor
      · intro z hz
        rw [← addedComplete_run (L := L) hz, ← runEnd_total hn.linear]
        exact le_trans h2 (hle t ht)
      · obtain ⟨⟨ws, h3, h4⟩, _⟩ := describes_end (D := D) (L := L) ls
        exact ⟨t, ht, ws, by rw [hn.same h1, h3], h4⟩

/-- C32: if the decoder uses the correct language model scores (see C33), the score of a path is the one that the
language model gives. -/
theorem C32_best_model (hw : L.WF) (hac : ∀ n : Nat, ¬ L.OnCycle n)
    (hin : ∀ n : Nat, n < L.nodes.length → n ≠ L.initial → ∃ a : Nat, L.Edge a n) (hn : NoPruning D)
    (hpath : ∃ (ls : List (Link S)) (n : Nat), L.Path L.initial ls n ∧ L.Final n)
    (hc : NoClassEffect D) (he : memberScore D.vocab (.inl D.vocab.sos) = memberScore D.vocab (.inl D.vocab.eos)) :
    ∃ (best : Token S St) (rest : List (Token S St)) (recomb : List (Recomb S St)),
      decode D L = .ok (best :: rest, recomb) ∧
      (∃ (ls : List (Link S)) (n : Nat) (z : S), L.Path L.initial ls n ∧ L.Final n ∧ DescribesPath D ls best ∧
        NNComplete D ls z ∧ best.total = pathScore D L ls z) ∧
      ∀ (ls : List (Link S)) (n : Nat) (z : S), L.Path L.initial ls n → L.Final n → NNComplete D ls z →
        pathScore D L ls z ≤ best.total := by
  obtain ⟨best, rest, recomb, hd, _, h⟩ := C32_best hw hac hin hn hpath
  refine ⟨best, rest, recomb, hd, ?_, ?_⟩
  · obtain ⟨ls, n, h1, h2, h3⟩ := (decode_inv hw (path_keeps D L) hd).1 best (by simp)
    obtain ⟨z, hz⟩ := nnComplete_exists (D := D) ls
    refine ⟨ls, n, z, h1, h2, by rw [h3]; exact describes_end ls, hz, ?_⟩
    rw [h3, runEnd_total hn.linear, nnComplete_run hc he hz]
  · intro ls n z hp hf hz
    obtain ⟨z', hz'⟩ := addedComplete_exists (D := D) ls
    have := (h ls n hp hf).1 z' hz'
    rw [← addedComplete_run (L := L) hz', nnComplete_run hc he hz] at this
    exact this

/-- C32: without pruning, the returned list has exactly one hypothesis for each word sequence of the lattice, with the score of the best
path with those words, in descending order.  Thus its first `n` hypotheses are `n` best word sequences. -/
theorem C32_nbest (hw : L.WF) (hac : ∀ n : Nat, ¬ L.OnCycle n)
    (hin : ∀ n : Nat, n < L.nodes.length → n ≠ L.initial → ∃ a : Nat, L.Edge a n) (hn : NoPruning D)
    (hpath : ∃ (ls : List (Link S)) (n : Nat), L.Path L.initial ls n ∧ L.Final n)
    (hc : NoClassEffect D) (he : memberScore D.vocab (.inl D.vocab.sos) = memberScore D.vocab (.inl D.vocab.eos)) :
    ∃ (finals : List (Token S St)) (recomb : List (Recomb S St)), decode D L = .ok (finals, recomb) ∧ Descending finals ∧
      (finals.map Token.history).Nodup ∧
      (∀ t ∈ finals, ∃ (ls : List (Link S)) (n : Nat) (z : S), L.Path L.initial ls n ∧ L.Final n ∧ DescribesPath D ls t ∧
        NNComplete D ls z ∧ t.total = pathScore D L ls z) ∧
      ∀ (ls : List (Link S)) (n : Nat) (z : S), L.Path L.initial ls n → L.Final n → NNComplete D ls z →
        ∃ t ∈ finals, (∃ ws : List HistWord, t.history = .inl D.vocab.sos :: ws ++ [.inl D.vocab.eos] ∧
          List.Forall₂ (HistIs D.vocab) (pathText ls) ws) ∧ pathScore D L ls z ≤ t.total := by
  obtain ⟨finals, recomb, hd, hrep⟩ := decode_represents hw hac hin hn.unpruned hpath
  have hend := (decode_inv hw (path_keeps D L) hd).1
  refine ⟨finals, recomb, hd, (C29_sorted finals recomb hd).2, ?_, ?_, ?_⟩
  · obtain ⟨sorted, st, _, _, _, e, _⟩ := decode_ok hd
    have hnd := (sortedRecombined_spec st.finals).nodup
    rw [← e] at hnd
    have : finals.map Token.hash = finals.map Token.history := by
      apply List.map_congr_left
      intro t ht
      obtain ⟨ls, n, _, _, rfl⟩ := hend t ht
      rw [(computed_end (D := D) (L := L) ls).hash, hn.limited]
    rw [← this]
    exact hnd
  · intro t ht
    obtain ⟨ls, n, h1, h2, rfl⟩ := hend t ht
    obtain ⟨z, hz⟩ := nnComplete_exists (D := D) ls
    refine ⟨ls, n, z, h1, h2, describes_end ls, hz, ?_⟩
    rw [runEnd_total hn.linear, nnComplete_run hc he hz]
  · intro ls n z hp hf hz
    obtain ⟨t, ht, h1, h2⟩ := hrep ls n hp hf
    refine ⟨t, ht, ?_, ?_⟩
    · rw [hn.same h1]
      exact (describes_end (D := D) (L := L) ls).1
    · rw [runEnd_total hn.linear, nnComplete_run hc he hz] at h2
      exact h2

end Optimal

/-! ## C33: the neural network score -/

/-- C33, for models without word classes, or when unknown words do not get a separate score (`NoClassEffect`): the NNLM
score of every returned token is the sum of the log probabilities of its words.  Otherwise see `C33_violated`. -/
theorem C33_partial (hw : L.WF) (hc : NoClassEffect D)
    (he : memberScore D.vocab (.inl D.vocab.sos) = memberScore D.vocab (.inl D.vocab.eos))
    (finals : List (Token S St)) (recomb : List (Recomb S St)) (h : decode D L = .ok (finals, recomb)) :
    ∀ t ∈ finals, ∃ (ls : List (Link S)) (n : Nat), L.Path L.initial ls n ∧ L.Final n ∧ DescribesPath D ls t ∧
      NNComplete D ls t.nnLm := by
  intro t ht
  obtain ⟨ls, n, h1, h2, rfl⟩ := (decode_inv hw (path_keeps D L) h).1 t ht
  obtain ⟨z, hz⟩ := nnComplete_exists (D := D) ls
  refine ⟨ls, n, h1, h2, describes_end ls, ?_⟩
  rw [nnComplete_run hc he hz]
  exact hz

/-- C33: what the decoder computes for all models: the membership probabilities are the ones of the preceding words. -/
theorem C33_computed (hw : L.WF) (finals : List (Token S St)) (recomb : List (Recomb S St))
    (h : decode D L = .ok (finals, recomb)) :
    ∀ t ∈ finals, ∃ (ls : List (Link S)) (n : Nat), L.Path L.initial ls n ∧ L.Final n ∧ DescribesPath D ls t ∧
      AddedComplete D ls t.nnLm := by
  intro t ht
  obtain ⟨ls, n, h1, h2, rfl⟩ := (decode_inv hw (path_keeps D L) h).1 t ht
  obtain ⟨z, hz⟩ := addedComplete_exists (D := D) ls
  refine ⟨ls, n, h1, h2, describes_end ls, ?_⟩
  rw [addedComplete_run hz]
  exact hz

theorem wordScore_unique {before : List HistWord} {prev w : HistWord} {s : Option S} {x y : S}
    (hx : WordScore D before prev w s x) (hy : WordScore D before prev w s y) : x = y := by
  classical
  by_cases hu : s = none ∨ ¬ IsUnknown D.vocab w
  · rw [hx.2 hu, hy.2 hu]
  · push Not at hu
    obtain ⟨v, rfl⟩ := Option.ne_none_iff_exists'.mp hu.1
    rw [hx.1 v rfl hu.2, hy.1 v rfl hu.2]

theorem nnPath_unique {ls : List (Link S)} {h h' : List HistWord} {x x' : S} (hp : NNPath D ls h x)
    (hp' : NNPath D ls h' x') : h = h' ∧ x = x' := by
  induction hp generalizing h' x' with
  | nil =>
    generalize hl : ([] : List (Link S)) = l at hp'
    cases hp' with
    | nil => exact ⟨rfl, rfl⟩
    | null => simp at hl
    | word => simp at hl
  | null ls k h x _ hw ih =>
    generalize hl : ls ++ [k] = l at hp'
    cases hp' with
    | nil => simp at hl
    | null ls' k' _ _ hp' hw' =>
      obtain ⟨rfl, _⟩ := List.append_inj' hl rfl
      exact ih hp'
    | word ls' k' _ _ _ _ _ _ _ hp' hw' =>
      obtain ⟨rfl, e⟩ := List.append_inj' hl rfl
      simp only [List.cons.injEq, and_true] at e
      subst e
      rw [hw] at hw'; cases hw'
  | word ls k before prev w text s x y _ hw hh hs hy ih =>
    generalize hl : ls ++ [k] = l at hp'
    cases hp' with
    | nil => simp at hl
    | null ls' k' _ _ hp' hw' =>
      obtain ⟨rfl, e⟩ := List.append_inj' hl rfl
      simp only [List.cons.injEq, and_true] at e
      subst e
      rw [hw] at hw'; cases hw'
    | word ls' k' before' prev' w' text' s' x' y' hp' hw' hh' hs' hy' =>
      obtain ⟨rfl, e⟩ := List.append_inj' hl rfl
      simp only [List.cons.injEq, and_true] at e
      subst e
      rw [hw] at hw'
      cases hw'
      obtain ⟨e1, e2⟩ := ih hp'
      obtain ⟨rfl, e⟩ := List.append_inj' e1 rfl
      simp only [List.cons.injEq, and_true] at e
      subst e e2
      have e3 := (histIs_eq hh).symm.trans (histIs_eq hh')
      have e4 := (unkScore_eq hs).symm.trans (unkScore_eq hs')
      subst e3 e4
      rw [wordScore_unique hy hy']
      exact ⟨rfl, rfl⟩

/-- The score that the language model gives to a path is unique. -/
theorem C33_score_unique (ls : List (Link S)) : ∃ z : S, NNComplete D ls z ∧ ∀ z' : S, NNComplete D ls z' → z' = z := by
  obtain ⟨z, hz⟩ := nnComplete_exists (D := D) ls
  refine ⟨z, hz, ?_⟩
  obtain ⟨b, p, x, y, h1, h2, rfl⟩ := hz
  rintro z' ⟨b', p', x', y', h1', h2', rfl⟩
  obtain ⟨e1, rfl⟩ := nnPath_unique h1 h1'
  obtain ⟨rfl, e⟩ := List.append_inj' e1 rfl
  simp only [List.cons.injEq, and_true] at e
  subst e
  rw [wordScore_unique h2 h2']

/-! ## C34: relative pruning -/

/-- C34 does not hold: the decode command gives the same result with every value of `--prune-relative`, for all models,
lattices and other options. -/
theorem C34_violated (V : DecVocab S) (net : DecNet S St) (lin : S → S → S → S) (log : Nat → S) (args : DecodeArgs S)
    (r : Option Nat) (L : Lattice S) :
    decodeWith V net lin log { args with pruneRelative := r } L = decodeWith V net lin log args L := rfl

/-- C34: the decoder that the command creates never tightens the limits. -/
theorem C34_no_tightening (V : DecVocab S) (net : DecNet S St) (lin : S → S → S → S) (log : Nat → S)
    (args : DecodeArgs S) (D : Decoder S St) (h : decoderInit V net lin (decodingOptions log args) = .ok D) :
    D.pruneExtraLimit = none ∧ D.absMinBeam = 0 ∧ D.absMinMaxTokens = 0 ∧ D.maxTokens = args.maxTokens ∧
      D.beam = args.beam ∧ D.recombinationOrder = args.recombinationOrder ∧ D.nnlmWeight = args.nnlmWeight ∧
      D.lmScale = args.lmScale ∧ D.unkPenalty = args.unkPenalty ∧ D.unkFromLattice = args.unkFromLattice ∧
      D.linear = args.linear ∧
      D.wiPenalty = args.wiPenalty.map (fun x => x * (match args.logBase with | none => 1 | some b => log b)) := by
  obtain ⟨a1, a2, a3, a4, a5, a6, a7, a8, a9, a10, a11, a12, a13, a14⟩ := args
  cases a2 <;> cases a3 <;> cases a5 <;> cases a9 <;> cases a10 <;> cases a11 <;> cases a6 <;>
    (cases h; refine ⟨rfl, rfl, rfl, rfl, rfl, rfl, rfl, rfl, rfl, rfl, rfl, rfl⟩)

/-- C34, for the option `prune_extra_limit` of the decoder instead of `--prune-relative`, and for the number of nodes
instead of the number of tokens: the limit on the number of tokens is divided by a number that grows linearly with the
number of nodes divided by the option value, but is not tightened below the given minimum. -/
theorem C34_partial (sorted : List Nat) (node : Nat) (st st' : DecSt S St) (h : prune D L sorted node st = .ok st')
    (m r : Nat) (hm : D.maxTokens = some m) (hr : D.pruneExtraLimit = some r) :
    0 < r ∧ (st'.tokens.getD node []).length ≤ max (m / (sorted.length / r + 1)) D.absMinMaxTokens := by
  obtain ⟨divider, best, hd, hb, hne, he⟩ := prune_tokens h
  unfold limitDivider at hd
  rw [hr] at hd
  cases r with
  | zero => cases hd
  | succ r =>
    refine ⟨by omega, ?_⟩
    cases hd
    rw [he, pruneTokens_eq]
    simp only [limitTokens, hm, List.length_take]
    have h1 : max 1 (sorted.length / (r + 1) + 1) = sorted.length / (r + 1) + 1 :=
      max_eq_right (Nat.le_add_left 1 _)
    rw [h1]
    omega

/-- C34, for the option `prune_extra_limit` of the decoder: the beam is divided by the same number, but is not tightened below the given
minimum.  All tokens that are left except the best one are within the tightened beam; a token that is within the tightened beam is left
or recombined with one that is left, unless the tightened limit on the number of tokens is reached. -/
theorem C34_beam_partial (sorted : List Nat) (node : Nat) (st st' : DecSt S St) (ts kept : List (Token S St))
    (hts : ts = st.tokens.getD node []) (hkept : kept = st'.tokens.getD node []) (hh : Hashed D ts)
    (h : prune D L sorted node st = .ok st') (beam : S) (hbeam : D.beam = some beam) (r : Nat)
    (hr : D.pruneExtraLimit = some r) :
    ∃ best width : S, IsBest L sorted st.best node best ∧
      width = max (beam / ((sorted.length / r + 1 : Nat) : S)) D.absMinBeam ∧
      (∀ (k : Token S St) (rest : List (Token S St)), kept = k :: rest → ∀ t ∈ rest, best - width < t.total) ∧
      (∀ t ∈ ts, best - width < t.total →
        (∃ k ∈ kept, SameRecent D.recombinationOrder k.history t.history ∧ t.total ≤ k.total) ∨
        ∃ m, D.maxTokens = some m ∧ kept.length = max (m / (sorted.length / r + 1)) D.absMinMaxTokens) := by
  have hd : limitDivider D sorted.length = .ok (sorted.length / r + 1) := by
    obtain ⟨divider, _, hd, _⟩ := prune_tokens h
    unfold limitDivider at hd ⊢
    rw [hr] at hd ⊢
    cases r with
    | zero => cases hd
    | succ r =>
      simp only
      rw [max_eq_right (Nat.le_add_left 1 _)]
  obtain ⟨best, h1, h2, h3⟩ := beam_kept sorted node st st' ts kept hts hkept hh h beam hbeam _ hd
  exact ⟨best, _, h1, rfl, h2, h3⟩

/-! ### Examples -/

/-- A vocabulary with the words `<s>` 0, `</s>` 1, `<unk>` 2, `a` 3 and `b` 4; `b` is not in the shortlist.  The words
`a` and `b` are in class 3, in which the membership score of `a` is -1. -/
def exVocab : DecVocab ℚ where
  wordToId w := if w = "a".toList then some 3 else if w = "b".toList then some 4 else none
  inShortlist i := decide (i < 4)
  classId i := if i < 3 then i else 3
  logMember i := if i = 3 then -1 else 0
  oosLogprob := none
  sos := 0
  eos := 1
  unk := 2

/-- A network whose state is the list of the words that it has read. -/
def exNet : DecNet ℚ (List Nat) where
  initial := []
  logprob st input _ target := -((target : ℚ) + (if input = 3 ∧ target = 3 then 3 else 0) + st.length)
  next st input _ := st ++ [input]

def exDecoder : Decoder ℚ (List Nat) where
  vocab := exVocab
  net := exNet
  lin x _ _ := x
  nnlmWeight := 1 / 2
  lmScale := some 2
  wiPenalty := some (-1)
  unkPenalty := none
  unkFromLattice := false
  linear := false
  maxTokens := none
  beam := none
  recombinationOrder := none
  pruneExtraLimit := none
  absMinBeam := 0
  absMinMaxTokens := 0

/-- A lattice with word links; the last node is final. -/
def exWordLattice (num : Nat) (links : List (Nat × Nat × Option Str × ℚ × ℚ)) : Lattice ℚ :=
  let built := links.foldl (fun (p : List Node × List (Link ℚ)) (e : Nat × Nat × Option Str × ℚ × ℚ) =>
    addLink p.1 p.2 ⟨e.1, e.2.1, e.2.2.1, some e.2.2.2.1, some e.2.2.2.2, []⟩) (List.replicate num Node.new, [])
  ⟨built.1.modify (num - 1) (fun n => { n with final := true }), built.2, 0, none, none, none⟩

/-- Paths "a b", "a a", "c b" and "c a", and a null link at the end. -/
def exDecLattice : Lattice ℚ := exWordLattice 4
  [(0, 1, some "a".toList, -2, -3), (0, 1, some "c".toList, -1, -1), (1, 2, some "b".toList, -4, -1),
   (1, 2, some "a".toList, -1, -1), (2, 3, none, -1, 0)]

theorem exDecLattice_wf : exDecLattice.WF := wf_of_check _ (by decide +kernel)

/-- Concrete case for C29, C32 and C33: the lattice can be decoded.  The path "c a" is the best, although "a a" has a
better score in the lattice. -/
example : exDecLattice.WF ∧ ∃ r, decode exDecoder exDecLattice = .ok r ∧ r.2 = [] ∧
    r.1.map Token.history = [[.inl 0, .inr "c".toList, .inl 3, .inl 1], [.inl 0, .inr "c".toList, .inl 4, .inl 1],
      [.inl 0, .inl 3, .inl 4, .inl 1], [.inl 0, .inl 3, .inl 3, .inl 1]] :=
  ⟨exDecLattice_wf, by decide +kernel⟩

theorem noPruning_ex : NoPruning exDecoder := ⟨rfl, rfl, rfl, Or.inl rfl, rfl⟩

theorem exDec_acyclic : ∀ n : Nat, ¬ exDecLattice.OnCycle n := by
  have hlt : ∀ a b : Nat, exDecLattice.Edge a b → a < b := by
    rintro a b ⟨k, hk, rfl, rfl⟩
    revert k
    decide +kernel
  have htr : ∀ a b : Nat, Relation.TransGen exDecLattice.Edge a b → a < b := by
    intro a b h
    induction h with
    | single h => exact hlt _ _ h
    | tail _ h ih => exact lt_trans ih (hlt _ _ h)
  exact fun n h => lt_irrefl _ (htr n n h)

/-- The hypotheses of C32 hold for the concrete case. -/
example : ∃ (best : Token ℚ (List Nat)) (rest : List (Token ℚ (List Nat))) (recomb : List (Recomb ℚ (List Nat))),
    decode exDecoder exDecLattice = .ok (best :: rest, recomb) ∧
    ∀ (ls : List (Link ℚ)) (n : Nat) (z : ℚ), exDecLattice.Path exDecLattice.initial ls n → exDecLattice.Final n →
      NNComplete exDecoder ls z → pathScore exDecoder exDecLattice ls z ≤ best.total := by
  have hin : ∀ n < exDecLattice.nodes.length, n ≠ exDecLattice.initial →
      ∃ k ∈ exDecLattice.links, k.endNode = n := by decide +kernel
  have hk : ∀ i : Nat, ∀ k : Link ℚ, exDecLattice.links[i]? = some k → k ∈ exDecLattice.links :=
    fun i k h => List.mem_of_getElem? h
  have hpath : ∃ (ls : List (Link ℚ)) (n : Nat), exDecLattice.Path exDecLattice.initial ls n ∧ exDecLattice.Final n :=
    ⟨[⟨0, 1, some "a".toList, some (-2), some (-3), []⟩] ++ [⟨1, 2, some "b".toList, some (-4), some (-1), []⟩] ++
        [⟨2, 3, none, some (-1), some 0, []⟩], 3,
      .snoc _ ⟨2, 3, none, some (-1), some 0, []⟩ (.snoc _ ⟨1, 2, some "b".toList, some (-4), some (-1), []⟩
        (.snoc [] ⟨0, 1, some "a".toList, some (-2), some (-3), []⟩ .nil (by decide +kernel)) (by decide +kernel))
        (by decide +kernel),
      ⟨_, (by decide +kernel : exDecLattice.nodes[3]? = some (exDecLattice.nodes.getD 3 Node.new)), by decide +kernel⟩⟩
  obtain ⟨best, rest, recomb, h1, _, h2⟩ := C32_best_model (D := exDecoder) exDecLattice_wf exDec_acyclic
    (fun n hn h0 => by obtain ⟨k, h1, h2⟩ := hin n hn h0; exact ⟨k.startNode, k, h1, rfl, h2⟩) noPruning_ex hpath
    (Or.inl ⟨rfl, rfl⟩) (by decide +kernel)
  exact ⟨best, rest, recomb, h1, h2⟩

/-- Tokens with a given history and total log probability. -/
def exToken (history : List HistWord) (total : ℚ) : Token ℚ (List Nat) := ⟨history, [], 0, 0, 0,
  limitedHistory (some 2) history, 0, total⟩

/-- A state in which node 1 has four tokens, two of which end in the same two words. -/
def exDecSt : DecSt ℚ (List Nat) := ⟨[[], [exToken [.inl 0, .inl 3] (-3), exToken [.inl 0, .inl 3, .inl 4] (-5),
  exToken [.inl 0, .inl 4, .inl 3, .inl 4] (-2), exToken [.inl 0, .inl 4] (-9)], [], []], [some 0, some (-2), some (-1), none],
  [], []⟩

/-- Concrete case for C30 and C31: recombination on two words, a beam of 5 from the best log probability -1 at node 2,
and a limit of two tokens. -/
example : ∃ st', prune { exDecoder with recombinationOrder := some 2, beam := some 5, maxTokens := some 2 } exDecLattice
      [0, 1, 2, 3] 1 exDecSt = .ok st' ∧
    (st'.tokens.getD 1 []).map Token.total = [-2, -3] ∧ st'.recomb.map (fun e => e.1.total) = [-5] := by
  decide +kernel

example : Hashed { exDecoder with recombinationOrder := some 2 } (exDecSt.tokens.getD 1 []) := by
  unfold Hashed; decide +kernel

/-- Without the limit, a token is dropped by the beam. -/
example : ∃ st', prune { exDecoder with recombinationOrder := some 2, beam := some 5 } exDecLattice
      [0, 1, 2, 3] 1 exDecSt = .ok st' ∧ (st'.tokens.getD 1 []).map Token.total = [-2, -3] := by
  decide +kernel

set_option synthInstance.maxSize 2000 in
/-- The condition on the limit in C30 is needed: if the limit is zero, decoding fails. -/
theorem C30_zero_limit : decode { exDecoder with maxTokens := some 0 } exDecLattice = .error .assertion := by
  decide +kernel

/-- A decoder with a penalty for unknown words. -/
def exPenalty : Decoder ℚ (List Nat) := { exDecoder with unkPenalty := some (-10) }

/-- A lattice with the path "a c". -/
def exUnknown : Lattice ℚ := exWordLattice 3 [(0, 1, some "a".toList, -2, -3), (1, 2, some "c".toList, -1, -1)]

theorem exUnknown_decode : ∃ r, decode exPenalty exUnknown = .ok r ∧ r.2 = [] ∧ r.1.map Token.nnLm = [-16] := by
  decide +kernel

/-- C33 does not hold for class models with a penalty for unknown words: when an unknown word follows the word "a", the
membership probability of "a" is not included in the score. -/
theorem C33_violated : ∃ (D : Decoder ℚ (List Nat)) (L : Lattice ℚ) (ls : List (Link ℚ)) (t : Token ℚ (List Nat))
    (z : ℚ), L.WF ∧ L.Path L.initial ls 2 ∧ L.Final 2 ∧ ls = L.links ∧ decode D L = .ok ([t], []) ∧ NNComplete D ls z ∧
      t.nnLm = z + 1 := by
  let k₁ : Link ℚ := ⟨0, 1, some "a".toList, some (-2), some (-3), []⟩
  let k₂ : Link ℚ := ⟨1, 2, some "c".toList, some (-1), some (-1), []⟩
  obtain ⟨⟨ts, rs⟩, h1, h2, h3⟩ := exUnknown_decode
  simp only at h2 h3
  subst h2
  obtain ⟨t, rfl, ht⟩ := List.map_eq_singleton_iff.mp h3
  refine ⟨exPenalty, exUnknown, [k₁] ++ [k₂], t, -17, wf_of_check _ (by decide +kernel), ?_, ?_, by decide +kernel, h1, ?_, ?_⟩
  · exact .snoc _ k₂ (.snoc [] k₁ .nil (by decide +kernel)) (by decide +kernel)
  · exact ⟨_, (by decide +kernel : exUnknown.nodes[2]? = some (exUnknown.nodes.getD 2 Node.new)), by decide +kernel⟩
  · have p1 : NNPath exPenalty ([] ++ [k₁]) ([] ++ [.inl 0, .inl 3]) (0 + -4) :=
      .word [] k₁ [] (.inl 0) (.inl 3) "a".toList (some (-10)) 0 (-4) .nil rfl
        ⟨(fun i hi => by cases hi; rfl), (fun h => by cases h)⟩ ⟨(fun h => by cases h), fun _ => rfl⟩
        ⟨fun y _ hu => by have := hu.2; exact absurd this (by decide +kernel), fun _ => by decide +kernel⟩
    have p2 : NNPath exPenalty ([k₁] ++ [k₂]) ([.inl 0] ++ [.inl 3, .inr "c".toList]) (-4 + -10) :=
      .word [k₁] k₂ [.inl 0] (.inl 3) (.inr "c".toList) "c".toList (some (-10)) (-4) (-10)
        (by simpa using p1) rfl ⟨(fun i hi => by cases hi), fun _ => rfl⟩ ⟨(fun h => by cases h), fun _ => rfl⟩
        ⟨fun y hy _ => by cases hy; rfl, fun h => by
          rcases h with h | h
          · cases h
          · exact absurd trivial h⟩
    refine ⟨[.inl 0, .inl 3], .inr "c".toList, -14, -3, ?_, ⟨(fun y hy => by cases hy), fun _ => by decide +kernel⟩,
      by decide +kernel⟩
    have e : (-4 + -10 : ℚ) = -14 := by decide +kernel
    rw [e] at p2
    exact p2
  · rw [ht]; decide +kernel

/-- Command line arguments, with the option `--prune-relative 1`. -/
def exArgs : DecodeArgs ℚ :=
  ⟨1 / 2, some 2, some (-1), none, none, true, false, false, some 2, some 5, none, some 1, 30, 150⟩

/-- Concrete case for C34: the result does not change if the option is removed. -/
example : (∃ r, decodeWith exVocab exNet (fun x _ _ => x) (fun _ => 1) exArgs exDecLattice = .ok r ∧ r.1.length = 2) ∧
    decodeWith exVocab exNet (fun x _ _ => x) (fun _ => 1) { exArgs with pruneRelative := none } exDecLattice =
      decodeWith exVocab exNet (fun x _ _ => x) (fun _ => 1) exArgs exDecLattice :=
  ⟨by decide +kernel, C34_violated _ _ _ _ _ _ _⟩

/-- Concrete case for `C34_partial`: with the value 1, the limit of four tokens becomes one, because there are four
nodes. -/
example : ∃ st', prune { exDecoder with maxTokens := some 5, pruneExtraLimit := some 1 } exDecLattice
      [0, 1, 2, 3] 1 exDecSt = .ok st' ∧ (st'.tokens.getD 1 []).length = 1 := by
  decide +kernel

/-- Concrete case for `C34_beam_partial`: the beam of 8 is divided by five, so that only the best token (-2) is left of those that are
recombined; without the option the token -3 is left too. -/
example : (∃ st', prune { exDecoder with recombinationOrder := some 2, beam := some 8, pruneExtraLimit := some 1 } exDecLattice
      [0, 1, 2, 3] 1 exDecSt = .ok st' ∧ (st'.tokens.getD 1 []).map Token.total = [-2]) ∧
    ∃ st', prune { exDecoder with recombinationOrder := some 2, beam := some 8 } exDecLattice
      [0, 1, 2, 3] 1 exDecSt = .ok st' ∧ (st'.tokens.getD 1 []).map Token.total = [-2, -3] := by
  decide +kernel

end TheanoLM
