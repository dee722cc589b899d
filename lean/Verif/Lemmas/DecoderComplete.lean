import Verif.Lemmas.DecoderBest
/-!
# Lemmas about the lattice decoder: decoding without pruning finds every path
-/
namespace TheanoLM

variable {S St : Type}

set_option linter.unusedSectionVars false

section
variable [Field S] [LinearOrder S] [IsStrictOrderedRing S] {D : Decoder S St} {L : Lattice S}

/-- No pruning: only tokens with the same history are recombined. -/
structure NoPruning (D : Decoder S St) : Prop where
  linear : D.linear = false
  beam : D.beam = none
  maxTokens : D.maxTokens = none
  order : D.recombinationOrder = none ∨ D.recombinationOrder = some 0
  extra : D.pruneExtraLimit = none

theorem NoPruning.limited (h : NoPruning D) (hist : List HistWord) :
    limitedHistory D.recombinationOrder hist = hist := by
  rcases h.order with h | h <;> rw [h] <;> rfl

theorem computed_total (hl : D.linear = false) {t : Token S St} (h : Computed D L t) :
    t.total = t.ac + (D.nnlmWeight * t.nnLm + (1 - D.nnlmWeight) * t.latLm) * decLmScale D L +
      decWiPenalty D L * ((t.history.length : S) - 1) := by
  rw [h.total, h.graph]
  unfold graphLogprob
  simp only [hl, Bool.false_eq_true, if_false, loglinear_eq]
  ring

theorem sameRecent_refl (order : Option Nat) (h : List HistWord) : SameRecent order h h := (limited_iff order h h).mp rfl

theorem sameRecent_trans {order : Option Nat} {h h' h'' : List HistWord} (e : SameRecent order h h')
    (e' : SameRecent order h' h'') : SameRecent order h h'' := by
  rw [← limited_iff] at e e' ⊢; exact e.trans e'

/-- The same word after histories that recombination does not tell apart. -/
theorem sameRecent_snoc {order : Option Nat} {h h' : List HistWord} (e : SameRecent order h h') (w : HistWord) :
    SameRecent order (h ++ [w]) (h' ++ [w]) := by
  unfold SameRecent at e ⊢
  match order with
  | none => simp only at e ⊢; rw [e]
  | some 0 => simp only at e ⊢; rw [e]
  | some (n + 1) =>
    simp only [List.reverse_append, List.reverse_singleton, List.singleton_append, List.take_succ_cons] at e ⊢
    have := congrArg (List.take n) e
    simp only [List.take_take, Nat.min_eq_left (Nat.le_succ n)] at this
    rw [this]

/-- Recombination compares at least the last word. -/
theorem sameRecent_prev {order : Option Nat} {b b' : List HistWord} {p p' : HistWord}
    (e : SameRecent order (b ++ [p]) (b' ++ [p'])) : p = p' := by
  unfold SameRecent at e
  match order with
  | none => simp only at e; exact (List.cons.inj (List.append_inj' e rfl).2).1
  | some 0 => simp only at e; exact (List.cons.inj (List.append_inj' e rfl).2).1
  | some (n + 1) =>
    simp only [List.reverse_append, List.reverse_singleton, List.singleton_append, List.take_succ_cons] at e
    exact (List.cons.inj e).1

/-- No pruning, and recombination only of tokens from which the network predicts the same. -/
structure Unpruned (D : Decoder S St) : Prop where
  linear : D.linear = false
  beam : D.beam = none
  maxTokens : D.maxTokens = none
  extra : D.pruneExtraLimit = none
  context : ContextLimited D

theorem NoPruning.same (h : NoPruning D) {a b : List HistWord} (e : SameRecent D.recombinationOrder a b) : a = b := by
  rwa [← limited_iff, h.limited, h.limited] at e

theorem NoPruning.unpruned (h : NoPruning D) : Unpruned D := by
  refine ⟨h.linear, h.beam, h.maxTokens, h.extra, ?_⟩
  intro b b' p p' w e
  obtain ⟨rfl, e'⟩ := List.append_inj' (h.same e) rfl
  rw [(List.cons.inj e').1]

/-- The recombination does not tell the histories apart, and at least the same total. -/
def Dom (D : Decoder S St) (t t' : Token S St) : Prop :=
  SameRecent D.recombinationOrder t'.history t.history ∧ t.total ≤ t'.total

omit [IsStrictOrderedRing S] in
/-- The word adds the same to the score of two paths that recombination does not tell apart. -/
theorem append_same (hctx : ContextLimited D) {ls ls' : List (Link S)}
    (h : SameRecent D.recombinationOrder (runPath D L ls').history (runPath D L ls).history) (w : HistWord) (s : Option S) :
    (appendWord D (runPath D L ls').state (lastWord D (runPath D L ls').history) w s).2 =
      (appendWord D (runPath D L ls).state (lastWord D (runPath D L ls).history) w s).2 := by
  obtain ⟨b, p, e1, e2⟩ := runPath_state (D := D) (L := L) ls
  obtain ⟨b', p', e1', e2'⟩ := runPath_state (D := D) (L := L) ls'
  rw [e1, e1'] at h
  have hp := sameRecent_prev h
  have hc := hctx b' b p' p w h
  rw [e1, e1', e2, e2']
  simp only [lastWord, List.getLast?_append, List.getLast?_singleton, Option.some_or, Option.getD_some]
  rw [appendWord_eq, appendWord_eq, hc, hp]

theorem dom_link (hl : D.linear = false) (hctx : ContextLimited D) {ls ls' : List (Link S)}
    (hd : Dom D (runPath D L ls) (runPath D L ls')) (k : Link S) :
    Dom D (propagateLink D (decLmScale D L) (decWiPenalty D L) k (runPath D L ls))
      (propagateLink D (decLmScale D L) (decWiPenalty D L) k (runPath D L ls')) := by
  obtain ⟨h1, h3⟩ := hd
  have hs := append_same hctx h1
  rw [computed_total hl (computed_run ls), computed_total hl (computed_run ls')] at h3
  unfold propagateLink
  cases k.word with
  | none =>
    refine ⟨h1, ?_⟩
    rw [computed_total (L := L) hl (computed_mk _ _ _ _ _), computed_total (L := L) hl (computed_mk _ _ _ _ _)]
    simp only [mkToken]
    linarith [h3]
  | some w =>
    refine ⟨sameRecent_snoc h1 _, ?_⟩
    rw [computed_total (L := L) hl (computed_mk _ _ _ _ _), computed_total (L := L) hl (computed_mk _ _ _ _ _)]
    simp only [mkToken, hs, List.length_append, List.length_singleton, Nat.cast_add]
    linarith [h3]

theorem dom_end (hl : D.linear = false) (hctx : ContextLimited D) {ls ls' : List (Link S)}
    (hd : Dom D (runPath D L ls) (runPath D L ls')) :
    SameRecent D.recombinationOrder (propagateEnd D (decLmScale D L) (decWiPenalty D L) (runPath D L ls')).history
      (propagateEnd D (decLmScale D L) (decWiPenalty D L) (runPath D L ls)).history ∧
    (propagateEnd D (decLmScale D L) (decWiPenalty D L) (runPath D L ls)).total ≤
      (propagateEnd D (decLmScale D L) (decWiPenalty D L) (runPath D L ls')).total := by
  obtain ⟨h1, h3⟩ := hd
  have hs := append_same hctx h1
  rw [computed_total hl (computed_run ls), computed_total hl (computed_run ls')] at h3
  unfold propagateEnd
  refine ⟨sameRecent_snoc h1 _, ?_⟩
  rw [computed_total (L := L) hl (computed_mk _ _ _ _ _), computed_total (L := L) hl (computed_mk _ _ _ _ _)]
  simp only [mkToken, hs, List.length_append, List.length_singleton, Nat.cast_add]
  linarith [h3]

/-- There is a token in the node that is at least as good as the token of the path. -/
def Rep (D : Decoder S St) (L : Lattice S) (ts : List (Token S St)) (ls : List (Link S)) : Prop :=
  ∃ t ∈ ts, SameRecent D.recombinationOrder t.history (runPath D L ls).history ∧ (runPath D L ls).total ≤ t.total

/-- All paths through processed nodes are represented. -/
def PathsInv (D : Decoder S St) (L : Lattice S) (done : List Nat) (st : DecSt S St) : Prop :=
  ∀ (ls : List (Link S)) (n : Nat), L.Path L.initial ls n → (∀ k ∈ ls, k.startNode ∈ done) →
    Rep D L (st.tokens.getD n []) ls

/-- All complete paths to processed nodes are represented. -/
def EndInv (D : Decoder S St) (L : Lattice S) (done : List Nat) (st : DecSt S St) : Prop :=
  ∀ (ls : List (Link S)) (n : Nat), L.Path L.initial ls n → L.Final n → n ∈ done →
    ∃ t ∈ st.finals, SameRecent D.recombinationOrder t.history (runEnd D L ls).history ∧ (runEnd D L ls).total ≤ t.total

/-- No limits on hypotheses. -/
structure Unlimited (D : Decoder S St) : Prop where
  beam : D.beam = none
  maxTokens : D.maxTokens = none
  extra : D.pruneExtraLimit = none

theorem Unpruned.unlimited (h : Unpruned D) : Unlimited D := ⟨h.beam, h.maxTokens, h.extra⟩

/-- When recombination keeps the better one of two tokens, it stays the better one. -/
def Extends (D : Decoder S St) (L : Lattice S) : Prop :=
  ∀ (ls ls' : List (Link S)) (n : Nat), L.Path L.initial ls n → L.Path L.initial ls' n → Dom D (runPath D L ls) (runPath D L ls') →
    (∀ k : Link S, Dom D (propagateLink D (decLmScale D L) (decWiPenalty D L) k (runPath D L ls))
      (propagateLink D (decLmScale D L) (decWiPenalty D L) k (runPath D L ls'))) ∧
    Dom D (propagateEnd D (decLmScale D L) (decWiPenalty D L) (runPath D L ls))
      (propagateEnd D (decLmScale D L) (decWiPenalty D L) (runPath D L ls'))

theorem Unpruned.extends (h : Unpruned D) : Extends D L :=
  fun _ _ _ _ _ hd => ⟨fun k => dom_link h.linear h.context hd k, dom_end h.linear h.context hd⟩

theorem pruneTokens_all (hn : Unlimited D) (divider : Nat) (best : S) (ts : List (Token S St)) :
    pruneTokens D divider best ts = sortedRecombined ts := by
  rw [pruneTokens_eq]
  unfold limitTokens beamTokens
  rw [hn.maxTokens, hn.beam]

theorem prune_all (hn : Unlimited D) {sorted : List Nat} {node : Nat} {st : DecSt S St}
    (h : st.tokens.getD node [] ≠ []) : prune D L sorted node st = .ok { st with
        tokens := st.tokens.set node (sortedRecombined (st.tokens.getD node [])).1
        recomb := st.recomb ++ (sortedRecombined (st.tokens.getD node [])).2 } := by
  unfold prune
  simp only
  rw [if_neg h]
  unfold limitDivider bestLogprob
  simp only [hn.extra, hn.beam, pruneTokens_all hn]

theorem decodeLink_all (hm : D.maxTokens = none) {sorted : List Nat} {lm wi : S} {nodeTokens : List (Token S St)}
    {st : DecSt S St} {l : Nat} {k : Link S} (hk : L.links[l]? = some k) :
    decodeLink D L lm wi sorted nodeTokens st l = .ok { st with
        tokens := st.tokens.modify k.endNode (fun ts => ts ++ nodeTokens.map (propagateLink D lm wi k))
        best := st.best.modify k.endNode (fun b => updateBest b (nodeTokens.map (propagateLink D lm wi k))) } := by
  unfold decodeLink
  rw [hk]
  simp only [hm]

theorem getD_modify {α : Type} (l : List (List α)) (i j : Nat) (f : List α → List α) (hi : i < l.length) :
    (l.modify i f).getD j [] = if i = j then f (l.getD j []) else l.getD j [] := by
  rw [List.getD_eq_getElem?_getD, List.getElem?_modify, List.getD_eq_getElem?_getD]
  by_cases h : i = j
  · subst h
    rw [if_pos rfl, List.getElem?_eq_getElem hi]
    simp
  · rw [if_neg h]
    cases l[j]? <;> simp [h]

theorem decodeLinks_all (hm : D.maxTokens = none) {sorted : List Nat} {lm wi : S} {nodeTokens : List (Token S St)}
    (ls : List Nat) : ∀ {st : DecSt S St}, (∀ l ∈ ls, ∃ k, L.links[l]? = some k ∧ k.endNode < st.tokens.length) →
    ∃ st', decodeLinks D L lm wi sorted nodeTokens ls st = .ok st' ∧ st'.finals = st.finals ∧
      st'.tokens.length = st.tokens.length ∧ (∀ n, st.tokens.getD n [] ⊆ st'.tokens.getD n []) ∧
      ∀ l ∈ ls, ∀ k, L.links[l]? = some k → nodeTokens.map (propagateLink D lm wi k) ⊆ st'.tokens.getD k.endNode [] := by
  induction ls with
  | nil => intro st _; exact ⟨st, rfl, rfl, rfl, fun n => List.Subset.refl _, by simp⟩
  | cons l ls ih =>
    intro st hl
    obtain ⟨k, hk, hlt⟩ := hl l (by simp)
    unfold decodeLinks
    rw [decodeLink_all hm hk]
    simp only
    obtain ⟨st', h1, h2, h3, h4, h5⟩ := ih (st := { st with
        tokens := st.tokens.modify k.endNode (fun ts => ts ++ nodeTokens.map (propagateLink D lm wi k))
        best := st.best.modify k.endNode (fun b => updateBest b (nodeTokens.map (propagateLink D lm wi k))) })
      (by
        intro l' hl'
        obtain ⟨k', h1, h2⟩ := hl l' (List.mem_cons_of_mem _ hl')
        exact ⟨k', h1, by rw [List.length_modify]; exact h2⟩)
    refine ⟨st', h1, h2, by rw [h3, List.length_modify], ?_, ?_⟩
    · intro n
      refine List.Subset.trans ?_ (h4 n)
      simp only
      rw [getD_modify _ _ _ _ hlt]
      split
      · exact List.subset_append_left _ _
      · exact List.Subset.refl _
    · intro l' hl' k' hk'
      rcases List.mem_cons.mp hl' with rfl | hl'
      · rw [hk] at hk'
        cases hk'
        refine List.Subset.trans ?_ (h4 k.endNode)
        simp only
        rw [getD_modify _ _ _ _ hlt, if_pos rfl]
        exact List.subset_append_right _ _
      · exact h5 l' hl' k' hk'

/-- A node that comes before another one is in the part before it. -/
theorem before_prefix {sorted P Q : List Nat} {a n : Nat} (hnd : sorted.Nodup) (hs : sorted = P ++ n :: Q)
    (hb : Before sorted a n) : a ∈ P := by
  obtain ⟨l₁, l₂, e, hm⟩ := hb
  have hn1 : n ∉ l₁ := by
    rw [e, List.nodup_append] at hnd
    intro h
    exact hnd.2.2 _ h _ (by simp) rfl
  have hn2 : n ∉ P := by
    rw [hs, List.nodup_append] at hnd
    intro h
    exact hnd.2.2 _ h _ (by simp) rfl
  have hP : l₁ = P := by
    rw [hs] at e
    rcases List.append_eq_append_iff.mp e with ⟨x, ha1, ha2⟩ | ⟨x, ha1, ha2⟩
    · cases x with
      | nil => rw [ha1]; simp
      | cons x xs =>
        simp only [List.cons_append, List.cons.injEq] at ha2
        exfalso; apply hn1; rw [ha1, ha2.1]; simp
    · cases x with
      | nil => rw [ha1]; simp
      | cons x xs =>
        simp only [List.cons_append, List.cons.injEq] at ha2
        exfalso; apply hn2; rw [ha1, ha2.1]; simp
  rw [← hP]; exact hm

/-- The nodes of a path come before its end. -/
theorem path_before {sorted : List Nat} (hnd : sorted.Nodup)
    (ht : ∀ a b : Nat, b ∈ sorted → L.Edge a b → Before sorted a b) {ls : List (Link S)} {n : Nat}
    (hp : L.Path L.initial ls n) : ∀ {P Q : List Nat}, sorted = P ++ n :: Q → ∀ k ∈ ls, k.startNode ∈ P := by
  induction hp with
  | nil => intro P Q _ k hk; cases hk
  | snoc ls k _ hk ih =>
    intro P Q hs k' hk'
    have hm := before_prefix hnd hs (ht k.startNode k.endNode (by rw [hs]; simp) ⟨k, hk, rfl, rfl⟩)
    rcases List.mem_append.mp hk' with h | h
    · obtain ⟨p₁, p₂, rfl⟩ := List.append_of_mem hm
      have := ih (P := p₁) (Q := p₂ ++ k.endNode :: Q) (by rw [hs]; simp) k' h
      exact List.mem_append_left _ this
    · rw [List.mem_singleton.mp h]; exact hm

omit [IsStrictOrderedRing S] in
/-- Every node in the order is on a path. -/
theorem path_exists {sorted : List Nat} (hnd : sorted.Nodup)
    (ht : ∀ a b : Nat, b ∈ sorted → b ≠ L.initial → L.Edge a b → Before sorted a b)
    (hin : ∀ n ∈ sorted, n ≠ L.initial → ∃ a : Nat, L.Edge a n) :
    ∀ (len : Nat) (P Q : List Nat) (n : Nat), P.length = len → sorted = P ++ n :: Q →
      ∃ ls, L.Path L.initial ls n := by
  intro len
  induction len using Nat.strong_induction_on with
  | _ len ih =>
    intro P Q n hlen hs
    by_cases h0 : n = L.initial
    · subst h0; exact ⟨[], .nil⟩
    · have hn : n ∈ sorted := by rw [hs]; simp
      obtain ⟨a, k, hk, h1, h2⟩ := hin n hn h0
      have hm := before_prefix hnd hs (ht a n hn h0 ⟨k, hk, h1, h2⟩)
      obtain ⟨p₁, p₂, rfl⟩ := List.append_of_mem hm
      obtain ⟨ls, hp⟩ := ih p₁.length (by rw [← hlen]; simp) p₁ (p₂ ++ n :: Q) a rfl (by rw [hs]; simp)
      subst h1 h2
      exact ⟨_, .snoc ls k hp hk⟩

theorem rep_sorted {ts : List (Token S St)} {n : Nat} (hP : ∀ t ∈ ts, PathP D L n t)
    {ls : List (Link S)} (h : Rep D L ts ls) : Rep D L (sortedRecombined ts).1 ls := by
  obtain ⟨t, ht, h1, h2⟩ := h
  obtain ⟨k, hk, h3, h4⟩ := (sortedRecombined_spec ts).kept ht
  have hk' := (sortedRecombined_spec ts).subset hk
  obtain ⟨l1, _, rfl⟩ := hP t ht
  obtain ⟨l2, _, rfl⟩ := hP k hk'
  refine ⟨_, hk, ?_, le_trans h2 h4⟩
  rw [(computed_run (D := D) (L := L) l1).hash, (computed_run (D := D) (L := L) l2).hash, limited_iff] at h3
  exact sameRecent_trans h3 h1

/-- One node. -/
theorem decodeNode_all (hw : L.WF) (hn : Unlimited D) (hx : Extends D L) {sorted done rest : List Nat} {m : Nat}
    (hs : sorted = done ++ m :: rest) (hnd : sorted.Nodup)
    (ht : ∀ a b : Nat, b ∈ sorted → L.Edge a b → Before sorted a b)
    (hreach : ∃ ls, L.Path L.initial ls m) {st : DecSt S St}
    (hi : DInv (PathP D L) (PathQ D L) (PathR D L) L.nodes.length st) (hc : PathsInv D L done st) (hf : EndInv D L done st) :
    ∃ st', decodeNode D L (decLmScale D L) (decWiPenalty D L) sorted m st = .ok st' ∧
      PathsInv D L (done ++ [m]) st' ∧ EndInv D L (done ++ [m]) st' := by
  have hbefore : ∀ {ls : List (Link S)}, L.Path L.initial ls m → ∀ k ∈ ls, k.startNode ∈ done :=
    fun hp => path_before hnd ht hp hs
  have hP : ∀ t ∈ st.tokens.getD m [], PathP D L m t := by
    intro t ht'
    obtain ⟨ts, a, b⟩ := getD_tokens ht'
    exact hi.tok m ts a t b
  have hrep : ∀ {ls : List (Link S)}, L.Path L.initial ls m → Rep D L (st.tokens.getD m []) ls :=
    fun hp => hc _ m hp (hbefore hp)
  have hne : st.tokens.getD m [] ≠ [] := by
    obtain ⟨ls, hp⟩ := hreach
    obtain ⟨t, ht', _⟩ := hrep hp
    exact List.ne_nil_of_mem ht'
  have hmlt : m < st.tokens.length := by
    by_contra hge
    apply hne
    rw [List.getD_eq_getElem?_getD, List.getElem?_eq_none (by omega)]
    rfl
  -- the pruned state
  let st1 : DecSt S St := { st with
        tokens := st.tokens.set m (sortedRecombined (st.tokens.getD m [])).1
        recomb := st.recomb ++ (sortedRecombined (st.tokens.getD m [])).2 }
  have hpr : prune D L sorted m st = .ok st1 := prune_all hn hne
  have hget : ∀ n, st1.tokens.getD n [] =
      if m = n then (sortedRecombined (st.tokens.getD m [])).1 else st.tokens.getD n [] := by
    intro n
    simp only [st1]
    rw [List.getD_eq_getElem?_getD]
    by_cases h : m = n
    · subst h
      rw [if_pos rfl, List.getElem?_set_self hmlt, Option.getD_some]
    · rw [if_neg h, List.getElem?_set_ne h, ← List.getD_eq_getElem?_getD]
  have hne1 : st1.tokens.getD m [] ≠ [] := by
    rw [hget, if_pos rfl]
    exact (sortedRecombined_spec _).ne_nil hne
  have hrep1 : ∀ {ls : List (Link S)}, L.Path L.initial ls m → Rep D L (st1.tokens.getD m []) ls := by
    intro ls hp
    rw [hget, if_pos rfl]
    exact rep_sorted hP (hrep hp)
  have hP1 : ∀ t ∈ st1.tokens.getD m [], PathP D L m t := by
    intro t ht'
    rw [hget, if_pos rfl] at ht'
    exact hP t ((sortedRecombined_spec _).subset ht')
  have hc1 : PathsInv D L done st1 := by
    intro ls n hp hk
    by_cases h : m = n
    · subst h; exact hrep1 hp
    · rw [hget, if_neg h]; exact hc ls n hp hk
  -- the links
  have houts : ∀ l ∈ L.outLinks m, ∃ k, L.links[l]? = some k ∧ k.startNode = m ∧ k.endNode < L.nodes.length := by
    intro l hl
    unfold Lattice.outLinks at hl
    rw [List.getD_eq_getElem?_getD] at hl
    cases hnm : L.nodes[m]? with
    | none => rw [hnm] at hl; cases hl
    | some nd =>
      rw [hnm] at hl
      obtain ⟨k, hk, hks⟩ := (hw.out_iff m nd hnm l).mp hl
      exact ⟨k, hk, hks, (hw.ends k (List.mem_of_getElem? hk)).2⟩
  have hlink : ∀ k ∈ L.links, k.startNode = m → ∃ l ∈ L.outLinks m, L.links[l]? = some k := by
    intro k hk hks
    obtain ⟨l, hl⟩ := List.mem_iff_getElem?.mp hk
    have hml : m < L.nodes.length := by rw [← hks]; exact (hw.ends k hk).1
    refine ⟨l, ?_, hl⟩
    unfold Lattice.outLinks
    rw [List.getD_eq_getElem?_getD, List.getElem?_eq_getElem hml, Option.getD_some]
    exact (hw.out_iff m _ (List.getElem?_eq_getElem hml) l).mpr ⟨k, hl, hks⟩
  let st2 : DecSt S St := if (L.nodes.getD m Node.new).final = true then { st1 with
        finals := st1.finals ++ (st1.tokens.getD m []).map (propagateEnd D (decLmScale D L) (decWiPenalty D L)) }
      else st1
  have h2tok : st2.tokens = st1.tokens := by
    simp only [st2]; split <;> rfl
  obtain ⟨st', hlinks, hfin, hlen, hsub, hnew⟩ := decodeLinks_all (L := L) hn.maxTokens (sorted := sorted) (lm := decLmScale D L)
    (wi := decWiPenalty D L) (nodeTokens := st1.tokens.getD m []) (L.outLinks m) (st := st2) (by
      intro l hl
      obtain ⟨k, h1, _, h3⟩ := houts l hl
      refine ⟨k, h1, ?_⟩
      rw [h2tok]
      simp only [st1, List.length_set, hi.len]
      exact h3)
  refine ⟨st', ?_, ?_, ?_⟩
  · unfold decodeNode
    rw [hpr]
    simp only
    rw [if_neg hne1]
    exact hlinks
  · intro ls n hp hk
    cases hp with
    | nil =>
      obtain ⟨t, ht', h1⟩ := hc1 [] L.initial .nil (by simp)
      exact ⟨t, hsub _ (by rw [h2tok]; exact ht'), h1⟩
    | snoc ls k hp hkl =>
      have hks := hk k (by simp)
      rcases List.mem_append.mp hks with hks | hks
      · -- the last link starts from a node that has been processed earlier
        obtain ⟨p₁, p₂, hd⟩ := List.append_of_mem hks
        have hb : ∀ k' ∈ ls, k'.startNode ∈ p₁ := path_before hnd ht hp (P := p₁) (Q := p₂ ++ m :: rest) (by
          rw [hs, hd]; simp)
        obtain ⟨t, ht', h1⟩ := hc1 (ls ++ [k]) k.endNode (.snoc ls k hp hkl) (by
          intro k' hk'
          rcases List.mem_append.mp hk' with h | h
          · rw [hd]; exact List.mem_append_left _ (hb k' h)
          · rw [List.mem_singleton.mp h]; exact hks)
        exact ⟨t, hsub _ (by rw [h2tok]; exact ht'), h1⟩
      · -- it starts from this node
        have hkm := List.mem_singleton.mp hks
        obtain ⟨t, ht', h1, h2⟩ := hrep1 (ls := ls) (by rw [← hkm]; exact hp)
        obtain ⟨l, hl, hlk⟩ := hlink k hkl hkm
        obtain ⟨ls', hp', rfl⟩ := hP1 t ht'
        have hdom := (hx ls ls' m (by rw [← hkm]; exact hp) hp' ⟨h1, h2⟩).1 k
        refine ⟨_, hnew l hl k hlk (List.mem_map.mpr ⟨_, ht', rfl⟩), ?_, ?_⟩
        · rw [runPath_snoc]; exact hdom.1
        · rw [runPath_snoc]; exact hdom.2
  · intro ls n hp hfn hmem
    rw [hfin]
    rcases List.mem_append.mp hmem with hmem | hmem
    · obtain ⟨t, ht', h1⟩ := hf ls n hp hfn hmem
      refine ⟨t, ?_, h1⟩
      simp only [st2]
      split
      · exact List.mem_append_left _ ht'
      · exact ht'
    · have hnm := List.mem_singleton.mp hmem
      subst hnm
      obtain ⟨t, ht', h1, h2⟩ := hrep1 hp
      obtain ⟨ls', hp', rfl⟩ := hP1 t ht'
      have hdom := (hx ls ls' n hp hp' ⟨h1, h2⟩).2
      obtain ⟨nd, hnd1, hnd2⟩ := hfn
      have hfinal : (L.nodes.getD n Node.new).final = true := by
        rw [List.getD_eq_getElem?_getD, hnd1]; exact hnd2
      refine ⟨_, ?_, hdom⟩
      simp only [st2]
      rw [if_pos hfinal]
      exact List.mem_append_right _ (List.mem_map.mpr ⟨_, ht', rfl⟩)

theorem decodeNodes_all (hw : L.WF) (hn : Unlimited D) (hx : Extends D L) {sorted : List Nat} (hnd : sorted.Nodup)
    (ht : ∀ a b : Nat, b ∈ sorted → L.Edge a b → Before sorted a b)
    (hin : ∀ n ∈ sorted, n ≠ L.initial → ∃ a : Nat, L.Edge a n) (ns : List Nat) : ∀ {done : List Nat} {st : DecSt S St},
    sorted = done ++ ns → DInv (PathP D L) (PathQ D L) (PathR D L) L.nodes.length st → PathsInv D L done st →
    EndInv D L done st →
    ∃ st', decodeNodes D L (decLmScale D L) (decWiPenalty D L) sorted ns st = .ok st' ∧ EndInv D L sorted st' := by
  induction ns with
  | nil =>
    intro done st hs _ _ hf
    rw [List.append_nil] at hs
    exact ⟨st, rfl, by rw [hs]; exact hf⟩
  | cons m ns ih =>
    intro done st hs hi hc hf
    obtain ⟨st1, h1, h2, h3⟩ := decodeNode_all hw hn hx hs hnd ht (path_exists hnd (fun a b hb _ => ht a b hb) hin _ done ns m rfl hs) hi hc hf
    obtain ⟨st', h4, h5⟩ := ih (done := done ++ [m]) (by rw [hs]; simp) (decodeNode_inv hw (path_keeps D L) hi h1) h2 h3
    refine ⟨st', ?_, h5⟩
    unfold decodeNodes
    rw [h1]
    exact h4

theorem decInit_cinv (hw : L.WF) : PathsInv D L [] (decInit D L) := by
  intro ls n hp hk
  cases hp with
  | nil =>
    refine ⟨runPath D L [], ?_, sameRecent_refl _ _, le_refl _⟩
    simp only [decInit]
    rw [getD_modify _ _ _ _ (by simpa using hw.initial), if_pos rfl]
    simp [runPath]
  | snoc ls k _ _ => exact absurd (hk k (by simp)) (by simp)

end
end TheanoLM
