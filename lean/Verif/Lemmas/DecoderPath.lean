import Verif.Lemmas.Decoder
import Verif.Props.Lattice
/-!
# Lemmas about the lattice decoder: tokens are paths
-/
namespace TheanoLM

variable {S St : Type}

set_option linter.unusedSectionVars false

section
variable [Field S] [LinearOrder S]

/-- Facts about the tokens in nodes (`P`), about final tokens (`Q`) and about recombined tokens (`R`) that decoding
keeps true. -/
structure DInv (P : Nat → Token S St → Prop) (Q : Token S St → Prop) (R : Recomb S St → Prop) (N : Nat)
    (st : DecSt S St) : Prop where
  len : st.tokens.length = N
  tok : ∀ (n : Nat) (ts : List (Token S St)), st.tokens[n]? = some ts → ∀ t ∈ ts, P n t
  fin : ∀ t ∈ st.finals, Q t
  recs : ∀ e ∈ st.recomb, R e

/-- The facts hold when tokens are created. -/
structure Keeps (D : Decoder S St) (L : Lattice S) (P : Nat → Token S St → Prop) (Q : Token S St → Prop)
    (R : Recomb S St → Prop) : Prop where
  init : P L.initial (mkToken D (decLmScale D L) (decWiPenalty D L) [.inl D.vocab.sos] D.net.initial 0 0 0)
  link : ∀ (k : Link S) (t : Token S St), k ∈ L.links → P k.startNode t →
    P k.endNode (propagateLink D (decLmScale D L) (decWiPenalty D L) k t)
  final : ∀ (n : Nat) (t : Token S St), L.Final n → P n t →
    Q (propagateEnd D (decLmScale D L) (decWiPenalty D L) t)
  recomb : ∀ (n : Nat) (t k : Token S St), P n t → P n k → k.hash = t.hash → t.total ≤ k.total →
    R (t, k.history, k.nnLm)

variable {D : Decoder S St} {L : Lattice S} {P : Nat → Token S St → Prop} {Q : Token S St → Prop}
  {R : Recomb S St → Prop}

theorem getD_tokens {st : DecSt S St} {n : Nat} {t : Token S St} (h : t ∈ st.tokens.getD n []) :
    ∃ ts, st.tokens[n]? = some ts ∧ t ∈ ts := by
  rw [List.getD_eq_getElem?_getD] at h
  cases hts : st.tokens[n]? with
  | none => rw [hts] at h; cases h
  | some ts => rw [hts] at h; exact ⟨ts, rfl, h⟩

/-- `prune` replaces the tokens of one node with some of them. -/
theorem prune_spec {sorted : List Nat} {node : Nat} {st st' : DecSt S St} (h : prune D L sorted node st = .ok st') :
    st.tokens.getD node [] ≠ [] ∧ ∃ (divider : Nat) (best : S), limitDivider D sorted.length = .ok divider ∧
      bestLogprob D L sorted st.best node = .ok best ∧
      st' = { st with
        tokens := st.tokens.set node (pruneTokens D divider best (st.tokens.getD node [])).1
        recomb := st.recomb ++ (pruneTokens D divider best (st.tokens.getD node [])).2 } := by
  unfold prune at h
  simp only at h
  split at h
  · cases h
  · rename_i hne
    split at h
    · cases h
    · rename_i divider hd
      split at h
      · cases h
      · rename_i best hb
        cases h
        exact ⟨hne, divider, best, hd, hb, rfl⟩

theorem prune_inv {N : Nat} {sorted : List Nat} {node : Nat} {st st' : DecSt S St} (hk : Keeps D L P Q R)
    (hi : DInv P Q R N st) (h : prune D L sorted node st = .ok st') : DInv P Q R N st' := by
  obtain ⟨_, divider, best, _, _, rfl⟩ := prune_spec h
  have hs := sortedRecombined_spec (st.tokens.getD node [])
  have hP : ∀ t ∈ st.tokens.getD node [], P node t := by
    intro t ht
    obtain ⟨ts, h1, h2⟩ := getD_tokens ht
    exact hi.tok node ts h1 t h2
  constructor
  · rw [List.length_set]; exact hi.len
  · intro n ts hts t ht
    by_cases hn : n = node
    · subst hn
      have hlt : n < st.tokens.length := by
        have := (List.getElem?_eq_some_iff.mp hts).1
        rwa [List.length_set] at this
      rw [List.getElem?_set_self hlt] at hts
      cases hts
      exact hP t (hs.subset ((pruneTokens_prefix _ _ _ _).subset ht))
    · rw [List.getElem?_set_ne (Ne.symm hn)] at hts
      exact hi.tok n ts hts t ht
  · exact hi.fin
  · intro e he
    rcases List.mem_append.mp he with he | he
    · exact hi.recs e he
    · obtain ⟨k, hk1, h1, h2, h3, h4⟩ := hs.recs e he
      have := hk.recomb node e.1 k (hP _ (hs.recomb_mem he)) (hP _ (hs.subset hk1)) h1 h4
      rw [← h2, ← h3] at this
      exact this

/-- `decodeLink` adds tokens to the end node, and may then prune it. -/
theorem decodeLink_spec {sorted : List Nat} {lm wi : S} {nodeTokens : List (Token S St)} {st st' : DecSt S St} {l : Nat}
    (h : decodeLink D L lm wi sorted nodeTokens st l = .ok st') :
    ∃ k, L.links[l]? = some k ∧ ∃ st1 : DecSt S St, st1 = { st with
        tokens := st.tokens.modify k.endNode (fun ts => ts ++ nodeTokens.map (propagateLink D lm wi k))
        best := st.best.modify k.endNode (fun b => updateBest b (nodeTokens.map (propagateLink D lm wi k))) } ∧
      (st' = st1 ∨ (D.maxTokens ≠ none ∧ prune D L sorted k.endNode st1 = .ok st')) := by
  unfold decodeLink at h
  split at h
  · cases h
  · rename_i k hk
    refine ⟨k, hk, _, rfl, ?_⟩
    simp only at h
    split at h
    · cases h; exact Or.inl rfl
    · rename_i m hm
      split at h
      · exact Or.inr ⟨by rw [hm]; simp, h⟩
      · cases h; exact Or.inl rfl

theorem decodeLink_inv {N : Nat} {sorted : List Nat} {node : Nat} {nodeTokens : List (Token S St)}
    {st st' : DecSt S St} {l : Nat} (hk : Keeps D L P Q R) (hi : DInv P Q R N st) (hnt : ∀ t ∈ nodeTokens, P node t)
    (hl : ∀ k, L.links[l]? = some k → k.startNode = node)
    (h : decodeLink D L (decLmScale D L) (decWiPenalty D L) sorted nodeTokens st l = .ok st') : DInv P Q R N st' := by
  obtain ⟨k, hk1, st1, hst1, h1⟩ := decodeLink_spec h
  have hi1 : DInv P Q R N st1 := by
    subst hst1
    constructor
    · rw [List.length_modify]; exact hi.len
    · intro n ts hts t ht
      rw [List.getElem?_modify] at hts
      split at hts
      · rename_i hn
        cases hto : st.tokens[n]? with
        | none => rw [hto] at hts; cases hts
        | some ts0 =>
          rw [hto] at hts
          cases hts
          rcases List.mem_append.mp ht with ht | ht
          · exact hi.tok n ts0 hto t ht
          · obtain ⟨t0, ht0, rfl⟩ := List.mem_map.mp ht
            rw [← hn]
            exact hk.link k t0 (List.mem_of_getElem? hk1) (by rw [hl k hk1]; exact hnt t0 ht0)
      · cases hto : st.tokens[n]? with
        | none => rw [hto] at hts; cases hts
        | some ts0 =>
          rw [hto] at hts
          cases hts
          exact hi.tok n _ hto t ht
    · exact hi.fin
    · exact hi.recs
  rcases h1 with rfl | ⟨_, h1⟩
  · exact hi1
  · exact prune_inv hk hi1 h1

theorem decodeLinks_inv {N : Nat} {sorted : List Nat} {node : Nat} {nodeTokens : List (Token S St)}
    (hk : Keeps D L P Q R) (hnt : ∀ t ∈ nodeTokens, P node t) (ls : List Nat) :
    ∀ {st st' : DecSt S St}, DInv P Q R N st → (∀ l ∈ ls, ∀ k, L.links[l]? = some k → k.startNode = node) →
    decodeLinks D L (decLmScale D L) (decWiPenalty D L) sorted nodeTokens ls st = .ok st' → DInv P Q R N st' := by
  induction ls with
  | nil => intro st st' hi _ h; cases h; exact hi
  | cons l ls ih =>
    intro st st' hi hl h
    unfold decodeLinks at h
    split at h
    · cases h
    · rename_i st1 h1
      exact ih (decodeLink_inv hk hi hnt (hl l (by simp)) h1) (fun l' h' => hl l' (List.mem_cons_of_mem _ h')) h

/-- One node. -/
theorem decodeNode_spec {sorted : List Nat} {lm wi : S} {node : Nat} {st st' : DecSt S St}
    (h : decodeNode D L lm wi sorted node st = .ok st') :
    ∃ st1 st2 : DecSt S St, prune D L sorted node st = .ok st1 ∧ st1.tokens.getD node [] ≠ [] ∧
      ((L.nodes.getD node Node.new).final = true → st2 = { st1 with
        finals := st1.finals ++ (st1.tokens.getD node []).map (propagateEnd D lm wi) }) ∧
      ((L.nodes.getD node Node.new).final = false → st2 = st1) ∧
      decodeLinks D L lm wi sorted (st1.tokens.getD node []) (L.outLinks node) st2 = .ok st' := by
  unfold decodeNode at h
  split at h
  · cases h
  · rename_i st1 h1
    simp only at h
    split at h
    · cases h
    · rename_i hne
      refine ⟨st1, _, h1, hne, ?_, ?_, h⟩
      · intro hf; rw [if_pos hf]
      · intro hf; rw [if_neg (by rw [hf]; simp)]

theorem outLinks_start (hw : L.WF) (node : Nat) : ∀ l ∈ L.outLinks node, ∀ k, L.links[l]? = some k →
    k.startNode = node := by
  intro l hl k hk
  unfold Lattice.outLinks at hl
  rw [List.getD_eq_getElem?_getD] at hl
  cases hn : L.nodes[node]? with
  | none => rw [hn] at hl; cases hl
  | some nd =>
    rw [hn] at hl
    obtain ⟨k', hk', hs⟩ := (hw.out_iff node nd hn l).mp hl
    rw [hk] at hk'
    cases hk'
    exact hs

theorem final_of_getD {node : Nat} (h : (L.nodes.getD node Node.new).final = true) : L.Final node := by
  rw [List.getD_eq_getElem?_getD] at h
  cases hn : L.nodes[node]? with
  | none => rw [hn] at h; cases h
  | some nd => rw [hn] at h; exact ⟨nd, hn, h⟩

theorem decodeNode_inv {N : Nat} (hw : L.WF) {sorted : List Nat} {node : Nat} {st st' : DecSt S St}
    (hk : Keeps D L P Q R) (hi : DInv P Q R N st)
    (h : decodeNode D L (decLmScale D L) (decWiPenalty D L) sorted node st = .ok st') : DInv P Q R N st' := by
  obtain ⟨st1, st2, h1, hne, h2, h3, h4⟩ := decodeNode_spec h
  have hi1 := prune_inv hk hi h1
  have hnt : ∀ t ∈ st1.tokens.getD node [], P node t := by
    intro t ht
    obtain ⟨ts, a, b⟩ := getD_tokens ht
    exact hi1.tok node ts a t b
  have hi2 : DInv P Q R N st2 := by
    cases hf : (L.nodes.getD node Node.new).final with
    | false => rw [h3 hf]; exact hi1
    | true =>
      rw [h2 hf]
      refine ⟨hi1.len, hi1.tok, ?_, hi1.recs⟩
      intro t ht
      rcases List.mem_append.mp ht with ht | ht
      · exact hi1.fin t ht
      · obtain ⟨t0, ht0, rfl⟩ := List.mem_map.mp ht
        exact hk.final node t0 (final_of_getD hf) (hnt t0 ht0)
  exact decodeLinks_inv hk hnt _ hi2 (outLinks_start hw node) h4

theorem decodeNodes_inv {N : Nat} (hw : L.WF) {sorted : List Nat} (hk : Keeps D L P Q R) (ns : List Nat) :
    ∀ {st st' : DecSt S St}, DInv P Q R N st →
    decodeNodes D L (decLmScale D L) (decWiPenalty D L) sorted ns st = .ok st' → DInv P Q R N st' := by
  induction ns with
  | nil => intro st st' hi h; cases h; exact hi
  | cons n ns ih =>
    intro st st' hi h
    unfold decodeNodes at h
    split at h
    · cases h
    · rename_i st1 h1
      exact ih (decodeNode_inv hw hk hi h1) h

theorem decInit_inv (hk : Keeps D L P Q R) : DInv P Q R L.nodes.length (decInit D L) := by
  constructor
  · simp [decInit]
  · intro n ts hts t ht
    simp only [decInit] at hts
    rw [List.getElem?_modify] at hts
    cases hn : (L.nodes.map (fun _ => ([] : List (Token S St))))[n]? with
    | none => rw [hn] at hts; cases hts
    | some ts0 =>
      have h0 : ts0 = [] := by
        rw [List.getElem?_map] at hn
        cases hx : L.nodes[n]? with
        | none => rw [hx] at hn; cases hn
        | some x => rw [hx] at hn; cases hn; rfl
      rw [hn] at hts
      subst h0
      split at hts
      · rename_i he
        cases hts
        simp only [List.nil_append, List.mem_singleton] at ht
        rw [ht, ← he]
        exact hk.init
      · cases hts; cases ht
  · intro t ht; cases ht
  · intro e he; cases he

/-- The result of decoding. -/
theorem decode_ok {finals : List (Token S St)} {recomb : List (Recomb S St)} (h : decode D L = .ok (finals, recomb)) :
    ∃ (sorted : List Nat) (st : DecSt S St), sortedNodes L (L.nodes.length + 1) = some (.ok sorted) ∧
      decodeNodes D L (decLmScale D L) (decWiPenalty D L) sorted sorted (decInit D L) = .ok st ∧ st.finals ≠ [] ∧
      finals = (sortedRecombined st.finals).1 ∧ recomb = st.recomb ++ (sortedRecombined st.finals).2 := by
  unfold decode at h
  split at h
  · cases h
  · cases h
  · rename_i sorted hs
    split at h
    · cases h
    · rename_i st hst
      split at h
      · cases h
      · rename_i hne
        cases h
        exact ⟨sorted, st, hs, hst, hne, rfl, rfl⟩

theorem decode_inv (hw : L.WF) (hk : Keeps D L P Q R) {finals : List (Token S St)} {recomb : List (Recomb S St)}
    (h : decode D L = .ok (finals, recomb)) : (∀ t ∈ finals, Q t) ∧
      ∀ e ∈ recomb, R e ∨ (Q e.1 ∧ ∃ k ∈ finals, k.hash = e.1.hash ∧ e.2.1 = k.history ∧ e.2.2 = k.nnLm ∧
        e.1.total ≤ k.total) := by
  obtain ⟨sorted, st, h1, h2, h3, rfl, rfl⟩ := decode_ok h
  have hi := decodeNodes_inv hw hk sorted (decInit_inv hk) h2
  have hs := sortedRecombined_spec st.finals
  refine ⟨fun t ht => hi.fin t (hs.subset ht), ?_⟩
  intro e he
  rcases List.mem_append.mp he with he | he
  · exact Or.inl (hi.recs e he)
  · exact Or.inr ⟨hi.fin _ (hs.recomb_mem he), hs.recs e he⟩

/-! ## The token of a path -/

/-- The token that results from propagating the initial token along a path. -/
def runPath (D : Decoder S St) (L : Lattice S) (ls : List (Link S)) : Token S St :=
  ls.foldl (fun t k => propagateLink D (decLmScale D L) (decWiPenalty D L) k t)
    (mkToken D (decLmScale D L) (decWiPenalty D L) [.inl D.vocab.sos] D.net.initial 0 0 0)

theorem runPath_snoc (ls : List (Link S)) (k : Link S) :
    runPath D L (ls ++ [k]) = propagateLink D (decLmScale D L) (decWiPenalty D L) k (runPath D L ls) := by
  simp [runPath, List.foldl_append]

/-- The token of the path to the end of the sentence. -/
def runEnd (D : Decoder S St) (L : Lattice S) (ls : List (Link S)) : Token S St :=
  propagateEnd D (decLmScale D L) (decWiPenalty D L) (runPath D L ls)

def PathP (D : Decoder S St) (L : Lattice S) (n : Nat) (t : Token S St) : Prop :=
  ∃ ls, L.Path L.initial ls n ∧ t = runPath D L ls

def PathQ (D : Decoder S St) (L : Lattice S) (t : Token S St) : Prop :=
  ∃ ls n, L.Path L.initial ls n ∧ L.Final n ∧ t = runEnd D L ls

def PathR (D : Decoder S St) (L : Lattice S) (e : Recomb S St) : Prop :=
  ∃ n ls ls', L.Path L.initial ls n ∧ L.Path L.initial ls' n ∧ e.1 = runPath D L ls ∧
    e.2.1 = (runPath D L ls').history ∧ e.2.2 = (runPath D L ls').nnLm ∧
    (runPath D L ls').hash = (runPath D L ls).hash ∧ (runPath D L ls).total ≤ (runPath D L ls').total

theorem path_keeps (D : Decoder S St) (L : Lattice S) : Keeps D L (PathP D L) (PathQ D L) (PathR D L) := by
  constructor
  · exact ⟨[], .nil, rfl⟩
  · rintro k t hk ⟨ls, hp, rfl⟩
    exact ⟨ls ++ [k], .snoc ls k hp hk, (runPath_snoc ls k).symm⟩
  · rintro n t hf ⟨ls, hp, rfl⟩
    exact ⟨ls, n, hp, hf, rfl⟩
  · rintro n t k ⟨ls, hp, rfl⟩ ⟨ls', hp', rfl⟩ h1 h2
    exact ⟨n, ls, ls', hp, hp', rfl, rfl, rfl, h1, h2⟩

/-! ## Attributes of the token of a path -/

def pathWords (V : DecVocab S) (ls : List (Link S)) : List HistWord := (pathText ls).map (histWord V)

theorem pathText_snoc (ls : List (Link S)) (k : Link S) : pathText (ls ++ [k]) = pathText ls ++ k.word.toList := by
  simp only [pathText, List.filterMap_append, List.filterMap_cons, List.filterMap_nil]
  cases k.word <;> rfl

theorem propagateLink_attrs (lm wi : S) (k : Link S) (t : Token S St) :
    (propagateLink D lm wi k t).history = t.history ++ (k.word.toList.map (histWord D.vocab)) ∧
    (propagateLink D lm wi k t).ac = t.ac + k.ac.getD 0 ∧
    (propagateLink D lm wi k t).latLm = t.latLm + k.lm.getD 0 := by
  unfold propagateLink
  simp only
  cases hw : k.word with
  | none => simp [mkToken]
  | some w => simp [mkToken]

theorem runPath_attrs (ls : List (Link S)) :
    (runPath D L ls).history = .inl D.vocab.sos :: pathWords D.vocab ls ∧
    (runPath D L ls).ac = acOf ls ∧ (runPath D L ls).latLm = lmOf ls := by
  induction ls using List.reverseRecOn with
  | nil => simp [runPath, mkToken, pathWords, pathText, acOf, lmOf]
  | append_singleton ls k ih =>
    obtain ⟨h1, h2, h3⟩ := ih
    obtain ⟨g1, g2, g3⟩ := propagateLink_attrs (D := D) (decLmScale D L) (decWiPenalty D L) k (runPath D L ls)
    rw [runPath_snoc, g1, g2, g3, h1, h2, h3]
    refine ⟨?_, ?_, ?_⟩
    · simp [pathWords, pathText_snoc]
    · simp [acOf]
    · simp [lmOf]

theorem propagateEnd_attrs (lm wi : S) (t : Token S St) :
    (propagateEnd D lm wi t).history = t.history ++ [.inl D.vocab.eos] ∧ (propagateEnd D lm wi t).ac = t.ac ∧
    (propagateEnd D lm wi t).latLm = t.latLm := by
  simp [propagateEnd, mkToken]

theorem histIs_histWord (V : DecVocab S) (w : Str) : HistIs V w (histWord V w) := by
  unfold histWord
  constructor
  · intro i h; rw [h]
  · intro h; rw [h]

theorem forall₂_histIs (V : DecVocab S) (ws : List Str) : List.Forall₂ (HistIs V) ws (ws.map (histWord V)) := by
  induction ws with
  | nil => exact .nil
  | cons w ws ih => exact .cons (histIs_histWord V w) ih

/-- Tokens are created with the hash and the total of their attributes. -/
structure Computed (D : Decoder S St) (L : Lattice S) (t : Token S St) : Prop where
  hash : t.hash = limitedHistory D.recombinationOrder t.history
  graph : t.graph = graphLogprob D (decLmScale D L) (decWiPenalty D L) t.nnLm t.latLm t.history.length
  total : t.total = t.ac + t.graph

theorem computed_mk (history : List HistWord) (state : St) (ac lat nn : S) :
    Computed D L (mkToken D (decLmScale D L) (decWiPenalty D L) history state ac lat nn) := ⟨rfl, rfl, rfl⟩

theorem computed_run (ls : List (Link S)) : Computed D L (runPath D L ls) := by
  induction ls using List.reverseRecOn with
  | nil => exact computed_mk _ _ _ _ _
  | append_singleton ls k ih =>
    rw [runPath_snoc]
    unfold propagateLink
    simp only
    cases k.word with
    | none => exact computed_mk _ _ _ _ _
    | some w => exact computed_mk _ _ _ _ _

theorem computed_end (ls : List (Link S)) : Computed D L (runEnd D L ls) := computed_mk _ _ _ _ _

end
end TheanoLM
