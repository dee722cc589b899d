import Verif.Lemmas.RescoredInv
/-!
# Lemmas about rescored lattices: adding the tokens, and paths of the result
-/
namespace TheanoLM

variable {S St : Type} {L : Lattice S}

set_option linter.unusedSectionVars false

/-- A path that consists of word steps. -/
inductive WordPath (L : Lattice S) : Nat → List Str → List (List (Link S)) → Nat → Prop
  | nil (a : Nat) : WordPath L a [] [] a
  | cons (a b c : Nat) (w : Str) (ws : List Str) (seg : List (Link S)) (segs : List (List (Link S))) :
      WordStep L a w seg c → WordPath L c ws segs b → WordPath L a (w :: ws) (seg :: segs) b

theorem WordPath.snoc {a b c : Nat} {ws : List Str} {segs : List (List (Link S))} {w : Str} {seg : List (Link S)}
    (h : WordPath L a ws segs b) (hs : WordStep L b w seg c) : WordPath L a (ws ++ [w]) (segs ++ [seg]) c := by
  induction h with
  | nil a => exact .cons _ _ _ _ _ _ _ hs (.nil _)
  | cons a b d w' ws seg' segs h1 _ ih => exact .cons _ _ _ _ _ _ _ h1 (ih hs)

theorem pathText_append (ls ls' : List (Link S)) : pathText (ls ++ ls') = pathText ls ++ pathText ls' := by
  simp [pathText]

theorem pathText_nulls {ls : List (Link S)} (h : ∀ x ∈ ls, x.word = none) : pathText ls = [] := by
  unfold pathText
  rw [List.filterMap_eq_nil_iff]
  exact h

theorem wordStep_path {a b : Nat} {w : Str} {seg : List (Link S)} (h : WordStep L a w seg b) :
    L.Path a seg b ∧ pathText seg = [w] := by
  obtain ⟨ns, k, rfl, h1, h2, h3⟩ := h
  refine ⟨h3, ?_⟩
  rw [pathText_append, pathText_nulls h1]
  simp [pathText, h2]

theorem wordPath_path {a b : Nat} {ws : List Str} {segs : List (List (Link S))} (h : WordPath L a ws segs b) :
    L.Path a segs.flatten b ∧ pathText segs.flatten = ws := by
  induction h with
  | nil a => exact ⟨.nil, rfl⟩
  | cons a b c w ws seg segs h1 _ ih =>
    obtain ⟨h2, h3⟩ := wordStep_path h1
    refine ⟨path_append h2 ih.1, ?_⟩
    rw [List.flatten_cons, pathText_append, h3, ih.2]; rfl

/-- Every path consists of word steps and null links after the last word. -/
theorem path_split {a n : Nat} {ls : List (Link S)} (h : L.Path a ls n) : ∃ segs nulls b, ls = segs.flatten ++ nulls ∧
    (∀ x ∈ nulls, x.word = none) ∧ WordPath L a (pathText ls) segs b ∧ L.Path b nulls n := by
  induction h with
  | nil => exact ⟨[], [], a, rfl, by simp, .nil _, .nil⟩
  | snoc ls k h hk ih =>
    obtain ⟨segs, nulls, b, h1, h2, h3, h4⟩ := ih
    cases hw : k.word with
    | none =>
      refine ⟨segs, nulls ++ [k], b, by rw [h1, List.append_assoc], ?_, ?_, .snoc _ k h4 hk⟩
      · intro x hx
        rcases List.mem_append.mp hx with hx | hx
        · exact h2 x hx
        · simp only [List.mem_singleton] at hx; rw [hx, hw]
      · rw [pathText_append, show pathText [k] = [] by simp [pathText, hw], List.append_nil]
        exact h3
    | some w =>
      refine ⟨segs ++ [nulls ++ [k]], [], k.endNode, by rw [h1]; simp, by simp, ?_, .nil⟩
      rw [pathText_append, show pathText [k] = [w] by simp [pathText, hw]]
      exact h3.snoc ⟨nulls, k, rfl, h2, hw, .snoc _ k h4 hk⟩

theorem takes_wordPath {a b : Nat} {ws ws' : List Str} (h : Takes L a ws ws' b) : ∃ segs, WordPath L a ws' segs b := by
  induction h with
  | nil a => exact ⟨[], .nil _⟩
  | skip a w ws ws' b _ _ ih => exact ih
  | take a w ws ws' b c seg h1 _ ih => obtain ⟨segs, h2⟩ := ih; exact ⟨seg :: segs, .cons _ _ _ _ _ _ _ h1 h2⟩

/-- Words that are on a path are followed. -/
theorem takes_unique (hd : Determinized L) {a b : Nat} {pre : List Str} {segs : List (List (Link S))}
    (h : WordPath L a pre segs b) {suf : List Str} (hs : ∀ w ∈ suf, ∀ seg c, ¬ WordStep L b w seg c) :
    ∀ {ws' : List Str} {c : Nat}, Takes L a (pre ++ suf) ws' c → ws' = pre ∧ c = b := by
  induction h with
  | nil a =>
    intro ws' c ht
    rw [List.nil_append] at ht
    induction ht with
    | nil a => exact ⟨rfl, rfl⟩
    | skip a w ws ws' b _ _ ih => exact ih (fun w' hw' => hs w' (List.mem_cons_of_mem _ hw'))
    | take a w ws ws' b c seg h1 => exact absurd h1 (hs w (by simp) _ _)
  | cons a b d w ws seg segs h1 _ ih =>
    intro ws' c ht
    rw [List.cons_append] at ht
    cases ht with
    | skip _ _ _ _ _ h2 => exact absurd h1 (h2 _ _)
    | take _ _ _ ws'' _ d' seg' h2 h3 =>
      obtain ⟨_, rfl⟩ := hd _ _ _ _ _ _ h1 h2
      obtain ⟨rfl, rfl⟩ := ih hs h3
      exact ⟨rfl, rfl⟩

section
variable [Field S] [LinearOrder S]

/-! ## Histories -/

theorem historyWords_append (f : Nat → Option Str) (xs ys : List HistWord) {a b : List Str}
    (h1 : historyWords f xs = .ok a) (h2 : historyWords f ys = .ok b) : historyWords f (xs ++ ys) = .ok (a ++ b) := by
  induction xs generalizing a with
  | nil => cases h1; simpa using h2
  | cons x xs ih =>
    cases x with
    | inl i =>
      unfold historyWords at h1
      cases hi : f i with
      | none => rw [hi] at h1; cases h1
      | some w =>
        rw [hi] at h1
        simp only at h1
        cases hx : historyWords f xs with
        | error e => rw [hx] at h1; cases h1
        | ok r =>
          rw [hx] at h1
          cases h1
          simp [historyWords, hi, ih hx]
    | inr t =>
      unfold historyWords at h1
      cases hx : historyWords f xs with
      | error e => rw [hx] at h1; cases h1
      | ok r =>
        rw [hx] at h1
        cases h1
        simp [historyWords, ih hx]

theorem historyWords_of (V : DecVocab S) (f : Nat → Option Str) (hv : VocabInverse V f) {tx : List Str}
    {hw : List HistWord} (h : List.Forall₂ (HistIs V) tx hw) : historyWords f hw = .ok tx := by
  induction h with
  | nil => rfl
  | @cons w h tx hw h1 _ ih =>
    cases hi : V.wordToId w with
    | none =>
      rw [h1.2 hi]
      simp [historyWords, ih]
    | some i =>
      rw [h1.1 i hi]
      simp [historyWords, ih, hv w i hi]

theorem historyWords_snoc_inv (f : Nat → Option Str) (xs : List HistWord) (x : HistWord) {tx : List Str}
    (h : historyWords f (xs ++ [x]) = .ok tx) : ∃ a w, tx = a ++ [w] ∧ historyWords f xs = .ok a ∧
      historyWords f [x] = .ok [w] := by
  induction xs generalizing tx with
  | nil =>
    rw [List.nil_append] at h
    cases x with
    | inl i =>
      have h' := h
      unfold historyWords at h'
      cases hi : f i with
      | none => rw [hi] at h'; cases h'
      | some w => rw [hi] at h'; cases h'; exact ⟨[], w, rfl, rfl, h⟩
    | inr t => have h' := h; cases h'; exact ⟨[], t, rfl, rfl, h⟩
  | cons y xs ih =>
    rw [List.cons_append] at h
    cases y with
    | inl i =>
      unfold historyWords at h
      cases hi : f i with
      | none => rw [hi] at h; cases h
      | some w =>
        rw [hi] at h
        simp only at h
        cases hx : historyWords f (xs ++ [x]) with
        | error e => rw [hx] at h; cases h
        | ok r =>
          rw [hx] at h
          cases h
          obtain ⟨a, w', rfl, h2, h3⟩ := ih hx
          exact ⟨w :: a, w', rfl, by simp [historyWords, hi, h2], h3⟩
    | inr t =>
      unfold historyWords at h
      cases hx : historyWords f (xs ++ [x]) with
      | error e => rw [hx] at h; cases h
      | ok r =>
        rw [hx] at h
        cases h
        obtain ⟨a, w', rfl, h2, h3⟩ := ih hx
        exact ⟨t :: a, w', rfl, by simp [historyWords, h2], h3⟩

/-! ## Final tokens -/

/-- The words of the token are those of a path to a final node, and a word that does not exist in the lattice. -/
def TokenFor (L : Lattice S) (f : Nat → Option Str) (t : Token S St) (ls : List (Link S)) : Prop :=
  ∃ (n : Nat) (eos : Str), L.Path L.initial ls n ∧ L.Final n ∧
    historyWords f t.history.tail = .ok (pathText ls ++ [eos]) ∧ (∀ k ∈ L.links, k.word ≠ some eos) ∧
    t.ac = acOf ls ∧ t.latLm = lmOf ls

/-- Which links there are to the final node. -/
def FinalFor (L : Lattice S) (f : Nat → Option Str) (T : List (Token S St)) (a : Nat) (ws : List Str) (x : S) : Prop :=
  ∃ t ∈ T, ∃ ls n nulls segs, t.nnLm = x ∧ TokenFor L f t ls ∧ ws = pathText ls ∧ ls = segs.flatten ++ nulls ∧
    (∀ k ∈ nulls, k.word = none) ∧ WordPath L L.initial ws segs a ∧ L.Path a nulls n ∧ L.Final n

theorem not_step {w : Str} (h : ∀ k ∈ L.links, k.word ≠ some w) (a : Nat) (seg : List (Link S)) (b : Nat) :
    ¬ WordStep L a w seg b := by
  rintro ⟨ns, k, rfl, _, h2, h3⟩
  exact h k (path_snoc_inv h3).2.1 h2

variable {sc sa : Prop} {info : List (Nat × List Str)} {R : RLat S}

/-- The path of a token is in the new lattice. -/
def HasFinal (R : RLat S) (ws : List Str) : Prop :=
  ∃ node, RPath R 0 ws node ∧ ∃ k ∈ R.links, k.startNode = node ∧ k.endNode = none ∧ k.word = none

theorem HasFinal.mono {R' : RLat S} (hR : ∀ k ∈ R.links, k ∈ R'.links) {ws : List Str} (h : HasFinal R ws) :
    HasFinal R' ws := by
  obtain ⟨node, h1, k, h2, h3⟩ := h
  exact ⟨node, h1.mono hR, k, hR k h2, h3⟩

theorem addFinal_inv (hw : L.WF) (hd : Determinized L) {depth : Nat} {maps : List (List (Str × Nat))}
    (hm : wordMaps L depth (List.range L.nodes.length) = .ok maps) (f : Nat → Option Str) (T : List (Token S St))
    (t : Token S St) (ht : t ∈ T) (ls : List (Link S)) (htf : TokenFor L f t ls) {R R' : RLat S}
    (hI : RInv L True True (FinalFor L f T) info R) (h : addFinal L maps depth f R t = .ok R') :
    ∃ info', RInv L True True (FinalFor L f T) info' R' ∧ (∀ k ∈ R.links, k ∈ R'.links) ∧ HasFinal R' (pathText ls) := by
  have htf0 := htf
  obtain ⟨n, eos, hp, hfin, hh, heos, _, _⟩ := htf
  unfold addFinal followIds at h
  rw [hh] at h
  simp only at h
  cases hf : followWords L maps depth true (pathText ls ++ [eos]) R 0 L.initial with
  | error e => rw [hf] at h; cases h
  | ok r =>
    obtain ⟨R1, node⟩ := r
    obtain ⟨info', b, ws', pre', h1, h2, ⟨u, hu⟩, h4, h5, h6, h7, h8⟩ :=
      followWords_inv hw hd hm true _ info R R1 0 node L.initial [] hI hI.root hf
    rw [hf] at h
    simp only at h
    obtain ⟨segs, nulls, b', e1, e2, e3, e4⟩ := path_split hp
    obtain ⟨rfl, rfl⟩ := takes_unique hd e3 (suf := [eos])
      (fun w hw => by simp only [List.mem_singleton] at hw; subst hw; exact not_step heos _) h7
    have hpre := h6 trivial
    rw [List.nil_append] at hpre
    subst hpre
    have hnode : node < R1.nodes.length := by rw [h1.len]; exact (List.getElem?_eq_some_iff.mp h5).1
    obtain ⟨nd, hnd⟩ : ∃ nd, R1.nodes[node]? = some nd := ⟨_, List.getElem?_eq_getElem hnode⟩
    rw [List.getD_eq_getElem?_getD, hnd, Option.getD_some] at h
    split at h
    · rename_i hany
      cases h
      refine ⟨info', h1, fun k hk => by rw [hu]; exact List.mem_append_left _ hk, node, h8, ?_⟩
      obtain ⟨l, hl, hlk⟩ := List.any_eq_true.mp hany
      obtain ⟨k, hk, hks⟩ := (h1.outs node nd hnd l).mp hl
      rw [hk] at hlk
      simp only [decide_eq_true_eq] at hlk
      have hkm := List.mem_of_getElem? hk
      obtain ⟨_, _, hkw, _⟩ := h1.fin k hkm hlk
      exact ⟨k, hkm, hks, hlk, hkw⟩
    · cases h
      have hsub : ∀ k ∈ R1.links, k ∈ (R1.addLink ⟨node, none, none, 0, t.nnLm, []⟩).links :=
        fun k hk => List.mem_append_left _ hk
      refine ⟨info', h1.addLink _ hnode (fun e he => by cases he) (fun _ => ?_),
        fun k hk => hsub k (by rw [hu]; exact List.mem_append_left _ hk), node, h8.mono hsub, ?_⟩
      · exact ⟨_, _, rfl, h5, rfl, rfl, t, ht, ls, n, nulls, segs, rfl, htf0, rfl, e1, e2, e3, e4, hfin⟩
      · exact ⟨_, List.mem_append_right _ (List.mem_singleton.mpr rfl), rfl, rfl, rfl⟩

theorem addFinals_inv (hw : L.WF) (hd : Determinized L) {depth : Nat} {maps : List (List (Str × Nat))}
    (hm : wordMaps L depth (List.range L.nodes.length) = .ok maps) (f : Nat → Option Str) (T : List (Token S St))
    (ts : List (Token S St)) : ∀ {info : List (Nat × List Str)} {R R' : RLat S}, (∀ t ∈ ts, t ∈ T) →
    (∀ t ∈ ts, ∃ ls, TokenFor L f t ls) → RInv L True True (FinalFor L f T) info R →
    addAll (addFinal L maps depth f) ts R = .ok R' →
    ∃ info', RInv L True True (FinalFor L f T) info' R' ∧ (∀ k ∈ R.links, k ∈ R'.links) ∧
      ∀ t ∈ ts, ∀ ls, TokenFor L f t ls → HasFinal R' (pathText ls) := by
  induction ts with
  | nil => intro info R R' _ _ hI h; cases h; exact ⟨info, hI, fun k hk => hk, by simp⟩
  | cons t ts ih =>
    intro info R R' hT hls hI h
    unfold addAll at h
    cases hf : addFinal L maps depth f R t with
    | error e => rw [hf] at h; cases h
    | ok R1 =>
      rw [hf] at h
      simp only at h
      obtain ⟨ls0, h0⟩ := hls t (by simp)
      obtain ⟨info1, h1, h2, _⟩ := addFinal_inv hw hd hm f T t (hT t (by simp)) ls0 h0 hI hf
      obtain ⟨info2, h4, h5, h6⟩ := ih (fun t ht => hT t (List.mem_cons_of_mem _ ht))
        (fun t ht => hls t (List.mem_cons_of_mem _ ht)) h1 h
      refine ⟨info2, h4, fun k hk => h5 k (h2 k hk), ?_⟩
      intro t' ht' ls hl
      rcases List.mem_cons.mp ht' with rfl | ht'
      · obtain ⟨_, _, _, h3⟩ := addFinal_inv hw hd hm f T t' (hT t' (by simp)) ls hl hI hf
        exact h3.mono h5
      · exact h6 t' ht' ls hl

/-! ## Recombined tokens -/

/-- Links are never removed. -/
theorem followWords_links (maps : List (List (Str × Nat))) (depth : Nat) (create : Bool) (ws : List Str) :
    ∀ (R R' : RLat S) (node node' orig : Nat), followWords L maps depth create ws R node orig = .ok (R', node') →
    ∀ k ∈ R.links, k ∈ R'.links := by
  induction ws with
  | nil => intro R R' node node' orig h k hk; cases h; exact hk
  | cons w ws ih =>
    intro R R' node node' orig h k hk
    unfold followWords at h
    split at h
    · cases h
    · exact ih _ _ _ _ _ h k hk
    · split at h
      · split at h
        · cases h
        · split at h
          · cases h
          · exact ih _ _ _ _ _ h k hk
      · split at h
        · cases h
        · exact ih _ _ _ _ _ h k (List.mem_append_left _ hk)

theorem addRecomb_links {maps : List (List (Str × Nat))} {depth : Nat} {f : Nat → Option Str} {R R' : RLat S}
    {e : Recomb S St} (h : addRecomb L maps depth f R e = .ok R') : ∀ k ∈ R.links, k ∈ R'.links := by
  intro k hk
  unfold addRecomb at h
  split at h
  · split at h
    · cases h
    · split at h
      · cases h
      · cases h
      · split at h
        · cases h; exact hk
        · cases h
        · split at h
          · cases h; exact hk
          · split at h
            · cases h
            · split at h
              · cases h
              · rename_i hf
                cases h
                unfold followIds at hf
                split at hf
                · cases hf
                · exact List.mem_append_left _ (followWords_links _ _ _ _ _ _ _ _ _ hf k hk)
  · cases h

theorem addRecombs_links {maps : List (List (Str × Nat))} {depth : Nat} {f : Nat → Option Str}
    (es : List (Recomb S St)) : ∀ {R R' : RLat S}, addAll (addRecomb L maps depth f) es R = .ok R' →
    ∀ k ∈ R.links, k ∈ R'.links := by
  induction es with
  | nil => intro R R' h k hk; cases h; exact hk
  | cons e es ih =>
    intro R R' h k hk
    unfold addAll at h
    split at h
    · cases h
    · rename_i hf
      exact ih h k (addRecomb_links hf k hk)

/-- The word sequences of a recombined token and the token that was kept, when there are no null links. -/
def RecombFor (L : Lattice S) (f : Nat → Option Str) (e : Recomb S St) : Prop :=
  ∃ (h h' : HistWord) (hw hw' : List HistWord) (x x' : Str), e.1.history = h :: hw ∧ e.2.1 = h' :: hw' ∧
    historyWords f [h] = .ok [x] ∧ historyWords f [h'] = .ok [x'] ∧ (∀ k ∈ L.links, k.word ≠ some x) ∧
    (∀ k ∈ L.links, k.word ≠ some x') ∧
    ((∃ y b, hw.getLast? = some b ∧ historyWords f [b] = .ok [y] ∧ ∀ k ∈ L.links, k.word ≠ some y) ∨
      ∃ (ls ls' : List (Link S)) (n : Nat), L.Path L.initial ls n ∧ L.Path L.initial ls' n ∧
        historyWords f hw = .ok (pathText ls) ∧ historyWords f hw' = .ok (pathText ls'))

theorem noNulls_wordPath (hn : NoNulls L) {a n : Nat} {ls : List (Link S)} (h : L.Path a ls n) :
    ∃ segs, WordPath L a (pathText ls) segs n := by
  obtain ⟨segs, nulls, b, h1, h2, h3, h4⟩ := path_split h
  cases nulls with
  | nil => rw [path_nil_inv h4]; exact ⟨segs, h3⟩
  | cons k nulls =>
    obtain ⟨h5, _⟩ := path_cons_inv h4
    exact absurd (h2 k (by simp)) (hn k h5)

theorem noNulls_snoc (hn : NoNulls L) {a n : Nat} {ls : List (Link S)} {tx : List Str} {w : Str}
    (h : L.Path a ls n) (ht : pathText ls = tx ++ [w]) :
    ∃ segs c k, WordPath L a tx segs c ∧ WordStep L c w [k] n := by
  cases ls using List.reverseRecOn with
  | nil => simp [pathText] at ht
  | append_singleton ls k =>
    obtain ⟨h1, h2, rfl⟩ := path_snoc_inv h
    rw [pathText_append] at ht
    obtain ⟨w', hw'⟩ := Option.ne_none_iff_exists'.mp (hn k h2)
    rw [show pathText [k] = [w'] by simp [pathText, hw']] at ht
    obtain ⟨rfl, e⟩ := List.append_inj' ht rfl
    simp only [List.cons.injEq, and_true] at e
    subst e
    obtain ⟨segs, hs⟩ := noNulls_wordPath hn h1
    exact ⟨segs, k.startNode, k, hs, wordStep_single h2 hw'⟩

theorem map_absent {F : Nat → List Str → S → Prop} (hI : RInv L sc sa F info R) {word : Str} (hx : ∀ k ∈ L.links, k.word ≠ some word) (u : Nat) :
    mapGet (R.nodes.getD u ⟨[], []⟩).wordToLink word = none := by
  cases hg : mapGet (R.nodes.getD u ⟨[], []⟩).wordToLink word with
  | none => rfl
  | some l =>
    exfalso
    have hmem := mapGet_some hg
    rw [List.getD_eq_getElem?_getD] at hmem
    cases hnd : R.nodes[u]? with
    | none => rw [hnd] at hmem; cases hmem
    | some nd =>
      rw [hnd, Option.getD_some] at hmem
      obtain ⟨k, hk, _, hkw, hke⟩ := hI.maps u nd hnd _ hmem
      cases hkn : k.endNode with
      | none => exact hke hkn
      | some e =>
        obtain ⟨w', seg', a, wsa, b, wsb, g1, g2, g3, g4, g5⟩ := hI.word k (List.mem_of_getElem? hk) e hkn
        rw [hkw] at g1
        cases g1
        exact not_step hx _ _ _ g4

theorem same_parallel (hp : ParallelSame L) {a a' n : Nat} {w : Str} {k k' : Link S} (h : WordStep L a w [k] n)
    (h' : WordStep L a' w [k'] n) : acOf [k] = acOf [k'] ∧
    ([k].reverse.map Link.transitions).flatten = ([k'].reverse.map Link.transitions).flatten := by
  have hget : ∀ {a : Nat} {k : Link S}, WordStep L a w [k] n → k ∈ L.links ∧ k.endNode = n ∧ k.word = some w := by
    rintro a k ⟨ns, k0, e, _, h2, h3⟩
    cases ns with
    | nil =>
      simp only [List.nil_append, List.cons.injEq, and_true] at e
      subst e
      obtain ⟨_, h4, h5⟩ := path_snoc_inv (ls := []) h3
      exact ⟨h4, h5.symm, h2⟩
    | cons x ns => simp at e
  obtain ⟨h1, h2, h3⟩ := hget h
  obtain ⟨h1', h2', h3'⟩ := hget h'
  obtain ⟨p1, p2⟩ := hp k h1 k' h1' (h2.trans h2'.symm) (h3.trans h3'.symm)
  exact ⟨by simpa [acOf] using p1, by simpa using p2⟩

theorem addRecomb_inv (hw : L.WF) (hd : Determinized L) (hn : NoNulls L) (hpar : sa → ParallelSame L) {depth : Nat}
    {maps : List (List (Str × Nat))} (hm : wordMaps L depth (List.range L.nodes.length) = .ok maps)
    (f : Nat → Option Str) {F : Nat → List Str → S → Prop} {R R' : RLat S} {e : Recomb S St} (he : RecombFor L f e)
    (hI : RInv L False sa F info R) (h : addRecomb L maps depth f R e = .ok R') : ∃ info', RInv L False sa F info' R' := by
  obtain ⟨h0, h0', hws, hws', x, x', e1, e2, ex, ex', hx, hx', hcase⟩ := he
  unfold addRecomb at h
  rw [e1, e2] at h
  split at h
  · rename_i a b ha hb
    split at h
    · cases h
    · rename_i hab
      push Not at hab
      subst hab
      split at h
      · cases h
      · cases h
      · rename_i word rest hword
        split at h
        · cases h; exact ⟨info, hI⟩
        · cases h
        · rename_i rf R0 recombFrom hfrom
          -- if the word is not in the lattice, nothing is added
          have habsent : (∀ k ∈ L.links, k.word ≠ some word) → ∃ info', RInv L False sa F info' R' := by
            intro hab
            rw [map_absent hI hab] at h
            cases h
            exact ⟨info, hI⟩
          rcases hcase with ⟨y, b, hb', hy, hyl⟩ | ⟨ls, ls', n, hp, hp', hh, hh'⟩
          · have : a = b := by
              rw [List.getLast?_cons, hb', Option.getD_some] at hb
              cases hb; rfl
            subst this
            rw [hy] at hword
            cases hword
            exact habsent hyl
          · cases hws using List.reverseRecOn with
            | nil =>
              have : a = h0 := by simpa using hb.symm
              subst this
              rw [ex] at hword
              cases hword
              exact habsent hx
            | append_singleton hi last =>
              cases hws' using List.reverseRecOn with
              | nil =>
                have : a = h0' := by simpa using ha.symm
                subst this
                rw [ex'] at hword
                cases hword
                exact habsent hx'
              | append_singleton hi' last' =>
                have hl : last = a := by
                  rw [← List.cons_append, List.getLast?_append] at hb; simpa using hb
                have hl' : last' = a := by
                  rw [← List.cons_append, List.getLast?_append] at ha; simpa using ha
                subst hl
                subst hl'
                obtain ⟨tx, w, t1, t2, t3⟩ := historyWords_snoc_inv f _ _ hh
                obtain ⟨tx', w', t1', t2', t3'⟩ := historyWords_snoc_inv f _ _ hh'
                rw [hword] at t3 t3'
                cases t3
                cases t3'
                obtain ⟨segs, c, k, hwp, hst⟩ := noNulls_snoc hn hp t1
                obtain ⟨segs', c', k', hwp', hst'⟩ := noNulls_snoc hn hp' t1'
                unfold followIds at hfrom
                rw [← List.cons_append, List.dropLast_concat, List.tail_cons, t2'] at hfrom
                simp only at hfrom
                obtain ⟨info1, b1, ws1, pre1, i1, i2, i3, i4, i5, i6, i7, i8⟩ :=
                  followWords_inv hw hd hm false _ info R R0 0 _ L.initial [] hI hI.root hfrom
                have := i4 rfl
                subst this
                obtain ⟨_, rfl⟩ := takes_unique hd hwp' (suf := []) (by simp) (by simpa using i7)
                split at h
                · cases h; exact ⟨info, hI⟩
                · rename_i l hg
                  split at h
                  · cases h
                  · rename_i rl hrl
                    split at h
                    · cases h
                    · rename_i R2 fromNode hff
                      cases h
                      -- the link that was kept
                      have hrn : recombFrom < R0.nodes.length := by
                        rw [i1.len]; exact (List.getElem?_eq_some_iff.mp i5).1
                      obtain ⟨nd, hnd⟩ : ∃ nd, R0.nodes[recombFrom]? = some nd := ⟨_, List.getElem?_eq_getElem hrn⟩
                      rw [List.getD_eq_getElem?_getD, hnd, Option.getD_some] at hg
                      obtain ⟨k0, hk0, hks, hkw, hke⟩ := i1.maps _ nd hnd _ (mapGet_some hg)
                      simp only at hk0 hkw
                      rw [hrl] at hk0
                      cases hk0
                      cases hkn : rl.endNode with
                      | none => exact absurd hkn hke
                      | some en =>
                        obtain ⟨w', seg', a, wsa, b, wsb, g1, g2, g3, g4, g5⟩ :=
                          i1.word rl (List.mem_of_getElem? hrl) en hkn
                        rw [hkw] at g1
                        cases g1
                        rw [hks, i5] at g2
                        cases g2
                        obtain ⟨hseg, rfl⟩ := hd _ _ _ _ _ _ hst' g4
                        subst hseg
                        -- the node where the new link starts
                        unfold followIds at hff
                        rw [← List.cons_append, List.dropLast_concat, List.tail_cons, t2] at hff
                        simp only at hff
                        obtain ⟨info2, b2, ws2, pre2, j1, ⟨t, rfl⟩, j3, j4, j5, j6, j7, j8⟩ :=
                          followWords_inv hw hd hm true _ info1 R0 R2 0 _ L.initial [] i1 i1.root hff
                        obtain ⟨_, rfl⟩ := takes_unique hd hwp (suf := []) (by simp) (by simpa using j7)
                        refine ⟨_, j1.addLink _ ?_ (fun e he => ?_) (fun he => by cases he)⟩
                        · rw [j1.len]; exact (List.getElem?_eq_some_iff.mp j5).1
                        · cases he
                          refine ⟨_, _, _, _, _, _, rfl, j5, getElem?_append_of_some g3, hst, (fun h => h.elim), fun hsa => ?_⟩
                          obtain ⟨p1, p2⟩ := same_parallel (hpar hsa) hst hst'
                          exact ⟨(g5.2 hsa).1.trans p1.symm, (g5.2 hsa).2.trans p2.symm⟩
  · cases h

end
end TheanoLM
