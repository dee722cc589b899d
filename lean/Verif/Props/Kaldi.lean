import Verif.Lemmas.KaldiWrite
import Verif.Props.Vocabulary
/-!
# Properties of Kaldi lattices (C25, C26)
-/
namespace TheanoLM

variable {S : Type}

theorem nonblank_eq (lines : List Str) : nonblank lines = lines.filter (fun l => decide (HasText l)) := by
  unfold nonblank
  apply List.filter_congr
  intro l _
  rw [Bool.eq_iff_iff, decide_eq_true_eq, decide_eq_true_eq, ne_eq, pySplit_eq_nil_iff]
  unfold HasText
  push Not
  simp

/-- C26: what is known about an accepted lattice.  Every link is registered at both its ends, there is exactly one
final node, there is at least one link, every line with text has the fields of a link and describes the link that it
creates, the initial node is the first node mentioned, and no reserved word labels a link. -/
theorem C26_partial [Zero S] [Neg S] (T : NumText S) (lines : List Str) (idToWord : List (Option Str)) (L : Lattice S)
    (h : readKaldi T lines idToWord = .ok L) :
    L.WF ∧
    (∃ final : Nat, L.nodes.length = final + 1 ∧
      (∀ (n : Nat) (node : Node), L.nodes[n]? = some node → (node.final = true ↔ n = final)) ∧
      ∃ (header : Str) (rest : List Str), lines = header :: rest ∧
        (∃ u : Str, L.utteranceId = some u ∧ Stripped header u) ∧
        List.Forall₂ (fun (line : Str) (k : Link S) => ∃ ws : List Str, Words line ws ∧ ArcLine T idToWord final ws k)
          (rest.filter (fun l => decide (HasText l))) L.links ∧
        ∃ (line a : Str) (ws : List Str) (i : ℤ), (rest.filter (fun l => decide (HasText l))).head? = some line ∧
          Words line (a :: ws) ∧ T.parseInt a = some i ∧ NodeField final i L.initial) ∧
    L.links ≠ [] ∧
    (∀ k ∈ L.links, ∀ w : Str, k.word = some w → ¬ Reserved w) := by
  obtain ⟨header, rest, ks, initial, i, line, a, rfl, rfl, hn, hh, ha, hp, hks, harc⟩ := readKaldi_spec h
  have hwords : ∀ l : Str, Words l (pySplit l) := by
    intro l
    obtain ⟨ws, hw⟩ := Words_total l
    rw [pySplit_of_Words hw]
    exact hw
  refine ⟨latticeOf_wf hn.1, ⟨maxBound ks, latticeOf_length _ _ _, ?_, header, rest, rfl, ⟨_, rfl, strip_stripped _⟩,
    ?_, ?_⟩, ?_, ?_⟩
  · intro n node hnode
    rcases latticeOf_node hnode with ⟨h1, rfl⟩ | ⟨h1, rfl⟩
    · simp; omega
    · simp [h1]
  · rw [← nonblank_eq]
    simp only [latticeOf]
    rw [List.forall₂_map_right_iff]
    exact harc.imp (fun l k hk => ⟨_, hwords l, hk⟩)
  · rw [← nonblank_eq]
    cases hs : pySplit line with
    | nil => rw [hs] at ha; cases ha
    | cons b ws =>
      rw [hs] at ha
      cases ha
      exact ⟨line, a, ws, i, hh, by rw [← hs]; exact hwords line, hp, hn⟩
  · intro hnil
    simp only [latticeOf, List.map_eq_nil_iff] at hnil
    have := harc.length_eq
    rw [hnil, List.length_nil, List.length_eq_zero_iff] at this
    rw [this] at hh
    cases hh
  · intro k hk w hw
    simp only [latticeOf, List.mem_map] at hk
    obtain ⟨x, hx, rfl⟩ := hk
    rcases (hks x hx).2 with hno | ⟨_, w', hw', hr, _⟩
    · simp only [KLink.finish] at hw
      rw [hno] at hw; cases hw
    · simp only [KLink.finish] at hw
      rw [hw'] at hw
      cases hw
      exact hr

/-- C26: a lattice without links is an error. -/
theorem C26_no_links [Zero S] [Neg S] (T : NumText S) (header : Str) (rest : List Str) (idToWord : List (Option Str))
    (h : ∀ line ∈ rest, ¬ HasText line) : readKaldi T (header :: rest) idToWord = .error .inputError := by
  have hl : ∀ (rest : List Str) (st : KaldiSt S), (∀ line ∈ rest, ¬ HasText line) →
      kaldiLoop T idToWord rest st = .ok st := by
    intro rest
    induction rest with
    | nil => intro st _; rfl
    | cons line lines ih =>
      intro st h
      unfold kaldiLoop
      have hb : pySplit line = [] := by
        rw [pySplit_eq_nil_iff]
        intro c hc
        by_contra hne
        exact h line (by simp) ⟨c, hc, by simpa using hne⟩
      rw [pySplit_strip, hb]
      simp only [if_true]
      exact ih st (fun l hl => h l (by simp [hl]))
  unfold readKaldi
  simp only
  rw [hl rest _ h]
  rfl

theorem forall₂_mem {α β : Type} {R : α → β → Prop} {l : List α} {r : List β} (h : List.Forall₂ R l r) {a : α}
    (ha : a ∈ l) : ∃ b ∈ r, R a b := by
  induction h with
  | nil => simp at ha
  | cons h1 _ ih =>
    rcases List.mem_cons.mp ha with rfl | ha
    · exact ⟨_, by simp, h1⟩
    · obtain ⟨b, hb, hr⟩ := ih ha
      exact ⟨b, by simp [hb], hr⟩

/-- C26: a line with a wrong number of fields is an error, whatever the other lines are. -/
theorem C26_bad_fields [Zero S] [Neg S] (T : NumText S) (header : Str) (rest : List Str) (idToWord : List (Option Str))
    (line : Str) (ws : List Str) (hline : line ∈ rest) (hw : Words line ws)
    (hn : ws.length ≠ 0 ∧ ws.length ≠ 1 ∧ ws.length ≠ 2 ∧ ws.length ≠ 4) :
    ∃ e : Err, readKaldi T (header :: rest) idToWord = .error e := by
  cases hr : readKaldi T (header :: rest) idToWord with
  | error e => exact ⟨e, rfl⟩
  | ok L =>
    obtain ⟨_, ⟨final, _, _, h', rest', heq, _, harc, _⟩, _⟩ := C26_partial T _ _ L hr
    cases heq
    have hmem : line ∈ rest.filter (fun l => decide (HasText l)) := by
      rw [← nonblank_eq]
      unfold nonblank
      rw [List.mem_filter]
      refine ⟨hline, ?_⟩
      rw [pySplit_of_Words hw]
      cases ws with
      | nil => simp at hn
      | cons => simp
    obtain ⟨k, _, ws', hw', ha⟩ := forall₂_mem harc hmem
    have : ws' = ws := by rw [← pySplit_of_Words hw', pySplit_of_Words hw]
    subst this
    cases ha <;> simp at hn

/-- C25: a lattice that was read in Kaldi format can be written, and reading the output gives a lattice with the same
utterance, nodes and links: the same words, scores and transitions, and the links leaving a node in the same order.
Only the order of the links of different nodes changes; and the initial node will be the least node from which links
start.  The arithmetic is exact, i.e. the numbers are written so that reading gives the same number. -/
theorem C25_partial [AddGroup S] (T : NumText S) (hT : T.Faithful) (idToWord : List (Option Str))
    (wordToId : Str → Option ℤ) (hm : WordMaps idToWord wordToId) (lines : List Str) (L : Lattice S)
    (h : readKaldi T lines idToWord = .ok L) :
    ∃ (out : List Str) (L' : Lattice S), writeKaldi T wordToId L = .ok out ∧ readKaldi T out idToWord = .ok L' ∧
      L'.utteranceId = L.utteranceId ∧ L'.nodes.length = L.nodes.length ∧
      L'.nodes.map Node.final = L.nodes.map Node.final ∧ L'.nodes.map Node.time = L.nodes.map Node.time ∧
      L'.links.Perm L.links ∧ L'.WF ∧
      (∀ n : Nat, (L'.outLinks n).filterMap (fun l => L'.links[l]?) = (L.outLinks n).filterMap (fun l => L.links[l]?)) ∧
      (∃ k ∈ L.links, k.startNode = L'.initial) ∧ (∀ k ∈ L.links, L'.initial ≤ k.startNode) := by
  obtain ⟨header, rest, ks, initial, i, line, a, rfl, rfl, hn, hh, ha, hp, hks, harc⟩ := readKaldi_spec h
  have hperm := writeOrder_perm ks
  have hmb := maxBound_perm hperm
  have hne : ks ≠ [] := by
    rintro rfl
    have := harc.length_eq
    rw [List.length_nil, List.length_eq_zero_iff] at this
    rw [this] at hh
    cases hh
  have hhead : ∃ k, (writeOrder ks).head? = some k := by
    cases hw : writeOrder ks with
    | nil =>
      rw [hw] at hperm
      exact absurd hperm.symm.eq_nil hne
    | cons k _ => exact ⟨k, rfl⟩
  obtain ⟨k, hk⟩ := hhead
  have hkm : k ∈ ks := hperm.mem_iff.mp (List.mem_of_mem_head? hk)
  have hb := readKaldi_back hT hm (strip header) hks hk
  rw [strip_strip] at hb
  refine ⟨_, _, writeKaldi_eq hm _ _ (fun k hk => (hks k hk).2), hb, rfl, ?_, ?_, ?_, ?_, ?_, ?_, ?_, ?_⟩
  · rw [latticeOf_length, latticeOf_length, hmb]
  · simp only [latticeOf, regNodes, List.map_append, List.map_map, hmb]
    rfl
  · simp only [latticeOf, regNodes, List.map_append, List.map_map, hmb]
    rfl
  · simp only [latticeOf, hmb]
    exact hperm.map _
  · exact latticeOf_wf (bound_start (List.mem_of_mem_head? hk))
  · intro n
    have key : ∀ (u : Str) (ini : Nat) (xs : List (KLink S)),
        ((latticeOf u ini xs).outLinks n).filterMap (fun l => (latticeOf u ini xs).links[l]?) =
          (xs.filter (startIs n)).map (KLink.finish (maxBound xs)) := by
      intro u ini xs
      unfold Lattice.outLinks
      rw [List.getD_eq_getElem?_getD]
      have hl : (fun l => (latticeOf u ini xs).links[l]?) =
          fun l : Nat => (xs[l]?).map (KLink.finish (maxBound xs)) := by
        funext l
        simp [latticeOf]
      rw [hl]
      by_cases h1 : n < maxBound xs
      · rw [latticeOf_getElem_lt _ _ _ h1, ← idxs_map, List.map_filterMap]
        rfl
      · have hnil : xs.filter (startIs n) = [] := by
          rw [List.filter_eq_nil_iff]
          intro x hx
          have := bound_start hx
          simp only [startIs, decide_eq_true_eq]
          omega
        rw [hnil]
        by_cases h2 : n = maxBound xs
        · rw [h2, latticeOf_getElem_final]
          rfl
        · rw [List.getElem?_eq_none (by rw [latticeOf_length]; omega)]
          rfl
    rw [key, key, writeOrder_filter, hmb]
  · exact ⟨_, List.mem_map.mpr ⟨k, hkm, rfl⟩, rfl⟩
  · intro x hx
    simp only [latticeOf, List.mem_map] at hx
    obtain ⟨y, hy, rfl⟩ := hx
    exact writeOrder_head ks k hk y hy

/-- C25: the initial node is the same if links start from it and from no lower node. -/
theorem C25_same_initial [AddGroup S] (T : NumText S) (hT : T.Faithful) (idToWord : List (Option Str))
    (wordToId : Str → Option ℤ) (hm : WordMaps idToWord wordToId) (lines : List Str) (L : Lattice S)
    (h : readKaldi T lines idToWord = .ok L) (hout : ∃ k ∈ L.links, k.startNode = L.initial)
    (hleast : ∀ k ∈ L.links, L.initial ≤ k.startNode) :
    ∃ (out : List Str) (L' : Lattice S), writeKaldi T wordToId L = .ok out ∧ readKaldi T out idToWord = .ok L' ∧
      L'.initial = L.initial ∧ L'.links.Perm L.links := by
  obtain ⟨out, L', h1, h2, _, _, _, _, h3, _, _, ⟨k, hk, hs⟩, h5⟩ := C25_partial T hT idToWord wordToId hm lines L h
  obtain ⟨k2, hk2, hs2⟩ := hout
  refine ⟨out, L', h1, h2, ?_, h3⟩
  have a1 := hleast k hk
  have a2 := h5 k2 hk2
  omega

/-! ## Examples -/

/-- A notation for numbers: a sign and ones; a fraction is two such numbers. -/
def unaryInt (i : ℤ) : Str := (if 0 ≤ i then '+' else '-') :: List.replicate i.natAbs '1'

def unaryParse : Str → Option ℤ
  | '+' :: r => some r.length
  | '-' :: r => some (-(r.length : ℤ))
  | _ => none

def unary : NumText ℚ where
  parseInt := unaryParse
  parseScore s :=
    match splitOnChar '/' s with
    | [n, d] => (unaryParse n).map (fun i => mkRat i d.length)
    | _ => none
  showInt := unaryInt
  showScore q := unaryInt q.num ++ '/' :: List.replicate q.den '1'

theorem splitOnChar_none' (sep : Char) (w : Str) (h : sep ∉ w) : splitOnChar sep w = [w] := by
  induction w with
  | nil => rfl
  | cons c cs ih =>
    have hc : ¬ c = sep := fun e => h (by simp [e])
    unfold splitOnChar
    rw [if_neg hc, ih (fun hm => h (List.mem_cons_of_mem _ hm))]

theorem splitOnChar_append' (sep : Char) (w rest : Str) (h : sep ∉ w) :
    splitOnChar sep (w ++ sep :: rest) = w :: splitOnChar sep rest := by
  induction w with
  | nil => simp [splitOnChar]
  | cons c cs ih =>
    have hc : ¬ c = sep := fun e => h (by simp [e])
    rw [List.cons_append, splitOnChar, if_neg hc, ih (fun hm => h (List.mem_cons_of_mem _ hm))]

theorem unaryInt_mem {i : ℤ} {c : Char} (h : c ∈ unaryInt i) : c = '+' ∨ c = '-' ∨ c = '1' := by
  unfold unaryInt at h
  rcases List.mem_cons.mp h with h | h
  · split at h
    · exact Or.inl h
    · exact Or.inr (Or.inl h)
  · exact Or.inr (Or.inr (List.eq_of_mem_replicate h))

theorem unaryParse_show (i : ℤ) : unaryParse (unaryInt i) = some i := by
  unfold unaryInt
  by_cases h : 0 ≤ i
  · rw [if_pos h]
    simp only [unaryParse, List.length_replicate]
    congr 1; omega
  · rw [if_neg h]
    simp only [unaryParse, List.length_replicate]
    congr 1; omega

theorem unary_faithful : unary.Faithful := by
  constructor
  · exact unaryParse_show
  · intro q
    have h1 : '/' ∉ unaryInt q.num := by
      intro h; rcases unaryInt_mem h with h | h | h <;> revert h <;> decide
    have h2 : '/' ∉ List.replicate q.den '1' := by
      intro h; have := List.eq_of_mem_replicate h; revert this; decide
    simp only [unary]
    rw [splitOnChar_append' _ _ _ h1, splitOnChar_none' _ _ h2]
    simp only [unaryParse_show, Option.map_some, List.length_replicate, Rat.mkRat_self]
  · intro i
    refine ⟨by simp [unary, unaryInt], ?_⟩
    intro c hc
    rcases unaryInt_mem hc with rfl | rfl | rfl <;> decide
  · intro q
    refine ⟨by simp [unary], ?_⟩
    intro c hc
    simp only [unary, List.mem_append, List.mem_cons] at hc
    rcases hc with hc | rfl | hc
    · rcases unaryInt_mem hc with rfl | rfl | rfl <;> decide
    · decide
    · rw [List.eq_of_mem_replicate hc]; decide

def exIdToWord : List (Option Str) := [some "<eps>".toList, some "hei".toList, some "maa".toList]
def exWordToId (w : Str) : Option ℤ :=
  if w = "<eps>".toList then some 0 else if w = "hei".toList then some 1 else if w = "maa".toList then some 2 else none

theorem exWordMaps : WordMaps exIdToWord exWordToId := by
  constructor
  · intro i w h
    match i, h with
    | 0, h => cases h; decide
    | 1, h => cases h; decide
    | 2, h => cases h; decide
    | n + 3, h => simp [exIdToWord] at h
  · intro w j h
    unfold exWordToId at h
    split at h
    · rename_i hw; cases h; exact ⟨0, rfl, by subst hw; rfl⟩
    · split at h
      · rename_i hw; cases h; exact ⟨1, rfl, by subst hw; rfl⟩
      · split at h
        · rename_i hw; cases h; exact ⟨2, rfl, by subst hw; rfl⟩
        · cases h
  · exact ⟨0, by decide⟩

/-- A lattice with two paths. -/
def exKaldi : List Str := ["utt1 ".toList, "+ +1 +1 +1/1,+11/1,1_2".toList, "+ +1 +11 ,+1/11,".toList,
  "+1 +11 + -1/1".toList, "".toList, "+11 +1/1,,5".toList, "".toList]

example : ∃ L : Lattice ℚ, readKaldi unary exKaldi exIdToWord = .ok L ∧ L.initial = 0 ∧ L.links.length = 4 ∧
    L.nodes.length = 4 ∧ L.utteranceId = some "utt1".toList := by
  decide +kernel

example : ∃ out : List Str, (∃ L : Lattice ℚ, readKaldi unary exKaldi exIdToWord = .ok L ∧
    writeKaldi unary exWordToId L = .ok out) ∧ out.length = 6 := by
  refine ⟨["utt1".toList, "+ +1 +1 +1/1,+11/1,1_2".toList, "+ +1 +11 +/1,+1/11,".toList,
    "+1 +11 + -1/1,+/1,".toList, "+11 +1/1,+/1,5".toList, "".toList], ?_, by decide⟩
  decide +kernel

/-- C25 is violated when the initial node is not the least node from which links start: the initial node changes. -/
theorem C25_violated : ∃ (lines out : List Str) (L L' : Lattice ℚ), readKaldi unary lines exIdToWord = .ok L ∧
    writeKaldi unary exWordToId L = .ok out ∧ readKaldi unary out exIdToWord = .ok L' ∧
    L.initial = 1 ∧ L'.initial = 0 := by
  have h : ∃ L : Lattice ℚ, readKaldi unary ["u".toList, "+1 + +1 ,".toList, "+".toList] exIdToWord = .ok L ∧
      L.initial = 1 ∧ ∃ out : List Str, writeKaldi unary exWordToId L = .ok out ∧
      ∃ L' : Lattice ℚ, readKaldi unary out exIdToWord = .ok L' ∧ L'.initial = 0 := by
    decide +kernel
  obtain ⟨L, h1, h2, out, h3, L', h4, h5⟩ := h
  exact ⟨_, out, L, L', h1, h3, h4, h2, h5⟩

/-- C26 is violated: the final node is added even if no state is final.  The lattice is accepted, although no link leads
to its final node. -/
theorem C26_violated : ∃ L : Lattice ℚ, readKaldi unary ["u".toList, "+ +1 +1 ,".toList] exIdToWord = .ok L ∧
    L.nodes.length = 3 ∧ ∀ k ∈ L.links, k.endNode ≠ 2 := by
  decide +kernel

end TheanoLM
