import Verif.Lemmas.SlfWrite
import Verif.Props.Slf
import Mathlib.Algebra.Ring.Defs
/-!
# Lemmas about writing a lattice in SLF format and reading the output
-/
set_option linter.unusedSectionVars false
namespace TheanoLM

variable {S : Type}

/-! ## Lines -/

/-- A line with the line end. -/
def IsLine (l : Str) : Prop := ∃ b : Str, l = b ++ ['\n'] ∧ '\n' ∉ b

theorem fileLines_line (b : Str) (h : '\n' ∉ b) (rest : Str) : fileLines (b ++ '\n' :: rest) = (b ++ ['\n']) :: fileLines rest := by
  induction b with
  | nil => simp [fileLines]
  | cons c b ih =>
    rw [List.cons_append, fileLines, if_neg (fun e => h (by simp [e])), ih (fun hm => h (List.mem_cons_of_mem _ hm))]
    rfl

theorem fileLines_flatten {lines : List Str} (h : ∀ l ∈ lines, IsLine l) : fileLines lines.flatten = lines := by
  induction lines with
  | nil => rfl
  | cons l lines ih =>
    obtain ⟨b, rfl, hb⟩ := h l (by simp)
    rw [List.flatten_cons, List.append_assoc, List.singleton_append, fileLines_line b hb, ih (fun l hl => h l (List.mem_cons_of_mem _ hl))]

theorem SlfPlain.newline {s : Str} (h : SlfPlain s) : '\n' ∉ s := fun hm => (h _ hm).1 (by unfold SlfSpace; decide)

theorem SlfPlain.append {s t : Str} (hs : SlfPlain s) (ht : SlfPlain t) : SlfPlain (s ++ t) := by
  intro c hc
  rcases List.mem_append.mp hc with hc | hc
  · exact hs c hc
  · exact ht c hc

instance (c : Char) : Decidable (SlfSpace c) := by unfold SlfSpace; infer_instance
instance (s : Str) : Decidable (SlfPlain s) := by unfold SlfPlain; infer_instance

theorem SlfPlain.text {s : Str} (h : SlfPlain s) : FieldText s s := by
  induction s with
  | nil => exact .nil
  | cons c s ih =>
    obtain ⟨h1, h2, h3, h4⟩ := h c (by simp)
    exact .char c s s h1 h2 h3 h4 (ih fun c hc => h c (List.mem_cons_of_mem _ hc))

theorem slfSpace_newline : SlfSpace '\n' := by decide
theorem slfSpace_tab : SlfSpace '\t' := by decide

theorem fieldEnd_of {c : Char} (h : SlfSpace c) (rest : Str) : FieldEnd (c :: rest) := by
  intro d hd
  cases hd
  exact .inl h

/-- Fields of a line written by `tabLine`. -/
def PlainFields (fs : List Str) : Prop := ∀ f ∈ fs, SlfPlain f ∧ f ≠ []

theorem tabLine_fields {fs : List Str} (h : PlainFields fs) : SlfFields (tabLine fs) fs := by
  induction fs with
  | nil => exact .space _ _ _ slfSpace_newline .nil
  | cons f fs ih =>
    obtain ⟨h1, h2⟩ := h f (by simp)
    cases fs with
    | nil => exact .field f f ['\n'] [] h1.text h2 (fieldEnd_of slfSpace_newline _) (.space _ _ _ slfSpace_newline .nil)
    | cons g fs =>
      exact .field f f ('\t' :: tabLine (g :: fs)) (g :: fs) h1.text h2 (fieldEnd_of slfSpace_tab _)
        (.space _ _ _ slfSpace_tab (ih fun x hx => h x (List.mem_cons_of_mem _ hx)))

theorem tabLine_line {fs : List Str} (h : PlainFields fs) : IsLine (tabLine fs) := by
  induction fs with
  | nil => exact ⟨[], rfl, by simp⟩
  | cons f fs ih =>
    obtain ⟨h1, h2⟩ := h f (by simp)
    cases fs with
    | nil => exact ⟨f, rfl, h1.newline⟩
    | cons g fs =>
      obtain ⟨b, e, hb⟩ := ih fun x hx => h x (List.mem_cons_of_mem _ hx)
      refine ⟨f ++ '\t' :: b, ?_, ?_⟩
      · rw [show tabLine (f :: g :: fs) = f ++ '\t' :: tabLine (g :: fs) from rfl, e]
        simp
      · simp [h1.newline, hb]

theorem quotedText_plain {u : Str} (h : PlainUtterance u) : QuotedText u u := by
  induction u with
  | nil => exact .nil
  | cons c u ih =>
    obtain ⟨h1, h2, _⟩ := h c (by simp)
    exact .char c u u h1 h2 (ih fun c hc => h c (List.mem_cons_of_mem _ hc))

theorem fieldText_append {t v t' v' : Str} (h : FieldText t v) (h' : FieldText t' v') : FieldText (t ++ t') (v ++ v') := by
  induction h with
  | nil => exact h'
  | char c t v h1 h2 h3 h4 _ ih => exact .char c _ _ h1 h2 h3 h4 ih
  | escaped c t v _ ih => exact .escaped c _ _ ih
  | quoted t v s w hq _ ih =>
    have := FieldText.quoted t v _ _ hq ih
    simpa using this

theorem utterance_fields {u : Str} (h : PlainUtterance u) :
    SlfFields ("UTTERANCE=\"".toList ++ u ++ "\"\n".toList) ["UTTERANCE=".toList ++ u] := by
  have h1 : FieldText "UTTERANCE=".toList "UTTERANCE=".toList := SlfPlain.text (by decide)
  have h2 : FieldText ('"' :: (u ++ '"' :: [])) (u ++ []) := .quoted u u [] [] (quotedText_plain h) .nil
  have h3 := SlfFields.field _ _ ['\n'] [] (fieldText_append h1 h2) (by simp) (fieldEnd_of slfSpace_newline _)
    (.space _ _ _ slfSpace_newline .nil)
  have e : "UTTERANCE=\"".toList ++ u ++ "\"\n".toList = "UTTERANCE=".toList ++ '"' :: (u ++ ['"']) ++ ['\n'] := by
    rw [show "UTTERANCE=\"".toList = "UTTERANCE=".toList ++ ['"'] by decide, show "\"\n".toList = ['"', '\n'] by decide]
    simp
  rw [e]
  simpa using h3

theorem utterance_line {u : Str} (h : PlainUtterance u) : IsLine ("UTTERANCE=\"".toList ++ u ++ "\"\n".toList) := by
  refine ⟨"UTTERANCE=\"".toList ++ u ++ ['"'], ?_, ?_⟩
  · rw [show "\"\n".toList = ['"', '\n'] by decide]
    simp
  · intro hm
    rw [List.mem_append, List.mem_append] at hm
    rcases hm with (hm | hm) | hm
    · revert hm; decide
    · exact (h _ hm).2.2 rfl
    · revert hm; decide

/-! ## Fields -/

theorem split_field (name : Str) (v : Str) (h : '=' ∉ name) : splitSlfField (name ++ '=' :: v) = .ok (name, v) :=
  splitSlfField_iff.mpr ⟨rfl, h⟩

theorem split_eq {text name : Str} (h : text = name ++ ['=']) (hn : '=' ∉ name) (v : Str) : splitSlfField (text ++ v) = .ok (name, v) := by
  rw [h, List.append_assoc]
  exact split_field name v hn

section
variable [Semiring S] [DecidableEq S] {W : SlfShow S} {T : SlfText S} (hT : SlfFaithful W T)
include hT

theorem tok_tab {fs : List Str} (h : PlainFields fs) : T.tok (tabLine fs) = .ok fs := by
  rw [hT.tok]
  exact splitSlfLine_of_fields (tabLine_fields h)

theorem plain_int {name : Str} (hn : SlfPlain name) (hne : name ≠ []) (i : ℤ) : SlfPlain (name ++ W.showInt i) ∧ name ++ W.showInt i ≠ [] :=
  ⟨hn.append (hT.int_text i), by simp [hne]⟩

theorem plain_score {name : Str} (hn : SlfPlain name) (hne : name ≠ []) (x : S) : SlfPlain (name ++ W.showScore x) ∧ name ++ W.showScore x ≠ [] :=
  ⟨hn.append (hT.score_text x), by simp [hne]⟩

theorem optField_plain {α : Type} {name : String} {text : α → Str} {o : Option α} (hn : SlfPlain name.toList) (hne : name.toList ≠ [])
    (ht : ∀ x, SlfPlain (text x)) : PlainFields (optField name text o) := by
  intro f hf
  cases o with
  | none => cases hf
  | some x =>
    rw [optField, List.mem_singleton] at hf
    subst hf
    exact ⟨hn.append (ht x), by simp [hne]⟩

/-! ## Header -/

theorem scaleFields_plain (L : Lattice S) :
    PlainFields (optField "lmscale=" W.showScore L.lmScale ++ optField "wdpenalty=" W.showScore L.wiPenalty) := by
  intro f hf
  rcases List.mem_append.mp hf with hf | hf
  · exact optField_plain hT (by decide) (by decide) hT.score_text f hf
  · exact optField_plain hT (by decide) (by decide) hT.score_text f hf

theorem header_lm (h : SlfHeader S) (x : S) (fs : List Str) : slfHeaderFields T (("lmscale=".toList ++ W.showScore x) :: fs) h =
    slfHeaderFields T fs { h with lmScale := some x } := by
  have e : slfHeaderField T h "lmscale".toList (W.showScore x) = .ok { h with lmScale := some x } := by
    unfold slfHeaderField
    rw [if_neg (by decide), if_neg (by decide), if_neg (by decide), if_pos rfl, hT.score]
    rfl
  rw [slfHeaderFields, split_eq (name := "lmscale".toList) (by decide) (by decide)]
  simp only
  rw [e]

theorem header_wd (h : SlfHeader S) (x : S) (fs : List Str) : slfHeaderFields T (("wdpenalty=".toList ++ W.showScore x) :: fs) h =
    slfHeaderFields T fs { h with wiPenalty := some x } := by
  have e : slfHeaderField T h "wdpenalty".toList (W.showScore x) = .ok { h with wiPenalty := some x } := by
    unfold slfHeaderField
    rw [if_neg (by decide), if_neg (by decide), if_neg (by decide), if_neg (by decide), if_pos rfl, hT.score]
    rfl
  rw [slfHeaderFields, split_eq (name := "wdpenalty".toList) (by decide) (by decide)]
  simp only
  rw [e]

theorem header_start (h : SlfHeader S) (i : ℤ) (fs : List Str) : slfHeaderFields T (("start=".toList ++ W.showInt i) :: fs) h =
    slfHeaderFields T fs { h with start := some i } := by
  have e : slfHeaderField T h "start".toList (W.showInt i) = .ok { h with start := some i } := by
    unfold slfHeaderField
    rw [if_neg (by decide), if_neg (by decide), if_neg (by decide), if_neg (by decide), if_neg (by decide), if_pos rfl, hT.int]
    rfl
  rw [slfHeaderFields, split_eq (name := "start".toList) (by decide) (by decide)]
  simp only
  rw [e]

theorem header_nodes (h : SlfHeader S) (i : ℤ) (fs : List Str) : slfHeaderFields T (("N=".toList ++ W.showInt i) :: fs) h =
    slfHeaderFields T fs { h with numNodes := some i } := by
  have e : slfHeaderField T h "N".toList (W.showInt i) = .ok { h with numNodes := some i } := by
    unfold slfHeaderField
    rw [if_neg (by decide), if_neg (by decide), if_neg (by decide), if_neg (by decide), if_neg (by decide), if_neg (by decide),
      if_neg (by decide), if_pos (by decide), hT.int]
    rfl
  rw [slfHeaderFields, split_eq (name := "N".toList) (by decide) (by decide)]
  simp only
  rw [e]

theorem header_links (h : SlfHeader S) (i : ℤ) (fs : List Str) : slfHeaderFields T (("L=".toList ++ W.showInt i) :: fs) h =
    slfHeaderFields T fs { h with numLinks := some i } := by
  have e : slfHeaderField T h "L".toList (W.showInt i) = .ok { h with numLinks := some i } := by
    unfold slfHeaderField
    rw [if_neg (by decide), if_neg (by decide), if_neg (by decide), if_neg (by decide), if_neg (by decide), if_neg (by decide),
      if_neg (by decide), if_neg (by decide), if_pos (by decide), hT.int]
    rfl
  rw [slfHeaderFields, split_eq (name := "L".toList) (by decide) (by decide)]
  simp only
  rw [e]

theorem header_utterance (h : SlfHeader S) (u : Str) (fs : List Str) : slfHeaderFields T (("UTTERANCE=".toList ++ u) :: fs) h =
    slfHeaderFields T fs { h with utteranceId := some u } := by
  have e : slfHeaderField T h "UTTERANCE".toList u = .ok { h with utteranceId := some u } := by
    unfold slfHeaderField
    rw [if_pos (by decide)]
  rw [slfHeaderFields, split_eq (name := "UTTERANCE".toList) (by decide) (by decide)]
  simp only
  rw [e]

theorem header_step {line : Str} {fields : List Str} {h h' : SlfHeader S} {lines : List Str} (ht : SlfFields line fields)
    (hf : slfHeaderFields T fields h = .ok h') (hn : h'.numNodes = none) : slfHeaderLines T (line :: lines) h = slfHeaderLines T lines h' := by
  rw [slfHeaderLines, hT.tok, splitSlfLine_of_fields ht]
  simp only
  rw [hf]
  simp only
  rw [if_neg (fun hc => hc.1 hn)]

theorem scale_step (L : Lattice S) (h : SlfHeader S) (hn : h.numNodes = none) (h1 : h.lmScale = none) (h2 : h.wiPenalty = none) (lines : List Str) :
    slfHeaderLines T (slfScaleLines W L ++ lines) h = slfHeaderLines T lines { h with lmScale := L.lmScale, wiPenalty := L.wiPenalty } := by
  have hp := scaleFields_plain hT L
  unfold slfScaleLines
  cases hl : L.lmScale with
  | none =>
    cases hw : L.wiPenalty with
    | none =>
      obtain ⟨a, b, c, d, e⟩ := h
      simp only at h1 h2
      subst h1 h2
      rfl
    | some y =>
      rw [hl, hw] at hp
      refine header_step hT (tabLine_fields hp) ?_ hn
      show slfHeaderFields T [_] h = _
      rw [header_wd hT, slfHeaderFields]
      obtain ⟨a, b, c, d, e⟩ := h
      simp only at h1
      subst h1
      rfl
  | some x =>
    cases hw : L.wiPenalty with
    | none =>
      rw [hl, hw] at hp
      refine header_step hT (tabLine_fields hp) ?_ hn
      show slfHeaderFields T [_] h = _
      rw [header_lm hT, slfHeaderFields]
      obtain ⟨a, b, c, d, e⟩ := h
      simp only at h2
      subst h2
      rfl
    | some y =>
      rw [hl, hw] at hp
      refine header_step hT (tabLine_fields hp) ?_ hn
      show slfHeaderFields T [_, _] h = _
      rw [header_lm hT, header_wd hT, slfHeaderFields]

theorem readHeader (L : Lattice S) {u : Str} (hu : L.utteranceId = some u) (hp : PlainUtterance u) (rest : List Str) :
    slfHeaderLines T (slfHeaderText W L ++ rest) .empty =
      .ok (⟨some u, some 1, L.lmScale, L.wiPenalty, some L.initial, [], some L.nodes.length, some L.links.length⟩, rest) := by
  unfold slfHeaderText
  rw [List.append_assoc, List.append_assoc]
  have e0 : SlfFields "# Header (generated by TheanoLM)\n".toList [] :=
    .commentLine " Header (generated by TheanoLM)".toList [] [] (by decide) .nil
  have e1 : SlfFields "VERSION=1.1\n".toList ["VERSION=1.1".toList] :=
    .field "VERSION=1.1".toList "VERSION=1.1".toList ['\n'] [] (SlfPlain.text (by decide)) (by decide) (fieldEnd_of slfSpace_newline _)
      (.space _ _ _ slfSpace_newline .nil)
  have e2 : slfHeaderFields T ["VERSION=1.1".toList] (.empty : SlfHeader S) = .ok .empty := by
    rw [slfHeaderFields, show "VERSION=1.1".toList = "VERSION".toList ++ '=' :: "1.1".toList by decide, split_field _ _ (by decide)]
    simp only
    unfold slfHeaderField
    rw [if_neg (by decide), if_neg (by decide), if_neg (by decide), if_neg (by decide), if_neg (by decide), if_neg (by decide),
      if_neg (by decide), if_neg (by decide), if_neg (by decide)]
    rfl
  rw [List.cons_append, header_step hT e0 (by rw [slfHeaderFields]) rfl, List.cons_append, header_step hT e1 e2 rfl, List.cons_append, hu,
    Option.getD_some, header_step hT (utterance_fields hp) (header_utterance hT _ _ _) rfl, List.nil_append,
    scale_step hT L _ rfl rfl rfl]
  have e3 : SlfFields ("start=".toList ++ W.showInt L.initial ++ "\n".toList) ["start=".toList ++ W.showInt L.initial] := by
    obtain ⟨h1, h2⟩ := plain_int hT (name := "start=".toList) (by decide) (by decide) L.initial
    exact .field _ _ ['\n'] [] h1.text h2 (fieldEnd_of slfSpace_newline _) (.space _ _ _ slfSpace_newline .nil)
  rw [List.cons_append, header_step hT e3 (header_start hT _ _ _) rfl, List.cons_append, slfHeaderLines, tok_tab hT]
  · simp only
    rw [header_nodes hT, header_links hT, slfHeaderFields]
    rfl
  · intro f hf
    simp only [List.mem_cons, List.not_mem_nil, or_false] at hf
    rcases hf with rfl | rfl
    · exact plain_int hT (by decide) (by decide) _
    · exact plain_int hT (by decide) (by decide) _

/-! ## Nodes -/

theorem nodeText_plain (id : Nat) (node : Node) :
    PlainFields (("I=".toList ++ W.showInt id) :: optField "t=" W.showTime node.time) := by
  intro f hf
  rcases List.mem_cons.mp hf with rfl | hf
  · exact plain_int hT (by decide) (by decide) _
  · exact optField_plain hT (by decide) (by decide) hT.time_text f hf

theorem readNode (scale : Option S) {N : Nat} {times : Nat → Option ℚ} {n : Nat} {node : Node} (hn : n < N) (h0 : times n = none) (lines : List Str) :
    slfLines T scale (slfNodeText W n node :: lines) (slfState N times (fun _ => none) []) =
      slfLines T scale lines (slfState N (upd times n node.time) (fun _ => none) []) := by
  have hidx : pyIdx N (n : ℤ) = some n := pyIdx_iff.mpr ⟨hn, .inl rfl⟩
  have hfields : slfNodeFields T (optField "t=" W.showTime node.time) (none, none) = .ok (node.time, none) := by
    cases node.time with
    | none => rfl
    | some t =>
      rw [optField, slfNodeFields, split_eq (name := "t".toList) (by decide) (by decide)]
      simp only
      rw [if_pos (by decide), hT.time]
      rfl
  have hnode : slfNode T (slfState N times (fun _ => none) ([] : List (Link S))) n (optField "t=" W.showTime node.time) =
      .ok (slfState N (upd times n node.time) (fun _ => none) []) := by
    unfold slfNode
    simp only [slfState, slfNodes_length, hidx]
    have e1 : ((slfNodes N times ([] : List (Link S))).getD n Node.new).time = none := by
      rw [List.getD_eq_getElem?_getD, slfNodes_get hn]
      exact h0
    have e2 : ((List.range N).map fun _ => (none : Option (Option Str))).getD n none = none := by
      rw [List.getD_eq_getElem?_getD, List.getElem?_map, List.getElem?_range hn]
      rfl
    rw [e1, e2, hfields]
    simp only [slfNodeWord]
    rw [modify_slf, set_words]
    have : upd (fun _ => (none : Option (Option Str))) n none = fun _ => none := by
      funext m
      unfold upd
      split <;> rfl
    rw [this]
  rw [slfLines, show slfNodeText W n node = tabLine _ from rfl, tok_tab hT (nodeText_plain hT n node)]
  simp only [slfLine]
  rw [split_eq (name := "I".toList) (by decide) (by decide)]
  simp only
  rw [if_pos trivial, hT.int]
  simp only
  rw [hnode]

theorem readNodes (scale : Option S) {N : Nat} (nd : Nat → Node) (lines : List Str) (ids : List Nat) (hnd : ids.Nodup) (hN : ∀ n ∈ ids, n < N)
    (times : Nat → Option ℚ) (h0 : ∀ n ∈ ids, times n = none) :
    slfLines T scale (ids.map (fun n => slfNodeText W n (nd n)) ++ lines) (slfState N times (fun _ => none) []) =
      slfLines T scale lines (slfState N (fun n => if n ∈ ids then (nd n).time else times n) (fun _ => none) []) := by
  induction ids generalizing times with
  | nil => simp
  | cons i ids ih =>
    rw [List.nodup_cons] at hnd
    rw [List.map_cons, List.cons_append, readNode hT scale (hN i (by simp)) (h0 i (by simp)),
      ih hnd.2 (fun n hn => hN n (List.mem_cons_of_mem _ hn)) _ (fun n hn => ?_)]
    · congr 2
      funext n
      unfold upd
      by_cases h : n = i
      · subst h
        simp [hnd.1]
      · simp [h]
    · unfold upd
      rw [if_neg (fun (e : n = i) => hnd.1 (e ▸ hn))]
      exact h0 n (List.mem_cons_of_mem _ hn)

/-! ## Links -/

/-- The word of a link can be written. -/
def LinkPlain (k : Link S) : Prop := ∀ w, k.word = some w → PlainWord w

omit hT in
theorem wordText_plain {k : Link S} (h : LinkPlain k) : SlfPlain (k.word.getD "!NULL".toList) := by
  cases hw : k.word with
  | none => decide
  | some w => exact (h w hw).1

omit hT in
theorem wordText_norm {k : Link S} (h : LinkPlain k) : slfNorm (some (k.word.getD "!NULL".toList)) = k.word := by
  cases hw : k.word with
  | none => rfl
  | some w =>
    obtain ⟨h1, h2⟩ := h w hw
    show slfNorm (some w) = some w
    unfold slfNorm
    simp only
    rw [if_neg]
    intro hs
    rw [slfSpecial_iff] at hs
    cases w with
    | nil => rcases hs with hs | hs <;> cases hs
    | cons c w =>
      rcases hs with hs | hs
      · cases hs
        exact h2 w rfl
      · cases hs
        exact (h1 '#' (by simp)).2.1 rfl

theorem linkText_plain (id : Nat) {k : Link S} (h : LinkPlain k) : PlainFields (["J=".toList ++ W.showInt id, "S=".toList ++ W.showInt k.startNode,
    "E=".toList ++ W.showInt k.endNode, "W=".toList ++ k.word.getD "!NULL".toList] ++
    optField "a=" W.showScore k.ac ++ optField "l=" W.showScore k.lm) := by
  intro f hf
  rcases List.mem_append.mp hf with hf | hf
  · rcases List.mem_append.mp hf with hf | hf
    · simp only [List.mem_cons, List.not_mem_nil, or_false] at hf
      rcases hf with rfl | rfl | rfl | rfl
      · exact plain_int hT (by decide) (by decide) _
      · exact plain_int hT (by decide) (by decide) _
      · exact plain_int hT (by decide) (by decide) _
      · exact ⟨SlfPlain.append (by decide) (wordText_plain h), fun e => by rw [List.append_eq_nil_iff] at e; exact absurd e.1 (by decide)⟩
    · exact optField_plain hT (by decide) (by decide) hT.score_text f hf
  · exact optField_plain hT (by decide) (by decide) hT.score_text f hf

theorem link_start {N n : Nat} (hn : n < N) (v : SlfLinkVars S) (fs : List Str) :
    slfLinkFields T (some 1) N (("S=".toList ++ W.showInt n) :: fs) v = slfLinkFields T (some 1) N fs { v with startNode := some n } := by
  have e : slfLinkField T (some 1) N v "S".toList (W.showInt n) = .ok { v with startNode := some n } := by
    unfold slfLinkField slfNodeRef
    rw [if_pos (by decide), hT.int]
    simp only [pyIdx_iff.mpr (⟨hn, .inl rfl⟩ : PyRef N (n : ℤ) n)]
    rfl
  rw [slfLinkFields, split_eq (name := "S".toList) (by decide) (by decide)]
  simp only
  rw [e]

theorem link_end {N n : Nat} (hn : n < N) (v : SlfLinkVars S) (fs : List Str) :
    slfLinkFields T (some 1) N (("E=".toList ++ W.showInt n) :: fs) v = slfLinkFields T (some 1) N fs { v with endNode := some n } := by
  have e : slfLinkField T (some 1) N v "E".toList (W.showInt n) = .ok { v with endNode := some n } := by
    unfold slfLinkField slfNodeRef
    rw [if_neg (by decide), if_pos (by decide), hT.int]
    simp only [pyIdx_iff.mpr (⟨hn, .inl rfl⟩ : PyRef N (n : ℤ) n)]
    rfl
  rw [slfLinkFields, split_eq (name := "E".toList) (by decide) (by decide)]
  simp only
  rw [e]

omit hT in
theorem link_word (N : Nat) (w : Str) (v : SlfLinkVars S) (fs : List Str) :
    slfLinkFields T (some 1) N (("W=".toList ++ w) :: fs) v = slfLinkFields T (some 1) N fs { v with word := some w } := by
  have e : slfLinkField T (some 1) N v "W".toList w = .ok { v with word := some w } := by
    unfold slfLinkField
    rw [if_neg (by decide), if_neg (by decide), if_pos (by decide)]
  rw [slfLinkFields, split_eq (name := "W".toList) (by decide) (by decide)]
  simp only
  rw [e]

theorem link_score (x : S) : slfScore T (some 1) (W.showScore x) = .ok x := by
  unfold slfScore
  rw [hT.score]
  simp

theorem link_ac (N : Nat) (o : Option S) (v : SlfLinkVars S) (hv : v.ac = none) (fs : List Str) :
    slfLinkFields T (some 1) N (optField "a=" W.showScore o ++ fs) v = slfLinkFields T (some 1) N fs { v with ac := o } := by
  cases o with
  | none =>
    obtain ⟨a, b, c, d, e⟩ := v
    simp only at hv
    subst hv
    rfl
  | some x =>
    have e : slfLinkField T (some 1) N v "a".toList (W.showScore x) = .ok { v with ac := some x } := by
      unfold slfLinkField
      rw [if_neg (by decide), if_neg (by decide), if_neg (by decide), if_pos (by decide), link_score hT]
      rfl
    rw [optField, List.singleton_append, slfLinkFields, split_eq (name := "a".toList) (by decide) (by decide)]
    simp only
    rw [e]

theorem link_lm (N : Nat) (o : Option S) (v : SlfLinkVars S) (hv : v.lm = none) :
    slfLinkFields T (some 1) N (optField "l=" W.showScore o) v = .ok { v with lm := o } := by
  cases o with
  | none =>
    obtain ⟨a, b, c, d, e⟩ := v
    simp only at hv
    subst hv
    rfl
  | some x =>
    have e : slfLinkField T (some 1) N v "l".toList (W.showScore x) = .ok { v with lm := some x } := by
      unfold slfLinkField
      rw [if_neg (by decide), if_neg (by decide), if_neg (by decide), if_neg (by decide), if_pos (by decide), link_score hT]
      rfl
    rw [optField, slfLinkFields, split_eq (name := "l".toList) (by decide) (by decide)]
    simp only
    rw [e]
    rfl

theorem readLink {N : Nat} {times : Nat → Option ℚ} {ks : List (Link S)} (id : Nat) {k : Link S} (hk : LinkPlain k)
    (h1 : k.startNode < N) (h2 : k.endNode < N) (lines : List Str) :
    slfLines T (some 1) (slfLinkText W id k :: lines) (slfState N times (fun _ => none) ks) =
      slfLines T (some 1) lines (slfState N times (fun _ => none) (ks ++ [{ k with transitions := [] }])) := by
  have hl : slfLink T (some 1) (slfState N times (fun _ => none) ks) (["S=".toList ++ W.showInt k.startNode,
    "E=".toList ++ W.showInt k.endNode, "W=".toList ++ k.word.getD "!NULL".toList] ++
    optField "a=" W.showScore k.ac ++ optField "l=" W.showScore k.lm) =
      .ok (slfState N times (fun _ => none) (ks ++ [{ k with transitions := [] }])) := by
    unfold slfLink
    simp only [slfState, slfNodes_length]
    rw [List.append_assoc, List.cons_append, link_start hT h1, List.cons_append, link_end hT h2, List.cons_append, link_word, List.nil_append,
      link_ac hT _ _ _ rfl, link_lm hT _ _ _ rfl]
    simp only [addLink_slf, wordText_norm hk]
  rw [slfLines, show slfLinkText W id k = tabLine _ from rfl, tok_tab hT (linkText_plain hT id hk)]
  simp only [List.cons_append, slfLine]
  rw [split_eq (name := "J".toList) (by decide) (by decide)]
  simp only
  rw [if_neg (by decide), if_pos trivial, hT.int]
  simp only [List.cons_append] at hl ⊢
  rw [hl]

theorem readLinks {N : Nat} {times : Nat → Option ℚ} {lines : List Str} {links : List (Link S)}
    (h : List.Forall₂ (fun line k => ∃ id, line = slfLinkText W id k) lines links)
    (hk : ∀ k ∈ links, LinkPlain k ∧ k.startNode < N ∧ k.endNode < N) (ks : List (Link S)) :
    slfLines T (some 1) lines (slfState N times (fun _ => none) ks) =
      .ok (slfState N times (fun _ => none) (ks ++ links.map fun k => { k with transitions := [] })) := by
  induction h generalizing ks with
  | nil => simp [slfLines]
  | cons hd _ ih =>
    rename_i line k lines links _
    obtain ⟨id, rfl⟩ := hd
    obtain ⟨a, b, c⟩ := hk k (by simp)
    rw [readLink hT id a b c, ih (fun k hk' => hk k (List.mem_cons_of_mem _ hk'))]
    simp

end

/-! ## The rest of the reader -/

theorem slfVisit_none {words : List (Option (Option Str))} {nodes : List Node} {links : List (Link S)}
    (hw : ∀ n, words.getD n none = none) (hn : ∀ n, ∀ l ∈ (nodes.getD n Node.new).outLinks, l < links.length) :
    ∀ (fuel : Nat) (stack V : List Nat), (∀ l ∈ stack, l < links.length) →
      slfVisit words nodes fuel stack V links = none ∨ slfVisit words nodes fuel stack V links = some (.ok links) := by
  intro fuel
  induction fuel with
  | zero =>
    intro stack V hs
    cases stack with
    | nil => right; rfl
    | cons l stack => left; rfl
  | succ fuel ih =>
    intro stack V hs
    cases stack with
    | nil => right; rfl
    | cons l stack =>
      have hl := hs l (by simp)
      rw [slfVisit, List.getElem?_eq_getElem hl]
      simp only [hw]
      have hs' : ∀ l ∈ stack, l < links.length := fun l hl => hs l (List.mem_cons_of_mem _ hl)
      split
      · exact ih _ _ hs'
      · refine ih _ _ fun l hl => ?_
        rcases List.mem_append.mp hl with hl | hl
        · exact hn _ l hl
        · exact hs' l hl

theorem filter_length_one {l : List Node} {n : Nat} (hn : n < l.length)
    (h : ∀ (m : Nat) (node : Node), l[m]? = some node → (node.final = true ↔ m = n)) : (l.filter Node.final).length = 1 := by
  induction l generalizing n with
  | nil => simp at hn
  | cons x l ih =>
    have h0 := h 0 x rfl
    cases n with
    | zero =>
      rw [List.filter_cons_of_pos (by rw [h0.mpr rfl])]
      have : l.filter Node.final = [] := by
        rw [List.filter_eq_nil_iff]
        intro y hy hf
        obtain ⟨m, hm⟩ := List.mem_iff_getElem?.mp hy
        have := (h (m + 1) y hm).mp hf
        omega
      rw [this]
      rfl
    | succ n =>
      rw [List.filter_cons_of_neg (by intro hf; have := h0.mp hf; omega)]
      refine ih (by simpa using hn) fun m node hm => ?_
      rw [h (m + 1) node hm]
      omega

end TheanoLM
