import Verif.Lemmas.SlfRoundTrip
/-!
# C70: lattices survive being written in SLF format and read back

C83: the fields on a line of an SLF file.
-/
set_option linter.unusedSectionVars false
namespace TheanoLM

variable {S : Type}

/-! ## C83 -/

/-- C83: the fields on a line are those that the grammar `SlfFields` says; a line that the grammar does not allow (quotes that are not
closed, or a backslash at the end) is a `ValueError`. -/
theorem C83 (line : Str) : (∀ fields, splitSlfLine line = .ok fields ↔ SlfFields line fields) ∧
    (∀ e, splitSlfLine line = .error e → e = .valueError) :=
  ⟨fun _ => splitSlfLine_iff, fun e h => shTokens_error line _ _ _ e h⟩

/-- A value in quotes, with the quotes and backslashes escaped. -/
def escapeSlf : Str → Str
  | [] => []
  | c :: cs => if c = '"' ∨ c = '\\' then '\\' :: c :: escapeSlf cs else c :: escapeSlf cs

/-- C83: any value can be given in quotes, if the quotes and backslashes in it are escaped. -/
theorem C83_quoted (fields : List (Str × Str)) (h : ∀ f ∈ fields, SlfPlain f.1 ∧ '=' ∉ f.1) :
    ∃ tokens, splitSlfLine (fields.flatMap fun f => f.1 ++ '=' :: '"' :: escapeSlf f.2 ++ ['"', '\t']) = .ok tokens ∧
      List.Forall₂ (fun t (f : Str × Str) => splitSlfField t = .ok f) tokens fields := by
  refine ⟨fields.map fun f => f.1 ++ '=' :: f.2, splitSlfLine_of_fields ?_, ?_⟩
  · induction fields with
    | nil => exact .nil
    | cons f fields ih =>
      have hq : ∀ v, QuotedText (escapeSlf v) v := by
        intro v
        induction v with
        | nil => exact .nil
        | cons c v ihv =>
          unfold escapeSlf
          split
          · rename_i hc; exact .escaped c _ _ hc ihv
          · rename_i hc
            exact .char c _ _ (fun e => hc (.inl e)) (fun e => hc (.inr e)) ihv
      have h1 : FieldText (f.1 ++ '=' :: ('"' :: (escapeSlf f.2 ++ '"' :: []))) (f.1 ++ '=' :: (f.2 ++ [])) :=
        fieldText_append (h f (by simp)).1.text (.char '=' _ _ (by decide) (by decide) (by decide) (by decide)
          (.quoted _ _ _ _ (hq f.2) .nil))
      have := SlfFields.field _ _ ('\t' :: fields.flatMap fun f => f.1 ++ '=' :: '"' :: escapeSlf f.2 ++ ['"', '\t']) _ h1 (by simp)
        (fieldEnd_of slfSpace_tab _) (.space _ _ _ slfSpace_tab (ih fun f hf => h f (List.mem_cons_of_mem _ hf)))
      simpa using this
  · rw [List.forall₂_map_left_iff, List.forall₂_same]
    intro f hf
    exact split_field _ _ (h f hf).2

example : splitSlfLine "J=1 S=0\tE=2 W=\"a\\\"b # c\" a=-1 # comment\n".toList =
    .ok ["J=1".toList, "S=0".toList, "E=2".toList, "W=a\"b # c".toList, "a=-1".toList] := by decide
example : splitSlfLine "W=\"a".toList = .error .valueError := by decide
example : splitSlfLine "W=a\\".toList = .error .valueError := by decide

/-! ## C70 -/

/-- What reading gives. -/
theorem readWritten [Semiring S] [DecidableEq S] {W : SlfShow S} {T : SlfText S} (hT : SlfFaithful W T) (L : Lattice S) {u : Str}
    (hu : L.utteranceId = some u) (hp : PlainUtterance u) (hi : L.initial < L.nodes.length)
    (hk : ∀ k ∈ L.links, LinkPlain k ∧ k.startNode < L.nodes.length ∧ k.endNode < L.nodes.length)
    (hone : ∃ n < L.nodes.length, ∀ m < L.nodes.length, (∀ k ∈ L.links, k.startNode ≠ m) ↔ m = n) :
    readSlf T (fileLines (writeSlf W L)) =
      .ok ⟨finNodes L.nodes.length (fun n => (L.nodes.getD n Node.new).time) [] (L.links.map fun k => { k with transitions := [] }),
        L.links.map fun k => { k with transitions := [] }, L.initial, L.utteranceId, L.lmScale, L.wiPenalty⟩ := by
  have hlines : fileLines (writeSlf W L) = slfHeaderText W L ++ ("# Nodes\n".toList :: (L.nodes.mapIdx (slfNodeText W) ++
      ("# Links\n".toList :: L.links.mapIdx (slfLinkText W)))) := by
    unfold writeSlf
    rw [fileLines_flatten]
    · simp
    · intro l hl
      simp only [List.mem_append, List.mem_singleton] at hl
      rcases hl with (((hl | rfl) | hl) | rfl) | hl
      · unfold slfHeaderText at hl
        rw [List.mem_append, List.mem_append] at hl
        rcases hl with (hl | hl) | hl
        · simp only [List.mem_cons, List.not_mem_nil, or_false] at hl
          rcases hl with rfl | rfl | rfl
          · exact ⟨"# Header (generated by TheanoLM)".toList, by decide, by decide⟩
          · exact ⟨"VERSION=1.1".toList, by decide, by decide⟩
          · rw [hu]
            exact utterance_line hp
        · unfold slfScaleLines at hl
          split at hl
          · cases hl
          · rename_i f fs he
            rw [List.mem_singleton] at hl
            subst hl
            rw [← he]
            exact tabLine_line (scaleFields_plain hT L)
        · simp only [List.mem_cons, List.not_mem_nil, or_false] at hl
          rcases hl with rfl | rfl
          · exact ⟨_, rfl, (plain_int hT (name := "start=".toList) (by decide) (by decide) _).1.newline⟩
          · refine tabLine_line fun f hf => ?_
            simp only [List.mem_cons, List.not_mem_nil, or_false] at hf
            rcases hf with rfl | rfl
            · exact plain_int hT (by decide) (by decide) _
            · exact plain_int hT (by decide) (by decide) _
      · exact ⟨"# Nodes".toList, by decide, by decide⟩
      · obtain ⟨i, hi, rfl⟩ := List.mem_mapIdx.mp hl
        exact tabLine_line (nodeText_plain hT _ _)
      · exact ⟨"# Links".toList, by decide, by decide⟩
      · obtain ⟨i, hi, rfl⟩ := List.mem_mapIdx.mp hl
        exact tabLine_line (linkText_plain hT _ (hk _ (List.getElem_mem hi)).1)
  rw [hlines, readSlf, readHeader hT L hu hp]
  simp only
  have hcomment : ∀ (l t : Str) (lines : List Str) (st : SlfSt S), l = '#' :: (t ++ ['\n']) → '\n' ∉ t →
      slfLines T (some 1) (l :: lines) st = slfLines T (some 1) lines st := by
    rintro l t lines st rfl ht
    rw [slfLines, hT.tok, splitSlfLine_of_fields (.commentLine t [] [] ht .nil)]
    rfl
  have hnodes : L.nodes.mapIdx (slfNodeText W) = (List.range L.nodes.length).map fun n => slfNodeText W n (L.nodes.getD n Node.new) := by
    apply List.ext_getElem?
    intro i
    rw [List.getElem?_mapIdx, List.getElem?_map]
    by_cases hi : i < L.nodes.length
    · rw [List.getElem?_range hi, List.getElem?_eq_getElem hi, Option.map_some, Option.map_some, List.getD_eq_getElem?_getD,
        List.getElem?_eq_getElem hi]
      rfl
    · rw [List.getElem?_eq_none (by omega), List.getElem?_eq_none (by simpa using hi)]
      rfl
  have hlinks : List.Forall₂ (fun line k => ∃ id, line = slfLinkText W id k) (L.links.mapIdx (slfLinkText W)) L.links := by
    rw [List.forall₂_iff_get]
    refine ⟨by simp, fun i h1 h2 => ⟨i, by simp⟩⟩
  unfold slfBody
  rw [show ((L.nodes.length : ℤ).toNat) = L.nodes.length from Int.toNat_natCast _, slfState_init]
  simp only
  rw [hcomment _ " Nodes".toList _ _ (by decide) (by decide), hnodes,
    readNodes hT (some 1) (fun n => L.nodes.getD n Node.new) _ _ List.nodup_range (fun n hn => List.mem_range.mp hn) _ (fun _ _ => rfl),
    hcomment _ " Links".toList _ _ (by decide) (by decide), readLinks hT hlinks hk]
  have htimes : (fun n => if n ∈ List.range L.nodes.length then (L.nodes.getD n Node.new).time else none) =
      fun n => (L.nodes.getD n Node.new).time := by
    funext n
    by_cases hn : n < L.nodes.length
    · rw [if_pos (List.mem_range.mpr hn)]
    · rw [if_neg (fun h => hn (List.mem_range.mp h)), List.getD_eq_getElem?_getD, List.getElem?_eq_none (by omega)]
      rfl
  rw [htimes]
  simp only [List.nil_append]
  generalize hks : (L.links.map fun k => ({ k with transitions := [] } : Link S)) = ks
  generalize (fun n => (L.nodes.getD n Node.new).time) = times
  generalize hN : L.nodes.length = N at hi hk hone ⊢
  have hlen : ks.length = L.links.length := by rw [← hks]; simp
  rw [if_neg (by simp [slfState, hlen])]
  have hini : slfInitial (some (L.initial : ℤ)) (slfState N times (fun _ => none) ks).nodes = .ok L.initial := by
    unfold slfInitial
    simp only [slfState, slfNodes_length, pyIdx_iff.mpr (⟨hi, .inl rfl⟩ : PyRef N (L.initial : ℤ) L.initial)]
  rw [hini]
  simp only
  have hfin : (slfState N times (fun _ => none) ks).nodes.mapIdx (fun n x => { x with final := slfFinal [] n x }) = finNodes N times [] ks := rfl
  rw [hfin]
  have hfilter : ((finNodes N times [] ks).filter Node.final).length = 1 := by
    obtain ⟨n, hn, h⟩ := hone
    refine filter_length_one (n := n) (by rw [finNodes_length]; exact hn) fun m node hm => ?_
    obtain ⟨hmN, rfl⟩ := finNodes_get hm
    rw [← h m hmN]
    simp only [List.not_mem_nil, decide_false, Bool.false_or, beq_iff_eq, List.length_eq_zero_iff]
    constructor
    · intro he k hk' hs
      obtain ⟨l, hl⟩ := List.mem_iff_getElem?.mp hk'
      have : l ∈ idxs (sIs m) ks := mem_idxs.mpr ⟨{ k with transitions := [] }, by rw [← hks, List.getElem?_map, hl]; rfl, by simp [sIs, hs]⟩
      rw [he] at this
      cases this
    · intro he
      refine idxs_eq_nil fun x hx => ?_
      rw [← hks] at hx
      obtain ⟨k, hk', rfl⟩ := List.mem_map.mp hx
      simpa [sIs] using he k hk'
  rw [if_neg (by simp [hfilter])]
  have hout : ∀ n, ∀ l ∈ ((finNodes N times [] ks).getD n Node.new).outLinks, l < ks.length := by
    intro n l hl
    by_cases hn : n < N
    · rw [finNodes_getD hn] at hl
      obtain ⟨k, hk', _⟩ := mem_idxs.mp hl
      exact (List.getElem?_eq_some_iff.mp hk').1
    · rw [List.getD_eq_getElem?_getD, List.getElem?_eq_none (by rw [finNodes_length]; omega)] at hl
      cases hl
  have hvisit := slfVisit_none (words := (slfState N times (fun _ => none) ks).words) (links := ks) (fun n => by
    rw [slfState, List.getD_eq_getElem?_getD, List.getElem?_map]
    cases (List.range N)[n]? <;> rfl) hout (ks.length + 1) _ [L.initial] (hout L.initial)
  have hterm := C27_terminates N times [] ks (slfState N times (fun _ => none) ks).words L.initial hi
  rw [show (slfState N times (fun _ => none) ks).links = ks from rfl]
  rcases hvisit with hv | hv
  · exact absurd hv hterm
  · rw [hv]
    simp only [slfPenalty, hu]
    cases L.wiPenalty <;> simp

/-- The only node without outgoing links is the final node. -/
structure Ends (L : Lattice S) : Prop where
  final : ∀ (n : Nat) (node : Node), L.nodes[n]? = some node → (node.final = true ↔ ∀ b, ¬ L.Edge n b)
  one : ∃ n < L.nodes.length, ∀ (m : Nat) (node : Node), L.nodes[m]? = some node → (node.final = true ↔ m = n)

theorem Ends.unique {L : Lattice S} (h : Ends L) :
    ∃ n < L.nodes.length, ∀ m < L.nodes.length, (∀ k ∈ L.links, k.startNode ≠ m) ↔ m = n := by
  obtain ⟨n, hn, h1⟩ := h.one
  refine ⟨n, hn, fun m hm => ?_⟩
  rw [← h1 m _ (List.getElem?_eq_getElem hm), h.final m _ (List.getElem?_eq_getElem hm)]
  constructor
  · rintro h2 b ⟨k, hk, hs, _⟩
    exact h2 k hk hs
  · rintro h2 k hk hs
    exact h2 k.endNode ⟨k, hk, hs, rfl⟩

/-- C70 (partial: the utterance ID and the words contain no characters with a special meaning, and the final node is the only node
without outgoing links; see `C70_violated_word` and the others below).  Writing a lattice in SLF format and reading the output gives
the same lattice: the same nodes and times, the same links with the same words and scores, the same initial and final node, the same
scale and penalty.  (The transitions are not part of the format.)  Every link is registered at its nodes, in the order of the links. -/
theorem C70_partial [Semiring S] [DecidableEq S] (W : SlfShow S) (T : SlfText S) (hT : SlfFaithful W T) (L : Lattice S) (u : Str)
    (hu : L.utteranceId = some u) (hp : PlainUtterance u) (hi : L.initial < L.nodes.length)
    (hl : ∀ k ∈ L.links, k.startNode < L.nodes.length ∧ k.endNode < L.nodes.length)
    (hw : ∀ k ∈ L.links, ∀ w, k.word = some w → PlainWord w) (he : Ends L) :
    ∃ L', readSlf T (fileLines (writeSlf W L)) = .ok L' ∧ SameLattice L L' ∧ L'.WF ∧
      ∀ n, (L'.outLinks n).Pairwise (· < ·) ∧ (L'.inLinks n).Pairwise (· < ·) := by
  have hr := readWritten hT L hu hp hi (fun k hk => ⟨hw k hk, hl k hk⟩) he.unique
  refine ⟨_, hr, ?_, ?_, ?_⟩
  · refine ⟨?_, ?_, rfl, rfl, rfl, rfl, rfl⟩
    · apply List.ext_getElem?
      intro n
      simp only [List.getElem?_map]
      by_cases hn : n < L.nodes.length
      · have hlt : n < (finNodes L.nodes.length (fun n => (L.nodes.getD n Node.new).time) [] (L.links.map fun k => { k with transitions := [] })).length := by
          rw [finNodes_length]; exact hn
        rw [List.getElem?_eq_getElem hlt, List.getElem?_eq_getElem hn, (finNodes_get (List.getElem?_eq_getElem hlt)).2]
        simp [List.getD_eq_getElem?_getD, hn]
      · rw [List.getElem?_eq_none (by rw [finNodes_length]; omega), List.getElem?_eq_none (by omega)]
    · apply List.ext_getElem?
      intro n
      simp only [List.getElem?_map]
      by_cases hn : n < L.nodes.length
      · have hlt : n < (finNodes L.nodes.length (fun n => (L.nodes.getD n Node.new).time) [] (L.links.map fun k => { k with transitions := [] })).length := by
          rw [finNodes_length]; exact hn
        rw [List.getElem?_eq_getElem hlt, List.getElem?_eq_getElem hn, (finNodes_get (List.getElem?_eq_getElem hlt)).2]
        simp only [Option.map_some, Option.some.injEq, List.not_mem_nil, decide_false, Bool.false_or]
        have := he.final n _ (List.getElem?_eq_getElem hn)
        rw [Bool.eq_iff_iff, this, beq_iff_eq, idxs_length, List.countP_eq_zero]
        constructor
        · rintro h b ⟨k, hk, hs, _⟩
          exact h { k with transitions := [] } (List.mem_map_of_mem hk) (by simp [sIs, hs])
        · intro h k hk hs
          obtain ⟨k', hk', rfl⟩ := List.mem_map.mp hk
          exact h k'.endNode ⟨k', hk', by simpa [sIs] using hs, rfl⟩
      · rw [List.getElem?_eq_none (by rw [finNodes_length]; omega), List.getElem?_eq_none (by omega)]
  · refine ⟨by rw [finNodes_length]; exact hi, ?_, ?_, ?_, ?_, ?_⟩
    · intro k hk
      obtain ⟨k', hk', rfl⟩ := List.mem_map.mp hk
      rw [finNodes_length]
      exact hl k' hk'
    · intro node hn
      obtain ⟨n, hn⟩ := List.mem_iff_getElem?.mp hn
      rw [(finNodes_get hn).2]
      exact idxs_nodup _ _
    · intro n node hn l
      rw [(finNodes_get hn).2]
      simp [mem_idxs, sIs]
    · intro node hn
      obtain ⟨n, hn⟩ := List.mem_iff_getElem?.mp hn
      rw [(finNodes_get hn).2]
      exact idxs_nodup _ _
    · intro n node hn l
      rw [(finNodes_get hn).2]
      simp [mem_idxs, eIs]
  · have sorted : ∀ {α : Type} (p : α → Bool) (l : List α), (idxs p l).Pairwise (· < ·) := by
      intro α p l
      induction l using List.reverseRecOn with
      | nil => exact .nil
      | append_singleton l x ih =>
        rw [idxs_append_single, List.pairwise_append]
        refine ⟨ih, by split <;> simp, ?_⟩
        intro a ha b hb
        obtain ⟨y, hy, _⟩ := mem_idxs.mp ha
        have := (List.getElem?_eq_some_iff.mp hy).1
        split at hb
        · rw [List.mem_singleton] at hb; omega
        · cases hb
    intro n
    unfold Lattice.outLinks Lattice.inLinks
    simp only
    rw [List.getD_eq_getElem?_getD]
    cases hn : (finNodes L.nodes.length (fun n => (L.nodes.getD n Node.new).time) [] (L.links.map fun k => { k with transitions := [] }))[n]? with
    | none => exact ⟨.nil, .nil⟩
    | some node =>
      rw [Option.getD_some, (finNodes_get hn).2]
      exact ⟨sorted _ _, sorted _ _⟩

/-! ### Lattices that have been read -/

theorem forall₂_of_mem_right {α β : Type} {R : α → β → Prop} {l : List α} {r : List β} (h : List.Forall₂ R l r) {b : β}
    (hb : b ∈ r) : ∃ a ∈ l, R a b :=
  forall₂_mem h.flip hb

theorem slfVisit_same {words : List (Option (Option Str))} {nodes : List Node} :
    ∀ (fuel : Nat) {stack V : List Nat} {links links' : List (Link S)}, slfVisit words nodes fuel stack V links = some (.ok links') →
      List.Forall₂ (fun k k' : Link S => ∃ w, k' = { k with word := w }) links links' := by
  have same : ∀ links : List (Link S), List.Forall₂ (fun k k' : Link S => ∃ w, k' = { k with word := w }) links links := fun links =>
    List.forall₂_same.mpr fun k _ => ⟨k.word, rfl⟩
  intro fuel
  induction fuel with
  | zero =>
    intro stack V links links' h
    cases stack with
    | nil => cases h; exact same _
    | cons l stack => cases h
  | succ fuel ih =>
    intro stack V links links' h
    cases stack with
    | nil => cases h; exact same _
    | cons l stack =>
      rw [slfVisit] at h
      split at h
      · cases h
      · rename_i link hl
        have key : ∀ (links2 links' : List (Link S)), (links2 = links ∨ ∃ w, links2 = links.set l { link with word := w }) →
            List.Forall₂ (fun k k' : Link S => ∃ w, k' = { k with word := w }) links2 links' →
            List.Forall₂ (fun k k' : Link S => ∃ w, k' = { k with word := w }) links links' := by
          rintro links2 links' (rfl | ⟨w, rfl⟩) hf
          · exact hf
          · rw [List.forall₂_iff_get] at hf ⊢
            refine ⟨by simpa using hf.1, fun i h1 h2 => ?_⟩
            obtain ⟨w', hw'⟩ := hf.2 i (by simpa using h1) h2
            rw [hw']
            by_cases hi : l = i
            · subst hi
              obtain ⟨hlt, rfl⟩ := List.getElem?_eq_some_iff.mp hl
              exact ⟨w', by simp⟩
            · exact ⟨w', by simp [hi]⟩
        split at h
        · cases h
        · refine key _ _ ?_ (by dsimp only at h; split at h <;> exact ih h)
          cases words.getD link.endNode none with
          | none => exact .inl rfl
          | some w => exact .inr ⟨w, rfl⟩

theorem readSlf_shape [Semiring S] [DecidableEq S] {T : SlfText S} {lines : List Str} {L : Lattice S} (h : readSlf T lines = .ok L) :
    ∃ times ends, L.nodes = finNodes L.nodes.length times ends L.links ∧ ∀ k ∈ L.links, k.transitions = [] := by
  unfold readSlf at h
  split at h
  · cases h
  · rename_i hd rest hhead
    split at h
    · rename_i numNodes numLinks hnn hnl
      unfold slfBody at h
      simp only [slfState_init] at h
      split at h
      · cases h
      · rename_i st hst
        have hni : ∀ n < numNodes.toNat, NodeInv T ((fun _ => ([] : List Str)) n) ((fun _ => none) n)
            ((fun _ => none) n) := fun n _ => ⟨⟨none, lastField_nil _, fun _ => rfl, fun _ h => (by cases h)⟩,
          ⟨none, lastField_nil _, fun _ => rfl, fun _ h => (by cases h)⟩⟩
        obtain ⟨toks, times, words, ks, lf, ht, rfl, hnode, hlf, hraw⟩ := slfLines_spec rest hni hst
        simp only [List.nil_append] at h
        split at h
        · cases h
        · split at h
          · cases h
          · split at h
            · cases h
            · split at h
              · rename_i links hv
                cases h
                have hs := slfVisit_same _ hv
                refine ⟨times, hd.ends, ?_, ?_⟩
                · simp only [List.length_mapIdx, slfState, slfNodes_length]
                  have hidx : ∀ n, idxs (sIs n) ks = idxs (sIs n) links ∧ idxs (eIs n) ks = idxs (eIs n) links := by
                    intro n
                    change List.Forall₂ _ ks links at hs
                    clear * - hs
                    have : ∀ (a : Link S → Bool), (∀ k w, a { k with word := w } = a k) → idxs a ks = idxs a links := by
                      intro a ha
                      unfold idxs
                      have : ∀ i, List.map Prod.snd (List.filter (fun q => a q.1) (ks.zipIdx i)) =
                          List.map Prod.snd (List.filter (fun q => a q.1) (links.zipIdx i)) := by
                        induction hs with
                        | nil => intro i; rfl
                        | cons h _ ih =>
                          intro i
                          obtain ⟨w, rfl⟩ := h
                          rw [List.zipIdx_cons, List.zipIdx_cons, List.filter_cons, List.filter_cons]
                          simp only [ha]
                          split
                          · rw [List.map_cons, List.map_cons, ih]
                          · exact ih _
                      exact this 0
                    exact ⟨this _ fun k w => rfl, this _ fun k w => rfl⟩
                  unfold finNodes slfNodes
                  simp only [hidx]
                · intro k hk
                  obtain ⟨k0, hk0, w, rfl⟩ := forall₂_of_mem_right hs hk
                  obtain ⟨fs, _, hr⟩ := forall₂_of_mem_right hraw hk0
                  exact hr.transitions
              · cases h
              · cases h
    · cases h

/-- C70: a lattice that has been read in SLF format is exactly the same after it has been written and read again (under the same
conditions as in `C70_partial`). -/
theorem C70_again [Semiring S] [DecidableEq S] (W : SlfShow S) (T : SlfText S) (hT : SlfFaithful W T) (lines : List Str) (L : Lattice S)
    (h : readSlf T lines = .ok L) (u : Str) (hu : L.utteranceId = some u) (hp : PlainUtterance u)
    (hw : ∀ k ∈ L.links, ∀ w, k.word = some w → PlainWord w)
    (hf : ∀ (n : Nat) (node : Node), L.nodes[n]? = some node → node.final = true → ∀ b, ¬ L.Edge n b) :
    readSlf T (fileLines (writeSlf W L)) = .ok L := by
  obtain ⟨hwf, hone, _⟩ := C27_partial T lines L h
  obtain ⟨times, ends, hnodes, htr⟩ := readSlf_shape h
  have he : Ends L := by
    refine ⟨fun n node hn => ⟨hf n node hn, fun hb => ?_⟩, hone⟩
    rw [hnodes] at hn
    obtain ⟨_, rfl⟩ := finNodes_get hn
    have : idxs (sIs n) L.links = [] := idxs_eq_nil fun k hk => by
      have := fun hs => hb k.endNode ⟨k, hk, hs, rfl⟩
      simpa [sIs] using this
    simp [this]
  rw [readWritten hT L hu hp hwf.initial (fun k hk => ⟨hw k hk, hwf.ends k hk⟩) he.unique]
  have hlinks : (L.links.map fun k => ({ k with transitions := [] } : Link S)) = L.links := by
    conv_rhs => rw [← List.map_id L.links]
    refine List.map_congr_left fun k hk => ?_
    have := htr k hk
    obtain ⟨a, b, c, d, e, f⟩ := k
    simp only at this
    subst this
    rfl
  rw [hlinks]
  have hn : finNodes L.nodes.length (fun n => (L.nodes.getD n Node.new).time) [] L.links = L.nodes := by
    apply List.ext_getElem?
    intro n
    by_cases hn : n < L.nodes.length
    · have hlt : n < (finNodes L.nodes.length (fun n => (L.nodes.getD n Node.new).time) [] L.links).length := by
        rw [finNodes_length]; exact hn
      rw [List.getElem?_eq_getElem hlt, (finNodes_get (List.getElem?_eq_getElem hlt)).2, List.getElem?_eq_getElem hn]
      have e1 := List.getElem?_eq_getElem hn
      have e2 := congrArg (fun l => l[n]?) hnodes
      simp only [e1] at e2
      obtain ⟨_, e3⟩ := finNodes_get e2.symm
      have hfin := he.final n _ e1
      rw [Option.some.injEq, List.getD_eq_getElem?_getD, e1, Option.getD_some]
      have hfl : (decide ((n : ℤ) ∈ ([] : List ℤ)) || (idxs (sIs n) L.links).length == 0) = L.nodes[n].final := by
        rw [Bool.eq_iff_iff, hfin]
        simp only [List.not_mem_nil, decide_false, Bool.false_or, beq_iff_eq, idxs_length, List.countP_eq_zero]
        constructor
        · rintro h b ⟨k, hk, hs, _⟩
          exact h k hk (by simp [sIs, hs])
        · intro h k hk hs
          exact h k.endNode ⟨k, hk, by simpa [sIs] using hs, rfl⟩
      rw [hfl]
      conv_lhs => rw [e3]
      conv_rhs => rw [e3]
    · rw [List.getElem?_eq_none (by rw [finNodes_length]; omega), List.getElem?_eq_none (by omega)]
  rw [hn]

/-! ### Examples and violations -/

def exSlfShow : SlfShow ℚ where
  showInt := unaryInt
  showScore := unary.showScore
  showTime := unary.showScore

def exSlfFile : SlfText ℚ := { exSlfText with tok := splitSlfLine }

theorem exSlf_faithful : SlfFaithful exSlfShow exSlfFile := by
  have hplain : ∀ c : Char, c = '+' ∨ c = '-' ∨ c = '1' ∨ c = '/' → ¬ SlfSpace c ∧ c ≠ '#' ∧ c ≠ '"' ∧ c ≠ '\\' := by
    unfold SlfSpace
    rintro c (rfl | rfl | rfl | rfl) <;> decide
  have hint : ∀ i, SlfPlain (unaryInt i) := fun i c hc => hplain c (by
    rcases unaryInt_mem hc with h | h | h
    · exact .inl h
    · exact .inr (.inl h)
    · exact .inr (.inr (.inl h)))
  have hscore : ∀ q, SlfPlain (unary.showScore q) := fun q c hc => by
    simp only [unary, List.mem_append, List.mem_cons] at hc
    rcases hc with hc | rfl | hc
    · exact hint _ c hc
    · exact hplain _ (.inr (.inr (.inr rfl)))
    · exact hplain c (.inr (.inr (.inl (List.eq_of_mem_replicate hc))))
  exact ⟨fun _ => rfl, unary_faithful.int, unary_faithful.score, unary_faithful.score, hint, hscore, hscore⟩

/-- The lattice of C27, read from a file, meets the conditions. -/
example : readSlf exSlfFile (fileLines (writeSlf exSlfShow exSlfLattice)) = .ok exSlfLattice := by
  refine C70_again exSlfShow exSlfFile exSlf_faithful exSlf exSlfLattice (by decide +kernel) "utt".toList rfl ?_ ?_ ?_
  · unfold PlainUtterance; decide
  · intro k hk w hw
    have : w = "hei".toList := by
      simp only [exSlfLattice, List.mem_cons, List.not_mem_nil, or_false] at hk
      rcases hk with rfl | rfl <;> simp at hw
      exact hw.symm
    subst this
    refine ⟨by unfold SlfPlain SlfSpace; decide, ?_⟩
    intro t ht
    have := congrArg List.head? ht
    rw [List.head?_cons] at this
    exact absurd (Option.some.inj this) (by decide)
  · rintro n node hn hfin b ⟨k, hk, rfl, rfl⟩
    simp only [exSlfLattice, List.mem_cons, List.not_mem_nil, or_false] at hk
    rcases hk with rfl | rfl <;> cases hn <;> cases hfin

example : writeSlf exSlfShow exSlfLattice = ("# Header (generated by TheanoLM)\nVERSION=1.1\nUTTERANCE=\"utt\"\nstart=+\nN=+111\tL=+11\n" ++
    "# Nodes\nI=+\tt=+/1\nI=+1\tt=+1/11\nI=+11\n# Links\nJ=+\tS=+\tE=+1\tW=hei\ta=-111/11\tl=-1/1\n" ++
    "J=+1\tS=+1\tE=+11\tW=!NULL\ta=-11/1\n").toList := by decide +kernel

/-- The text of a lattice with one link. -/
def oneLink (header word : String) : List Str :=
  [header.toList, "N=+11 L=+1\n".toList, "J=+ S=+ E=+1".toList ++ word.toList ++ "\n".toList]

/-- C70 does not hold for words that contain a quote: the output cannot be read. -/
theorem C70_violated_word : ∃ L : Lattice ℚ, readSlf exSlfFile (oneLink "UTTERANCE=u\n" " W=a\\\"b a=-1/1") = .ok L ∧
    (∃ k ∈ L.links, k.word = some "a\"b".toList) ∧
    readSlf exSlfFile (fileLines (writeSlf exSlfShow L)) = .error .valueError := by decide +kernel

/-- C70 does not hold for words that contain a hash sign: the rest of the word and the scores of the link are lost. -/
theorem C70_violated_hash : ∃ L L' : Lattice ℚ, readSlf exSlfFile (oneLink "UTTERANCE=u\n" " W=\"a#b\" a=-1/1") = .ok L ∧
    readSlf exSlfFile (fileLines (writeSlf exSlfShow L)) = .ok L' ∧
    L.links = [⟨0, 1, some "a#b".toList, some (-1), none, []⟩] ∧ L'.links = [⟨0, 1, some "a".toList, none, none, []⟩] := by
  have h : ∃ L : Lattice ℚ, readSlf exSlfFile (oneLink "UTTERANCE=u\n" " W=\"a#b\" a=-1/1") = .ok L ∧ ∃ L' : Lattice ℚ,
      readSlf exSlfFile (fileLines (writeSlf exSlfShow L)) = .ok L' ∧
      L.links = [⟨0, 1, some "a#b".toList, some (-1), none, []⟩] ∧ L'.links = [⟨0, 1, some "a".toList, none, none, []⟩] := by
    decide +kernel
  obtain ⟨L, h1, L', h2⟩ := h
  exact ⟨L, L', h1, h2⟩

/-- C70 does not hold for lattices without an utterance ID: the lattice that is read has the ID "None". -/
theorem C70_violated_utterance : ∃ L L' : Lattice ℚ, readSlf exSlfFile (oneLink "VERSION=1.1\n" " W=a") = .ok L ∧
    readSlf exSlfFile (fileLines (writeSlf exSlfShow L)) = .ok L' ∧ L.utteranceId = none ∧ L'.utteranceId = some "None".toList := by
  have h : ∃ L : Lattice ℚ, readSlf exSlfFile (oneLink "VERSION=1.1\n" " W=a") = .ok L ∧ ∃ L' : Lattice ℚ,
      readSlf exSlfFile (fileLines (writeSlf exSlfShow L)) = .ok L' ∧ L.utteranceId = none ∧ L'.utteranceId = some "None".toList := by
    decide +kernel
  obtain ⟨L, h1, L', h2⟩ := h
  exact ⟨L, L', h1, h2⟩

/-- C70 does not hold for lattices, such as one that has been read in Kaldi format, where another node than the final node has no
outgoing links: the final node is not written, and the output cannot be read. -/
theorem C70_violated_final : ∃ L : Lattice ℚ, L.WF ∧ (∃ n < L.nodes.length, ∀ (m : Nat) (node : Node), L.nodes[m]? = some node →
      (node.final = true ↔ m = n)) ∧ L.utteranceId = some "u".toList ∧
    readSlf exSlfFile (fileLines (writeSlf exSlfShow L)) = .error .inputError := by
  have h : ∃ L : Lattice ℚ, readKaldi unary ["u".toList, "+ +1 +1 ,".toList, "+ +11 +1 ,".toList, "+1 ,".toList] exIdToWord = .ok L ∧
      L.utteranceId = some "u".toList ∧
      readSlf exSlfFile (fileLines (writeSlf exSlfShow L)) = .error .inputError := by decide +kernel
  obtain ⟨L, h1, h2, h3⟩ := h
  obtain ⟨hwf, ⟨final, hlen, hfin, _⟩, _⟩ := C26_partial unary _ _ L h1
  exact ⟨L, hwf, ⟨final, by omega, hfin⟩, h2, h3⟩

end TheanoLM
