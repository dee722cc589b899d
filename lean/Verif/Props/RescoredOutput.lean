import Verif.Props.DecodeOutput
import Verif.Props.SlfWrite
import Verif.Lemmas.RescoredWrite
import Mathlib.Tactic.IntervalCases
/-!
# The lattices that the decode command writes (C86, C87)
-/
namespace TheanoLM

variable {S St : Type} [Field S] [LinearOrder S] {D : Decoder S St} {L : Lattice S}

set_option linter.unusedSectionVars false

/-! ## Specification -/

/-- A path from the initial node to a final node. -/
def Lattice.Complete (L : Lattice S) (ls : List (Link S)) : Prop := ∃ n : Nat, L.Path L.initial ls n ∧ L.Final n

/-- The words of the hypothesis, between the sentence start and end, are the words on the path. -/
def HasWordsOf (D : Decoder S St) (t : Token S St) (rs : List (Link S)) : Prop :=
  ∃ ws : List HistWord, t.history = .inl D.vocab.sos :: ws ++ [.inl D.vocab.eos] ∧
    List.Forall₂ (HistIs D.vocab) (pathText rs) ws

/-- A lattice that stands for the result of decoding `L`.  It has a path for every hypothesis.  If `L` does not have null links
or no hypotheses were recombined, every path has the words of a path of `L`.  If no hypotheses were recombined, and null links
do not have scores, every path has the words, the acoustic score and the language model scores of a hypothesis. -/
structure StandsFor (D : Decoder S St) (L : Lattice S) (finals : List (Token S St)) (recombs : List (Recomb S St))
    (N : Lattice S) : Prop where
  contains : ∀ t ∈ finals, ∃ rs : List (Link S), N.Complete rs ∧ HasWordsOf D t rs
  sound : recombs = [] ∨ NoNulls L → ∀ rs : List (Link S), N.Complete rs →
    ∃ ls : List (Link S), L.Complete ls ∧ pathText ls = pathText rs
  scores : recombs = [] → (∀ k ∈ L.links, k.word = none → k.ac.getD 0 = 0 ∧ k.lm.getD 0 = 0) →
    ∀ rs : List (Link S), N.Complete rs →
      ∃ t ∈ finals, HasWordsOf D t rs ∧ acOf rs = t.ac ∧ lmOf rs = t.latLm + t.nnLm

/-! ## Lattices with the same paths -/

/-- The links are equal, except possibly for the transitions. -/
def SameLink (k k' : Link S) : Prop :=
  k'.startNode = k.startNode ∧ k'.endNode = k.endNode ∧ k'.word = k.word ∧ k'.ac = k.ac ∧ k'.lm = k.lm

theorem samePath {N N' : Lattice S} (hl : ∀ k ∈ N.links, ∃ k' ∈ N'.links, SameLink k k') {a b : Nat} {rs : List (Link S)}
    (h : N.Path a rs b) : ∃ rs', N'.Path a rs' b ∧ pathText rs' = pathText rs ∧ acOf rs' = acOf rs ∧ lmOf rs' = lmOf rs := by
  induction h with
  | nil => exact ⟨[], .nil, rfl, rfl, rfl⟩
  | snoc ls k _ hk ih =>
    obtain ⟨rs', h1, h2, h3, h4⟩ := ih
    obtain ⟨k', hk', s1, s2, s3, s4, s5⟩ := hl k hk
    refine ⟨rs' ++ [k'], ?_, ?_, ?_, ?_⟩
    · rw [← s2]
      exact .snoc rs' k' (by rw [s1]; exact h1) hk'
    · rw [pathText_append, pathText_append, h2]
      unfold pathText
      rw [List.filterMap_cons, List.filterMap_cons, s3]
    · have : ∀ (l : List (Link S)) (x : Link S), acOf (l ++ [x]) = acOf l + x.ac.getD 0 := by intro l x; simp [acOf]
      rw [this, this, h3, s4]
    · have : ∀ (l : List (Link S)) (x : Link S), lmOf (l ++ [x]) = lmOf l + x.lm.getD 0 := by intro l x; simp [lmOf]
      rw [this, this, h4, s5]

theorem complete_same {N N' : Lattice S} (hi : N'.initial = N.initial) (hf : ∀ n, N.Final n → N'.Final n)
    (hl : ∀ k ∈ N.links, ∃ k' ∈ N'.links, SameLink k k') {rs : List (Link S)} (h : N.Complete rs) :
    ∃ rs', N'.Complete rs' ∧ pathText rs' = pathText rs ∧ acOf rs' = acOf rs ∧ lmOf rs' = lmOf rs := by
  obtain ⟨n, hp, hn⟩ := h
  obtain ⟨rs', h1, h2⟩ := samePath hl hp
  exact ⟨rs', ⟨n, by rw [hi]; exact h1, hf n hn⟩, h2⟩

theorem HasWordsOf.congr {t : Token S St} {rs rs' : List (Link S)} (h : pathText rs' = pathText rs) (hw : HasWordsOf D t rs) :
    HasWordsOf D t rs' := by
  unfold HasWordsOf
  rw [h]
  exact hw

theorem StandsFor.same {N N' : Lattice S} {finals : List (Token S St)} {recombs : List (Recomb S St)}
    (h : StandsFor D L finals recombs N) (hi : N'.initial = N.initial) (hf : ∀ n, N.Final n ↔ N'.Final n)
    (hl : ∀ k ∈ N.links, ∃ k' ∈ N'.links, SameLink k k') (hl' : ∀ k ∈ N'.links, ∃ k' ∈ N.links, SameLink k k') :
    StandsFor D L finals recombs N' := by
  have back : ∀ {rs}, N'.Complete rs → _ := fun {rs} hc => complete_same (N := N') (N' := N) hi.symm (fun n => (hf n).mpr) hl' (rs := rs) hc
  constructor
  · intro t ht
    obtain ⟨rs, h1, h2⟩ := h.contains t ht
    obtain ⟨rs', g1, g2, _⟩ := complete_same hi (fun n => (hf n).mp) hl h1
    exact ⟨rs', g1, h2.congr g2⟩
  · intro hn rs hc
    obtain ⟨rs', g1, g2, _⟩ := back hc
    obtain ⟨ls, h1, h2⟩ := h.sound hn rs' g1
    exact ⟨ls, h1, h2.trans g2⟩
  · intro hn hz rs hc
    obtain ⟨rs', g1, g2, g3, g4⟩ := back hc
    obtain ⟨t, ht, h1, h2, h3⟩ := h.scores hn hz rs' g1
    exact ⟨t, ht, h1.congr g2.symm, by rw [← g3, h2], by rw [← g4, h3]⟩

/-- The rescored lattice stands for the result of decoding. -/
theorem rescored_standsFor {idToWord : Nat → Option Str} {depth : Nat} {finals : List (Token S St)}
    {recombs : List (Recomb S St)} {N : Lattice S} (hr : Rescorable D L idToWord) (hdec : decode D L = .ok (finals, recombs))
    (h : rescoredLattice L depth idToWord finals recombs = .ok N) : StandsFor D L finals recombs N := by
  constructor
  · intro t ht
    obtain ⟨rs, n, ws, h1, h2, h3, h4⟩ := C35_contains_partial hr hdec h t ht
    exact ⟨rs, ⟨n, h1, h2⟩, ws, h3, h4⟩
  · rintro hn rs ⟨n, h1, h2⟩
    obtain ⟨ls, m, g1, g2, g3⟩ := C35_sound_partial hr hn hdec h rs n h1 h2
    exact ⟨ls, ⟨m, g1, g2⟩, g3⟩
  · rintro rfl hz rs ⟨n, h1, h2⟩
    obtain ⟨t, ht, ws, g1, g2, g3, g4⟩ := C73_no_null_scores hr hz hdec h rs n h1 h2
    exact ⟨t, ht, ⟨ws, g1, g2⟩, g3, g4⟩

theorem Tidy.ends_ok {P : Str → Prop} {Q : Char → Prop} {R : RLat S} (h : Tidy P Q (fun _ => False) R) (u : Option Str) :
    Ends (R.toLattice u) := by
  have hlen : (R.toLattice u).nodes.length = R.nodes.length + 1 := by simp [RLat.toLattice]
  have hfin : ∀ (n : Nat) (node : Node), (R.toLattice u).nodes[n]? = some node → (node.final = true ↔ n = R.nodes.length) := by
    intro n node hn
    rw [← final_toLattice (u := u)]
    constructor
    · intro hf; exact ⟨node, hn, hf⟩
    · rintro ⟨node', h1, h2⟩
      rw [hn] at h1
      cases h1
      exact h2
  constructor
  · intro n node hn
    rw [hfin n node hn]
    constructor
    · rintro rfl b ⟨k, hk, hs, _⟩
      obtain ⟨r, hr, rfl⟩ := mem_toLattice.mp hk
      have := h.starts r hr
      simp only [RLink.toLink] at hs
      omega
    · intro hb
      by_contra hne
      have hlt := (List.getElem?_eq_some_iff.mp hn).1
      rw [hlen] at hlt
      obtain ⟨k, hk, hs⟩ := h.closed n (by omega) id
      exact hb _ ⟨k.toLink R.nodes.length, mem_toLattice.mpr ⟨k, hk, rfl⟩, hs, rfl⟩
  · exact ⟨R.nodes.length, by rw [hlen]; omega, hfin⟩

/-! ## SLF -/

/-- C86: the lattice that is written in SLF format can be read back.  It has the utterance ID, and it stands for the result of
decoding.  Its language model scale and word insertion penalty are those of the command line, if they are given. -/
theorem C86_partial (E : OutEnv S) (T : SlfText S) (hT : SlfFaithful E.slf T) (hr : Rescorable D L E.idToWord)
    (hc : ∀ n, ¬ Relation.TransGen L.NullEdge n n) (hd : L.nodes.length < E.depth) (u : Str) (hu : L.utteranceId = some u)
    (hp : PlainUtterance u) (hw : ∀ k ∈ L.links, ∀ w, k.word = some w → PlainWord w) (log : Nat → S) (args : DecodeArgs S)
    (out : OutputArgs) (hout : out.output = "slf".toList) (finals : List (Token S St)) (recombs : List (Recomb S St))
    (hdec : decode D L = .ok (finals, recombs)) :
    ∃ (text : Str) (L' : Lattice S), decodeOutput D E log args out L u = (text, none) ∧
      readSlf T (fileLines text) = .ok L' ∧ L'.WF ∧ L'.utteranceId = some u ∧ L'.lmScale = args.lmScale ∧
      L'.wiPenalty = args.wiPenalty ∧ StandsFor D L finals recombs L' := by
  obtain ⟨sos, eos, hs, he, _⟩ := hr.boundary
  obtain ⟨N, hN⟩ := C74_succeeds hr.wf hr.vocabulary (by rw [hs]; simp) (by rw [he]; simp) hc hd hdec
  obtain ⟨R, hb, rfl⟩ := rescored_ok hN
  have hne := (C29_sorted finals recombs hdec).1
  have ht : Tidy PlainWord (fun _ => True) (fun _ => False) R :=
    buildRescored_tidy hr.wf hw (fun _ _ _ _ => trivial) hne hb
  have hends := ht.ends_ok L.utteranceId
  have hlen : (R.toLattice L.utteranceId).nodes.length = R.nodes.length + 1 := by simp [RLat.toLattice]
  obtain ⟨L', h1, h2, h3, _⟩ := C70_partial E.slf T hT
    { R.toLattice L.utteranceId with lmScale := args.lmScale, wiPenalty := args.wiPenalty } u hu hp
    (by change 0 < (R.toLattice L.utteranceId).nodes.length; omega)
    (by
      intro k hk
      obtain ⟨r, hr', rfl⟩ := mem_toLattice.mp (show k ∈ (R.toLattice L.utteranceId).links from hk)
      change r.startNode < (R.toLattice L.utteranceId).nodes.length ∧
        r.endNode.getD R.nodes.length < (R.toLattice L.utteranceId).nodes.length
      rw [hlen]
      have g1 := ht.starts r hr'
      refine ⟨by omega, ?_⟩
      cases hend : r.endNode with
      | none => simp
      | some e => have := ht.ends r hr' e hend; simp; omega)
    (by
      intro k hk w hkw
      obtain ⟨r, hr', rfl⟩ := mem_toLattice.mp (show k ∈ (R.toLattice L.utteranceId).links from hk)
      exact ht.words r hr' w hkw)
    ⟨hends.final, hends.one⟩
  refine ⟨_, L', ?_, h1, h3, ?_, h2.lmScale, h2.wiPenalty, ?_⟩
  · unfold decodeOutput
    rw [hdec]
    dsimp only
    rw [if_pos (Or.inl hout), hN]
    dsimp only
    rw [if_pos hout]
  · rw [h2.utteranceId]; exact hu
  · refine (rescored_standsFor hr hdec hN).same h2.initial ?_ ?_ ?_
    · intro n
      have := congrArg (fun l => l[n]?) h2.finals
      simp only [List.getElem?_map] at this
      unfold Lattice.Final
      constructor
      · rintro ⟨node, g1, g2⟩
        rw [g1, Option.map_some] at this
        obtain ⟨node', g3, g4⟩ := Option.map_eq_some_iff.mp this
        exact ⟨node', g3, g4.trans g2⟩
      · rintro ⟨node, g1, g2⟩
        rw [g1, Option.map_some] at this
        obtain ⟨node', g3, g4⟩ := Option.map_eq_some_iff.mp this.symm
        exact ⟨node', g3, g4.trans g2⟩
    · intro k hk
      exact ⟨{ k with transitions := [] }, by rw [h2.links]; exact List.mem_map_of_mem hk, rfl, rfl, rfl, rfl, rfl⟩
    · intro k' hk'
      rw [h2.links] at hk'
      obtain ⟨k, hk, rfl⟩ := List.mem_map.mp hk'
      exact ⟨k, hk, rfl, rfl, rfl, rfl, rfl⟩

/-- C86: when the scale and the penalty are given on the command line, without a base of logarithm, those in the output are the
ones that were used in decoding. -/
theorem C86_parameters (V : DecVocab S) (net : DecNet S St) (lin : S → S → S → S) (log : Nat → S) (args : DecodeArgs S)
    (hD : decoderInit V net lin (decodingOptions log args) = .ok D) (hb : args.logBase = none) (L : Lattice S) :
    (∀ s, args.lmScale = some s → decLmScale D L = s) ∧ (∀ p, args.wiPenalty = some p → decWiPenalty D L = p) := by
  obtain ⟨_, _, _, _, _, _, _, h1, _, _, _, h2⟩ := C34_no_tightening V net lin log args D hD
  rw [hb] at h2
  refine ⟨fun s hs => ?_, fun p hp => ?_⟩
  · unfold decLmScale
    rw [h1, hs]
    rfl
  · unfold decWiPenalty
    rw [h2, hp]
    simp

/-! ## Kaldi -/

/-- A lattice whose rescored lattice can be written in Kaldi format: the words are in the vocabulary of the lattices, and the
transitions do not contain commas or white space. -/
structure KaldiReady (D : Decoder S St) (E : OutEnv S) (idToWord : List (Option Str)) (L : Lattice S) : Prop where
  rescorable : Rescorable D L E.idToWord
  null_cycles : ∀ n, ¬ Relation.TransGen L.NullEdge n n
  depth : L.nodes.length < E.depth
  utterance : ∃ u : Str, L.utteranceId = some u ∧ FieldWord u
  words : ∀ k ∈ L.links, ∀ w, k.word = some w → ¬ Reserved w ∧ ∃ i : Nat, idToWord[i]? = some (some w)
  transitions : ∀ k ∈ L.links, ∀ c ∈ k.transitions, isSpace c = false ∧ c ≠ ','
  decodes : ∃ r, decode D L = .ok r

theorem final_latticeOf (u : Str) (i : Nat) (ks : List (KLink S)) (n : Nat) :
    (latticeOf u i ks).Final n ↔ n = maxBound ks := by
  unfold Lattice.Final latticeOf
  simp only [List.getElem?_append, regNodes_length]
  constructor
  · rintro ⟨node, h1, h2⟩
    split at h1
    · unfold regNodes at h1
      rw [List.getElem?_map] at h1
      obtain ⟨x, _, rfl⟩ := Option.map_eq_some_iff.mp h1
      cases h2
    · have := (List.getElem?_eq_some_iff.mp h1).1
      simp at this
      omega
  · rintro rfl
    exact ⟨⟨[], idxs endFinal ks, none, true⟩, by simp, rfl⟩

/-- The lines of a lattice, and the lattice that is read from them. -/
theorem kaldi_text (E : OutEnv S) (hT : E.num.Faithful) {idToWord : List (Option Str)} (hm : WordMaps idToWord E.kaldiWordToId)
    (h : KaldiReady D E idToWord L) (log : Nat → S) (args : DecodeArgs S) (out : OutputArgs)
    (hout : out.output = "kaldi".toList) {u : Str} (hu : L.utteranceId = some u) {finals : List (Token S St)}
    {recombs : List (Recomb S St)} (hdec : decode D L = .ok (finals, recombs)) :
    ∃ (lines : List Str) (N L' : Lattice S),
      decodeOutput D E log args out L u = ((u :: (lines ++ [[]])).flatMap (fun l => l ++ ['\n']), none) ∧
      (∀ l ∈ lines, '\n' ∉ l ∧ strip l ≠ []) ∧ readKaldi E.num (u :: (lines ++ [[]])) idToWord = .ok L' ∧
      rescoredLattice L E.depth E.idToWord finals recombs = .ok N ∧
      L'.utteranceId = some u ∧ L'.nodes.length = N.nodes.length ∧ L'.links.Perm N.links ∧ StandsFor D L finals recombs L' := by
  have hr := h.rescorable
  obtain ⟨sos, eos, hs, he, _⟩ := hr.boundary
  obtain ⟨N, hN⟩ := C74_succeeds hr.wf hr.vocabulary (by rw [hs]; simp) (by rw [he]; simp) h.null_cycles h.depth hdec
  obtain ⟨R, hb, rfl⟩ := rescored_ok hN
  have hne := (C29_sorted finals recombs hdec).1
  have ht : Tidy (fun w => ¬ Reserved w ∧ ∃ i : Nat, idToWord[i]? = some (some w)) (fun c => isSpace c = false ∧ c ≠ ',')
      (fun _ => False) R := buildRescored_tidy hr.wf h.words h.transitions hne hb
  have hstrip : strip u = u := by
    obtain ⟨u', h1, h2⟩ := h.utterance
    rw [hu] at h1
    cases h1
    exact strip_field h2
  generalize hks : R.links.map RLink.toK = ks
  have hok : ∀ k ∈ ks, k.Clean ∧ k.WordOk idToWord := by
    subst hks
    intro k hk
    obtain ⟨r, hr', rfl⟩ := List.mem_map.mp hk
    refine ⟨⟨fun hc => (ht.trans r hr' _ hc).2 rfl, fun c hc => (ht.trans r hr' c hc).1⟩, ?_⟩
    unfold KLink.WordOk RLink.toK
    dsimp only
    cases hw : r.word with
    | none => exact Or.inl rfl
    | some w =>
      have he : r.endNode ≠ none := fun e => by
        have := (ht.finals r hr').mp e
        rw [hw] at this
        cases this
      exact Or.inr ⟨he, w, rfl, ht.words r hr' w hw⟩
  have hwrite := ht.write E.num E.kaldiWordToId u args.lmScale args.wiPenalty
  have hlinks := ht.links u
  have hbound := ht.bound
  rw [hks] at hwrite hlinks hbound
  rw [writeKaldi_eq hm u 0 (fun k hk => (hok k hk).2)] at hwrite
  obtain ⟨k0, hk0, hk0s⟩ := ht.closed 0 ht.nonempty id
  have hk0m : k0.toK ∈ ks := by rw [← hks]; exact List.mem_map_of_mem hk0
  obtain ⟨k, hk⟩ : ∃ k, (writeOrder ks).head? = some k := by
    cases hw : writeOrder ks with
    | nil =>
      have := (writeOrder_perm ks).mem_iff.mpr hk0m
      rw [hw] at this
      cases this
    | cons k _ => exact ⟨k, rfl⟩
  have hkz : k.startNode = 0 := by
    have := writeOrder_head ks k hk _ hk0m
    have h0 : k0.toK.startNode = 0 := hk0s
    omega
  have hread := readKaldi_back hT hm u hok hk
  rw [hstrip, hkz] at hread
  have hmb : maxBound (writeOrder ks) = R.nodes.length := by rw [maxBound_perm (writeOrder_perm ks), hbound]
  have hperm : (latticeOf u 0 (writeOrder ks)).links.Perm (R.toLattice L.utteranceId).links := by
    rw [hu, hlinks]
    unfold latticeOf
    dsimp only
    rw [hmb, hbound]
    exact (writeOrder_perm ks).map _
  refine ⟨_, _, _, ?_, ?_, hread, hN, rfl, ?_, hperm, ?_⟩
  · unfold decodeOutput
    rw [hdec]
    dsimp only
    rw [if_pos (Or.inr hout), hN]
    dsimp only
    rw [if_neg (by rw [hout]; decide), hu, hwrite]
  · intro l hl
    obtain ⟨x, hx, rfl⟩ := List.mem_map.mp hl
    have hc := lineWords_text hT E.kaldiWordToId (hok x ((writeOrder_perm ks).mem_iff.mp hx)).1
    refine ⟨joinSp_newline hc, ?_⟩
    have hwd := joinSp_Words _ hc
    cases hlw : lineWords E.num E.kaldiWordToId x with
    | nil => exact absurd hlw (by unfold lineWords; split <;> simp)
    | cons w ws => rw [hlw] at hwd; exact strip_ne_nil hwd
  · simp [latticeOf, regNodes_length, hmb, RLat.toLattice]
  · refine (rescored_standsFor hr hdec hN).same rfl ?_ ?_ ?_
    · intro n
      rw [final_toLattice, final_latticeOf, hmb]
    · intro x hx
      exact ⟨x, hperm.mem_iff.mpr hx, rfl, rfl, rfl, rfl, rfl⟩
    · intro x hx
      exact ⟨x, hperm.mem_iff.mp hx, rfl, rfl, rfl, rfl, rfl⟩

/-- What has been written for a lattice: `L'` is the rescored lattice, and it stands for the result of decoding. -/
def WrittenFor (D : Decoder S St) (E : OutEnv S) (L L' : Lattice S) : Prop :=
  ∃ (finals : List (Token S St)) (recombs : List (Recomb S St)) (N : Lattice S), decode D L = .ok (finals, recombs) ∧
    rescoredLattice L E.depth E.idToWord finals recombs = .ok N ∧ L'.WF ∧ L'.utteranceId = L.utteranceId ∧
    L'.nodes.length = N.nodes.length ∧ L'.links.Perm N.links ∧ StandsFor D L finals recombs L'

theorem fileLines_lines {lines : List Str} (h : ∀ l ∈ lines, '\n' ∉ l) (rest : Str) :
    fileLines (lines.flatMap (fun l => l ++ ['\n']) ++ rest) = lines.map (· ++ ['\n']) ++ fileLines rest := by
  induction lines with
  | nil => rfl
  | cons l lines ih =>
    rw [List.flatMap_cons, List.append_assoc, List.append_assoc, List.singleton_append, fileLines_line l (h l (by simp)),
      ih (fun l hl => h l (List.mem_cons_of_mem _ hl))]
    rfl

theorem decodeLoop_kaldi (E : OutEnv S) (hT : E.num.Faithful) {idToWord : List (Option Str)}
    (hm : WordMaps idToWord E.kaldiWordToId) (log : Nat → S) (args : DecodeArgs S) (out : OutputArgs)
    (hout : out.output = "kaldi".toList) (lattices : List (Lattice S)) : ∀ i : Nat,
    (∀ p ∈ lattices.zipIdx i, KaldiReady D E idToWord (namedLattice p.2 p.1)) →
    (decodeLoop D E log args out i lattices).2 = none ∧
    ∃ Ls : List (Lattice S), mapE (fun block => readKaldi E.num block idToWord)
        (kaldiBlocks (fileLines (decodeLoop D E log args out i lattices).1) []) = .ok Ls ∧
      List.Forall₂ (fun p L' => WrittenFor D E (namedLattice p.2 p.1) L') (lattices.zipIdx i) Ls := by
  induction lattices with
  | nil => exact fun i _ => ⟨rfl, [], rfl, .nil⟩
  | cons L rest ih =>
    intro i h
    rw [List.zipIdx_cons] at h ⊢
    obtain ⟨i1, Ls, i2, i3⟩ := ih (i + 1) (fun p hp => h p (List.mem_cons_of_mem _ hp))
    have hL : KaldiReady D E idToWord (namedLattice i L) := h (L, i) (by simp)
    obtain ⟨⟨finals, recombs⟩, hdec⟩ := hL.decodes
    obtain ⟨lines, N, L', h1, h2, h3, h4, h5, h6, h7, h8⟩ :=
      kaldi_text E hT hm hL log args out hout (u := utteranceName i L) rfl hdec
    have hstep : decodeLoop D E log args out i (L :: rest) =
        ((utteranceName i L :: (lines ++ [[]])).flatMap (fun l => l ++ ['\n']) ++ (decodeLoop D E log args out (i + 1) rest).1,
          (decodeLoop D E log args out (i + 1) rest).2) := by
      rw [decodeLoop]
      dsimp only
      change (match decodeOutput D E log args out (namedLattice i L) (utteranceName i L) with
        | (text, some e) => (text, some e)
        | (text, none) => _) = _
      rw [h1]
    obtain ⟨u, hu, hf⟩ := hL.utterance
    have hu' : utteranceName i L = u := by
      have : (namedLattice i L).utteranceId = some (utteranceName i L) := rfl
      rw [this] at hu
      exact Option.some.inj hu
    rw [← hu'] at hf
    rw [hstep]
    refine ⟨i1, L' :: Ls, ?_, .cons ⟨finals, recombs, N, hdec, h4, (C26_partial _ _ _ _ h3).1, h5, h6, h7, h8⟩ i3⟩
    dsimp only
    have hnl : ∀ l ∈ utteranceName i L :: (lines ++ [[]]), '\n' ∉ l := by
      intro l hl
      rcases List.mem_cons.mp hl with rfl | hl
      · intro hn
        have := hf.2 _ hn
        exact absurd this (by decide)
      · rcases List.mem_append.mp hl with hl | hl
        · exact (h2 l hl).1
        · rw [List.mem_singleton.mp hl]; simp
    rw [fileLines_lines hnl]
    have hlist : (utteranceName i L :: (lines ++ [[]])).map (· ++ ['\n']) ++ fileLines (decodeLoop D E log args out (i + 1) rest).1 =
        (utteranceName i L :: lines).map (· ++ ['\n']) ++ ['\n'] :: fileLines (decodeLoop D E log args out (i + 1) rest).1 := by
      simp
    rw [hlist, kaldiBlocks_run ['\n'] (by decide) _ _ [] (by
      intro l hl
      obtain ⟨x, hx, rfl⟩ := List.mem_map.mp hl
      rw [strip_newline]
      rcases List.mem_cons.mp hx with rfl | hx
      · rw [strip_field hf]; exact hf.1
      · exact (h2 x hx).2) (by simp), List.nil_append, mapE, readKaldi_block, h3]
    dsimp only
    rw [i2]

/-- C87: the lattices that are written in Kaldi format to an archive can be read from the archive.  There is one lattice for
every lattice of the job, in the same order. -/
theorem C87_partial (V : DecVocab S) (net : DecNet S St) (lin : S → S → S → S) (E : OutEnv S) (log : Nat → S)
    (args : DecodeArgs S) (out : OutputArgs) (hD : decoderInit V net lin (decodingOptions log args) = .ok D)
    (hout : out.output = "kaldi".toList) (hT : E.num.Faithful) (idToWord : List (Option Str))
    (hm : WordMaps idToWord E.kaldiWordToId) (lattices : List (Lattice S))
    (hL : ∀ p ∈ lattices.zipIdx, KaldiReady D E idToWord (namedLattice p.2 p.1))
    (batch : LatticeBatch) (hk : batch.isKaldi = true) (hv : ∃ v, batch.kaldiVocabulary = some (v, idToWord)) (path : Str)
    (hp : batch.lattices = [path]) (T : SlfText S) (files : Str → Option (List Str))
    (hfile : files path = some (fileLines (decodeCommand V net lin E log args out lattices).1)) :
    (decodeCommand V net lin E log args out lattices).2 = none ∧
    ∃ Ls : List (Lattice S), batch.iter T E.num files = .ok Ls ∧
      List.Forall₂ (fun p L' => WrittenFor D E (namedLattice p.2 p.1) L') lattices.zipIdx Ls := by
  obtain ⟨v, hv⟩ := hv
  unfold decodeCommand at hfile ⊢
  rw [hD] at hfile ⊢
  dsimp only at hfile ⊢
  obtain ⟨h1, Ls, h2, h3⟩ := decodeLoop_kaldi E hT hm log args out hout lattices 0 hL
  refine ⟨h1, Ls, ?_, h3⟩
  unfold LatticeBatch.iter
  rw [hp, mapE, mapE]
  dsimp only
  rw [hfile]
  dsimp only
  rw [if_pos hk, hv]
  simp only [Option.map_some, Option.getD_some]
  rw [h2]
  simp

/-! ## Concrete cases -/

def exKaldiWords : List (Option Str) := ["<eps>", "a", "b", "c", "d"].map (fun w => some w.toList)

def exLatEnv : OutEnv ℚ where
  num := unary
  slf := exSlfShow
  idToWord := exVocabWord
  kaldiWordToId w := if w = "<eps>".toList then some 0 else if w = "a".toList then some 1 else
    if w = "b".toList then some 2 else if w = "c".toList then some 3 else if w = "d".toList then some 4 else none
  depth := 100

theorem exKaldiWords_maps : WordMaps exKaldiWords exLatEnv.kaldiWordToId where
  to_id := by
    intro i w h
    have hi : i < 5 := (List.getElem?_eq_some_iff.mp h).1
    interval_cases i <;> (simp only [exKaldiWords, List.map_cons, List.map_nil, List.getElem?_cons_zero, List.getElem?_cons_succ,
      Option.some.injEq] at h; subst h; decide)
  to_word := by
    intro w j h
    unfold exLatEnv at h
    dsimp only at h
    split at h
    · rename_i e; subst e; cases h; exact ⟨0, rfl, rfl⟩
    · split at h
      · rename_i e; subst e; cases h; exact ⟨1, rfl, rfl⟩
      · split at h
        · rename_i e; subst e; cases h; exact ⟨2, rfl, rfl⟩
        · split at h
          · rename_i e; subst e; cases h; exact ⟨3, rfl, rfl⟩
          · split at h
            · rename_i e; subst e; cases h; exact ⟨4, rfl, rfl⟩
            · cases h
  eps := ⟨0, by decide⟩

theorem noNulls_cycles {L : Lattice S} (h : NoNulls L) (n : Nat) : ¬ Relation.TransGen L.NullEdge n n := by
  intro hn
  cases hn with
  | single h1 =>
    obtain ⟨k, hk, hw, _⟩ := h1
    exact h k hk hw
  | tail _ h1 =>
    obtain ⟨k, hk, hw, _⟩ := h1
    exact h k hk hw

/-- The hypotheses of C87 are met by a lattice that has four hypotheses; it does not have an utterance ID, so it is named by its
number. -/
theorem exKaldiReady (i : Nat) (hi : i = 0 ∨ i = 1) : KaldiReady exDecoder exLatEnv exKaldiWords (namedLattice i exRescLattice) where
  rescorable := by
    rcases hi with rfl | rfl
    · exact ⟨wf_of_check _ (by decide +kernel), det_of_check (by decide +kernel), exVocab_inverse,
        "<s>".toList, "</s>".toList, by decide +kernel, by decide +kernel, by decide +kernel⟩
    · exact ⟨wf_of_check _ (by decide +kernel), det_of_check (by decide +kernel), exVocab_inverse,
        "<s>".toList, "</s>".toList, by decide +kernel, by decide +kernel, by decide +kernel⟩
  null_cycles := noNulls_cycles exRescLattice_noNulls
  depth := by
    have : exRescLattice.nodes.length < 100 := by decide +kernel
    exact this
  utterance := ⟨_, rfl, decimal_field i⟩
  words := by
    have h : ∀ k ∈ exRescLattice.links, ∀ w ∈ k.word, ¬ (w = "<eps>".toList ∨ w = "#0".toList ∨ w = sos ∨ w = eos) ∧
      ∃ i ∈ List.range 5, exKaldiWords[i]? = some (some w) := by decide +kernel
    intro k hk w hw
    obtain ⟨h1, i, _, h2⟩ := h k hk w hw
    exact ⟨h1, i, h2⟩
  transitions := by
    have h : ∀ k ∈ exRescLattice.links, ∀ c ∈ k.transitions, isSpace c = false ∧ c ≠ ',' := by decide +kernel
    exact h
  decodes := by
    rcases hi with rfl | rfl
    · have h : ∃ r, decode exDecoder (namedLattice 0 exRescLattice) = .ok r ∧ r.1.length = 4 := by decide +kernel
      obtain ⟨r, h, _⟩ := h
      exact ⟨r, h⟩
    · have h : ∃ r, decode exDecoder (namedLattice 1 exRescLattice) = .ok r ∧ r.1.length = 4 := by decide +kernel
      obtain ⟨r, h, _⟩ := h
      exact ⟨r, h⟩

/-- Concrete case for C87: a job of two lattices. -/
example : ∀ p ∈ [exRescLattice, exRescLattice].zipIdx, KaldiReady exDecoder exLatEnv exKaldiWords (namedLattice p.2 p.1) := by
  intro p hp
  simp only [List.zipIdx_cons, List.zipIdx_nil, List.mem_cons, List.not_mem_nil, or_false] at hp
  rcases hp with rfl | rfl
  · exact exKaldiReady 0 (Or.inl rfl)
  · exact exKaldiReady 1 (Or.inr rfl)

/-- The decoder of the example is the one that the command makes. -/
example : decoderInit exVocab exNet exDecoder.lin (decodingOptions (fun _ => 1) exDecodeArgs) = .ok exDecoder := by
  have h : decoderInit exVocab exNet exDecoder.lin (decodingOptions (fun _ => 1) exDecodeArgs) =
      .ok { exDecoder with wiPenalty := some (-1 * 1) } := rfl
  rw [h, mul_one]
  rfl

/-- Concrete case for C86. -/
example : ∃ L' : Lattice ℚ, readSlf exSlfFile (fileLines (decodeOutput exDecoder exLatEnv (fun _ => 1) exDecodeArgs
      ⟨"slf".toList, 1⟩ (namedLattice 0 exRescLattice) "0".toList).1) = .ok L' ∧ L'.nodes.length = 10 ∧ L'.links.length = 12 ∧
    L'.lmScale = some 2 ∧ L'.utteranceId = some "0".toList := by decide +kernel

/-- The hypotheses of C86 are met in this case. -/
example : (∀ k ∈ (namedLattice 0 exRescLattice).links, ∀ w, k.word = some w → PlainWord w) ∧ PlainUtterance "0".toList ∧
    SlfFaithful exLatEnv.slf exSlfFile := by
  refine ⟨?_, by unfold PlainUtterance; decide, exSlf_faithful⟩
  have h : ∀ k ∈ exRescLattice.links, ∀ w ∈ k.word,
      (∀ c ∈ w, ¬ (c = ' ' ∨ c = '\t' ∨ c = '\r' ∨ c = '\n') ∧ c ≠ '#' ∧ c ≠ '"' ∧ c ≠ '\\') ∧ w.head? ≠ some '!' := by
    decide +kernel
  intro k hk w hw
  obtain ⟨h1, h2⟩ := h k hk w hw
  exact ⟨h1, fun t e => h2 (by rw [e]; rfl)⟩

/-- C86 does not hold for a job of several lattices: the lattices are written into one file, and the file cannot be read. -/
theorem C86_violated_two : ∃ (lattices : List (Lattice ℚ)) (text : Str), (∀ L ∈ lattices, L.WF) ∧
    decodeCommand exVocab exNet (fun x _ _ => x) exLatEnv (fun _ => 1) exDecodeArgs ⟨"slf".toList, 1⟩ lattices = (text, none) ∧
    readSlf exSlfFile (fileLines text) = .error .inputError := by
  refine ⟨[exOneLattice "a".toList, exOneLattice "b".toList], (decodeCommand exVocab exNet (fun x _ _ => x) exLatEnv (fun _ => 1)
    exDecodeArgs ⟨"slf".toList, 1⟩ [exOneLattice "a".toList, exOneLattice "b".toList]).1, ?_, by decide +kernel, by decide +kernel⟩
  intro L hL
  simp only [List.mem_cons, List.not_mem_nil, or_false] at hL
  rcases hL with rfl | rfl
  · exact wf_of_check _ (by decide +kernel)
  · exact wf_of_check _ (by decide +kernel)

/-- C86: the scale and the penalty of the original lattice are used in decoding, if they are not given on the command line, but
they are not in the output. -/
theorem C86_violated_scale : ∃ (D : Decoder ℚ (List Nat)) (args : DecodeArgs ℚ) (L L' : Lattice ℚ), L.WF ∧
    decoderInit exVocab exNet (fun x _ _ => x) (decodingOptions (fun _ => 1) args) = .ok D ∧
    decLmScale D L = 3 ∧ decWiPenalty D L = -1 ∧
    readSlf exSlfFile (fileLines (decodeOutput D exLatEnv (fun _ => 1) args ⟨"slf".toList, 1⟩ L "u".toList).1) = .ok L' ∧
    L'.lmScale = none ∧ L'.wiPenalty = none := by
  have h : ∃ L' : Lattice ℚ, readSlf exSlfFile (fileLines (decodeOutput { exDecoder with lmScale := none, wiPenalty := none } exLatEnv
      (fun _ => 1) { exDecodeArgs with lmScale := none, wiPenalty := none } ⟨"slf".toList, 1⟩
      { exRescLattice with utteranceId := some "u".toList, lmScale := some 3, wiPenalty := some (-1) } "u".toList).1) = .ok L' ∧
      L'.lmScale = none ∧ L'.wiPenalty = none := by decide +kernel
  obtain ⟨L', h1, h2, h3⟩ := h
  exact ⟨_, _, _, L', wf_of_check _ (by decide +kernel), rfl, by decide +kernel, by decide +kernel, h1, h2, h3⟩

/-- C86: with a base of logarithm, the penalty in the output is not the one that was used in decoding.  The output does not
declare a base, so the scores and the penalty are natural logarithms. -/
theorem C86_violated_penalty : ∃ (D : Decoder ℚ (List Nat)) (args : DecodeArgs ℚ) (L L' : Lattice ℚ), L.WF ∧
    decoderInit exVocab exNet (fun x _ _ => x) (decodingOptions (fun b => (b : ℚ) / 4) args) = .ok D ∧
    args.logBase = some 10 ∧ args.wiPenalty = some (-1) ∧ decWiPenalty D L = -5 / 2 ∧
    readSlf exSlfFile (fileLines (decodeOutput D exLatEnv (fun b => (b : ℚ) / 4) args ⟨"slf".toList, 1⟩ L "u".toList).1) = .ok L' ∧
    L'.wiPenalty = some (-1) := by
  have h : ∃ L' : Lattice ℚ, readSlf exSlfFile (fileLines (decodeOutput { exDecoder with wiPenalty := some (-1 * (10 / 4)) } exLatEnv
      (fun b => (b : ℚ) / 4) { exDecodeArgs with wiPenalty := some (-1), logBase := some 10 } ⟨"slf".toList, 1⟩
      { exRescLattice with utteranceId := some "u".toList } "u".toList).1) = .ok L' ∧ L'.wiPenalty = some (-1) := by decide +kernel
  obtain ⟨L', h1, h2⟩ := h
  exact ⟨_, _, _, L', wf_of_check _ (by decide +kernel), rfl, rfl, rfl, by decide +kernel, h1, h2⟩

end TheanoLM
