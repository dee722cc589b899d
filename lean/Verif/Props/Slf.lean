import Verif.Lemmas.SlfVisit
import Verif.Props.Kaldi
/-!
# Properties of SLF lattices (C27)
-/
namespace TheanoLM

variable {S : Type}

theorem slfState_init (N : Nat) : (⟨List.replicate N Node.new, [], List.replicate N none⟩ : SlfSt S) =
    slfState N (fun _ => none) (fun _ => none) [] := by
  unfold slfState slfNodes
  congr 1
  · have : (fun n => (⟨idxs (sIs n) ([] : List (Link S)), idxs (eIs n) ([] : List (Link S)), none, false⟩ : Node)) =
        fun _ => Node.new := by
      funext n; rfl
    rw [this]
    simp
  · simp

/-- The nodes of the lattice. -/
def finNodes (N : Nat) (times : Nat → Option ℚ) (ends : List ℤ) (ks : List (Link S)) : List Node :=
  (slfNodes N times ks).mapIdx (fun n x => { x with final := slfFinal ends n x })

theorem finNodes_get {N : Nat} {times : Nat → Option ℚ} {ends : List ℤ} {ks : List (Link S)} {n : Nat} {node : Node}
    (h : (finNodes N times ends ks)[n]? = some node) : n < N ∧
      node = ⟨idxs (sIs n) ks, idxs (eIs n) ks, times n, decide ((n : ℤ) ∈ ends) || (idxs (sIs n) ks).length == 0⟩ := by
  unfold finNodes at h
  rw [List.getElem?_mapIdx] at h
  by_cases hn : n < N
  · rw [slfNodes_get hn] at h
    simp only [Option.map_some, Option.some.injEq, slfFinal] at h
    exact ⟨hn, h.symm⟩
  · rw [List.getElem?_eq_none (by rw [slfNodes_length]; omega)] at h
    cases h

theorem finNodes_length (N : Nat) (times : Nat → Option ℚ) (ends : List ℤ) (ks : List (Link S)) :
    (finNodes N times ends ks).length = N := by simp [finNodes, slfNodes_length]

theorem finNodes_getD {N : Nat} {times : Nat → Option ℚ} {ends : List ℤ} {ks : List (Link S)} {n : Nat} (hn : n < N) :
    ((finNodes N times ends ks).getD n Node.new).outLinks = idxs (sIs n) ks := by
  have hlt : n < (finNodes N times ends ks).length := by rw [finNodes_length]; exact hn
  rw [List.getD_eq_getElem?_getD, List.getElem?_eq_getElem hlt, Option.getD_some]
  rw [(finNodes_get (List.getElem?_eq_getElem hlt)).2]

theorem filter_one {l : List Node} (h : (l.filter Node.final).length = 1) :
    ∃ n, n < l.length ∧ ∀ (m : Nat) (node : Node), l[m]? = some node → (node.final = true ↔ m = n) := by
  rw [List.length_eq_one_iff] at h
  obtain ⟨a, ha⟩ := h
  obtain ⟨l₁, l₂, rfl, h1, h2, h3⟩ := List.filter_eq_cons_iff.mp ha
  have h4 := List.filter_eq_nil_iff.mp h3
  refine ⟨l₁.length, by simp, ?_⟩
  intro m node hm
  constructor
  · intro hf
    rcases lt_trichotomy m l₁.length with hlt | heq | hgt
    · rw [List.getElem?_append_left hlt] at hm
      exact absurd hf (h1 node (List.mem_of_getElem? hm))
    · exact heq
    · rw [List.getElem?_append_right (by omega)] at hm
      obtain ⟨j, hj⟩ : ∃ j, m - l₁.length = j + 1 := ⟨m - l₁.length - 1, by omega⟩
      rw [hj, List.getElem?_cons_succ] at hm
      exact absurd hf (h4 node (List.mem_of_getElem? hm))
  · rintro rfl
    rw [List.getElem?_append_right (le_refl _)] at hm
    simp at hm
    rw [← hm]; exact h2

/-- C27: what is known about an accepted SLF lattice.  Every link connects existing nodes and is registered at both of
its ends, there is exactly one final node, the header gives the number of nodes and links, the initial and final nodes
and the scales, and every link is what its line says, with the word moved from the end node.

Missing: links that are not reachable from the initial node do not get the words of their end nodes
(`C27_violated`). -/
theorem C27_partial [Zero S] [One S] [Mul S] [DecidableEq S] (T : SlfText S) (lines : List Str) (L : Lattice S)
    (h : readSlf T lines = .ok L) :
    L.WF ∧
    (∃ n < L.nodes.length, ∀ (m : Nat) (node : Node), L.nodes[m]? = some node → (node.final = true ↔ m = n)) ∧
    ∃ (head rest : List Str) (headToks : List (List Str)) (last : List Str) (scale : Option S)
      (toks lf : List (List Str)),
      lines = head ++ rest ∧ List.Forall₂ (fun line fs => T.tok line = .ok fs) head (headToks ++ [last]) ∧
      (LastField ["NODES".toList, "N".toList] headToks.flatten none ∨
        LastField ["LINKS".toList, "L".toList] headToks.flatten none) ∧
      HeaderSpec T (headToks.flatten ++ last) scale L ∧
      List.Forall₂ (fun line fs => T.tok line = .ok fs) rest toks ∧
      (∀ (n : Nat) (node : Node), L.nodes[n]? = some node → NodeTime T toks L.nodes.length n node.time) ∧
      LinkFields toks lf ∧ List.Forall₂ (LinkLine T scale toks L) lf L.links := by
  unfold readSlf at h
  split at h
  · cases h
  · rename_i hd rest hhead
    obtain ⟨head, headToks, last, hlines, htoks, hinv, hk1, hk2, hopen⟩ :=
      slfHeaderLines_spec lines (headerInv_empty T) (Or.inl (lastField_nil _)) hhead
    simp only [List.nil_append] at hinv hopen
    split at h
    · rename_i numNodes numLinks hnn hnl
      unfold slfBody at h
      simp only [slfState_init] at h
      split at h
      · cases h
      · rename_i st hst
        have hni : ∀ n < numNodes.toNat, NodeInv T ((fun _ => ([] : List Str)) n) ((fun _ => none) n)
            ((fun _ => none) n) := fun n _ => ⟨⟨none, lastField_nil _, fun _ => rfl, fun _ h => (by cases h)⟩,
          ⟨none, lastField_nil _, fun _ => rfl, fun _ h => (by cases h)⟩⟩
        obtain ⟨toks, times, words, ks, lf, ht, rfl, hnode, hlf, hraw⟩ := slfLines_spec rest hni hst
        simp only [List.nil_append] at h hnode
        generalize hN : numNodes.toNat = N at h hnode hraw
        split at h
        · cases h
        · rename_i hlen
          simp only [slfState, ne_eq, not_not] at hlen
          split at h
          · cases h
          · rename_i initial hini
            split at h
            · cases h
            · rename_i hone
              rw [not_not] at hone
              have hnodes : (slfState N times words ks).nodes.mapIdx
                  (fun n x => { x with final := slfFinal hd.ends n x }) = finNodes N times hd.ends ks := rfl
              rw [hnodes] at h hone
              have hraw' := List.forall₂_iff_get.mp hraw
              have hrawk : ∀ (l : Nat) (k : Link S), ks[l]? = some k → ∃ fs, lf[l]? = some fs ∧
                  RawLink T hd.logScale N fs k := by
                intro l k hk
                obtain ⟨hl, rfl⟩ := List.getElem?_eq_some_iff.mp hk
                have hl' : l < lf.length := by rw [hraw'.1]; exact hl
                exact ⟨lf[l], List.getElem?_eq_getElem hl', hraw'.2 l hl' hl⟩
              have hks : ∀ k ∈ ks, k.startNode < N ∧ k.endNode < N := by
                intro k hk
                obtain ⟨l, hl⟩ := List.mem_iff_getElem?.mp hk
                obtain ⟨fs, _, hr⟩ := hrawk l k hl
                exact ⟨nodeIs_lt hr.start, nodeIs_lt hr.end_⟩
              have hiniN : initial < N := by
                unfold slfInitial at hini
                simp only [slfState, slfNodes_length] at hini
                split at hini
                · split at hini
                  · cases hini
                  · rename_i m hm
                    cases hini
                    exact (pyIdx_iff.mp hm).1
                · split at hini
                  · cases hini
                  · rename_i m hm
                    cases hini
                    rw [List.findIdx?_eq_some_iff_getElem] at hm
                    obtain ⟨hm, _⟩ := hm
                    rw [slfNodes_length] at hm
                    exact hm
              split at h
              · rename_i links hvisit
                have hvi : VisitInv words ks initial ((finNodes N times hd.ends ks).getD initial Node.new).outLinks
                    [initial] ks := by
                  rw [finNodes_getD hiniN]
                  refine ⟨rfl, idxs_nodup _ _, ?_, by simp, ?_, fun _ _ h _ => h, ?_⟩
                  · intro l hl
                    obtain ⟨k, hk, hs⟩ := mem_idxs.mp hl
                    exact ⟨k, hk, by simpa [sIs] using hs⟩
                  · intro n hn
                    rw [List.mem_singleton.mp hn]
                  · intro l k hk hl hs
                    exact absurd (mem_idxs.mpr ⟨k, hk, by simpa [sIs] using hs⟩) hl
                obtain ⟨V, hv⟩ := slfVisit_spec (words := words) (ks0 := ks) (initial := initial)
                  (fun k hk => by
                    rw [List.getD_eq_getElem?_getD]
                    simp only [slfState, List.getElem?_map, List.getElem?_range (hks k hk).2]
                    rfl)
                  (fun k hk => finNodes_getD (hks k hk).2) _ hvi hvisit
                cases h
                -- the links are the links that were read, except for the words
                have hshape : ∀ (l : Nat) (k0 : Link S), ks[l]? = some k0 → ∃ k, links[l]? = some k ∧
                    k.startNode = k0.startNode ∧ k.endNode = k0.endNode ∧ k.ac = k0.ac ∧ k.lm = k0.lm := by
                  intro l k0 hk0
                  by_cases hs : k0.startNode ∈ V
                  · obtain ⟨_, k, hk, w, rfl, _⟩ := hv.done l k0 hk0 (by simp) hs
                    exact ⟨_, hk, rfl, rfl, rfl, rfl⟩
                  · exact ⟨k0, hv.pending l k0 hk0 (Or.inr hs), rfl, rfl, rfl, rfl⟩
                have hback : ∀ (l : Nat) (k : Link S), links[l]? = some k → ∃ k0, ks[l]? = some k0 ∧
                    k.startNode = k0.startNode ∧ k.endNode = k0.endNode ∧ k.ac = k0.ac ∧ k.lm = k0.lm := by
                  intro l k hk
                  have hl : l < ks.length := by rw [← hv.len]; exact (List.getElem?_eq_some_iff.mp hk).1
                  obtain ⟨k', hk', h1⟩ := hshape l _ (List.getElem?_eq_getElem hl)
                  rw [hk] at hk'
                  cases hk'
                  exact ⟨_, List.getElem?_eq_getElem hl, h1⟩
                have hedge : ∀ a b, (∃ k ∈ links, k.startNode = a ∧ k.endNode = b) ↔ EdgeIn ks a b := by
                  intro a b
                  constructor
                  · rintro ⟨k, hk, h1, h2⟩
                    obtain ⟨l, hl⟩ := List.mem_iff_getElem?.mp hk
                    obtain ⟨k0, hk0, e1, e2, _⟩ := hback l k hl
                    exact ⟨k0, List.mem_of_getElem? hk0, by rw [← e1, h1], by rw [← e2, h2]⟩
                  · rintro ⟨k, hk, h1, h2⟩
                    obtain ⟨l, hl⟩ := List.mem_iff_getElem?.mp hk
                    obtain ⟨k0, hk0, e1, e2, _⟩ := hshape l k hl
                    exact ⟨k0, List.mem_of_getElem? hk0, by rw [e1, h1], by rw [e2, h2]⟩
                have hreach : ∀ n, n ∈ V ↔ Relation.ReflTransGen (EdgeIn ks) initial n := by
                  intro n
                  refine ⟨hv.reach n, ?_⟩
                  intro hr
                  induction hr with
                  | refl => exact hv.init
                  | tail _ he ih =>
                    obtain ⟨k, hk, rfl, rfl⟩ := he
                    obtain ⟨l, hl⟩ := List.mem_iff_getElem?.mp hk
                    exact (hv.done l k hl (by simp) ih).1
                have hEdge : ∀ (u : Option Str) (x y : Option S), (Lattice.Edge
                    (⟨finNodes N times hd.ends ks, links, initial, u, x, y⟩ : Lattice S)) = EdgeIn ks := by
                  intro u x y
                  funext a b
                  exact propext (hedge a b)
                have outmem : ∀ n l, l ∈ idxs (sIs n) ks ↔ ∃ k, links[l]? = some k ∧ k.startNode = n := by
                  intro n l
                  rw [mem_idxs]
                  constructor
                  · rintro ⟨k0, hk0, hs⟩
                    obtain ⟨k, hk, e1, _⟩ := hshape l k0 hk0
                    exact ⟨k, hk, by rw [e1]; simpa [sIs] using hs⟩
                  · rintro ⟨k, hk, hs⟩
                    obtain ⟨k0, hk0, e1, _⟩ := hback l k hk
                    exact ⟨k0, hk0, by simpa [sIs, ← e1] using hs⟩
                have inmem : ∀ n l, l ∈ idxs (eIs n) ks ↔ ∃ k, links[l]? = some k ∧ k.endNode = n := by
                  intro n l
                  rw [mem_idxs]
                  constructor
                  · rintro ⟨k0, hk0, hs⟩
                    obtain ⟨k, hk, _, e1, _⟩ := hshape l k0 hk0
                    exact ⟨k, hk, by rw [e1]; simpa [eIs] using hs⟩
                  · rintro ⟨k, hk, hs⟩
                    obtain ⟨k0, hk0, _, e1, _⟩ := hback l k hk
                    exact ⟨k0, hk0, by simpa [eIs, ← e1] using hs⟩
                refine ⟨?_, ?_, head, rest, headToks, last, hd.logScale, toks, lf, hlines, htoks, hopen, ?_, ht, ?_,
                  hlf, ?_⟩
                · constructor
                  · simp only [finNodes_length]; exact hiniN
                  · intro k hk
                    simp only [finNodes_length]
                    obtain ⟨l, hl⟩ := List.mem_iff_getElem?.mp hk
                    obtain ⟨k0, hk0, e1, e2, _⟩ := hback l k hl
                    rw [e1, e2]
                    exact hks k0 (List.mem_of_getElem? hk0)
                  · intro node hnode
                    obtain ⟨n, hn⟩ := List.mem_iff_getElem?.mp hnode
                    rw [(finNodes_get hn).2]
                    exact idxs_nodup _ _
                  · intro n node hn l
                    rw [(finNodes_get hn).2]
                    exact outmem n l
                  · intro node hnode
                    obtain ⟨n, hn⟩ := List.mem_iff_getElem?.mp hnode
                    rw [(finNodes_get hn).2]
                    exact idxs_nodup _ _
                  · intro n node hn l
                    rw [(finNodes_get hn).2]
                    exact inmem n l
                · exact filter_one hone
                · constructor
                  · obtain ⟨o, h1, h2, h3⟩ := hinv.nodes
                    cases o with
                    | none => rw [h2 rfl] at hnn; cases hnn
                    | some v =>
                      obtain ⟨x, hx, hx'⟩ := h3 v rfl
                      rw [hnn] at hx'
                      cases hx'
                      exact ⟨v, _, h1, hx, by simp only [finNodes_length]; exact hN.symm⟩
                  · obtain ⟨o, h1, h2, h3⟩ := hinv.links
                    cases o with
                    | none => rw [h2 rfl] at hnl; cases hnl
                    | some v =>
                      obtain ⟨x, hx, hx'⟩ := h3 v rfl
                      rw [hnl] at hx'
                      cases hx'
                      refine ⟨v, h1, ?_⟩
                      rw [hx, ← hlen]
                      simp only [hv.len]
                  · exact hinv.utterance
                  · exact hinv.no_sublattice
                  · exact hinv.scale
                  · exact hinv.lmScale
                  · obtain ⟨o, h1, h2, h3⟩ := hinv.wiPenalty
                    refine ⟨o, h1, ?_, ?_⟩
                    · intro hn
                      simp only [slfPenalty, h2 hn]
                    · intro v hv'
                      obtain ⟨x, hx, hx'⟩ := h3 v hv'
                      refine ⟨x, hx, ?_, ?_⟩
                      · intro hs; simp only [slfPenalty, hx', hs]
                      · intro c hs; simp only [slfPenalty, hx', hs]
                  · obtain ⟨o, h1, h2, h3⟩ := hinv.start
                    refine ⟨o, h1, ?_, ?_⟩
                    · intro hn
                      rw [h2 hn] at hini
                      unfold slfInitial at hini
                      simp only at hini
                      split at hini
                      · cases hini
                      · rename_i m hm
                        cases hini
                        rw [List.findIdx?_eq_some_iff_getElem] at hm
                        obtain ⟨hmlt, hm1, hm2⟩ := hm
                        have hget : ∀ (j : Nat) (hj : j < (slfState N times words ks).nodes.length),
                            (slfState N times words ks).nodes[j] =
                              ⟨idxs (sIs j) ks, idxs (eIs j) ks, times j, false⟩ := by
                          intro j hj
                          have hjN : j < N := by simpa [slfState, slfNodes_length] using hj
                          have := slfNodes_get (times := times) (ks := ks) hjN
                          exact (List.getElem?_eq_some_iff.mp this).2
                        rw [hEdge]
                        refine ⟨?_, ?_⟩
                        · rintro a ⟨k, hk, _, he⟩
                          rw [hget] at hm1
                          simp only [beq_iff_eq, List.length_eq_zero_iff] at hm1
                          obtain ⟨l, hl⟩ := List.mem_iff_getElem?.mp hk
                          have : l ∈ idxs (eIs initial) ks := mem_idxs.mpr ⟨k, hl, by simp [eIs, he]⟩
                          rw [hm1] at this
                          cases this
                        · intro n hnl
                          have := hm2 n hnl
                          rw [hget] at this
                          simp only [beq_iff_eq, List.length_eq_zero_iff] at this
                          obtain ⟨l, hl⟩ := List.exists_mem_of_ne_nil _ this
                          obtain ⟨k, hk, he⟩ := mem_idxs.mp hl
                          exact ⟨k.startNode, k, List.mem_of_getElem? hk, rfl, by simpa [eIs] using he⟩
                    · intro v hv'
                      obtain ⟨i, hx, hx'⟩ := h3 v hv'
                      refine ⟨i, hx, ?_⟩
                      rw [hx'] at hini
                      unfold slfInitial at hini
                      simp only [slfState, slfNodes_length] at hini
                      split at hini
                      · cases hini
                      · rename_i m hm
                        cases hini
                        simp only [finNodes_length]
                        exact pyIdx_iff.mp hm
                  · intro n node hn
                    rw [(finNodes_get hn).2, ← hinv.ends, hEdge]
                    simp only [Bool.or_eq_true, decide_eq_true_eq, beq_iff_eq, List.length_eq_zero_iff]
                    apply or_congr Iff.rfl
                    constructor
                    · rintro hnil b ⟨k, hk, hs, _⟩
                      obtain ⟨l, hl⟩ := List.mem_iff_getElem?.mp hk
                      have : l ∈ idxs (sIs n) ks := mem_idxs.mpr ⟨k, hl, by simp [sIs, hs]⟩
                      rw [hnil] at this
                      cases this
                    · intro hno
                      by_contra hne
                      obtain ⟨l, hl⟩ := List.exists_mem_of_ne_nil _ hne
                      obtain ⟨k, hk, hs⟩ := mem_idxs.mp hl
                      exact hno k.endNode ⟨k, List.mem_of_getElem? hk, by simpa [sIs] using hs, rfl⟩
                · intro n node hn
                  simp only [finNodes_length]
                  obtain ⟨hnN, hnode'⟩ := finNodes_get hn
                  obtain ⟨fs, hfs, hinvn⟩ := hnode n hnN
                  obtain ⟨o, h1, h2⟩ := hinvn.time
                  rw [hnode']
                  exact ⟨fs, o, hfs, h1, h2⟩
                · rw [List.forall₂_iff_get]
                  refine ⟨by rw [hraw'.1]; exact hv.len.symm, ?_⟩
                  intro l hl hl2
                  obtain ⟨k0, hk0, e1, e2, e3, e4⟩ := hback l _ (List.getElem?_eq_getElem hl2)
                  obtain ⟨fs, hfs, hr⟩ := hrawk l k0 hk0
                  have hfs' : lf.get ⟨l, hl⟩ = fs := by
                    rw [List.getElem?_eq_getElem hl] at hfs
                    cases hfs
                    rfl
                  rw [hfs']
                  have hkl : links.get ⟨l, hl2⟩ = links[l] := rfl
                  rw [hkl]
                  constructor
                  · simp only [finNodes_length]; rw [e1]; exact hr.start
                  · simp only [finNodes_length]; rw [e2]; exact hr.end_
                  · rw [e3]; exact hr.ac
                  · rw [e4]; exact hr.lm
                  · obtain ⟨nfs, hnfs, hinvn⟩ := hnode k0.endNode (hks k0 (List.mem_of_getElem? hk0)).2
                    obtain ⟨o, ho, ho1, ho2⟩ := hinvn.word
                    refine ⟨k0.word, nfs, o, hr.word, ?_, ho, ?_, ?_⟩
                    · simp only [finNodes_length]; rw [e2]; exact hnfs
                    · intro hre
                      unfold Lattice.Reachable at hre
                      rw [hEdge, e1, ← hreach] at hre
                      obtain ⟨_, k, hk, w, hkw, hw1, hw2⟩ := hv.done l k0 hk0 (by simp) hre
                      rw [List.getElem?_eq_getElem hl2] at hk
                      cases hk
                      have hword : links[l].word = w := by rw [hkw]
                      rw [hword]
                      refine ⟨fun hn => hw1 (ho1 hn), ?_⟩
                      intro v hv'
                      obtain ⟨a, b⟩ := hw2 _ (ho2 v hv')
                      refine ⟨a, ?_⟩
                      rw [b]
                      exact slfNorm_proper v
                    · intro hre
                      unfold Lattice.Reachable at hre
                      rw [hEdge, e1, ← hreach] at hre
                      have := hv.pending l k0 hk0 (Or.inr hre)
                      rw [List.getElem?_eq_getElem hl2] at this
                      cases this
                      rfl
              · cases h
              · cases h
    · cases h

/-- The visits always end: the traversal that moves the words visits every link at most once. -/
theorem C27_terminates (N : Nat) (times : Nat → Option ℚ) (ends : List ℤ) (ks : List (Link S))
    (words : List (Option (Option Str))) (initial : Nat) (hi : initial < N) :
    slfVisit words (finNodes N times ends ks) (ks.length + 1)
      ((finNodes N times ends ks).getD initial Node.new).outLinks [initial] ks ≠ none := by
  apply slfVisit_terminates (ks0 := ks)
  · intro n
    by_cases hn : n < N
    · exact Or.inl (finNodes_getD hn)
    · right
      rw [List.getD_eq_getElem?_getD, List.getElem?_eq_none (by rw [finNodes_length]; omega)]
      rfl
  · rw [finNodes_getD hi, idxs_length]
    have h := count_split ks [] initial (by simp)
    have h2 := List.countP_le_length (p := fun k : Link S => decide (k.startNode ∉ ([] : List Nat))) (l := ks)
    omega

/-- Numbers in unary and fields that are separated by white space. -/
def exSlfText : SlfText ℚ where
  tok line := .ok (pySplit line)
  parseInt := unaryParse
  parseScore := unary.parseScore
  parseTime := unary.parseScore
  log x := x

def exSlf : List Str := ["UTTERANCE=utt base=+/1".toList, "N=+111 L=+11".toList, "I=+ t=+/1".toList,
  "I=+1 t=+1/11 W=hei".toList, "I=+11 W=!NULL".toList, "J=+ S=+ E=+1 a=-111/11 l=-1/1".toList,
  "J=+1 S=+1 E=+11 a=-11/1".toList]

def exSlfLattice : Lattice ℚ :=
  ⟨[⟨[0], [], some 0, false⟩, ⟨[1], [0], some (1/2), false⟩, ⟨[], [1], none, true⟩],
    [⟨0, 1, some "hei".toList, some (-3/2), some (-1), []⟩, ⟨1, 2, none, some (-2), none, []⟩], 0,
    some "utt".toList, none, none⟩

/-- A lattice that is accepted: words are moved to the links. -/
example : readSlf exSlfText exSlf = .ok exSlfLattice := by decide +kernel

/-- Another final node: the lattice is rejected. -/
example : readSlf exSlfText (exSlf ++ ["J=+11 S=+1 E=+1".toList]) = .error .inputError := by decide +kernel
example : readSlf exSlfText ("end=+".toList :: exSlf) = .error .inputError := by decide +kernel

/-- The word is both in the link and in the node: the lattice is rejected. -/
example : readSlf exSlfText (["N=+11 L=+1".toList, "I=+ ".toList, "I=+1 W=hei".toList,
    "J=+ S=+ E=+1 W=maa".toList] : List Str) = .error .inputError := by decide +kernel

/-- C27 does not hold for links that are not reachable: the node 1 has the word "maa", but the link from node 0 to
node 1 does not, when the initial node is node 1. -/
theorem C27_violated : ∃ L : Lattice ℚ, readSlf exSlfText (["start=+1 N=+111 L=+11".toList, "I=+1 W=maa".toList,
      "J=+ S=+ E=+1".toList, "J=+1 S=+1 E=+11 W=hei".toList] : List Str) = .ok L ∧
    ∃ k ∈ L.links, k.endNode = 1 ∧ k.word = none := by
  decide +kernel

end TheanoLM
