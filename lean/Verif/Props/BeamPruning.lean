import Verif.Lemmas.BeamPruning
/-!
# C124: a beam that is wide enough does not change the best hypothesis
-/
namespace TheanoLM

variable {S St : Type}

section
variable [Field S] [LinearOrder S] [IsStrictOrderedRing S] {D : Decoder S St} {L : Lattice S}

omit [Field S] [LinearOrder S] [IsStrictOrderedRing S] in
/-- C66: the nodes are listed in the order of their times, if all nodes have a time and links do not go back in time. -/
theorem C66_sorted_times (L : Lattice S) (hw : L.WF) (hini : ∀ a : Nat, ¬ L.Edge a L.initial) (fuel : Nat) (r : List Nat)
    (h : sortedNodes L fuel = some (.ok r)) (htime : ∀ n : Nat, n < L.nodes.length → ∃ x : ℚ, L.time n = some x)
    (hfwd : ∀ (a b : Nat) (x y : ℚ), L.Edge a b → L.time a = some x → L.time b = some y → x ≤ y) :
    r.Pairwise (fun b c => ∀ x y : ℚ, L.time b = some x → L.time c = some y → x ≤ y) := by
  have ht := C24_topological L hw hini fuel r h
  rw [List.pairwise_iff_getElem]
  intro i j hi hj hij x y hx hy
  refine sorted_times hw h ht htime hfwd (r.take i) r[i] ((r.drop (i + 1)).take (j - i - 1)) (r.drop (j + 1)) r[j] x y
    ?_ hx hy
  have h1 : r.drop j = r[j] :: r.drop (j + 1) := List.drop_eq_getElem_cons hj
  have h2 : r.drop i = r[i] :: r.drop (i + 1) := List.drop_eq_getElem_cons hi
  have h3 : r.drop (i + 1) = (r.drop (i + 1)).take (j - i - 1) ++ r.drop j := by
    have := List.take_append_drop (j - i - 1) (r.drop (i + 1))
    rw [List.drop_drop, show i + 1 + (j - i - 1) = j by omega] at this
    exact this.symm
  rw [List.append_assoc, List.cons_append, ← h1, ← h3, ← h2, List.take_append_drop]

/-- C124: beam pruning never makes decoding fail: every node keeps a token, so that a hypothesis is found in every acyclic
lattice with a final node; and no hypothesis is better than the best path. -/
theorem C124_succeeds (hw : L.WF) (hac : ∀ n : Nat, ¬ L.OnCycle n)
    (hin : ∀ n : Nat, n < L.nodes.length → n ≠ L.initial → ∃ a : Nat, L.Edge a n) (hf : L.TimesForward) {width : S}
    (hn : BeamOnly D width) (hfinal : ∃ n : Nat, L.Final n) :
    ∃ (best : Token S St) (rest : List (Token S St)) (recomb : List (Recomb S St)),
      decode D L = .ok (best :: rest, recomb) ∧
      ∃ (ls : List (Link S)) (n : Nat) (z : S), L.Path L.initial ls n ∧ L.Final n ∧ DescribesPath D ls best ∧
        AddedComplete D ls z ∧ best.total = pathScore D L ls z := by
  obtain ⟨finals, recomb, hd, _⟩ := decode_beam hw hac hin hf hn hfinal
  obtain ⟨hne, _⟩ := C29_sorted finals recomb hd
  cases finals with
  | nil => exact absurd rfl hne
  | cons best rest =>
    refine ⟨best, rest, recomb, hd, ?_⟩
    obtain ⟨ls, n, h1, h2, h3⟩ := (decode_inv hw (path_keeps D L) hd).1 best (by simp)
    obtain ⟨z, hz⟩ := addedComplete_exists (D := D) ls
    refine ⟨ls, n, z, h1, h2, by rw [h3]; exact describes_end ls, hz, ?_⟩
    rw [h3, runEnd_total hn.linear, addedComplete_run hz]

/-- C124: the best hypothesis is at least as good as every complete path that stays within the beam. -/
theorem C124_within (hw : L.WF) (hac : ∀ n : Nat, ¬ L.OnCycle n)
    (hin : ∀ n : Nat, n < L.nodes.length → n ≠ L.initial → ∃ a : Nat, L.Edge a n) (hf : L.TimesForward) {width : S}
    (hn : BeamOnly D width) (best : Token S St) (rest : List (Token S St)) (recomb : List (Recomb S St))
    (hd : decode D L = .ok (best :: rest, recomb)) (ls : List (Link S)) (n : Nat) (z : S)
    (hp : L.Path L.initial ls n) (hfn : L.Final n) (hz : AddedComplete D ls z) (hwin : WithinBeam D L width ls) :
    pathScore D L ls z ≤ best.total := by
  obtain ⟨finals, recomb', hd', hrep⟩ := decode_beam hw hac hin hf hn ⟨n, hfn⟩
  rw [hd] at hd'
  cases hd'
  obtain ⟨t, ht, _, h2⟩ := hrep ls n hp hfn (runWithin_of hn.linear hwin)
  rw [← addedComplete_run (L := L) hz, ← runEnd_total hn.linear]
  refine le_trans h2 ?_
  rcases List.mem_cons.mp ht with rfl | h
  · exact le_refl _
  · have hdesc := (C29_sorted _ _ hd).2
    unfold Descending at hdesc
    exact (List.pairwise_cons.mp hdesc).1 t h

/-- C124: if a best path stays within the beam, decoding with the beam finds a best path: the total score of the first
hypothesis is the one that is found without a beam (see `C32_best`). -/
theorem C124_optimal (hw : L.WF) (hac : ∀ n : Nat, ¬ L.OnCycle n)
    (hin : ∀ n : Nat, n < L.nodes.length → n ≠ L.initial → ∃ a : Nat, L.Edge a n) (hf : L.TimesForward) {width : S}
    (hn : BeamOnly D width) (ls : List (Link S)) (n : Nat) (z : S) (hp : L.Path L.initial ls n) (hfn : L.Final n)
    (hz : AddedComplete D ls z) (hwin : WithinBeam D L width ls)
    (hbest : ∀ (ls' : List (Link S)) (n' : Nat) (z' : S), L.Path L.initial ls' n' → L.Final n' → AddedComplete D ls' z' →
      pathScore D L ls' z' ≤ pathScore D L ls z) :
    ∃ (best : Token S St) (rest : List (Token S St)) (recomb : List (Recomb S St)),
      decode D L = .ok (best :: rest, recomb) ∧ best.total = pathScore D L ls z := by
  obtain ⟨best, rest, recomb, hd, ls', n', z', h1, h2, _, h3, h4⟩ := C124_succeeds hw hac hin hf hn ⟨n, hfn⟩
  refine ⟨best, rest, recomb, hd, le_antisymm ?_ (C124_within hw hac hin hf hn best rest recomb hd ls n z hp hfn hz hwin)⟩
  rw [h4]
  exact hbest ls' n' z' h1 h2 h3

/-- C124: with a beam that is wider than the difference between the scores of any two paths, of which the better one does not
end earlier, nothing is lost: the result has a hypothesis for every complete path that is at least as good. -/
theorem C124_wide (hw : L.WF) (hac : ∀ n : Nat, ¬ L.OnCycle n)
    (hin : ∀ n : Nat, n < L.nodes.length → n ≠ L.initial → ∃ a : Nat, L.Edge a n) (hf : L.TimesForward) {width : S}
    (hn : BeamOnly D width) (hfinal : ∃ n : Nat, L.Final n)
    (hwide : ∀ (p q : List (Link S)) (n m : Nat) (hp hq : List HistWord) (x y : S), L.Path L.initial p n →
      L.Path L.initial q m → L.NotEarlier n m → AddedPath D p hp x → AddedPath D q hq y →
      partialScore D L q y - partialScore D L p x < width) :
    ∃ (best : Token S St) (rest : List (Token S St)) (recomb : List (Recomb S St)),
      decode D L = .ok (best :: rest, recomb) ∧
      ∀ (ls : List (Link S)) (n : Nat) (z : S), L.Path L.initial ls n → L.Final n → AddedComplete D ls z →
        pathScore D L ls z ≤ best.total ∧ ∃ t ∈ best :: rest, pathScore D L ls z ≤ t.total ∧
          ∃ ws : List HistWord, SameRecent D.recombinationOrder t.history (.inl D.vocab.sos :: ws ++ [.inl D.vocab.eos]) ∧
            List.Forall₂ (HistIs D.vocab) (pathText ls) ws := by
  have hall : ∀ ls : List (Link S), WithinBeam D L width ls := by
    intro ls p q n m hp hq x y _ h2 h3 h4 h5 h6
    have := hwide p q n m hp hq x y h2 h3 h4 h5 h6
    linarith
  obtain ⟨finals, recomb, hd, hrep⟩ := decode_beam hw hac hin hf hn hfinal
  obtain ⟨hne, _⟩ := C29_sorted finals recomb hd
  cases finals with
  | nil => exact absurd rfl hne
  | cons best rest =>
    refine ⟨best, rest, recomb, hd, ?_⟩
    intro ls n z hp hfn hz
    refine ⟨C124_within hw hac hin hf hn best rest recomb hd ls n z hp hfn hz (hall ls), ?_⟩
    obtain ⟨t, ht, h1, h2⟩ := hrep ls n hp hfn (runWithin_of hn.linear (hall ls))
    obtain ⟨⟨ws, h3, h4⟩, _⟩ := describes_end (D := D) (L := L) ls
    refine ⟨t, ht, ?_, ws, by rw [← h3]; exact h1, h4⟩
    rw [← addedComplete_run (L := L) hz, ← runEnd_total hn.linear]
    exact h2

end

/-! ### Examples -/

/-- A lattice with word links and times of nodes; the last node is final. -/
def exTimedLattice (times : List ℚ) (links : List (Nat × Nat × Option Str × ℚ × ℚ)) : Lattice ℚ :=
  let built := links.foldl (fun (p : List Node × List (Link ℚ)) (e : Nat × Nat × Option Str × ℚ × ℚ) =>
    addLink p.1 p.2 ⟨e.1, e.2.1, e.2.2.1, some e.2.2.2.1, some e.2.2.2.2, []⟩)
    (times.map (fun x => { Node.new with time := some x }), [])
  ⟨built.1.modify (times.length - 1) (fun n => { n with final := true }), built.2, 0, none, none, none⟩

/-- Node 1 has the hypotheses "a" and "c", and node 2 has "a" and "c" too.  The network gives a lower probability to "a"
after "a" than after "c". -/
def exBeamLattice : Lattice ℚ := exTimedLattice [0, 1, 2, 2, 3]
  [(0, 1, some "a".toList, 0, 0), (0, 1, some "c".toList, -2, 0), (0, 2, some "a".toList, -6, 0),
   (0, 2, some "c".toList, -15 / 2, 0), (1, 3, some "a".toList, 0, 0), (2, 4, some "a".toList, 20, 0),
   (3, 4, none, 0, 0)]

def exBeam (width : ℚ) : Decoder ℚ (List Nat) := { exDecoder with beam := some width, nnlmWeight := 1, lmScale := some 1, wiPenalty := none }

/-- C124: a wider beam may give a worse result.  With the beam 3 / 2, the hypothesis "c" in node 1 is kept; it becomes so
good in node 3 that "c" is dropped from node 2.  With the narrower beam 1 it is not, and the better path "c a" is found. -/
theorem C124_not_monotone :
    (∃ r, decode (exBeam 1) exBeamLattice = .ok r ∧
      r.1.head?.map (fun t => (t.history, t.total)) = some ([.inl 0, .inr "c".toList, .inl 3, .inl 1], 5 / 2)) ∧
    ∃ r, decode (exBeam (3 / 2)) exBeamLattice = .ok r ∧
      r.1.head?.map (fun t => (t.history, t.total)) = some ([.inl 0, .inl 3, .inl 3, .inl 1], -1) := by
  decide +kernel

theorem exBeamLattice_wf : exBeamLattice.WF := wf_of_check _ (by decide +kernel)

theorem exBeam_acyclic : ∀ n : Nat, ¬ exBeamLattice.OnCycle n := by
  have hlt : ∀ a b : Nat, exBeamLattice.Edge a b → a < b := by
    rintro a b ⟨k, hk, rfl, rfl⟩
    revert k
    decide +kernel
  have htr : ∀ a b : Nat, Relation.TransGen exBeamLattice.Edge a b → a < b := by
    intro a b h
    induction h with
    | single h => exact hlt _ _ h
    | tail _ h ih => exact lt_trans ih (hlt _ _ h)
  exact fun n h => lt_irrefl _ (htr n n h)

theorem exBeam_in : ∀ n : Nat, n < exBeamLattice.nodes.length → n ≠ exBeamLattice.initial →
    ∃ a : Nat, exBeamLattice.Edge a n := by
  have hin : ∀ n < exBeamLattice.nodes.length, n ≠ exBeamLattice.initial →
      ∃ k ∈ exBeamLattice.links, k.endNode = n := by decide +kernel
  intro n hn h0
  obtain ⟨k, h1, h2⟩ := hin n hn h0
  exact ⟨k.startNode, k, h1, rfl, h2⟩

theorem exBeam_times : exBeamLattice.TimesForward := by
  right
  constructor
  · intro n hn
    rcases Option.isSome_iff_exists.mp ((by decide +kernel : ∀ n < exBeamLattice.nodes.length,
      (exBeamLattice.time n).isSome = true) n hn) with ⟨x, hx⟩
    exact ⟨x, hx⟩
  · rintro a b x y ⟨k, hk, rfl, rfl⟩ hx hy
    have := (by decide +kernel : ∀ k ∈ exBeamLattice.links,
      timeLe (exBeamLattice.time k.startNode) (exBeamLattice.time k.endNode) = true) k hk
    rw [hx, hy] at this
    simpa [timeLe] using this

theorem exBeam_only (width : ℚ) (h : 0 ≤ width) : BeamOnly (exBeam width) width := by
  refine ⟨rfl, rfl, rfl, rfl, h, ?_⟩
  intro b b' p p' w e
  obtain ⟨rfl, e'⟩ := List.append_inj' (show b ++ [p] = b' ++ [p'] from e) rfl
  rw [(List.cons.inj e').1]

/-- All paths of at most `fuel` links, and their end nodes. -/
def exPaths (L : Lattice ℚ) : Nat → List (List (Link ℚ) × Nat)
  | 0 => [([], L.initial)]
  | fuel + 1 => ([], L.initial) :: (exPaths L fuel).flatMap (fun e =>
      (L.links.filter (fun k => decide (k.startNode = e.2))).map (fun k => (e.1 ++ [k], k.endNode)))

theorem exBeam_paths {ls : List (Link ℚ)} {n : Nat} (h : exBeamLattice.Path exBeamLattice.initial ls n) :
    (ls, n) ∈ exPaths exBeamLattice 3 := by
  induction h with
  | nil => decide +kernel
  | snoc ls k _ hk ih =>
    exact (by decide +kernel : ∀ e ∈ exPaths exBeamLattice 3, ∀ k ∈ exBeamLattice.links, k.startNode = e.2 →
      (e.1 ++ [k], k.endNode) ∈ exPaths exBeamLattice 3) _ ih k hk rfl

/-- The path "c a". -/
def exBeamPath : List (Link ℚ) :=
  [⟨0, 2, some "c".toList, some (-15 / 2), some 0, []⟩, ⟨2, 4, some "a".toList, some 20, some 0, []⟩]

/-- The hypotheses of C124 hold for the concrete case: with the beam 17, the best path "c a" is within the beam. -/
example : ∃ z : ℚ, WithinBeam (exBeam 17) exBeamLattice 17 exBeamPath ∧ AddedComplete (exBeam 17) exBeamPath z ∧
    ∃ (best : Token ℚ (List Nat)) (rest : List (Token ℚ (List Nat))) (recomb : List (Recomb ℚ (List Nat))),
      decode (exBeam 17) exBeamLattice = .ok (best :: rest, recomb) ∧
      best.total = pathScore (exBeam 17) exBeamLattice exBeamPath z := by
  have hwin : WithinBeam (exBeam 17) exBeamLattice 17 exBeamPath := by
    intro p q n m hp hq x y h1 h2 h3 _ h5 h6
    rw [← runPath_total (L := exBeamLattice) rfl h5, ← runPath_total (L := exBeamLattice) rfl h6]
    exact (by decide +kernel : ∀ e ∈ exPaths exBeamLattice 3, ∀ p ∈ exBeamPath.inits,
      (runPath (exBeam 17) exBeamLattice e.1).total - 17 < (runPath (exBeam 17) exBeamLattice p).total)
      _ (exBeam_paths h3) p ((List.mem_inits _ _).mpr h1)
  obtain ⟨z, hz⟩ := addedComplete_exists (D := exBeam 17) exBeamPath
  have hp : exBeamLattice.Path exBeamLattice.initial exBeamPath 4 :=
    .snoc [_] ⟨2, 4, some "a".toList, some 20, some 0, []⟩
      (.snoc [] ⟨0, 2, some "c".toList, some (-15 / 2), some 0, []⟩ .nil (by decide +kernel)) (by decide +kernel)
  have hfn : exBeamLattice.Final 4 :=
    ⟨_, (by decide +kernel : exBeamLattice.nodes[4]? = some (exBeamLattice.nodes.getD 4 Node.new)), by decide +kernel⟩
  refine ⟨z, hwin, hz, C124_optimal exBeamLattice_wf exBeam_acyclic exBeam_in exBeam_times (exBeam_only 17 (by norm_num))
    exBeamPath 4 z hp hfn hz hwin ?_⟩
  intro ls' n' z' hp' hfn' hz'
  rw [← addedComplete_run (L := exBeamLattice) hz, ← addedComplete_run (L := exBeamLattice) hz', ← runEnd_total rfl,
    ← runEnd_total rfl]
  obtain ⟨nd, h1, h2⟩ := hfn'
  refine (by decide +kernel : ∀ e ∈ exPaths exBeamLattice 3, (exBeamLattice.nodes.getD e.2 Node.new).final = true →
    (runEnd (exBeam 17) exBeamLattice e.1).total ≤ (runEnd (exBeam 17) exBeamLattice exBeamPath).total)
    _ (exBeam_paths hp') ?_
  rw [List.getD_eq_getElem?_getD, h1]
  exact h2

/-- The hypothesis of `C124_wide` holds for the concrete case. -/
example (p q : List (Link ℚ)) (n m : Nat) (hp hq : List HistWord) (x y : ℚ)
    (h1 : exBeamLattice.Path exBeamLattice.initial p n) (h2 : exBeamLattice.Path exBeamLattice.initial q m)
    (h3 : AddedPath (exBeam 40) p hp x) (h4 : AddedPath (exBeam 40) q hq y) :
    partialScore (exBeam 40) exBeamLattice q y - partialScore (exBeam 40) exBeamLattice p x < 40 := by
  rw [← runPath_total (L := exBeamLattice) rfl h3, ← runPath_total (L := exBeamLattice) rfl h4]
  exact (by decide +kernel : ∀ e ∈ exPaths exBeamLattice 3, ∀ e' ∈ exPaths exBeamLattice 3,
    (runPath (exBeam 40) exBeamLattice e.1).total - (runPath (exBeam 40) exBeamLattice e'.1).total < 40)
    _ (exBeam_paths h2) _ (exBeam_paths h1)

end TheanoLM
