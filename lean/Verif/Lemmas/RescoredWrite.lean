import Verif.Lemmas.RescoredShape
import Verif.Lemmas.KaldiWrite
import Verif.Props.LatticeBatch
import Verif.Lemmas.WordClassFile
import Verif.Lemmas.SlfRoundTrip
import Mathlib.Data.List.Sort
/-!
# Lemmas about writing rescored lattices in Kaldi format
-/
namespace TheanoLM

variable {S : Type}

set_option linter.unusedSectionVars false

/-! ## The lines -/

theorem kaldiLine_congr [Neg S] {T : NumText S} {wordToId : Str → Option ℤ} {L L' : Lattice S}
    (hf : L.nodes.map Node.final = L'.nodes.map Node.final) (k : Link S) :
    kaldiLinkLine T wordToId L k = kaldiLinkLine T wordToId L' k := by
  have h : (L.nodes.getD k.endNode Node.new).final = (L'.nodes.getD k.endNode Node.new).final := by
    have := congrArg (fun l => l[k.endNode]?) hf
    simp only [List.getElem?_map] at this
    rw [List.getD_eq_getElem?_getD, List.getD_eq_getElem?_getD]
    cases h1 : L.nodes[k.endNode]? <;> cases h2 : L'.nodes[k.endNode]? <;> rw [h1, h2] at this <;> simp at this
    all_goals first | rfl | exact this
  unfold kaldiLinkLine
  rw [h]

theorem writeKaldi_congr [Neg S] {T : NumText S} {wordToId : Str → Option ℤ} {L L' : Lattice S}
    (hn : L.nodes.map Node.outLinks = L'.nodes.map Node.outLinks) (hf : L.nodes.map Node.final = L'.nodes.map Node.final)
    (hl : L.links = L'.links) (hu : L.utteranceId = L'.utteranceId) :
    writeKaldi T wordToId L = writeKaldi T wordToId L' := by
  have h1 : ∀ M : Lattice S, M.nodes.flatMap (fun n => n.outLinks.filterMap (fun l => M.links[l]?)) =
      (M.nodes.map Node.outLinks).flatMap (fun o => o.filterMap (fun l => M.links[l]?)) := fun M => by
    rw [List.flatMap_map]
  have h2 : kaldiLinkLine T wordToId L = kaldiLinkLine T wordToId L' := funext (kaldiLine_congr hf)
  have h3 := h1 L
  rw [hn, hl, ← h1 L'] at h3
  unfold writeKaldi
  simp only [hl, h3, h2, hu]

/-- The lines of a lattice, between an utterance ID and an empty line. -/
theorem kaldiLoop_congr [Zero S] [Neg S] {T : NumText S} {idToWord : List (Option Str)} : ∀ (ls ls' : List Str) (st : KaldiSt S),
    ls.map pySplit = ls'.map pySplit → kaldiLoop T idToWord ls st = kaldiLoop T idToWord ls' st := by
  intro ls
  induction ls with
  | nil => intro ls' st h; cases ls' with
    | nil => rfl
    | cons _ _ => cases h
  | cons l ls ih =>
    intro ls' st h
    cases ls' with
    | nil => cases h
    | cons l' ls' =>
      simp only [List.map_cons, List.cons.injEq] at h
      unfold kaldiLoop
      simp only [pySplit_strip, h.1]
      split
      · exact ih _ _ h.2
      · cases kaldiLine T idToWord (pySplit l') st with
        | error e => rfl
        | ok st => exact ih _ _ h.2

theorem kaldiLoop_snoc [Zero S] [Neg S] {T : NumText S} {idToWord : List (Option Str)} : ∀ (ls : List Str) (st : KaldiSt S),
    kaldiLoop T idToWord (ls ++ [[]]) st = kaldiLoop T idToWord ls st := by
  intro ls
  induction ls with
  | nil =>
    intro st
    have : pySplit (strip []) = [] := by decide
    simp [kaldiLoop, this]
  | cons l ls ih =>
    intro st
    rw [List.cons_append, kaldiLoop, kaldiLoop]
    simp only [ih]

theorem pySplit_newline (l : Str) : pySplit (l ++ ['\n']) = pySplit l := by
  obtain ⟨ws, hw⟩ := Words_total l
  rw [pySplit_of_Words hw, pySplit_of_Words (Words_newline hw)]

theorem strip_newline (l : Str) : strip (l ++ ['\n']) = strip l := by
  unfold strip
  have hr : ∀ m : Str, rstrip (m ++ ['\n']) = rstrip m := fun m => by
    unfold rstrip
    rw [List.reverse_append]
    have : isSpace '\n' = true := by decide
    simp [this]
  induction l with
  | nil => decide
  | cons c l ih =>
    rw [List.cons_append, List.dropWhile_cons, List.dropWhile_cons]
    split
    · exact ih
    · rw [← List.cons_append, hr]

theorem strip_field {w : Str} (h : FieldWord w) : strip w = w := by
  have hs : ∀ c, c ∈ w → isSpace c = false := h.2
  have h1 : ∀ m : Str, (∀ c ∈ m, isSpace c = false) → m.dropWhile isSpace = m := by
    intro m hm
    cases m with
    | nil => rfl
    | cons c m => rw [List.dropWhile_cons, if_neg (by simp [hm c (by simp)])]
  unfold strip rstrip
  rw [h1 w hs, h1 w.reverse (fun c hc => hs c (List.mem_reverse.mp hc)), List.reverse_reverse]

/-- The lattice of a block. -/
theorem readKaldi_block [Zero S] [Neg S] (T : NumText S) (idToWord : List (Option Str)) (u : Str) (ls : List Str) :
    readKaldi T (((u :: ls).map (· ++ ['\n'])).map strip) idToWord = readKaldi T (u :: (ls ++ [[]])) idToWord := by
  simp only [List.map_cons, readKaldi, strip_strip, strip_newline, kaldiLoop_snoc]
  rw [kaldiLoop_congr ((ls.map (· ++ ['\n'])).map strip) ls]
  rw [List.map_map, List.map_map]
  refine List.map_congr_left fun l _ => ?_
  simp only [Function.comp_apply]
  rw [pySplit_strip, pySplit_newline]

theorem kaldiBlocks_run (blank : Str) (hb : strip blank = []) (rest : List Str) : ∀ (run block : List Str),
    (∀ l ∈ run, strip l ≠ []) → block ++ run ≠ [] →
    kaldiBlocks (run ++ blank :: rest) block = (block ++ run.map strip) :: kaldiBlocks rest [] := by
  intro run
  induction run with
  | nil =>
    intro block _ hne
    simp only [List.append_nil] at hne
    simp [kaldiBlocks, hb, hne]
  | cons l run ih =>
    intro block hr _
    rw [List.cons_append, kaldiBlocks]
    rw [if_neg (hr l (by simp)), ih _ (fun l hl => hr l (List.mem_cons_of_mem _ hl)) (by simp)]
    simp

theorem strip_ne_nil {w : Str} {l : Str} {ws : List Str} (h : Words l (w :: ws)) : strip l ≠ [] := by
  intro he
  have h1 := pySplit_of_Words h
  rw [← pySplit_strip, he] at h1
  have : pySplit [] = [] := by decide
  rw [this] at h1
  cases h1

/-! ## The rescored lattice -/

section
variable [Field S] [LinearOrder S] {P : Str → Prop} {Q : Char → Prop} {R : RLat S}

def RLink.toK (k : RLink S) : KLink S := ⟨k.startNode, k.endNode, k.word, k.ac, k.lm, k.transitions⟩

theorem maxBound_le {ks : List (KLink S)} {n : Nat} (h : ∀ k ∈ ks, k.bound ≤ n) : maxBound ks ≤ n := by
  unfold maxBound
  induction ks with
  | nil => simp
  | cons k ks ih =>
    simp only [List.map_cons, List.foldr_cons]
    have h1 := h k (by simp)
    have h2 := ih (fun k hk => h k (List.mem_cons_of_mem _ hk))
    omega

theorem Tidy.bound (h : Tidy P Q (fun _ => False) R) : maxBound (R.links.map RLink.toK) = R.nodes.length := by
  apply le_antisymm
  · apply maxBound_le
    intro k hk
    obtain ⟨r, hr, rfl⟩ := List.mem_map.mp hk
    have h1 := h.starts r hr
    have h2 := h.ends r hr
    unfold KLink.bound RLink.toK
    dsimp only
    cases he : r.endNode with
    | none => simp; omega
    | some e => have := h2 e he; simp; omega
  · have hpos := h.nonempty
    obtain ⟨k, hk, hs⟩ := h.closed (R.nodes.length - 1) (by omega) id
    have h1 := le_maxBound (List.mem_map_of_mem (f := RLink.toK) hk)
    unfold KLink.bound RLink.toK at h1
    dsimp only at h1
    have := le_trans (le_max_left _ _) h1
    unfold RLink.toK
    omega

theorem idxs_sorted {α : Type} (p : α → Bool) (l : List α) : (idxs p l).Pairwise (· < ·) := by
  induction l using List.reverseRecOn with
  | nil => simp [idxs]
  | append_singleton l x ih =>
    rw [idxs_append_single, List.pairwise_append]
    refine ⟨ih, by split <;> simp, ?_⟩
    intro a ha b hb
    obtain ⟨y, hy, _⟩ := mem_idxs.mp ha
    have := (List.getElem?_eq_some_iff.mp hy).1
    split at hb
    · simp at hb; omega
    · simp at hb

theorem sorted_ext {l l' : List Nat} (h : l.Pairwise (· < ·)) (h' : l'.Pairwise (· < ·)) (hm : ∀ i, i ∈ l ↔ i ∈ l') : l = l' := by
  have hn : ∀ {l : List Nat}, l.Pairwise (· < ·) → l.Nodup := fun h => h.imp (fun h => Nat.ne_of_lt h)
  exact List.Perm.eq_of_pairwise (le := (· < ·)) (fun a b _ _ h1 h2 => by omega) h h'
    ((List.perm_ext_iff_of_nodup (hn h) (hn h')).mpr hm)

theorem Tidy.outLinks (h : Tidy P Q (fun _ => False) R) :
    R.nodes.map RNode.outLinks = (List.range R.nodes.length).map (fun n => idxs (startIs n) (R.links.map RLink.toK)) := by
  apply List.ext_getElem?
  intro n
  rw [List.getElem?_map, List.getElem?_map]
  by_cases hn : n < R.nodes.length
  · have hg : R.nodes[n]? = some R.nodes[n] := List.getElem?_eq_getElem hn
    rw [hg, List.getElem?_range hn, Option.map_some, Option.map_some]
    congr 1
    refine sorted_ext (h.nodup _ (List.getElem_mem hn)) (idxs_sorted _ _) fun i => ?_
    rw [h.outs n _ hg, mem_idxs]
    constructor
    · rintro ⟨k, h1, h2⟩
      exact ⟨k.toK, by rw [List.getElem?_map, h1]; rfl, by simp [startIs, RLink.toK, h2]⟩
    · rintro ⟨x, h1, h2⟩
      rw [List.getElem?_map] at h1
      obtain ⟨k, hk, rfl⟩ := Option.map_eq_some_iff.mp h1
      exact ⟨k, hk, of_decide_eq_true h2⟩
  · rw [List.getElem?_eq_none (by omega), List.getElem?_eq_none (by simp; omega)]; rfl

theorem Tidy.links (h : Tidy P Q (fun _ => False) R) (u : Str) :
    (R.toLattice (some u)).links = (latticeOf u 0 (R.links.map RLink.toK)).links := by
  unfold RLat.toLattice latticeOf
  simp only [h.bound, List.map_map]
  rfl

/-- The text of a rescored lattice. -/
theorem Tidy.write (h : Tidy P Q (fun _ => False) R) (T : NumText S) (wordToId : Str → Option ℤ) (u : Str) (s p : Option S) :
    writeKaldi T wordToId { R.toLattice (some u) with lmScale := s, wiPenalty := p } =
      writeKaldi T wordToId (latticeOf u 0 (R.links.map RLink.toK)) := by
  apply writeKaldi_congr
  · have h1 : (latticeOf u 0 (R.links.map RLink.toK)).nodes.map Node.outLinks =
        (List.range R.nodes.length).map (fun n => idxs (startIs n) (R.links.map RLink.toK)) ++ [[]] := by
      unfold latticeOf regNodes
      simp [h.bound]
    rw [h1, ← h.outLinks]
    simp [RLat.toLattice]
  · unfold latticeOf regNodes RLat.toLattice
    simp only [h.bound, List.map_append, List.map_map]
    congr 1
    apply List.ext_getElem (by simp)
    intro i h1 h2
    simp
  · exact h.links u
  · rfl

end
end TheanoLM
