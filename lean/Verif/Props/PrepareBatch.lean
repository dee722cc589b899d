import Verif.Props.Vocabulary
import Verif.Props.BatchIterator
import Verif.Lemmas.PrepareBatch
/-!
# Properties of mini-batch matrices: C07, C08
-/
namespace TheanoLM

/-! ## Specification -/

/-- A matrix with `rows` rows and `cols` columns. -/
def Shape (m : List (List α)) (rows cols : Nat) : Prop := m.length = rows ∧ ∀ r ∈ m, r.length = cols

/-- `Rows`: column `i` of a matrix with `T` time steps contains the elements of `xs` and after them the padding `d`. -/
def PaddedColumn (m : List (List α)) (T i : Nat) (xs : List α) (d : α) : Prop :=
  (∀ (t : Nat) (x : α), xs[t]? = some x → cell m t i = some x) ∧ (∀ t, xs.length ≤ t → t < T → cell m t i = some d)

/-- `IdOf v mapOos unkId w id`: `id` is how the word `w` has to be represented. -/
inductive IdOf (v : Vocab) (mapOos : Bool) (unkId : Nat) : Str → Nat → Prop
  | known (w : Str) (i : Nat) (h : v.idToWord[i]? = some w) (hs : mapOos = true → i < v.numShortlist) :
      IdOf v mapOos unkId w i
  | outOfShortlist (w : Str) (i : Nat) (h : v.idToWord[i]? = some w) (hm : mapOos = true) (hs : v.numShortlist ≤ i) :
      IdOf v mapOos unkId w unkId
  | unknown (w : Str) (h : w ∉ v.idToWord) : IdOf v mapOos unkId w unkId

/-- The elements of column `i` where the mask is one. -/
def maskedColumn (m : List (List α)) (mask : List (List Nat)) (i : Nat) : List α :=
  (List.range m.length).filterMap (fun t => if cell mask t i = some 1 then cell m t i else none)

/-! ## Proofs -/

theorem tokenId_spec {v : Vocab} (hn : v.idToWord.Nodup) (mapOos : Bool) (unkId : Nat) (w : Str) :
    IdOf v mapOos unkId w (tokenId v mapOos unkId w) := by
  unfold tokenId
  cases hw : v.wordToId w with
  | none => exact .unknown w (wordToId_none.mp hw)
  | some i =>
    have hi := (wordToId_iff hn).mp hw
    simp only
    split
    · rename_i h
      refine .known w i hi ?_
      intro hm
      rcases h with h | h
      · rw [hm] at h; cases h
      · simpa [Vocab.inShortlist, Vocab.numShortlist] using h
    · rename_i h
      rw [not_or] at h
      refine .outOfShortlist w i hi (by simpa using h.1) ?_
      have := h.2
      simp only [Vocab.inShortlist, decide_eq_true_eq] at this
      unfold Vocab.numShortlist
      omega

theorem filled_padded (cols : List (List α)) (d : α) (T : Nat) (hT : ∀ c ∈ cols, c.length ≤ T) {i : Nat} {c : List α}
    (hc : cols[i]? = some c) :
    PaddedColumn (setColumns cols 0 (List.replicate T (List.replicate cols.length d))) T i c d := by
  have hl := hT c (List.mem_of_getElem? hc)
  constructor
  · intro t x hx
    have := (List.getElem?_eq_some_iff.mp hx).1
    rw [filled_cell cols d T hc (by omega), hx]; rfl
  · intro t h1 h2
    rw [filled_cell cols d T hc h2, List.getElem?_eq_none h1]; rfl

theorem filled_shape (cols : List (List α)) (d : α) (T n : Nat) :
    Shape (setColumns cols 0 (List.replicate T (List.replicate n d))) T n := by
  refine ⟨by rw [setColumns_length, List.length_replicate], ?_⟩
  apply setColumns_row
  intro r hr
  rw [(List.mem_replicate.mp hr).2, List.length_replicate]

theorem maskedColumn_eq (m : List (List α)) (mask : List (List Nat)) (T i : Nat) (xs : List α) (d : α)
    (hT : m.length = T) (hl : xs.length ≤ T) (h1 : PaddedColumn m T i xs d)
    (h2 : PaddedColumn mask T i (xs.map (fun _ => 1)) 0) : maskedColumn m mask i = xs := by
  unfold maskedColumn
  rw [hT]
  have e : T = xs.length + (T - xs.length) := by omega
  rw [e, List.range_add, List.filterMap_append]
  have a1 : (List.range xs.length).filterMap (fun t => if cell mask t i = some 1 then cell m t i else none) =
      (List.range xs.length).filterMap (fun t => xs[t]?) := by
    apply List.filterMap_congr
    intro t ht
    rw [List.mem_range] at ht
    have hx := List.getElem?_eq_getElem ht
    rw [h2.1 t 1 (by simp [ht]), if_pos rfl, h1.1 t _ hx, hx]
  have a2 : ((List.range (T - xs.length)).map (xs.length + ·)).filterMap
      (fun t => if cell mask t i = some 1 then cell m t i else none) = [] := by
    rw [List.filterMap_eq_nil_iff]
    intro t ht
    obtain ⟨k, hk, rfl⟩ := List.mem_map.mp ht
    rw [List.mem_range] at hk
    rw [h2.2 _ (by simp) (by omega), if_neg (by simp)]
  rw [a1, a2, List.append_nil]
  clear a1 a2 e h1 h2 hl
  induction xs with
  | nil => rfl
  | cons x xs ih =>
    rw [List.length_cons, List.range_succ_eq_map, List.filterMap_cons]
    simp only [List.getElem?_cons_zero, List.filterMap_map]
    congr 1

/-- C07: the matrices of a training batch.  The number of rows is the length of the longest sequence.  For each sequence,
the column has the IDs of the words followed by `<unk>`, the mask has ones followed by zeros, and the file IDs are those of the
sequence as 8-bit integers; taking the elements where the mask is one gives the sequence back. -/
theorem C07_training (P : Parsers) (v : Vocab) (h : Constructible P v) (mapOos : Bool) (sequences : List (List Tok))
    (hne : sequences ≠ []) :
    ∃ unkId wordIds fileIds mask T, v.wordToId unk = some unkId ∧
      prepareBatch v mapOos sequences = .ok (wordIds, fileIds, mask) ∧
      (∀ s ∈ sequences, s.length ≤ T) ∧ (∃ s ∈ sequences, s.length = T) ∧
      Shape wordIds T sequences.length ∧ Shape fileIds T sequences.length ∧ Shape mask T sequences.length ∧
      ∀ i s, sequences[i]? = some s → ∃ ids : List Nat,
        List.Forall₂ (fun p id => IdOf v mapOos unkId p.1 id) s ids ∧
        PaddedColumn wordIds T i ids unkId ∧ PaddedColumn mask T i (s.map (fun _ => 1)) 0 ∧
        PaddedColumn fileIds T i (s.map (fun p => int8 p.2)) 0 ∧
        maskedColumn wordIds mask i = ids ∧ maskedColumn fileIds mask i = s.map (fun p => int8 p.2) := by
  obtain ⟨n, ps, hv⟩ := h.inv
  obtain ⟨unkId, _, hunk, _⟩ := hv.wordToId (.inr (.inr rfl))
  have hmax := foldl_max_le (sequences.map List.length) 0
  have hle : ∀ s ∈ sequences, s.length ≤ maxLength sequences :=
    fun s hs => hmax.2 _ (List.mem_map.mpr ⟨s, hs, rfl⟩)
  have hprep : prepareBatch v mapOos sequences = .ok
      (setColumns (sequences.map (fun s => s.map (fun p => tokenId v mapOos unkId p.1))) 0
        (List.replicate (maxLength sequences) (List.replicate sequences.length unkId)),
       setColumns (sequences.map (fun s => s.map (fun p => int8 p.2))) 0
        (List.replicate (maxLength sequences) (List.replicate sequences.length 0)),
       setColumns (sequences.map (fun s => s.map (fun _ => 1))) 0
        (List.replicate (maxLength sequences) (List.replicate sequences.length 0))) := by
    unfold prepareBatch
    rw [if_neg hne, hunk]
  refine ⟨unkId, _, _, _, maxLength sequences, hunk, hprep, hle, ?_, filled_shape _ _ _ _, filled_shape _ _ _ _,
    filled_shape _ _ _ _, ?_⟩
  · rcases foldl_max_mem (sequences.map List.length) 0 with h0 | h0
    · obtain ⟨s, hs⟩ := List.exists_mem_of_ne_nil _ hne
      have := hle s hs
      have h0' : maxLength sequences = 0 := h0
      exact ⟨s, hs, by omega⟩
    · obtain ⟨s, hs, he⟩ := List.mem_map.mp h0
      exact ⟨s, hs, he⟩
  · intro i s hs
    have key : ∀ {α : Type} (f : Tok → α) (d : α), PaddedColumn
        (setColumns (sequences.map (fun s => s.map f)) 0
          (List.replicate (maxLength sequences) (List.replicate sequences.length d))) (maxLength sequences) i (s.map f) d := by
      intro α f d
      have := filled_padded (sequences.map (fun s => s.map f)) d (maxLength sequences) (by
        intro c hc
        obtain ⟨s', hs', rfl⟩ := List.mem_map.mp hc
        rw [List.length_map]
        exact hle s' hs') (i := i) (c := s.map f) (by simp [hs])
      rwa [List.length_map] at this
    have hsl := hle s (List.mem_of_getElem? hs)
    refine ⟨s.map (fun p => tokenId v mapOos unkId p.1), ?_, key _ _, key _ _, key _ _, ?_, ?_⟩
    · rw [List.forall₂_map_right_iff, List.forall₂_same]
      intro p _
      exact tokenId_spec hv.nodup mapOos unkId p.1
    · refine maskedColumn_eq _ _ (maxLength sequences) i _ unkId (filled_shape _ _ _ _).1 (by simpa using hsl) (key _ _) ?_
      rw [List.map_map]
      exact key _ _
    · refine maskedColumn_eq _ _ (maxLength sequences) i _ 0 (filled_shape _ _ _ _).1 (by simpa using hsl) (key _ _) ?_
      rw [List.map_map]
      exact key _ _

/-- C07 for scoring: the word IDs and the mask are the same as in training, and the words are those of the sequences. -/
theorem C07_scoring (v : Vocab) (mapOos : Bool) (sequences : List (List Tok)) :
    prepareScoringBatch v mapOos sequences = match prepareBatch v mapOos sequences with
      | .error e => .error e
      | .ok (wordIds, _, mask) => .ok (wordIds, sequences.map (fun s => s.map Prod.fst), mask) := by
  unfold prepareScoringBatch prepareBatch
  split
  · rfl
  · split <;> rfl

/-- An empty batch (which the iterators never produce, see `C03_pass`) raises `ValueError`. -/
theorem C07_empty (v : Vocab) (mapOos : Bool) : prepareBatch v mapOos [] = .error .valueError := rfl

/-- File IDs are preserved for at most 128 files; file number 128 becomes -128. -/
theorem C07_file_ids (n : Nat) : (n < 128 → int8 n = n) ∧ int8 128 = -128 := by
  refine ⟨?_, by decide⟩
  intro h
  unfold int8
  omega

/-! ## C08 -/

theorem classMembership_ok {v : Vocab} {n : Nat} {ps : List ℚ} (hv : VInv v n ps) (i : Nat) :
    ∃ c p, v.classMembership i = .ok (c, p) ∧ c < v.numClasses ∧
      (i < v.numShortlist → v.classOf[i]? = some c ∧ v.getWordProb i = .ok p) := by
  obtain ⟨unkId, hlt, hunk, _⟩ := hv.wordToId (.inr (.inr rfl))
  unfold Vocab.classMembership
  rw [hunk]
  simp only
  have hj : (if v.numShortlist ≤ i then unkId else i) < v.classOf.length := by
    split
    · exact hlt
    · unfold Vocab.numShortlist at *; omega
  generalize hj' : (if v.numShortlist ≤ i then unkId else i) = j at hj
  have hc := List.getElem?_eq_getElem hj
  rw [hc]
  simp only [hv.memberProb hc]
  refine ⟨_, _, rfl, ?_, ?_⟩
  · rw [hv.numClasses]; exact hv.lt _ (List.getElem_mem hj)
  · intro hi
    rw [if_neg (by omega)] at hj'
    subst hj'
    exact ⟨hc, hv.getWordProb hi⟩

/-- C08: when out-of-shortlist words are mapped to `<unk>`, every word ID of a prepared batch is in the shortlist, and
finding its class and membership probability does not fail.  Words outside the vocabulary become `<unk>`
(see `IdOf` in `C07_training`). -/
theorem C08_valid_ids (P : Parsers) (v : Vocab) (h : Constructible P v) (sequences : List (List Tok))
    (wordIds : List (List Nat)) (fileIds : List (List ℤ)) (mask : List (List Nat))
    (hb : prepareBatch v true sequences = .ok (wordIds, fileIds, mask)) :
    ∀ row ∈ wordIds, ∀ id ∈ row, id < v.numShortlist ∧
      ∃ c p, v.classMembership id = .ok (c, p) ∧ c < v.numClasses ∧ v.classOf[id]? = some c := by
  intro row hrow id hid
  obtain ⟨n, ps, hv⟩ := h.inv
  have hne : sequences ≠ [] := by
    rintro rfl
    rw [C07_empty] at hb; cases hb
  obtain ⟨unkId, w', f', m', T, hunk, hb', hle, _, hs1, _, _, hcols⟩ := C07_training P v h true sequences hne
  rw [hb] at hb'
  cases hb'
  obtain ⟨t, ht⟩ := List.mem_iff_getElem?.mp hrow
  obtain ⟨i, hi⟩ := List.mem_iff_getElem?.mp hid
  have hcell : cell wordIds t i = some id := by simp [cell, ht, hi]
  have hil : i < sequences.length := by
    have := (List.getElem?_eq_some_iff.mp hi).1
    rwa [hs1.2 row hrow] at this
  have htl : t < T := by
    have := (List.getElem?_eq_some_iff.mp ht).1
    rwa [hs1.1] at this
  have hlt : id < v.numShortlist := by
    obtain ⟨unkId', hu1, hu2, _⟩ := hv.wordToId (.inr (.inr rfl))
    rw [hunk] at hu2
    cases hu2
    obtain ⟨ids, hf, hp, _⟩ := hcols i _ (List.getElem?_eq_getElem hil)
    by_cases htids : t < ids.length
    · have h1 := hp.1 t _ (List.getElem?_eq_getElem htids)
      rw [hcell] at h1
      cases h1
      have htl2 : t < (sequences[i]).length := by rw [hf.length_eq]; exact htids
      have hid2 := hf.get htl2 htids
      cases hid2 with
      | known _ _ hs => exact hs rfl
      | outOfShortlist => exact hu1
      | unknown => exact hu1
    · have h1 := hp.2 t (by omega) htl
      rw [hcell] at h1
      cases h1
      exact hu1
  obtain ⟨c, p, h1, h2, h3⟩ := classMembership_ok hv id
  exact ⟨hlt, c, p, h1, h2, (h3 hlt).1⟩

/-- C08 without the mapping: finding the class of a word ID of a batch never fails either; out-of-shortlist words are in
the class of `<unk>`. -/
theorem C08_any_id (P : Parsers) (v : Vocab) (h : Constructible P v) (id : Nat) :
    ∃ c p, v.classMembership id = .ok (c, p) ∧ c < v.numClasses := by
  obtain ⟨n, ps, hv⟩ := h.inv
  obtain ⟨c, p, h1, h2, _⟩ := classMembership_ok hv id
  exact ⟨c, p, h1, h2⟩

/-- C68: the class and membership probability of a word ID; word IDs that are not in the shortlist get those of `<unk>`. -/
theorem C68_memberships (P : Parsers) (v : Vocab) (h : Constructible P v) (unkId : Nat)
    (hunk : v.wordToId unk = some unkId) (id : Nat) :
    ∃ c p, v.classMembership id = .ok (c, p) ∧
      (id < v.numShortlist → v.classOf[id]? = some c ∧ v.getWordProb id = .ok p) ∧
      (v.numShortlist ≤ id → v.classOf[unkId]? = some c ∧ v.getWordProb unkId = .ok p) := by
  obtain ⟨n, ps, hv⟩ := h.inv
  obtain ⟨unkId', hlt, hunk', _⟩ := hv.wordToId (.inr (.inr rfl))
  rw [hunk] at hunk'
  cases hunk'
  obtain ⟨c, p, h1, _, h3⟩ := classMembership_ok hv id
  refine ⟨c, p, h1, h3, ?_⟩
  intro hid
  unfold Vocab.classMembership at h1
  rw [hunk] at h1
  simp only at h1
  rw [if_pos hid, List.getElem?_eq_getElem hlt] at h1
  simp only [hv.memberProb (List.getElem?_eq_getElem hlt), Except.ok.injEq, Prod.mk.injEq] at h1
  obtain ⟨rfl, rfl⟩ := h1
  exact ⟨List.getElem?_eq_getElem hlt, hv.getWordProb hlt⟩

example : ∃ v, vocabFromFile exParsers ["a 0".toList, "<unk> 0".toList, "b 1".toList] .classes ["x".toList] = .ok v ∧
    v.numShortlist = 5 ∧ v.numWords = 6 ∧ v.classMembership 5 = .ok (0, 1/2) ∧ v.classMembership 2 = .ok (1, 1) := by
  decide +kernel

/-- Words are converted to IDs elsewhere (`words_to_ids`, used in scoring lines and decoding) in the same way, without
mapping out-of-shortlist words. -/
theorem C08_words_to_ids (P : Parsers) (v : Vocab) (h : Constructible P v) (words : List Str) :
    ∃ unkId ids, v.wordToId unk = some unkId ∧ v.wordsToIds words = .ok ids ∧
      List.Forall₂ (IdOf v false unkId) words ids := by
  obtain ⟨n, ps, hv⟩ := h.inv
  obtain ⟨unkId, _, hunk, _⟩ := hv.wordToId (.inr (.inr rfl))
  refine ⟨unkId, words.map (fun w => tokenId v false unkId w), hunk, ?_, ?_⟩
  · unfold Vocab.wordsToIds
    rw [hunk]
    simp only [Except.ok.injEq]
    apply List.map_congr_left
    intro w _
    unfold tokenId
    cases v.wordToId w <;> simp
  · rw [List.forall₂_map_right_iff, List.forall₂_same]
    intro w _
    exact tokenId_spec hv.nodup false unkId w

set_option synthInstance.maxSize 2000 in
example : ∃ v, vocabFromFile exParsers exVocabLines .classes ["x".toList] = .ok v ∧
    prepareBatch v true [[(sos, 0), ("a".toList, 0), ("x".toList, 0)], [("zz".toList, 1)]] =
      .ok ([[3, 5], [1, 5], [5, 5]], [[0, 1], [0, 0], [0, 0]], [[1, 1], [1, 0], [1, 0]]) ∧
    prepareBatch v false [[(sos, 0), ("a".toList, 0), ("x".toList, 0)]] =
      .ok ([[3], [1], [6]], [[0], [0], [0]], [[1], [1], [1]]) := by
  decide +kernel

end TheanoLM
