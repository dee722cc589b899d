import Verif.Model.TextFile
import Verif.Props.Parsing
import Verif.Lemmas.SlfRoundTrip
import Verif.Lemmas.Network
/-!
# Compressed text files: C143
-/
namespace TheanoLM

/-! ## Specification -/

/-- The contract of the functions of Python.  In UTF-8, the byte 10 occurs only as the newline, and a byte from 128 to 191 cannot follow
an ASCII character.  Compressed data, if there is any, begins with the bytes 31 and 139. -/
structure TextCodec.Contract (io : TextCodec) : Prop where
  empty : io.decode [] = some []
  line : ∀ a b, io.decode (a ++ 10 :: b) = (io.decode a).bind fun x => (io.decode b).map fun y => x ++ '\n' :: y
  newline : ∀ a x, io.decode a = some x → 10 ∉ a → '\n' ∉ x
  nonempty : ∀ a, io.decode a = some [] → a = []
  continuation : ∀ a b rest, a < 128 → 128 ≤ b → b < 192 → io.decode (a :: b :: rest) = none
  magic : ∀ data bytes, io.gunzip data = some bytes → data = [] ∨ ∃ rest, data = 31 :: 139 :: rest

/-! ## Lemmas -/

/-- Lines of bytes: only the last one may be without a newline. -/
inductive ByteLines : List (List UInt8) → Prop
  | nil : ByteLines []
  | last (b : List UInt8) (hne : b ≠ []) (h : 10 ∉ b) : ByteLines [b]
  | cons (b : List UInt8) (ls : List (List UInt8)) (h : 10 ∉ b) (hl : ByteLines ls) : ByteLines ((b ++ [10]) :: ls)

theorem isNlByte_iff {b : UInt8} : isNlByte b = true ↔ b = 10 := by
  unfold isNlByte
  exact beq_iff_eq

theorem byteLines_of_pointers {data : List UInt8} (hd : data ≠ []) (ps : List Nat) (hs : ps.Pairwise (· < ·))
    (hp : ∀ p ∈ ps, p ∈ findSentenceStarts isNlByte data) : ByteLines (ps.map (readlineAt isNlByte data)) := by
  induction ps with
  | nil => exact .nil
  | cons p qs ih =>
    rw [List.pairwise_cons] at hs
    have hls := ih hs.2 fun q hq => hp q (List.mem_cons_of_mem _ hq)
    obtain ⟨h1, h2, h3⟩ := C02_one_line isNlByte data p (hp p List.mem_cons_self)
    have hne : readlineAt isNlByte data p ≠ [] := fun h => hd (h3 h)
    rw [List.map_cons]
    have hdrop : 10 ∉ (readlineAt isNlByte data p).dropLast := by
      intro h
      have := h1 _ h
      rw [isNlByte_iff.mpr rfl] at this
      cases this
    have hdec := List.dropLast_append_getLast hne
    by_cases hlast : (readlineAt isNlByte data p).getLast hne = 10
    · rw [← hdec, hlast]
      exact .cons _ _ hdrop hls
    · have hno : 10 ∉ readlineAt isNlByte data p := by
        rw [← hdec, List.mem_append, List.mem_singleton]
        rintro (h | h)
        · exact hdrop h
        · exact hlast h.symm
      have hall : readlineAt isNlByte data p = data.drop p := by
        rcases h2 with ⟨x, hx, hx2⟩ | h
        · rw [isNlByte_iff.mp hx2] at hx
          exact absurd (List.mem_of_getLast? hx) hno
        · exact h
      have hq : qs = [] := by
        rw [List.eq_nil_iff_forall_not_mem]
        intro q hq
        have hlt := hs.1 q hq
        rcases ((C02_positions isNlByte data).1 q).mp (hp q (List.mem_cons_of_mem _ hq)) with rfl | ⟨_, _, x, hx, hx2⟩
        · omega
        · rw [isNlByte_iff.mp hx2] at hx
          apply hno
          rw [hall]
          apply List.mem_of_getElem? (i := q - 1 - p)
          rw [List.getElem?_drop, show p + (q - 1 - p) = q - 1 by omega]
          exact hx
      subst hq
      exact .last _ hne hno

theorem fileLines_noNewline {x : Str} (h : '\n' ∉ x) (hne : x ≠ []) : fileLines x = [x] := by
  induction x with
  | nil => exact absurd rfl hne
  | cons c x ih =>
    rw [fileLines, if_neg (fun e => h (by simp [e]))]
    by_cases hx : x = []
    · subst hx; rfl
    · rw [ih (fun hm => h (List.mem_cons_of_mem _ hm)) hx]

theorem decode_lines {io : TextCodec} (hio : io.Contract) {ls : List (List UInt8)} (h : ByteLines ls) (text : Str)
    (ht : io.decode ls.flatten = some text) :
    mapE (fun l => match io.decode l with | none => .error .valueError | some line => .ok line) ls = .ok (fileLines text) := by
  induction h generalizing text with
  | nil =>
    rw [List.flatten_nil, hio.empty] at ht
    cases ht
    rfl
  | last b hne hb =>
    rw [List.flatten_cons, List.flatten_nil, List.append_nil] at ht
    rw [fileLines_noNewline (hio.newline b text ht hb) (fun e => hne (hio.nonempty b (e ▸ ht)))]
    simp [mapE, ht]
  | cons b ls hb _ ih =>
    rw [List.flatten_cons, List.append_assoc, List.singleton_append, hio.line] at ht
    cases hx : io.decode b with
    | none => rw [hx] at ht; cases ht
    | some x =>
      rw [hx, Option.bind_some] at ht
      cases hy : io.decode ls.flatten with
      | none => rw [hy] at ht; cases ht
      | some y =>
        rw [hy, Option.map_some] at ht
        injection ht with ht
        have hl : io.decode (b ++ [10]) = some (x ++ ['\n']) := by rw [hio.line, hx, hio.empty]; rfl
        rw [← ht, fileLines_line x (hio.newline b x hx hb)]
        simp only [mapE, hl, ih y hy]

theorem mapE_map_left {α β γ : Type} (f : β → Except Err γ) (g : α → β) (l : List α) : mapE f (l.map g) = mapE (fun a => f (g a)) l := by
  induction l with
  | nil => rfl
  | cons a l ih => simp only [List.map_cons, mapE, ih]

/-! ## Reading compressed files -/

/-- C143: a file is opened as compressed exactly when its name ends in ".gz", and the file object refers to that file. -/
theorem C143_opened (stdin : List UInt8) (disk : Str → Option (List UInt8)) (path : Str) (hp : path ≠ "-".toList) (data : List UInt8)
    (hd : disk path = some data) :
    ∃ f, openText stdin disk path = .ok f ∧ f.data = data ∧ (f.compressed = true ↔ ∃ name, path = name ++ ".gz".toList) := by
  have hgz : endsWithGz path = true ↔ ∃ name, path = name ++ ".gz".toList := by
    unfold endsWithGz
    rw [List.isSuffixOf_iff_suffix]
    exact ⟨fun ⟨t, ht⟩ => ⟨t, ht.symm⟩, fun ⟨t, ht⟩ => ⟨t, ht.symm⟩⟩
  unfold openText
  rw [if_neg hp, hd]
  by_cases h : endsWithGz path = true
  · simp only [h, if_true]
    exact ⟨_, rfl, rfl, iff_of_true rfl (hgz.mp h)⟩
  · simp only [h]
    exact ⟨_, rfl, rfl, iff_of_false (by simp) (fun hc => h (hgz.mpr hc))⟩

/-- C143: the words of compressed files are counted as those of the decompressed files. -/
theorem C143_word_counts (io : TextCodec) (files plain : List OpenText)
    (h : List.Forall₂ (fun f g => f.compressed = true ∧ g.compressed = false ∧ io.gunzip f.data = some g.data) files plain) :
    fileWordCounts io files = fileWordCounts io plain := by
  have e : mapE (textLines io) files = mapE (textLines io) plain := by
    induction h with
    | nil => rfl
    | @cons f g _ _ h _ ih =>
      have : textLines io f = textLines io g := by
        unfold textLines
        rw [h.1, h.2.1, if_pos rfl, h.2.2, if_neg (by simp)]
      rw [mapE, mapE, this, ih]
  unfold fileWordCounts
  rw [e]

/-- C143, the part that holds: the sentences that are used in training are the lines of the file, when the file is not compressed.
What is missing: compressed files (`C143_violated_training`). -/
theorem C143_training_partial (io : TextCodec) (hio : io.Contract) (f : OpenText) (hf : f.compressed = false) (hne : f.data ≠ [])
    (lines : List Str) (h : textLines io f = .ok lines) : trainingLines io f = .ok lines := by
  unfold textLines at h
  rw [hf, if_neg (by simp)] at h
  simp only at h
  split at h
  · cases h
  · rename_i text ht
    cases h
    unfold trainingLines mappedData
    rw [if_neg (by simpa using hne)]
    have hl := byteLines_of_pointers hne _ (C02_positions isNlByte f.data).2 fun _ hp => hp
    have := decode_lines hio hl text (by rw [C02_lines_cover]; exact ht)
    rw [mapE_map_left] at this
    exact this

/-- C143 is violated: no compressed file can be used as training data, although the words in it are counted when the vocabulary is
created.  The memory map is that of the compressed data, which is not text. -/
theorem C143_violated_training (io : TextCodec) (hio : io.Contract) (f : OpenText) (hf : f.compressed = true) (lines : List Str)
    (h : textLines io f = .ok lines) : trainingLines io f = .error .valueError := by
  unfold textLines at h
  rw [hf, if_pos rfl] at h
  split at h
  · cases h
  · rename_i bytes hb
    unfold trainingLines mappedData
    rcases hio.magic _ _ hb with hnil | ⟨rest, hr⟩
    · rw [hnil]
      rfl
    · rw [if_neg (by simp [hr])]
      have e : findSentenceStarts isNlByte f.data = 0 :: startsFrom isNlByte f.data 0 := by
        unfold findSentenceStarts
        rw [sentenceStartsLoop_eq _ _ _ _ _ (by omega)]; rfl
      have hline : ∃ l, readlineAt isNlByte f.data 0 = 31 :: 139 :: l := by
        rw [hr]
        unfold readlineAt
        simp only [List.drop_zero, List.findIdx?_cons]
        rw [if_neg (by decide), if_neg (by decide)]
        cases List.findIdx? isNlByte rest with
        | none => exact ⟨rest, rfl⟩
        | some i => exact ⟨rest.take (i + 1), rfl⟩
      obtain ⟨l, hl⟩ := hline
      simp only [e, mapE, decodedLine, hl, hio.continuation 31 139 l (by decide) (by decide) (by decide)]

/-! ## A case that meets the hypotheses -/

/-- ASCII text, and data that is stored without compression. -/
def exampleCodec : TextCodec where
  decode bytes := if bytes.all (· < 128) then some (bytes.map fun b => Char.ofNat b.toNat) else none
  gunzip
    | [] => some []
    | a :: b :: rest => if a = 31 ∧ b = 139 then some rest else none
    | _ => none

theorem exampleCodec_contract : exampleCodec.Contract where
  empty := rfl
  line a b := by
    by_cases ha : a.all (· < 128) = true <;> by_cases hb : b.all (· < 128) = true
    · have : (a ++ 10 :: b).all (· < 128) = true := by simp_all
      simp only [exampleCodec, ha, hb, this, if_true, Option.bind_some, Option.map_some, List.map_append, List.map_cons]
      rfl
    all_goals
      have : ¬ (a ++ 10 :: b).all (· < 128) = true := by
        rw [List.all_append, List.all_cons, Bool.and_eq_true, Bool.and_eq_true]
        tauto
      simp only [exampleCodec, ha, hb, this, if_true]
      rfl
  newline a x h hn := by
    unfold exampleCodec at h
    simp only at h
    split at h
    · rename_i hall
      cases h
      intro hm
      obtain ⟨b, hb, e⟩ := List.mem_map.mp hm
      apply hn
      have hlt : b < 128 := by simpa using List.all_eq_true.mp hall b hb
      have key : ∀ n < 128, Char.ofNat n = '\n' → n = 10 := by decide +kernel
      have e10 : b = 10 := UInt8.toNat_inj.mp (key b.toNat (UInt8.lt_iff_toNat_lt.mp hlt) e)
      rw [← e10]
      exact hb
    · cases h
  nonempty a h := by
    unfold exampleCodec at h
    simp only at h
    split at h
    · injection h with h
      exact List.map_eq_nil_iff.mp h
    · cases h
  continuation a b rest _ hb _ := by
    refine if_neg ?_
    rw [List.all_cons, List.all_cons, Bool.and_eq_true, Bool.and_eq_true]
    rintro ⟨_, h, _⟩
    have := of_decide_eq_true h
    exact absurd (UInt8.lt_of_lt_of_le this hb) (UInt8.lt_irrefl b)
  magic data bytes h := by
    unfold exampleCodec at h
    simp only at h
    split at h
    · exact .inl rfl
    · split at h
      · rename_i a b rest hab
        obtain ⟨rfl, rfl⟩ := hab
        exact .inr ⟨rest, rfl⟩
      · cases h
    · cases h

/-- Two lines, "a\n" and "b". -/
example : textLines exampleCodec ⟨[31, 139, 97, 10, 98], true⟩ = .ok ["a\n".toList, "b".toList] ∧
    trainingLines exampleCodec ⟨[97, 10, 98], false⟩ = .ok ["a\n".toList, "b".toList] ∧
    trainingLines exampleCodec ⟨[31, 139, 97, 10, 98], true⟩ = .error .valueError := by decide +kernel

end TheanoLM
