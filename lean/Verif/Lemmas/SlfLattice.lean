import Verif.Props.SlfSpec
import Verif.Lemmas.KaldiLattice
/-!
# Lemmas about reading SLF lattices
-/
namespace TheanoLM

variable {S : Type}

/-! ## Fields -/

theorem splitSlfField_iff {f n v : Str} : splitSlfField f = .ok (n, v) ↔ IsField f n v := by
  induction f generalizing n v with
  | nil => simp [splitSlfField, IsField]
  | cons c cs ih =>
    unfold splitSlfField IsField
    split
    · rename_i hc
      subst hc
      constructor
      · intro h
        cases h
        simp
      · rintro ⟨h1, h2⟩
        cases n with
        | nil => simp at h1; rw [h1]
        | cons d n =>
          simp only [List.cons_append, List.cons.injEq] at h1
          exact absurd (by rw [h1.1]; simp) h2
    · rename_i hc
      cases hs : splitSlfField cs with
      | error e =>
        simp only [reduceCtorEq, false_iff]
        rintro ⟨h1, h2⟩
        cases n with
        | nil => simp at h1; exact hc h1.1
        | cons d n =>
          simp only [List.cons_append, List.cons.injEq] at h1
          have := (ih (n := n) (v := v)).mpr ⟨h1.2, fun h => h2 (List.mem_cons_of_mem _ h)⟩
          rw [hs] at this
          cases this
      | ok r =>
        obtain ⟨a, b⟩ := r
        have hab := ih.mp hs
        simp only [Except.ok.injEq, Prod.mk.injEq]
        constructor
        · rintro ⟨rfl, rfl⟩
          refine ⟨by rw [hab.1]; rfl, ?_⟩
          intro hm
          rcases List.mem_cons.mp hm with h | h
          · exact hc h.symm
          · exact hab.2 h
        · rintro ⟨h1, h2⟩
          cases n with
          | nil => simp at h1; exact absurd h1.1 hc
          | cons d n =>
            simp only [List.cons_append, List.cons.injEq] at h1
            have := (ih (n := n) (v := v)).mpr ⟨h1.2, fun h => h2 (List.mem_cons_of_mem _ h)⟩
            rw [hs] at this
            cases this
            exact ⟨by rw [h1.1], rfl⟩

theorem isField_unique {f n v n' v' : Str} (h : IsField f n v) (h' : IsField f n' v') : n = n' ∧ v = v' := by
  have h1 := splitSlfField_iff.mpr h
  have h2 := splitSlfField_iff.mpr h'
  rw [h1] at h2
  cases h2
  exact ⟨rfl, rfl⟩

theorem lastField_nil (names : List Str) : LastField names [] none := by simp [LastField]

theorem lastField_snoc_mem {names fields : List Str} {f n v : Str} (hf : IsField f n v) (hn : n ∈ names) :
    LastField names (fields ++ [f]) (some v) :=
  ⟨fields, [], f, n, rfl, hn, hf, by simp⟩

theorem lastField_snoc_not {names fields : List Str} {o : Option Str} {f n v : Str} (h : LastField names fields o)
    (hf : IsField f n v) (hn : n ∉ names) : LastField names (fields ++ [f]) o := by
  cases o with
  | none =>
    intro g hg n' v' hg'
    rw [List.mem_append, List.mem_singleton] at hg
    rcases hg with hg | rfl
    · exact h g hg n' v' hg'
    · rw [← (isField_unique hf hg').1]; exact hn
  | some w =>
    obtain ⟨pre, post, g, m, rfl, hm, hg, hpost⟩ := h
    refine ⟨pre, post ++ [f], g, m, by simp, hm, hg, ?_⟩
    intro x hx n' v' hx'
    rw [List.mem_append, List.mem_singleton] at hx
    rcases hx with hx | rfl
    · exact hpost x hx n' v' hx'
    · rw [← (isField_unique hf hx').1]; exact hn

theorem pyIdx_iff {N : Nat} {i : ℤ} {n : Nat} : pyIdx N i = some n ↔ PyRef N i n := by
  unfold pyIdx PyRef
  split
  · split
    · simp only [Option.some.injEq]; omega
    · simp only [reduceCtorEq, false_iff]; omega
  · split
    · simp only [Option.some.injEq]; omega
    · simp only [reduceCtorEq, false_iff]; omega

theorem slfSpecial_iff {w : Str} : slfSpecial w = true ↔ IsSpecial w := by
  unfold slfSpecial IsSpecial
  simp

theorem slfNorm_proper (v : Str) : Proper v (slfNorm (some v)) := by
  unfold slfNorm
  simp only
  constructor
  · intro h; rw [if_pos (slfSpecial_iff.mpr h)]
  · intro h; rw [if_neg (fun h' => h (slfSpecial_iff.mp h'))]

theorem proper_unique {v : Str} {w : Option Str} (h : Proper v w) : w = slfNorm (some v) := by
  have h' := slfNorm_proper v
  by_cases hs : IsSpecial v
  · rw [h.1 hs, h'.1 hs]
  · rw [h.2 hs, h'.2 hs]

/-! ## Links -/

def wordNames : List Str := ["WORD".toList, "W".toList]
def startNames : List Str := ["START".toList, "S".toList]
def endNames : List Str := ["END".toList, "E".toList]
def acNames : List Str := ["acoustic".toList, "a".toList]
def lmNames : List Str := ["language".toList, "l".toList]
def timeNames : List Str := ["time".toList, "t".toList]

theorem mem2 {a b x : Str} : x ∈ [a, b] ↔ x = a ∨ x = b := by simp

theorem scoreIs_nil [Mul S] (T : SlfText S) (scale : Option S) (names : List Str) : ScoreIs T scale names [] none :=
  ⟨none, lastField_nil _, fun _ => rfl, fun _ h => by cases h⟩

theorem scoreIs_not [Mul S] {T : SlfText S} {scale : Option S} {names fields : List Str} {x : Option S}
    (h : ScoreIs T scale names fields x) {f n v : Str} (hf : IsField f n v) (hn : n ∉ names) :
    ScoreIs T scale names (fields ++ [f]) x := by
  obtain ⟨o, h1, h2, h3⟩ := h
  exact ⟨o, lastField_snoc_not h1 hf hn, h2, h3⟩

theorem scoreIs_mem [Mul S] {T : SlfText S} {scale : Option S} {names fields : List Str} {x : S}
    {f n v : Str} (hf : IsField f n v) (hn : n ∈ names) (h : slfScore T scale v = .ok x) :
    ScoreIs T scale names (fields ++ [f]) (some x) := by
  refine ⟨some v, lastField_snoc_mem hf hn, fun h => (by cases h), ?_⟩
  intro v' hv'
  cases hv'
  unfold slfScore at h
  split at h
  · cases h
  · rename_i y hy
    refine ⟨y, hy, ?_, ?_⟩
    · rintro rfl
      cases h; rfl
    · rintro c rfl
      cases h; rfl

theorem slfNodeRef_ok {T : SlfText S} {N : Nat} {v : Str} {n : Nat} (h : slfNodeRef T N v = .ok n) :
    ∃ i : ℤ, T.parseInt v = some i ∧ PyRef N i n := by
  unfold slfNodeRef at h
  split at h
  · cases h
  · rename_i i hi
    split at h
    · cases h
    · rename_i m hm
      cases h
      exact ⟨i, hi, pyIdx_iff.mp hm⟩

/-- What is known about the local variables when some fields have been read. -/
structure VarsInv [Mul S] (T : SlfText S) (scale : Option S) (N : Nat) (fields : List Str) (v : SlfLinkVars S) :
    Prop where
  start : ∀ n, v.startNode = some n → NodeIs T N startNames fields n
  end_ : ∀ n, v.endNode = some n → NodeIs T N endNames fields n
  word : LastField wordNames fields v.word
  ac : ScoreIs T scale acNames fields v.ac
  lm : ScoreIs T scale lmNames fields v.lm

theorem nodeIs_not {T : SlfText S} {N : Nat} {names fields : List Str} {m : Nat} (h : NodeIs T N names fields m)
    {f n v : Str} (hf : IsField f n v) (hn : n ∉ names) : NodeIs T N names (fields ++ [f]) m := by
  obtain ⟨w, i, h1, h2⟩ := h
  exact ⟨w, i, lastField_snoc_not h1 hf hn, h2⟩

theorem nodeIs_mem {T : SlfText S} {N : Nat} {names fields : List Str} {m : Nat}
    {f n v : Str} (hf : IsField f n v) (hn : n ∈ names) (h : slfNodeRef T N v = .ok m) :
    NodeIs T N names (fields ++ [f]) m := by
  obtain ⟨i, h1, h2⟩ := slfNodeRef_ok h
  exact ⟨v, i, lastField_snoc_mem hf hn, h1, h2⟩

theorem map_ok {α β : Type} {f : α → β} {r : Except Err α} {y : β} (h : r.map f = .ok y) :
    ∃ x, r = .ok x ∧ f x = y := by
  cases r with
  | error e => cases h
  | ok x => cases h; exact ⟨x, rfl, rfl⟩

theorem varsInv_step [Mul S] {T : SlfText S} {scale : Option S} {N : Nat} {fields : List Str} {v v' : SlfLinkVars S}
    (hv : VarsInv T scale N fields v) {f name value : Str} (hf : IsField f name value)
    (h : slfLinkField T scale N v name value = .ok v') : VarsInv T scale N (fields ++ [f]) v' := by
  unfold slfLinkField at h
  have keep : ∀ (names : List Str), name ∉ names → ∀ n, NodeIs T N names fields n →
      NodeIs T N names (fields ++ [f]) n := fun names hn n h => nodeIs_not h hf hn
  split at h
  · rename_i hn
    obtain ⟨n, h1, rfl⟩ := map_ok h
    have d : name ∉ endNames ∧ name ∉ wordNames ∧ name ∉ acNames ∧ name ∉ lmNames := by
      rcases hn with rfl | rfl <;> decide
    exact ⟨fun m hm => by cases hm; exact nodeIs_mem hf (mem2.mpr hn) h1,
      fun m hm => keep _ d.1 m (hv.end_ m hm), lastField_snoc_not hv.word hf d.2.1, scoreIs_not hv.ac hf d.2.2.1,
      scoreIs_not hv.lm hf d.2.2.2⟩
  · rename_i hn0
    have d0 : name ∉ startNames := fun h => hn0 (mem2.mp h)
    split at h
    · rename_i hn
      obtain ⟨n, h1, rfl⟩ := map_ok h
      have d : name ∉ wordNames ∧ name ∉ acNames ∧ name ∉ lmNames := by
        rcases hn with rfl | rfl <;> decide
      exact ⟨fun m hm => keep _ d0 m (hv.start m hm), fun m hm => by cases hm; exact nodeIs_mem hf (mem2.mpr hn) h1,
        lastField_snoc_not hv.word hf d.1, scoreIs_not hv.ac hf d.2.1, scoreIs_not hv.lm hf d.2.2⟩
    · rename_i hn1
      have d1 : name ∉ endNames := fun h => hn1 (mem2.mp h)
      split at h
      · rename_i hn
        cases h
        have d : name ∉ acNames ∧ name ∉ lmNames := by
          rcases hn with rfl | rfl <;> decide
        exact ⟨fun m hm => keep _ d0 m (hv.start m hm), fun m hm => keep _ d1 m (hv.end_ m hm),
          lastField_snoc_mem hf (mem2.mpr hn), scoreIs_not hv.ac hf d.1, scoreIs_not hv.lm hf d.2⟩
      · rename_i hn2
        have d2 : name ∉ wordNames := fun h => hn2 (mem2.mp h)
        split at h
        · rename_i hn
          obtain ⟨x, h1, rfl⟩ := map_ok h
          have d : name ∉ lmNames := by
            rcases hn with rfl | rfl <;> decide
          exact ⟨fun m hm => keep _ d0 m (hv.start m hm), fun m hm => keep _ d1 m (hv.end_ m hm),
            lastField_snoc_not hv.word hf d2, scoreIs_mem hf (mem2.mpr hn) h1, scoreIs_not hv.lm hf d⟩
        · rename_i hn3
          have d3 : name ∉ acNames := fun h => hn3 (mem2.mp h)
          split at h
          · rename_i hn
            obtain ⟨x, h1, rfl⟩ := map_ok h
            exact ⟨fun m hm => keep _ d0 m (hv.start m hm), fun m hm => keep _ d1 m (hv.end_ m hm),
              lastField_snoc_not hv.word hf d2, scoreIs_not hv.ac hf d3, scoreIs_mem hf (mem2.mpr hn) h1⟩
          · rename_i hn4
            have d4 : name ∉ lmNames := fun h => hn4 (mem2.mp h)
            cases h
            exact ⟨fun m hm => keep _ d0 m (hv.start m hm), fun m hm => keep _ d1 m (hv.end_ m hm),
              lastField_snoc_not hv.word hf d2, scoreIs_not hv.ac hf d3, scoreIs_not hv.lm hf d4⟩

theorem slfLinkFields_spec [Mul S] {T : SlfText S} {scale : Option S} {N : Nat} :
    ∀ (fields : List Str) {done : List Str} {v v' : SlfLinkVars S}, VarsInv T scale N done v →
      slfLinkFields T scale N fields v = .ok v' → VarsInv T scale N (done ++ fields) v' := by
  intro fields
  induction fields with
  | nil =>
    intro done v v' hv h
    cases h
    simpa using hv
  | cons f fields ih =>
    intro done v v' hv h
    unfold slfLinkFields at h
    split at h
    · cases h
    · rename_i name value hs
      split at h
      · cases h
      · rename_i v1 h1
        have := ih (varsInv_step hv (splitSlfField_iff.mp hs) h1) h
        simpa using this

/-! ## Canonical states -/

def sIs (n : Nat) (k : Link S) : Bool := decide (k.startNode = n)
def eIs (n : Nat) (k : Link S) : Bool := decide (k.endNode = n)

/-- Nodes to which the given links have been added. -/
def slfNodes (N : Nat) (times : Nat → Option ℚ) (ks : List (Link S)) : List Node :=
  (List.range N).map (fun n => ⟨idxs (sIs n) ks, idxs (eIs n) ks, times n, false⟩)

def slfState (N : Nat) (times : Nat → Option ℚ) (words : Nat → Option (Option Str)) (ks : List (Link S)) : SlfSt S :=
  ⟨slfNodes N times ks, ks, (List.range N).map words⟩

theorem slfNodes_length (N : Nat) (times : Nat → Option ℚ) (ks : List (Link S)) : (slfNodes N times ks).length = N := by
  simp [slfNodes]

theorem slfNodes_get {N : Nat} {times : Nat → Option ℚ} {ks : List (Link S)} {n : Nat} (h : n < N) :
    (slfNodes N times ks)[n]? = some ⟨idxs (sIs n) ks, idxs (eIs n) ks, times n, false⟩ := by
  unfold slfNodes
  rw [List.getElem?_map, List.getElem?_range h]
  rfl

theorem addLink_slf (N : Nat) (times : Nat → Option ℚ) (ks : List (Link S)) (k : Link S) :
    addLink (slfNodes N times ks) ks k = (slfNodes N times (ks ++ [k]), ks ++ [k]) := by
  unfold addLink
  simp only [Prod.mk.injEq, and_true]
  apply List.ext_getElem?
  intro i
  rw [List.getElem?_modify, List.getElem?_modify]
  by_cases hi : i < N
  · rw [slfNodes_get hi, slfNodes_get hi]
    simp only [idxs_append_single, sIs, eIs, decide_eq_true_eq]
    by_cases h1 : k.startNode = i <;> by_cases h2 : k.endNode = i <;> simp [h1, h2]
  · rw [List.getElem?_eq_none (by rw [slfNodes_length]; omega), List.getElem?_eq_none (by rw [slfNodes_length]; omega)]
    rfl

def upd {α : Type} (f : Nat → α) (n : Nat) (x : α) : Nat → α := fun m => if m = n then x else f m

theorem modify_slf (N : Nat) (times : Nat → Option ℚ) (ks : List (Link S)) (n : Nat) (t : Option ℚ) :
    (slfNodes N times ks).modify n (fun x => { x with time := t }) = slfNodes N (upd times n t) ks := by
  apply List.ext_getElem?
  intro i
  rw [List.getElem?_modify]
  by_cases hi : i < N
  · rw [slfNodes_get hi, slfNodes_get hi]
    unfold upd
    by_cases h : n = i
    · subst h; simp
    · simp [h, Ne.symm h]
  · rw [List.getElem?_eq_none (by rw [slfNodes_length]; omega), List.getElem?_eq_none (by rw [slfNodes_length]; omega)]
    rfl

theorem set_words (N : Nat) (words : Nat → Option (Option Str)) (n : Nat) (w : Option (Option Str)) :
    ((List.range N).map words).set n w = (List.range N).map (upd words n w) := by
  apply List.ext_getElem?
  intro i
  rw [List.getElem?_set]
  by_cases hi : i < N
  · simp only [List.length_map, List.length_range, List.getElem?_map, List.getElem?_range hi, Option.map_some, upd]
    by_cases h : n = i
    · subst h; simp [hi]
    · rw [if_neg h, if_neg (Ne.symm h)]
  · rw [List.getElem?_eq_none (l := (List.range N).map (upd words n w)) (by simp; omega),
      List.getElem?_eq_none (l := (List.range N).map words) (by simp; omega)]
    simp only [List.length_map, List.length_range]
    split
    · split
      · omega
      · rfl
    · rfl

/-! ## Nodes -/

/-- What is known about a node when the given fields have been read. -/
structure NodeInv (T : SlfText S) (fields : List Str) (time : Option ℚ) (word : Option (Option Str)) : Prop where
  time : ∃ o : Option Str, LastField timeNames fields o ∧ (o = none → time = none) ∧
    ∀ v : Str, o = some v → ∃ t : ℚ, T.parseTime v = some t ∧ time = some t
  word : ∃ o : Option Str, LastField wordNames fields o ∧ (o = none → word = none) ∧
    ∀ v : Str, o = some v → word = some (slfNorm (some v))

/-- The same during the loop over the fields of a line: `w0` is the word of the node before the line. -/
structure NodeInv' (T : SlfText S) (before fields : List Str) (w0 : Option (Option Str)) (time : Option ℚ)
    (word : Option (Option Str)) : Prop where
  time : ∃ o : Option Str, LastField timeNames (before ++ fields) o ∧ (o = none → time = none) ∧
    ∀ v : Str, o = some v → ∃ t : ℚ, T.parseTime v = some t ∧ time = some t
  word : (word = w0 ∧ ∀ o, LastField wordNames before o → LastField wordNames (before ++ fields) o) ∨
    ∃ v, word = some (some v) ∧ LastField wordNames (before ++ fields) (some v)

theorem slfNodeFields_spec {T : SlfText S} {before : List Str} {w0 : Option (Option Str)} :
    ∀ (fields : List Str) {done : List Str} {time : Option ℚ} {word : Option (Option Str)} {time' : Option ℚ}
      {word' : Option (Option Str)}, NodeInv' T before done w0 time word →
      slfNodeFields T fields (time, word) = .ok (time', word') → NodeInv' T before (done ++ fields) w0 time' word' := by
  intro fields
  induction fields with
  | nil =>
    intro done time word time' word' hi h
    cases h
    simpa using hi
  | cons f fields ih =>
    intro done time word time' word' hi h
    unfold slfNodeFields at h
    split at h
    · cases h
    · rename_i name value hs
      have hf := splitSlfField_iff.mp hs
      have happ : done ++ f :: fields = (done ++ [f]) ++ fields := by simp
      rw [happ]
      have hassoc : before ++ (done ++ [f]) = (before ++ done) ++ [f] := by simp
      have keepWord : name ∉ wordNames → ((word = w0 ∧ ∀ o, LastField wordNames before o →
          LastField wordNames (before ++ (done ++ [f])) o) ∨
          ∃ v, word = some (some v) ∧ LastField wordNames (before ++ (done ++ [f])) (some v)) := by
        intro hn
        rw [hassoc]
        rcases hi.word with ⟨h1, h2⟩ | ⟨v, h1, h2⟩
        · exact Or.inl ⟨h1, fun o ho => lastField_snoc_not (h2 o ho) hf hn⟩
        · exact Or.inr ⟨v, h1, lastField_snoc_not h2 hf hn⟩
      have keepTime : name ∉ timeNames → ∃ o : Option Str, LastField timeNames (before ++ (done ++ [f])) o ∧
          (o = none → time = none) ∧
          ∀ v : Str, o = some v → ∃ t : ℚ, T.parseTime v = some t ∧ time = some t := by
        intro hn
        rw [hassoc]
        obtain ⟨o, h1, h2⟩ := hi.time
        exact ⟨o, lastField_snoc_not h1 hf hn, h2⟩
      split at h
      · rename_i hn
        split at h
        · cases h
        · rename_i t ht
          refine ih ⟨?_, keepWord (by rcases hn with rfl | rfl <;> decide)⟩ h
          refine ⟨some value, by rw [hassoc]; exact lastField_snoc_mem hf (mem2.mpr hn), fun h => (by cases h), ?_⟩
          intro v hv
          cases hv
          exact ⟨t, ht, rfl⟩
      · rename_i hn0
        split at h
        · rename_i hn
          refine ih ⟨keepTime (fun h => hn0 (mem2.mp h)), Or.inr ⟨value, rfl, ?_⟩⟩ h
          rw [hassoc]
          exact lastField_snoc_mem hf (mem2.mpr hn)
        · rename_i hn
          exact ih ⟨keepTime (fun h => hn0 (mem2.mp h)), keepWord (fun h => hn (mem2.mp h))⟩ h

theorem slfNode_spec {T : SlfText S} {N : Nat} {times : Nat → Option ℚ} {words : Nat → Option (Option Str)}
    {ks : List (Link S)} {i : ℤ} {fields : List Str} {st' : SlfSt S} {done : Nat → List Str}
    (hinv : ∀ n < N, NodeInv T (done n) (times n) (words n))
    (h : slfNode T (slfState N times words ks) i fields = .ok st') :
    ∃ (n : Nat) (t : Option ℚ) (w : Option (Option Str)), PyRef N i n ∧
      st' = slfState N (upd times n t) (upd words n w) ks ∧ NodeInv T (done n ++ fields) t w := by
  unfold slfNode at h
  simp only [slfState, slfNodes_length] at h
  split at h
  · cases h
  · rename_i n hn
    have hr := pyIdx_iff.mp hn
    have hlt := hr.1
    have e1 : ((slfNodes N times ks).getD n Node.new).time = times n := by
      rw [List.getD_eq_getElem?_getD, slfNodes_get hlt]; rfl
    have e2 : ((List.range N).map words).getD n none = words n := by
      rw [List.getD_eq_getElem?_getD, List.getElem?_map, List.getElem?_range hlt]; rfl
    rw [e1, e2] at h
    split at h
    · cases h
    · rename_i time word hfs
      have hw0 := hinv n hlt
      have hi0 : NodeInv' T (done n) [] (words n) (times n) (words n) := by
        refine ⟨by simpa using hw0.time, Or.inl ⟨rfl, fun o ho => by simpa using ho⟩⟩
      have hi := slfNodeFields_spec fields hi0 hfs
      rw [List.nil_append] at hi
      split at h
      · cases h
      · rename_i word' hword
        cases h
        refine ⟨n, time, word', hr, ?_, hi.time, ?_⟩
        · unfold slfState
          rw [modify_slf, set_words]
        · unfold slfNodeWord at hword
          rcases hi.word with ⟨h1, h2⟩ | ⟨v, h1, h2⟩
          · subst h1
            obtain ⟨o, ho, ho1, ho2⟩ := hw0.word
            refine ⟨o, h2 o ho, ?_, ?_⟩
            · intro hn
              rw [ho1 hn] at hword
              cases hword; rfl
            · intro v hv
              have := ho2 v hv
              rw [this] at hword
              unfold slfNorm at hword this ⊢
              by_cases hsp : slfSpecial v = true
              · simp only [hsp, if_true, reduceCtorEq] at hword
              · simp only [hsp, Bool.false_eq_true, if_false, Except.ok.injEq] at hword ⊢
                exact hword.symm
          · subst h1
            simp only [Except.ok.injEq] at hword
            refine ⟨some v, h2, fun h => (by cases h), ?_⟩
            intro v' hv'
            cases hv'
            exact hword.symm

/-! ## Lines -/

theorem pyRef_unique {N : Nat} {i : ℤ} {n m : Nat} (h : PyRef N i n) (h' : PyRef N i m) : n = m := by
  have a := pyIdx_iff.mpr h
  have b := pyIdx_iff.mpr h'
  rw [a] at b
  cases b
  rfl

/-- A link and its fields before the words of the nodes are moved. -/
structure RawLink [Mul S] (T : SlfText S) (scale : Option S) (N : Nat) (fields : List Str) (k : Link S) : Prop where
  start : NodeIs T N startNames fields k.startNode
  end_ : NodeIs T N endNames fields k.endNode
  ac : ScoreIs T scale acNames fields k.ac
  lm : ScoreIs T scale lmNames fields k.lm
  word : OwnWord fields k.word
  transitions : k.transitions = []

theorem nodeIs_lt {T : SlfText S} {N : Nat} {names fields : List Str} {n : Nat} (h : NodeIs T N names fields n) :
    n < N := by
  obtain ⟨_, _, _, _, h⟩ := h
  exact h.1

theorem slfLink_spec [Mul S] {T : SlfText S} {scale : Option S} {N : Nat} {times : Nat → Option ℚ}
    {words : Nat → Option (Option Str)} {ks : List (Link S)} {fields : List Str} {st' : SlfSt S}
    (h : slfLink T scale (slfState N times words ks) fields = .ok st') :
    ∃ k : Link S, st' = slfState N times words (ks ++ [k]) ∧ RawLink T scale N fields k := by
  unfold slfLink at h
  simp only [slfState, slfNodes_length] at h
  split at h
  · cases h
  · rename_i v hv
    have hi0 : VarsInv T scale N [] (⟨none, none, none, none, none⟩ : SlfLinkVars S) :=
      ⟨fun _ h => (by cases h), fun _ h => (by cases h), lastField_nil _, scoreIs_nil _ _ _, scoreIs_nil _ _ _⟩
    have hi := slfLinkFields_spec fields hi0 hv
    rw [List.nil_append] at hi
    split at h
    · rename_i s e hs he
      simp only [addLink_slf, Except.ok.injEq] at h
      refine ⟨_, h.symm, hi.start s hs, hi.end_ e he, hi.ac, hi.lm, ?_, rfl⟩
      refine ⟨v.word, hi.word, ?_, ?_⟩
      · intro h; rw [h]; rfl
      · intro w h; rw [h]; exact slfNorm_proper w
    · cases h

theorem slfLines_spec [Mul S] {T : SlfText S} {scale : Option S} {N : Nat} :
    ∀ (lines : List Str) {times : Nat → Option ℚ} {words : Nat → Option (Option Str)} {ks : List (Link S)}
      {st' : SlfSt S} {done : Nat → List Str}, (∀ n < N, NodeInv T (done n) (times n) (words n)) →
    slfLines T scale lines (slfState N times words ks) = .ok st' →
    ∃ (toks : List (List Str)) (times' : Nat → Option ℚ) (words' : Nat → Option (Option Str)) (ks' : List (Link S))
      (lf : List (List Str)),
      List.Forall₂ (fun line fs => T.tok line = .ok fs) lines toks ∧ st' = slfState N times' words' (ks ++ ks') ∧
      (∀ n < N, ∃ fs, NodeFields T N n toks fs ∧ NodeInv T (done n ++ fs) (times' n) (words' n)) ∧
      LinkFields toks lf ∧ List.Forall₂ (RawLink T scale N) lf ks' := by
  intro lines
  induction lines with
  | nil =>
    intro times words ks st' done hinv h
    cases h
    exact ⟨[], times, words, [], [], .nil, by simp, fun n hn => ⟨[], .nil, by simpa using hinv n hn⟩, .nil, .nil⟩
  | cons line lines ih =>
    intro times words ks st' done hinv h
    unfold slfLines at h
    split at h
    · cases h
    · rename_i fields htok
      split at h
      · cases h
      · rename_i st1 hline
        unfold slfLine at hline
        split at hline
        · cases hline
          obtain ⟨toks, times', words', ks', lf, h1, h2, h3, h4, h5⟩ := ih hinv h
          refine ⟨[] :: toks, times', words', ks', lf, .cons htok h1, h2, ?_, .other _ _ _ (by simp) h4, h5⟩
          intro n hn
          obtain ⟨fs, hfs, hi⟩ := h3 n hn
          exact ⟨fs, .other _ _ _ (by simp) hfs, hi⟩
        · rename_i first rest
          split at hline
          · cases hline
          · rename_i name value hs
            have hf := splitSlfField_iff.mp hs
            split at hline
            · rename_i hname
              subst hname
              split at hline
              · cases hline
              · rename_i i hpi
                obtain ⟨n, t, w, hr, rfl, hni⟩ := slfNode_spec hinv hline
                have hinv' : ∀ m < N, NodeInv T (upd done n (done n ++ rest) m) (upd times n t m) (upd words n w m) := by
                  intro m hm
                  unfold upd
                  by_cases h : m = n
                  · simp only [h, if_true]; exact hni
                  · simp only [if_neg h]; exact hinv m hm
                obtain ⟨toks, times', words', ks', lf, h1, h2, h3, h4, h5⟩ := ih hinv' h
                refine ⟨(first :: rest) :: toks, times', words', ks', lf, .cons htok h1, h2, ?_, ?_, h5⟩
                · intro m hm
                  obtain ⟨fs, hfs, hi⟩ := h3 m hm
                  by_cases h : m = n
                  · subst h
                    refine ⟨rest ++ fs, .line _ _ _ _ ⟨value, i, hf, hpi, hr⟩ hfs, ?_⟩
                    unfold upd at hi
                    simpa using hi
                  · refine ⟨fs, .other _ _ _ ?_ hfs, ?_⟩
                    · intro f hfirst hnl
                      simp only [List.head?_cons, Option.some.injEq] at hfirst
                      subst hfirst
                      obtain ⟨v, i', hf', hi', hr'⟩ := hnl
                      obtain ⟨_, rfl⟩ := isField_unique hf hf'
                      rw [hpi] at hi'
                      cases hi'
                      exact h (pyRef_unique hr' hr)
                    · unfold upd at hi
                      simpa [h] using hi
                · refine .other _ _ _ ?_ h4
                  intro f v hfirst hj
                  simp only [List.head?_cons, Option.some.injEq] at hfirst
                  subst hfirst
                  have := (isField_unique hf hj).1
                  revert this
                  decide
            · rename_i hname
              have hnot : ∀ n, ∀ f : Str, (first :: rest).head? = some f → ¬ IsNodeLine T N n f := by
                intro n f hfirst hnl
                simp only [List.head?_cons, Option.some.injEq] at hfirst
                subst hfirst
                obtain ⟨v, i', hf', _⟩ := hnl
                exact hname (isField_unique hf hf').1
              split at hline
              · rename_i hj
                subst hj
                split at hline
                · cases hline
                · obtain ⟨k, rfl, hraw⟩ := slfLink_spec hline
                  obtain ⟨toks, times', words', ks', lf, h1, h2, h3, h4, h5⟩ := ih hinv h
                  refine ⟨(first :: rest) :: toks, times', words', k :: ks', rest :: lf, .cons htok h1, by simpa using h2,
                    ?_, .line _ value _ _ _ hf h4, .cons hraw h5⟩
                  intro n hn
                  obtain ⟨fs, hfs, hi⟩ := h3 n hn
                  exact ⟨fs, .other _ _ _ (hnot n) hfs, hi⟩
              · rename_i hj
                cases hline
                obtain ⟨toks, times', words', ks', lf, h1, h2, h3, h4, h5⟩ := ih hinv h
                refine ⟨(first :: rest) :: toks, times', words', ks', lf, .cons htok h1, h2, ?_, ?_, h5⟩
                · intro n hn
                  obtain ⟨fs, hfs, hi⟩ := h3 n hn
                  exact ⟨fs, .other _ _ _ (hnot n) hfs, hi⟩
                · refine .other _ _ _ ?_ h4
                  intro f v hfirst hfj
                  simp only [List.head?_cons, Option.some.injEq] at hfirst
                  subst hfirst
                  exact hj (isField_unique hf hfj).1

/-! ## Header -/

/-- What is known about the header when some fields have been read. -/
structure HeaderInv [Zero S] [One S] [DecidableEq S] (T : SlfText S) (fields : List Str) (h : SlfHeader S) : Prop where
  utterance : LastField ["UTTERANCE".toList, "U".toList] fields h.utteranceId
  no_sublattice : LastField ["SUBLAT".toList, "S".toList] fields none
  scale : ScaleIs T fields h.logScale
  lmScale : ∃ o : Option Str, LastField ["lmscale".toList] fields o ∧ (o = none → h.lmScale = none) ∧
    ∀ v : Str, o = some v → ∃ x : S, T.parseScore v = some x ∧ h.lmScale = some x
  wiPenalty : ∃ o : Option Str, LastField ["wdpenalty".toList] fields o ∧ (o = none → h.wiPenalty = none) ∧
    ∀ v : Str, o = some v → ∃ x : S, T.parseScore v = some x ∧ h.wiPenalty = some x
  start : ∃ o : Option Str, LastField ["start".toList] fields o ∧ (o = none → h.start = none) ∧
    ∀ v : Str, o = some v → ∃ x : ℤ, T.parseInt v = some x ∧ h.start = some x
  ends : ∀ i : ℤ, i ∈ h.ends ↔ ∃ f ∈ fields, ∃ v : Str, IsField f "end".toList v ∧ T.parseInt v = some i
  nodes : ∃ o : Option Str, LastField ["NODES".toList, "N".toList] fields o ∧ (o = none → h.numNodes = none) ∧
    ∀ v : Str, o = some v → ∃ x : ℤ, T.parseInt v = some x ∧ h.numNodes = some x
  links : ∃ o : Option Str, LastField ["LINKS".toList, "L".toList] fields o ∧ (o = none → h.numLinks = none) ∧
    ∀ v : Str, o = some v → ∃ x : ℤ, T.parseInt v = some x ∧ h.numLinks = some x

theorem opt_keep {α : Type} {names fields : List Str} {p : Str → Option α} {y : Option α}
    (h : ∃ o : Option Str, LastField names fields o ∧ (o = none → y = none) ∧
      ∀ v : Str, o = some v → ∃ x : α, p v = some x ∧ y = some x) {f n v : Str} (hf : IsField f n v) (hn : n ∉ names) :
    ∃ o : Option Str, LastField names (fields ++ [f]) o ∧ (o = none → y = none) ∧
      ∀ v : Str, o = some v → ∃ x : α, p v = some x ∧ y = some x := by
  obtain ⟨o, h1, h2⟩ := h
  exact ⟨o, lastField_snoc_not h1 hf hn, h2⟩

theorem opt_mem {α : Type} {names fields : List Str} {p : Str → Option α} {f n v : Str} (hf : IsField f n v)
    (hn : n ∈ names) {x : α} (hx : p v = some x) :
    ∃ o : Option Str, LastField names (fields ++ [f]) o ∧ (o = none → some x = none) ∧
      ∀ v : Str, o = some v → ∃ x' : α, p v = some x' ∧ some x = some x' :=
  ⟨some v, lastField_snoc_mem hf hn, fun h => (by cases h), fun v' hv' => by cases hv'; exact ⟨x, hx, rfl⟩⟩

theorem scale_keep [Zero S] [One S] {T : SlfText S} {fields : List Str} {s : Option S} (h : ScaleIs T fields s)
    {f n v : Str} (hf : IsField f n v) (hn : n ∉ ["base".toList]) : ScaleIs T (fields ++ [f]) s := by
  obtain ⟨o, h1, h2⟩ := h
  exact ⟨o, lastField_snoc_not h1 hf hn, h2⟩

theorem ends_keep {T : SlfText S} {fields : List Str} {ends : List ℤ}
    (h : ∀ i : ℤ, i ∈ ends ↔ ∃ f ∈ fields, ∃ v : Str, IsField f "end".toList v ∧ T.parseInt v = some i)
    {f n v : Str} (hf : IsField f n v) (hn : n ∉ ["end".toList]) :
    ∀ i : ℤ, i ∈ ends ↔ ∃ g ∈ fields ++ [f], ∃ v : Str, IsField g "end".toList v ∧ T.parseInt v = some i := by
  intro i
  rw [h i]
  constructor
  · rintro ⟨g, hg, x⟩; exact ⟨g, by simp [hg], x⟩
  · rintro ⟨g, hg, v', hv', hp⟩
    rw [List.mem_append, List.mem_singleton] at hg
    rcases hg with hg | rfl
    · exact ⟨g, hg, v', hv', hp⟩
    · have := (isField_unique hf hv').1
      simp [this] at hn

theorem parseE_ok {α : Type} {o : Option α} {x : α} (h : parseE o = .ok x) : o = some x := by
  cases o with
  | none => cases h
  | some y => cases h; rfl

theorem headerInv_step [Zero S] [One S] [DecidableEq S] {T : SlfText S} {fields : List Str} {h h' : SlfHeader S}
    (hi : HeaderInv T fields h) {f name value : Str} (hf : IsField f name value)
    (hs : slfHeaderField T h name value = .ok h') : HeaderInv T (fields ++ [f]) h' := by
  unfold slfHeaderField at hs
  split at hs
  · rename_i hn
    cases hs
    have d : name ∉ ["SUBLAT".toList, "S".toList] ∧ name ∉ ["base".toList] ∧ name ∉ ["lmscale".toList] ∧
        name ∉ ["wdpenalty".toList] ∧ name ∉ ["start".toList] ∧ name ∉ ["end".toList] ∧
        name ∉ ["NODES".toList, "N".toList] ∧ name ∉ ["LINKS".toList, "L".toList] := by
      rcases hn with rfl | rfl <;> decide
    exact ⟨lastField_snoc_mem hf (mem2.mpr hn), lastField_snoc_not hi.no_sublattice hf d.1, scale_keep hi.scale hf d.2.1,
      opt_keep hi.lmScale hf d.2.2.1, opt_keep hi.wiPenalty hf d.2.2.2.1, opt_keep hi.start hf d.2.2.2.2.1,
      ends_keep hi.ends hf d.2.2.2.2.2.1, opt_keep hi.nodes hf d.2.2.2.2.2.2.1, opt_keep hi.links hf d.2.2.2.2.2.2.2⟩
  · rename_i hn0
    have d0 : name ∉ ["UTTERANCE".toList, "U".toList] := fun h => hn0 (mem2.mp h)
    split at hs
    · cases hs
    · rename_i hn1
      have d1 : name ∉ ["SUBLAT".toList, "S".toList] := fun h => hn1 (mem2.mp h)
      split at hs
      · rename_i hn
        obtain ⟨x, hx, rfl⟩ := map_ok hs
        have hx := parseE_ok hx
        have d : name ∉ ["lmscale".toList] ∧
            name ∉ ["wdpenalty".toList] ∧ name ∉ ["start".toList] ∧ name ∉ ["end".toList] ∧
            name ∉ ["NODES".toList, "N".toList] ∧ name ∉ ["LINKS".toList, "L".toList] := by
          subst hn; decide
        refine ⟨lastField_snoc_not hi.utterance hf d0, lastField_snoc_not hi.no_sublattice hf d1, ?_,
          opt_keep hi.lmScale hf d.1, opt_keep hi.wiPenalty hf d.2.1, opt_keep hi.start hf d.2.2.1,
          ends_keep hi.ends hf d.2.2.2.1, opt_keep hi.nodes hf d.2.2.2.2.1, opt_keep hi.links hf d.2.2.2.2.2⟩
        refine ⟨some value, lastField_snoc_mem hf (by simp [hn]), fun h => (by cases h), ?_⟩
        intro v hv
        cases hv
        refine ⟨x, hx, ?_, ?_⟩
        · intro h0; simp [slfBase, h0]
        · intro h0; simp [slfBase, h0]
      · rename_i hn2
        have d2 : name ∉ ["base".toList] := fun h => hn2 (by simpa using h)
        split at hs
        · rename_i hn
          obtain ⟨x, hx, rfl⟩ := map_ok hs
          have hx := parseE_ok hx
          have d : name ∉ ["wdpenalty".toList] ∧ name ∉ ["start".toList] ∧ name ∉ ["end".toList] ∧
              name ∉ ["NODES".toList, "N".toList] ∧ name ∉ ["LINKS".toList, "L".toList] := by
            subst hn; decide
          exact ⟨lastField_snoc_not hi.utterance hf d0, lastField_snoc_not hi.no_sublattice hf d1,
            scale_keep hi.scale hf d2, opt_mem hf (by simp [hn]) hx, opt_keep hi.wiPenalty hf d.1,
            opt_keep hi.start hf d.2.1,
            ends_keep hi.ends hf d.2.2.1, opt_keep hi.nodes hf d.2.2.2.1, opt_keep hi.links hf d.2.2.2.2⟩
        · rename_i hn3
          have d3 : name ∉ ["lmscale".toList] := fun h => hn3 (by simpa using h)
          split at hs
          · rename_i hn
            obtain ⟨x, hx, rfl⟩ := map_ok hs
            have hx := parseE_ok hx
            have d : name ∉ ["start".toList] ∧ name ∉ ["end".toList] ∧
                name ∉ ["NODES".toList, "N".toList] ∧ name ∉ ["LINKS".toList, "L".toList] := by
              subst hn; decide
            exact ⟨lastField_snoc_not hi.utterance hf d0, lastField_snoc_not hi.no_sublattice hf d1,
              scale_keep hi.scale hf d2, opt_keep hi.lmScale hf d3, opt_mem hf (by simp [hn]) hx,
              opt_keep hi.start hf d.1,
              ends_keep hi.ends hf d.2.1, opt_keep hi.nodes hf d.2.2.1, opt_keep hi.links hf d.2.2.2⟩
          · rename_i hn4
            have d4 : name ∉ ["wdpenalty".toList] := fun h => hn4 (by simpa using h)
            split at hs
            · rename_i hn
              obtain ⟨x, hx, rfl⟩ := map_ok hs
              have hx := parseE_ok hx
              have d : name ∉ ["end".toList] ∧
                  name ∉ ["NODES".toList, "N".toList] ∧ name ∉ ["LINKS".toList, "L".toList] := by
                subst hn; decide
              exact ⟨lastField_snoc_not hi.utterance hf d0, lastField_snoc_not hi.no_sublattice hf d1,
                scale_keep hi.scale hf d2, opt_keep hi.lmScale hf d3, opt_keep hi.wiPenalty hf d4,
                opt_mem hf (by simp [hn]) hx,
                ends_keep hi.ends hf d.1, opt_keep hi.nodes hf d.2.1, opt_keep hi.links hf d.2.2⟩
            · rename_i hn5
              have d5 : name ∉ ["start".toList] := fun h => hn5 (by simpa using h)
              split at hs
              · rename_i hn
                obtain ⟨x, hx, rfl⟩ := map_ok hs
                have hx := parseE_ok hx
                have d : name ∉ ["NODES".toList, "N".toList] ∧ name ∉ ["LINKS".toList, "L".toList] := by
                  subst hn; decide
                refine ⟨lastField_snoc_not hi.utterance hf d0, lastField_snoc_not hi.no_sublattice hf d1,
                  scale_keep hi.scale hf d2, opt_keep hi.lmScale hf d3, opt_keep hi.wiPenalty hf d4,
                  opt_keep hi.start hf d5, ?_, opt_keep hi.nodes hf d.1, opt_keep hi.links hf d.2⟩
                intro i
                simp only [List.mem_append, List.mem_singleton, hi.ends i]
                subst hn
                constructor
                · rintro (⟨g, hg, y⟩ | rfl)
                  · exact ⟨g, Or.inl hg, y⟩
                  · exact ⟨f, Or.inr rfl, value, hf, hx⟩
                · rintro ⟨g, hg | rfl, v', hv', hp⟩
                  · exact Or.inl ⟨g, hg, v', hv', hp⟩
                  · obtain ⟨_, rfl⟩ := isField_unique hf hv'
                    rw [hx] at hp
                    cases hp
                    exact Or.inr rfl
              · rename_i hn6
                have d6 : name ∉ ["end".toList] := fun h => hn6 (by simpa using h)
                split at hs
                · rename_i hn
                  obtain ⟨x, hx, rfl⟩ := map_ok hs
                  have hx := parseE_ok hx
                  have d : name ∉ ["LINKS".toList, "L".toList] := by
                    rcases hn with rfl | rfl <;> decide
                  exact ⟨lastField_snoc_not hi.utterance hf d0, lastField_snoc_not hi.no_sublattice hf d1,
                    scale_keep hi.scale hf d2, opt_keep hi.lmScale hf d3, opt_keep hi.wiPenalty hf d4,
                    opt_keep hi.start hf d5, ends_keep hi.ends hf d6, opt_mem hf (mem2.mpr hn) hx,
                    opt_keep hi.links hf d⟩
                · rename_i hn7
                  have d7 : name ∉ ["NODES".toList, "N".toList] := fun h => hn7 (mem2.mp h)
                  split at hs
                  · rename_i hn
                    obtain ⟨x, hx, rfl⟩ := map_ok hs
                    have hx := parseE_ok hx
                    exact ⟨lastField_snoc_not hi.utterance hf d0, lastField_snoc_not hi.no_sublattice hf d1,
                      scale_keep hi.scale hf d2, opt_keep hi.lmScale hf d3, opt_keep hi.wiPenalty hf d4,
                      opt_keep hi.start hf d5, ends_keep hi.ends hf d6, opt_keep hi.nodes hf d7,
                      opt_mem hf (mem2.mpr hn) hx⟩
                  · rename_i hn8
                    have d8 : name ∉ ["LINKS".toList, "L".toList] := fun h => hn8 (mem2.mp h)
                    cases hs
                    exact ⟨lastField_snoc_not hi.utterance hf d0, lastField_snoc_not hi.no_sublattice hf d1,
                      scale_keep hi.scale hf d2, opt_keep hi.lmScale hf d3, opt_keep hi.wiPenalty hf d4,
                      opt_keep hi.start hf d5, ends_keep hi.ends hf d6, opt_keep hi.nodes hf d7,
                      opt_keep hi.links hf d8⟩

theorem slfHeaderFields_spec [Zero S] [One S] [DecidableEq S] {T : SlfText S} :
    ∀ (fields : List Str) {done : List Str} {h h' : SlfHeader S}, HeaderInv T done h →
      slfHeaderFields T fields h = .ok h' → HeaderInv T (done ++ fields) h' := by
  intro fields
  induction fields with
  | nil =>
    intro done h h' hi hs
    cases hs
    simpa using hi
  | cons f fields ih =>
    intro done h h' hi hs
    unfold slfHeaderFields at hs
    split at hs
    · cases hs
    · rename_i name value hsp
      split at hs
      · cases hs
      · rename_i h1 hh
        have := ih (headerInv_step hi (splitSlfField_iff.mp hsp) hh) hs
        simpa using this

/-- Either number is not known after the given fields. -/
def HeaderOpen (fields : List Str) : Prop :=
  LastField ["NODES".toList, "N".toList] fields none ∨ LastField ["LINKS".toList, "L".toList] fields none

theorem headerInv_open [Zero S] [One S] [DecidableEq S] {T : SlfText S} {fields : List Str} {h : SlfHeader S}
    (hi : HeaderInv T fields h) (hn : ¬ (h.numNodes ≠ none ∧ h.numLinks ≠ none)) : HeaderOpen fields := by
  by_cases h1 : h.numNodes = none
  · left
    obtain ⟨o, ho, _, h3⟩ := hi.nodes
    cases o with
    | none => exact ho
    | some v =>
      obtain ⟨x, _, hx⟩ := h3 v rfl
      rw [h1] at hx; cases hx
  · right
    have h2 : h.numLinks = none := by
      by_contra h2
      exact hn ⟨h1, h2⟩
    obtain ⟨o, ho, _, h3⟩ := hi.links
    cases o with
    | none => exact ho
    | some v =>
      obtain ⟨x, _, hx⟩ := h3 v rfl
      rw [h2] at hx; cases hx

theorem slfHeaderLines_spec [Zero S] [One S] [DecidableEq S] {T : SlfText S} :
    ∀ (lines : List Str) {done : List Str} {h h' : SlfHeader S} {rest : List Str}, HeaderInv T done h →
      HeaderOpen done → slfHeaderLines T lines h = .ok (h', rest) →
      ∃ (head : List Str) (toks : List (List Str)) (last : List Str), lines = head ++ rest ∧
        List.Forall₂ (fun line fs => T.tok line = .ok fs) head (toks ++ [last]) ∧
        HeaderInv T (done ++ toks.flatten ++ last) h' ∧ h'.numNodes ≠ none ∧ h'.numLinks ≠ none ∧
        HeaderOpen (done ++ toks.flatten) := by
  intro lines
  induction lines with
  | nil =>
    intro done h h' rest hi ho hs
    unfold slfHeaderLines at hs
    split at hs
    · cases hs
    · rename_i hn
      cases hs
      exfalso
      rw [not_or] at hn
      obtain ⟨o1, a1, b1, _⟩ := hi.nodes
      obtain ⟨o2, a2, b2, _⟩ := hi.links
      rcases ho with ho | ho
      · cases o1 with
        | none => exact hn.1 (b1 rfl)
        | some v =>
          obtain ⟨pre, post, f, n, rfl, hmem, hf, _⟩ := a1
          exact ho f (by simp) n v hf hmem
      · cases o2 with
        | none => exact hn.2 (b2 rfl)
        | some v =>
          obtain ⟨pre, post, f, n, rfl, hmem, hf, _⟩ := a2
          exact ho f (by simp) n v hf hmem
  | cons line lines ih =>
    intro done h h' rest hi ho hs
    unfold slfHeaderLines at hs
    split at hs
    · cases hs
    · rename_i fields htok
      split at hs
      · cases hs
      · rename_i h1 hh
        have hi1 := slfHeaderFields_spec fields hi hh
        split at hs
        · rename_i hk
          cases hs
          exact ⟨[line], [], fields, by simp, .cons htok .nil, by simpa using hi1, hk.1, hk.2, by simpa using ho⟩
        · rename_i hk
          obtain ⟨head, toks, last, e1, e2, e3, e4, e5, e6⟩ := ih hi1 (headerInv_open hi1 hk) hs
          exact ⟨line :: head, fields :: toks, last, by simp [e1], .cons htok e2, by simpa using e3, e4, e5,
            by simpa using e6⟩

theorem headerInv_empty [Zero S] [One S] [DecidableEq S] (T : SlfText S) : HeaderInv T [] (.empty : SlfHeader S) where
  utterance := lastField_nil _
  no_sublattice := lastField_nil _
  scale := ⟨none, lastField_nil _, fun _ => rfl, fun _ h => by cases h⟩
  lmScale := ⟨none, lastField_nil _, fun _ => rfl, fun _ h => by cases h⟩
  wiPenalty := ⟨none, lastField_nil _, fun _ => rfl, fun _ h => by cases h⟩
  start := ⟨none, lastField_nil _, fun _ => rfl, fun _ h => by cases h⟩
  ends := by simp [SlfHeader.empty]
  nodes := ⟨none, lastField_nil _, fun _ => rfl, fun _ h => by cases h⟩
  links := ⟨none, lastField_nil _, fun _ => rfl, fun _ h => by cases h⟩

end TheanoLM
