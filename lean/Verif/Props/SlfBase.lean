import Verif.Props.SlfBaseSpec
import Verif.Props.Slf
/-!
# SLF lattices whose scores are given in different bases (C133)
-/
namespace TheanoLM

section
variable {T : SlfText ℝ} {b b' : ℝ}

/-- slflattice.py:99-101, 231-234 -/
noncomputable def baseScore (T : SlfText ℝ) (b x : ℝ) : ℝ := match slfBase T b with
  | none => T.log x
  | some s => x * s

theorem baseScore_eq (hlog : T.log = Real.log) (hb : 0 ≤ b) (x : ℝ) :
    baseScore T b x = Real.log (slfProb b x) := by
  unfold baseScore slfBase slfProb
  by_cases h : b = 0
  · simp [h, hlog]
  · have hp : 0 < b := lt_of_le_of_ne hb (Ne.symm h)
    simp only [if_neg h, hlog]
    rw [Real.log_rpow hp]

theorem baseScore_same (hlog : T.log = Real.log) (hb : 0 ≤ b) (hb' : 0 ≤ b') {x x' : ℝ}
    (h : slfProb b x = slfProb b' x') : baseScore T b x = baseScore T b' x' := by
  rw [baseScore_eq hlog hb, baseScore_eq hlog hb', h]

/-- The headers are the same apart from the base. -/
def HSame (T : SlfText ℝ) (b b' : ℝ) (h h' : SlfHeader ℝ) : Prop :=
  h.utteranceId = h'.utteranceId ∧ h.lmScale = h'.lmScale ∧ h.start = h'.start ∧ h.ends = h'.ends ∧
  h.numNodes = h'.numNodes ∧ h.numLinks = h'.numLinks ∧
  h.wiPenalty.map (baseScore T b) = h'.wiPenalty.map (baseScore T b')

/-- Both fail with the same error or the results are related. -/
def ERel {α β : Type} (R : α → β → Prop) : Except Err α → Except Err β → Prop
  | .error e, .error e' => e = e'
  | .ok x, .ok y => R x y
  | _, _ => False

theorem headerField_base {h : SlfHeader ℝ} {v : Str} :
    slfHeaderField T h "base".toList v = (parseE (T.parseScore v)).map (fun x => { h with logScale := slfBase T x }) := by
  unfold slfHeaderField
  rw [if_neg (by decide), if_neg (by decide), if_pos rfl]

theorem headerField_wd {h : SlfHeader ℝ} {v : Str} :
    slfHeaderField T h "wdpenalty".toList v =
      (parseE (T.parseScore v)).map (fun x => { h with wiPenalty := some x }) := by
  unfold slfHeaderField
  rw [if_neg (by decide), if_neg (by decide), if_neg (by decide), if_neg (by decide), if_pos rfl]

theorem headerField_score {h : SlfHeader ℝ} {name v : Str} (hn : name ∈ scoreNames) (hw : name ≠ "wdpenalty".toList) :
    slfHeaderField T h name v = .ok h := by
  simp only [scoreNames, List.mem_cons, List.not_mem_nil, or_false] at hn
  rcases hn with rfl | rfl | rfl | rfl | rfl
  · rfl
  · rfl
  · rfl
  · rfl
  · exact absurd rfl hw

theorem headerField_other {h h' : SlfHeader ℝ} (hs : HSame T b b' h h') {name v : Str}
    (hn : name ∉ "base".toList :: scoreNames) :
    ERel (HSame T b b') (slfHeaderField T h name v) (slfHeaderField T h' name v) := by
  simp only [List.mem_cons, scoreNames, not_or] at hn
  obtain ⟨h1, h2, h3, h4, h5, h6, h7⟩ := hs
  unfold slfHeaderField
  split
  · exact ⟨rfl, h2, h3, h4, h5, h6, h7⟩
  split
  · rfl
  rw [if_neg hn.1, if_neg hn.1]
  split
  · cases T.parseScore v with
    | none => rfl
    | some x => exact ⟨h1, rfl, h3, h4, h5, h6, h7⟩
  rw [if_neg hn.2.2.2.2.2.1, if_neg hn.2.2.2.2.2.1]
  split
  · cases T.parseInt v with
    | none => rfl
    | some x => exact ⟨h1, h2, rfl, h4, h5, h6, h7⟩
  split
  · cases T.parseInt v with
    | none => rfl
    | some x => exact ⟨h1, h2, h3, by simp only [h4], h5, h6, h7⟩
  split
  · cases T.parseInt v with
    | none => rfl
    | some x => exact ⟨h1, h2, h3, h4, rfl, h6, h7⟩
  split
  · cases T.parseInt v with
    | none => rfl
    | some x => exact ⟨h1, h2, h3, h4, h5, rfl, h7⟩
  exact ⟨h1, h2, h3, h4, h5, h6, h7⟩

theorem headerFields_same (hlog : T.log = Real.log) (hb : 0 ≤ b) (hb' : 0 ≤ b') {fs fs' : List Str}
    (hf : SameFields T b b' fs fs') : ∀ {h h' : SlfHeader ℝ}, HSame T b b' h h' →
      ERel (HSame T b b') (slfHeaderFields T fs h) (slfHeaderFields T fs' h') := by
  induction hf with
  | nil => intro h h' hs; exact hs
  | @other f fs fs' hn _ ih =>
    intro h h' hs
    simp only [slfHeaderFields]
    cases hsp : splitSlfField f with
    | error e => rfl
    | ok p =>
      obtain ⟨name, v⟩ := p
      have hr := headerField_other hs (v := v) (hn name v hsp)
      dsimp only
      revert hr
      cases slfHeaderField T h name v <;> cases slfHeaderField T h' name v
      · exact id
      · exact fun hr => hr.elim
      · exact fun hr => hr.elim
      · exact fun hr => ih hr
  | @score f f' name v v' x x' fs fs' hname hf hf' hx hx' _ hprob _ ih =>
    intro h h' hs
    simp only [slfHeaderFields]
    rw [show splitSlfField f = .ok (name, v) from hf, show splitSlfField f' = .ok (name, v') from hf']
    dsimp only
    by_cases hw : name = "wdpenalty".toList
    · subst hw
      rw [headerField_wd, headerField_wd, hx, hx']
      apply ih
      obtain ⟨h1, h2, h3, h4, h5, h6, _⟩ := hs
      refine ⟨h1, h2, h3, h4, h5, h6, ?_⟩
      simp only [Option.map_some, baseScore_same hlog hb hb' hprob]
    · rw [headerField_score hname hw, headerField_score hname hw]
      exact ih hs
  | @left f v fs fs' hf hv _ ih =>
    intro h h' hs
    simp only [slfHeaderFields]
    rw [show splitSlfField f = .ok (_, v) from hf]
    dsimp only
    rw [headerField_base, hv]
    exact ih hs
  | @right f v fs fs' hf hv _ ih =>
    intro h h' hs
    simp only [slfHeaderFields]
    rw [show splitSlfField f = .ok (_, v) from hf]
    dsimp only
    rw [headerField_base, hv]
    exact ih hs

theorem headerLines_same (hlog : T.log = Real.log) (hb : 0 ≤ b) (hb' : 0 ≤ b') {ls ls' : List Str}
    (hl : List.Forall₂ (SameLine T b b') ls ls') : ∀ {h h' : SlfHeader ℝ}, HSame T b b' h h' →
      ERel (fun r r' => HSame T b b' r.1 r'.1 ∧ List.Forall₂ (SameLine T b b') r.2 r'.2)
        (slfHeaderLines T ls h) (slfHeaderLines T ls' h') := by
  induction hl with
  | nil =>
    intro h h' hs
    simp only [slfHeaderLines]
    rw [hs.2.2.2.2.1, hs.2.2.2.2.2.1]
    split
    · rfl
    · exact ⟨hs, .nil⟩
  | @cons l l' ls ls' hline hrest ih =>
    intro h h' hs
    obtain ⟨fs, fs', ht, ht', hf, _⟩ := hline
    simp only [slfHeaderLines, ht, ht']
    have hr := headerFields_same hlog hb hb' hf hs
    revert hr
    cases slfHeaderFields T fs h <;> cases slfHeaderFields T fs' h'
    · exact id
    · exact fun hr => hr.elim
    · exact fun hr => hr.elim
    · rename_i g g'
      intro hr
      dsimp only
      have hr : HSame T b b' g g' := hr
      rw [hr.2.2.2.2.1, hr.2.2.2.2.2.1]
      split
      · exact ⟨hr, hrest⟩
      · exact ih hr

/-- Every field that declares a base gives the base `b`. -/
def OnlyBase (T : SlfText ℝ) (b : ℝ) (fs : List Str) : Prop :=
  ∀ f ∈ fs, ∀ v, Named f "base".toList v → T.parseScore v = some b

theorem sameFields_left {fs fs' : List Str} (h : SameFields T b b' fs fs') : OnlyBase T b fs := by
  induction h with
  | nil => intro f hf; cases hf
  | other hn _ ih =>
    intro g hg v hv
    rcases List.mem_cons.mp hg with rfl | hg
    · exact absurd (List.mem_cons_self) (hn _ _ hv)
    · exact ih g hg v hv
  | @score f f' name v v' x x' fs fs' hname hf _ _ _ _ _ _ ih =>
    intro g hg w hw
    rcases List.mem_cons.mp hg with rfl | hg
    · rw [Named] at hf hw
      rw [hf] at hw
      cases hw
      exact absurd hname (by decide)
    · exact ih g hg w hw
  | @left f v fs fs' hf hv _ ih =>
    intro g hg w hw
    rcases List.mem_cons.mp hg with rfl | hg
    · rw [Named] at hf hw
      rw [hf] at hw
      cases hw
      exact hv
    · exact ih g hg w hw
  | right _ _ _ ih => exact ih

theorem sameFields_symm {fs fs' : List Str} (h : SameFields T b b' fs fs') : SameFields T b' b fs' fs := by
  induction h with
  | nil => exact .nil
  | other hn _ ih => exact .other hn ih
  | score hname hf hf' hx hx' hpos hprob _ ih => exact .score hname hf' hf hx' hx (hprob ▸ hpos) hprob.symm ih
  | left hf hv _ ih => exact .right hf hv ih
  | right hf hv _ ih => exact .left hf hv ih

theorem sameLine_symm {l l' : Str} (h : SameLine T b b' l l') : SameLine T b' b l' l := by
  obtain ⟨fs, fs', ht, ht', hf, hs⟩ := h
  refine ⟨fs', fs, ht', ht, sameFields_symm hf, ?_⟩
  rcases hs with ⟨n, h1, h2⟩ | ⟨h1, h2⟩
  · exact .inl ⟨n, h2, h1⟩
  · exact .inr ⟨h2, h1⟩

theorem headerField_scale {h g : SlfHeader ℝ} {name v : Str} (hn : name ≠ "base".toList)
    (hg : slfHeaderField T h name v = .ok g) : g.logScale = h.logScale := by
  unfold slfHeaderField at hg
  rw [if_neg hn] at hg
  split at hg
  · cases hg; rfl
  split at hg
  · cases hg
  split at hg
  · cases hp : T.parseScore v <;> rw [hp] at hg <;> cases hg; rfl
  split at hg
  · cases hp : T.parseScore v <;> rw [hp] at hg <;> cases hg; rfl
  split at hg
  · cases hp : T.parseInt v <;> rw [hp] at hg <;> cases hg; rfl
  split at hg
  · cases hp : T.parseInt v <;> rw [hp] at hg <;> cases hg; rfl
  split at hg
  · cases hp : T.parseInt v <;> rw [hp] at hg <;> cases hg; rfl
  split at hg
  · cases hp : T.parseInt v <;> rw [hp] at hg <;> cases hg; rfl
  cases hg; rfl

theorem headerField_nodes {h g : SlfHeader ℝ} {name v : Str} (hn : name ∉ ["NODES".toList, "N".toList])
    (hg : slfHeaderField T h name v = .ok g) : g.numNodes = h.numNodes := by
  simp only [List.mem_cons, List.not_mem_nil, or_false] at hn
  unfold slfHeaderField at hg
  rw [if_neg hn] at hg
  split at hg
  · cases hg; rfl
  split at hg
  · cases hg
  split at hg
  · cases hp : T.parseScore v <;> rw [hp] at hg <;> cases hg; rfl
  split at hg
  · cases hp : T.parseScore v <;> rw [hp] at hg <;> cases hg; rfl
  split at hg
  · cases hp : T.parseScore v <;> rw [hp] at hg <;> cases hg; rfl
  split at hg
  · cases hp : T.parseInt v <;> rw [hp] at hg <;> cases hg; rfl
  split at hg
  · cases hp : T.parseInt v <;> rw [hp] at hg <;> cases hg; rfl
  split at hg
  · cases hp : T.parseInt v <;> rw [hp] at hg <;> cases hg; rfl
  cases hg; rfl

theorem headerField_links {h g : SlfHeader ℝ} {name v : Str} (hn : name ∉ ["LINKS".toList, "L".toList])
    (hg : slfHeaderField T h name v = .ok g) : g.numLinks = h.numLinks := by
  simp only [List.mem_cons, List.not_mem_nil, or_false] at hn
  unfold slfHeaderField at hg
  rw [if_neg hn] at hg
  split at hg
  · cases hg; rfl
  split at hg
  · cases hg
  split at hg
  · cases hp : T.parseScore v <;> rw [hp] at hg <;> cases hg; rfl
  split at hg
  · cases hp : T.parseScore v <;> rw [hp] at hg <;> cases hg; rfl
  split at hg
  · cases hp : T.parseScore v <;> rw [hp] at hg <;> cases hg; rfl
  split at hg
  · cases hp : T.parseInt v <;> rw [hp] at hg <;> cases hg; rfl
  split at hg
  · cases hp : T.parseInt v <;> rw [hp] at hg <;> cases hg; rfl
  split at hg
  · cases hp : T.parseInt v <;> rw [hp] at hg <;> cases hg; rfl
  cases hg; rfl

theorem headerFields_scale : ∀ {fs : List Str} {h g : SlfHeader ℝ}, slfHeaderFields T fs h = .ok g →
    OnlyBase T b fs → (h.logScale = slfBase T b ∨ ∃ f ∈ fs, ∃ v, Named f "base".toList v) → g.logScale = slfBase T b
  | [], h, g, hg, _, hd => by
    cases hg
    rcases hd with hd | ⟨f, hf, _⟩
    · exact hd
    · cases hf
  | f :: fs, h, g, hg, ho, hd => by
    simp only [slfHeaderFields] at hg
    split at hg
    · cases hg
    · rename_i name v hsp
      split at hg
      · cases hg
      · rename_i h1 hh1
        refine headerFields_scale hg (fun x hx => ho x (List.mem_cons_of_mem _ hx)) ?_
        by_cases hn : name = "base".toList
        · subst hn
          rw [headerField_base, ho f List.mem_cons_self v hsp] at hh1
          cases hh1
          exact .inl rfl
        · rcases hd with hd | ⟨f', hf', v', hv'⟩
          · exact .inl ((headerField_scale hn hh1).trans hd)
          · rcases List.mem_cons.mp hf' with rfl | hf'
            · rw [Named, hsp] at hv'
              cases hv'
              exact absurd rfl hn
            · exact .inr ⟨f', hf', v', hv'⟩

theorem headerFields_nodes : ∀ {fs : List Str} {h g : SlfHeader ℝ}, slfHeaderFields T fs h = .ok g →
    NoField ["NODES".toList, "N".toList] fs → g.numNodes = h.numNodes
  | [], h, g, hg, _ => by cases hg; rfl
  | f :: fs, h, g, hg, ho => by
    simp only [slfHeaderFields] at hg
    split at hg
    · cases hg
    · rename_i name v hsp
      split at hg
      · cases hg
      · rename_i h1 hh1
        rw [headerFields_nodes hg (fun x hx => ho x (List.mem_cons_of_mem _ hx)),
          headerField_nodes (ho f List.mem_cons_self _ _ hsp) hh1]

theorem headerFields_links : ∀ {fs : List Str} {h g : SlfHeader ℝ}, slfHeaderFields T fs h = .ok g →
    NoField ["LINKS".toList, "L".toList] fs → g.numLinks = h.numLinks
  | [], h, g, hg, _ => by cases hg; rfl
  | f :: fs, h, g, hg, ho => by
    simp only [slfHeaderFields] at hg
    split at hg
    · cases hg
    · rename_i name v hsp
      split at hg
      · cases hg
      · rename_i h1 hh1
        rw [headerFields_links hg (fun x hx => ho x (List.mem_cons_of_mem _ hx)),
          headerField_links (ho f List.mem_cons_self _ _ hsp) hh1]

/-- Once the base is known, it stays. -/
theorem headerLines_scale : ∀ {ls : List Str} {h : SlfHeader ℝ} {r : SlfHeader ℝ × List Str},
    slfHeaderLines T ls h = .ok r → (∀ l ∈ ls, ∀ fs, T.tok l = .ok fs → OnlyBase T b fs) →
    (h.logScale = slfBase T b ∨ ∃ (head rest : List Str) (toks : List (List Str)) (last : List Str) (f v : Str),
      ls = head ++ rest ∧ List.Forall₂ (fun line fs => T.tok line = .ok fs) head (toks ++ [last]) ∧
      ((h.numNodes = none ∧ NoField ["NODES".toList, "N".toList] toks.flatten) ∨
        (h.numLinks = none ∧ NoField ["LINKS".toList, "L".toList] toks.flatten)) ∧
      f ∈ toks.flatten ++ last ∧ Named f "base".toList v) → r.1.logScale = slfBase T b
  | [], h, r, hr, _, hd => by
    simp only [slfHeaderLines] at hr
    split at hr
    · cases hr
    · cases hr
      rcases hd with hd | ⟨head, rest, toks, last, f, v, hl, ht, _⟩
      · exact hd
      · have : head = [] := by
          cases head with
          | nil => rfl
          | cons a b => cases hl
        subst this
        cases toks <;> cases ht
  | l :: ls, h, r, hr, ho, hd => by
    simp only [slfHeaderLines] at hr
    split at hr
    · cases hr
    · rename_i fs hfs
      split at hr
      · cases hr
      · rename_i g hg
        have hofs := ho l List.mem_cons_self fs hfs
        have hrec : g.logScale = slfBase T b → r.1.logScale = slfBase T b := by
          intro hgs
          split at hr
          · cases hr; exact hgs
          · exact headerLines_scale hr (fun x hx => ho x (List.mem_cons_of_mem _ hx)) (.inl hgs)
        by_cases hin : ∃ f ∈ fs, ∃ v, Named f "base".toList v
        · exact hrec (headerFields_scale hg hofs (.inr hin))
        · rcases hd with hd | ⟨head, rest, toks, last, f, v, hl, ht, hno, hf, hv⟩
          · exact hrec (headerFields_scale hg hofs (.inl hd))
          · cases toks with
            | nil =>
              exfalso
              cases ht with
              | cons h1 h2 =>
                cases h2
                cases hl
                rw [hfs] at h1
                cases h1
                exact hin ⟨f, by simpa using hf, v, hv⟩
            | cons t toks =>
              cases ht with
              | @cons a _ as _ h1 h2 =>
              cases hl
              rw [hfs] at h1
              cases h1
              have hmem : f ∈ toks.flatten ++ last := by
                rw [List.flatten_cons, List.append_assoc] at hf
                rcases List.mem_append.mp hf with hf | hf
                · exact absurd ⟨f, hf, v, hv⟩ hin
                · exact hf
              have hno' : (g.numNodes = none ∧ NoField ["NODES".toList, "N".toList] toks.flatten) ∨
                  (g.numLinks = none ∧ NoField ["LINKS".toList, "L".toList] toks.flatten) := by
                rcases hno with ⟨hn, hno⟩ | ⟨hn, hno⟩
                · left
                  refine ⟨?_, fun x hx => hno x (by rw [List.flatten_cons]; exact List.mem_append_right _ hx)⟩
                  rw [headerFields_nodes hg (fun x hx => hno x (by
                    rw [List.flatten_cons]; exact List.mem_append_left _ hx)), hn]
                · right
                  refine ⟨?_, fun x hx => hno x (by rw [List.flatten_cons]; exact List.mem_append_right _ hx)⟩
                  rw [headerFields_links hg (fun x hx => hno x (by
                    rw [List.flatten_cons]; exact List.mem_append_left _ hx)), hn]
              rw [if_neg (by rcases hno' with hn | hn <;> simp [hn.1])] at hr
              exact headerLines_scale hr (fun x hx => ho x (List.mem_cons_of_mem _ hx))
                (.inr ⟨as, rest, toks, last, f, v, rfl, h2, hno', hmem, hv⟩)

theorem header_scale (hlog : T.log = Real.log) {ls : List Str} {r : SlfHeader ℝ × List Str}
    (hr : slfHeaderLines T ls .empty = .ok r) (ho : ∀ l ∈ ls, ∀ fs, T.tok l = .ok fs → OnlyBase T b fs)
    (hd : Declares T b ls) : r.1.logScale = slfBase T b := by
  apply headerLines_scale hr ho
  rcases hd with rfl | ⟨head, rest, toks, last, f, v, hl, ht, hno, hf, hv, _⟩
  · left
    rw [slfBase, if_neg (Real.exp_ne_zero 1), hlog, Real.log_exp]
    rfl
  · right
    refine ⟨head, rest, toks, last, f, v, hl, ht, ?_, hf, hv⟩
    exact hno.imp (fun h => ⟨rfl, h⟩) (fun h => ⟨rfl, h⟩)

theorem slfScore_eq {v : Str} {x : ℝ} (hx : T.parseScore v = some x) :
    slfScore T (slfBase T b) v = .ok (baseScore T b x) := by
  unfold slfScore baseScore
  rw [hx]
  cases slfBase T b <;> rfl

theorem linkField_base {s : Option ℝ} {n : Nat} {V : SlfLinkVars ℝ} {v : Str} :
    slfLinkField T s n V "base".toList v = .ok V := rfl

theorem linkField_other {s s' : Option ℝ} {n : Nat} {V : SlfLinkVars ℝ} {name v : Str}
    (hn : name ∉ "base".toList :: scoreNames) : slfLinkField T s n V name v = slfLinkField T s' n V name v := by
  simp only [List.mem_cons, scoreNames, not_or] at hn
  unfold slfLinkField
  have h1 : ¬ (name = "acoustic".toList ∨ name = "a".toList) := not_or.mpr ⟨hn.2.1, hn.2.2.1⟩
  have h2 : ¬ (name = "language".toList ∨ name = "l".toList) := not_or.mpr ⟨hn.2.2.2.1, hn.2.2.2.2.1⟩
  simp only [if_neg h1, if_neg h2]

theorem linkField_score (hlog : T.log = Real.log) (hb : 0 ≤ b) (hb' : 0 ≤ b') {n : Nat} {V : SlfLinkVars ℝ}
    {name v v' : Str} {x x' : ℝ} (hname : name ∈ scoreNames) (hx : T.parseScore v = some x)
    (hx' : T.parseScore v' = some x') (hprob : slfProb b x = slfProb b' x') :
    slfLinkField T (slfBase T b) n V name v = slfLinkField T (slfBase T b') n V name v' := by
  have hs : slfScore T (slfBase T b) v = slfScore T (slfBase T b') v' := by
    rw [slfScore_eq hx, slfScore_eq hx', baseScore_same hlog hb hb' hprob]
  simp only [scoreNames, List.mem_cons, List.not_mem_nil, or_false] at hname
  unfold slfLinkField
  rw [hs]
  rcases hname with rfl | rfl | rfl | rfl | rfl <;> rfl

theorem linkFields_same (hlog : T.log = Real.log) (hb : 0 ≤ b) (hb' : 0 ≤ b') {n : Nat} {fs fs' : List Str}
    (hf : SameFields T b b' fs fs') : ∀ {V : SlfLinkVars ℝ},
      slfLinkFields T (slfBase T b) n fs V = slfLinkFields T (slfBase T b') n fs' V := by
  induction hf with
  | nil => intro V; rfl
  | @other f fs fs' hn _ ih =>
    intro V
    simp only [slfLinkFields]
    cases hsp : splitSlfField f with
    | error e => rfl
    | ok p =>
      obtain ⟨name, v⟩ := p
      dsimp only
      rw [linkField_other (s' := slfBase T b') (hn name v hsp)]
      cases slfLinkField T (slfBase T b') n V name v with
      | error e => rfl
      | ok V => exact ih
  | @score f f' name v v' x x' fs fs' hname hf hf' hx hx' _ hprob _ ih =>
    intro V
    simp only [slfLinkFields]
    rw [show splitSlfField f = .ok (name, v) from hf, show splitSlfField f' = .ok (name, v') from hf']
    dsimp only
    rw [linkField_score hlog hb hb' hname hx hx' hprob]
    cases slfLinkField T (slfBase T b') n V name v' with
    | error e => rfl
    | ok V => exact ih
  | @left f v fs fs' hf hv _ ih =>
    intro V
    simp only [slfLinkFields]
    rw [show splitSlfField f = .ok (_, v) from hf]
    exact ih
  | @right f v fs fs' hf hv _ ih =>
    intro V
    simp only [slfLinkFields]
    rw [show splitSlfField f = .ok (_, v) from hf]
    exact ih

theorem nodeFields_score {f name v : Str} {fs : List Str} {a : Option ℚ × Option (Option Str)}
    (hname : name ∈ "base".toList :: scoreNames) (hf : Named f name v) :
    slfNodeFields T (f :: fs) a = slfNodeFields T fs a := by
  obtain ⟨t, w⟩ := a
  simp only [slfNodeFields]
  rw [show splitSlfField f = .ok (name, v) from hf]
  dsimp only
  have h1 : ¬ (name = "time".toList ∨ name = "t".toList) := by
    rintro (rfl | rfl) <;> exact absurd hname (by decide)
  have h2 : ¬ (name = "WORD".toList ∨ name = "W".toList) := by
    rintro (rfl | rfl) <;> exact absurd hname (by decide)
  rw [if_neg h1, if_neg h2]

theorem nodeFields_same {fs fs' : List Str} (hf : SameFields T b b' fs fs') :
    ∀ {a : Option ℚ × Option (Option Str)}, slfNodeFields T fs a = slfNodeFields T fs' a := by
  induction hf with
  | nil => intro a; rfl
  | @other f fs fs' hn _ ih =>
    rintro ⟨t, w⟩
    simp only [slfNodeFields, ih]
  | score hname hf hf' _ _ _ _ _ ih =>
    intro a
    rw [nodeFields_score (List.mem_cons_of_mem _ hname) hf, nodeFields_score (List.mem_cons_of_mem _ hname) hf', ih]
  | left hf _ _ ih => intro a; rw [nodeFields_score List.mem_cons_self hf, ih]
  | right hf _ _ ih => intro a; rw [nodeFields_score List.mem_cons_self hf, ih]

theorem slfLine_ignored {s : Option ℝ} {st : SlfSt ℝ} {f name v : Str} {fs : List Str}
    (hname : name ∈ "base".toList :: scoreNames) (hf : Named f name v) : slfLine T s st (f :: fs) = .ok st := by
  simp only [slfLine]
  rw [show splitSlfField f = .ok (name, v) from hf]
  dsimp only
  have h1 : ¬ name = "I".toList := by rintro rfl; exact absurd hname (by decide)
  have h2 : ¬ name = "J".toList := by rintro rfl; exact absurd hname (by decide)
  rw [if_neg h1, if_neg h2]

theorem notItem_ignored {s : Option ℝ} {st : SlfSt ℝ} {fs : List Str} (h : NotItem fs) :
    slfLine T s st fs = .ok st := by
  rcases h with rfl | ⟨name, ⟨f, v, rest, rfl, hn⟩, hni⟩
  · rfl
  · simp only [List.mem_cons, List.not_mem_nil, or_false, not_or] at hni
    simp only [slfLine]
    rw [show splitSlfField f = .ok (name, v) from hn]
    dsimp only
    rw [if_neg hni.1, if_neg hni.2]

theorem slfLine_same (hlog : T.log = Real.log) (hb : 0 ≤ b) (hb' : 0 ≤ b') {st : SlfSt ℝ} {fs fs' : List Str}
    (hf : SameFields T b b' fs fs') (hs : (∃ name, StartsWith name fs ∧ StartsWith name fs') ∨
      (NotItem fs ∧ NotItem fs')) :
    slfLine T (slfBase T b) st fs = slfLine T (slfBase T b') st fs' := by
  rcases hs with ⟨name, ⟨f, v, rest, rfl, hn⟩, ⟨f', v', rest', rfl, hn'⟩⟩ | ⟨h1, h2⟩
  · by_cases hbase : name = "base".toList
    · subst hbase
      rw [slfLine_ignored List.mem_cons_self hn, slfLine_ignored List.mem_cons_self hn']
    · cases hf with
      | other _ hrest =>
        simp only [slfLine, slfNode, slfLink]
        simp only [nodeFields_same hrest, linkFields_same hlog hb hb' hrest]
      | score hname hf hf' _ _ _ _ _ =>
        rw [slfLine_ignored (List.mem_cons_of_mem _ hname) hf, slfLine_ignored (List.mem_cons_of_mem _ hname) hf']
      | left hf _ _ =>
        rw [Named] at hf hn
        rw [hf] at hn
        cases hn
        exact absurd rfl hbase
      | right hf _ _ =>
        rw [Named] at hf hn'
        rw [hf] at hn'
        cases hn'
        exact absurd rfl hbase
  · rw [notItem_ignored h1, notItem_ignored h2]

theorem slfLines_same (hlog : T.log = Real.log) (hb : 0 ≤ b) (hb' : 0 ≤ b') {ls ls' : List Str}
    (hl : List.Forall₂ (SameLine T b b') ls ls') : ∀ {st : SlfSt ℝ},
      slfLines T (slfBase T b) ls st = slfLines T (slfBase T b') ls' st := by
  induction hl with
  | nil => intro st; rfl
  | cons hline _ ih =>
    intro st
    obtain ⟨fs, fs', ht, ht', hf, hs⟩ := hline
    simp only [slfLines, ht, ht', slfLine_same hlog hb hb' hf hs]
    cases slfLine T (slfBase T b') st fs' with
    | error e => rfl
    | ok st => exact ih

theorem sameLine_only {ls ls' : List Str} (hl : List.Forall₂ (SameLine T b b') ls ls') :
    ∀ l ∈ ls, ∀ fs, T.tok l = .ok fs → OnlyBase T b fs := by
  induction hl with
  | nil => intro l hl; cases hl
  | cons hline _ ih =>
    intro l hl fs hfs
    rcases List.mem_cons.mp hl with rfl | hl
    · obtain ⟨gs, gs', ht, _, hf, _⟩ := hline
      rw [hfs] at ht
      cases ht
      exact sameFields_left hf
    · exact ih l hl fs hfs

theorem penalty_eq {h : SlfHeader ℝ} (hs : h.logScale = slfBase T b) :
    slfPenalty T h = h.wiPenalty.map (baseScore T b) := by
  unfold slfPenalty baseScore
  rw [hs]
  cases h.wiPenalty with
  | none => rfl
  | some p => cases slfBase T b <;> rfl

/-- C133: two SLF files that differ only in the base of the logarithms, so that the scores stand for the same
probabilities, are read as the same lattice (or rejected with the same error). -/
theorem C133 (T : SlfText ℝ) (hlog : T.log = Real.log) (b b' : ℝ) (hb : 0 ≤ b) (hb' : 0 ≤ b')
    (lines lines' : List Str) (hl : List.Forall₂ (SameLine T b b') lines lines')
    (hd : Declares T b lines) (hd' : Declares T b' lines') :
    readSlf T lines = readSlf T lines' := by
  have hr := headerLines_same hlog hb hb' hl (h := .empty) (h' := .empty) ⟨rfl, rfl, rfl, rfl, rfl, rfl, rfl⟩
  have ho := sameLine_only hl
  have ho' := sameLine_only (List.Forall₂.flip (hl.imp fun _ _ h => sameLine_symm h))
  unfold readSlf
  revert hr
  cases hh : slfHeaderLines T lines .empty <;> cases hh' : slfHeaderLines T lines' .empty
  · intro hr; rw [show _ = _ from hr]
  · exact fun hr => hr.elim
  · exact fun hr => hr.elim
  · rename_i r r'
    rintro ⟨⟨h1, h2, h3, h4, h5, h6, h7⟩, hrest⟩
    have hs := header_scale hlog hh ho hd
    have hs' := header_scale hlog hh' ho' hd'
    obtain ⟨g, rest⟩ := r
    obtain ⟨g', rest'⟩ := r'
    dsimp only at *
    rw [h5, h6]
    have hbody : ∀ N M, slfBody T g N M rest = slfBody T g' N M rest' := by
      intro N M
      unfold slfBody
      simp only [hs, hs', slfLines_same hlog hb hb' hrest, h1, h2, h3, h4, penalty_eq hs, penalty_eq hs', h7]
    simp only [hbody]

end

/-- Numbers in unary, as real numbers. -/
noncomputable def exSlfReal : SlfText ℝ where
  tok line := .ok (pySplit line)
  parseInt := unaryParse
  parseScore s := (unary.parseScore s).map (fun q : ℚ => (q : ℝ))
  parseTime := unary.parseScore
  log := Real.log

/-- The base is two: the penalty is four and the acoustic probability is sixteen. -/
def exBaseTwo : List Str := ["wdpenalty=+11/1 base=+11/1".toList, "N=+11 L=+1".toList,
  "J=+ S=+ E=+1 a=+1111/1 W=hei".toList]

/-- The same lattice with probabilities. -/
def exBaseZero : List Str := ["base=+/1 wdpenalty=+1111/1".toList, "N=+11 L=+1".toList,
  "J=+ S=+ E=+1 a=+1111111111111111/1 W=hei".toList]

theorem exSlfReal_parse {v : Str} {q : ℚ} (h : unary.parseScore v = some q) :
    exSlfReal.parseScore v = some (q : ℝ) := by
  simp [exSlfReal, h]

theorem exDeclares {b : ℚ} {l : Str} {ls toks : List Str} {f v : Str} (ht : pySplit l = toks) (hf : f ∈ toks)
    (hn : splitSlfField f = .ok ("base".toList, v)) (hv : unary.parseScore v = some b) :
    Declares exSlfReal (b : ℝ) (l :: ls) := by
  refine .inr ⟨[l], ls, [], toks, f, v, rfl, .cons ?_ .nil, .inl ?_, by simpa using hf, hn, exSlfReal_parse hv⟩
  · exact congrArg Except.ok ht
  · intro f hf; simp at hf

theorem exField {f n v : Str} (h : splitSlfField f = .ok (n, v)) (hn : n ∉ "base".toList :: scoreNames) :
    ∀ name value, Named f name value → name ∉ "base".toList :: scoreNames := by
  intro name value hv
  rw [Named, h] at hv
  cases hv
  exact hn

/-- The hypotheses of C133 are met by two files that declare different bases. -/
example : readSlf exSlfReal exBaseTwo = readSlf exSlfReal exBaseZero := by
  have h2 : slfProb ((2 : ℚ) : ℝ) ((2 : ℚ) : ℝ) = slfProb ((0 : ℚ) : ℝ) ((4 : ℚ) : ℝ) := by
    simp only [slfProb]
    rw [if_neg (by norm_num), if_pos (by norm_num), Rat.cast_ofNat, Real.rpow_ofNat]
    norm_num
  have h4 : slfProb ((2 : ℚ) : ℝ) ((4 : ℚ) : ℝ) = slfProb ((0 : ℚ) : ℝ) ((16 : ℚ) : ℝ) := by
    simp only [slfProb]
    rw [if_neg (by norm_num), if_pos (by norm_num), Rat.cast_ofNat, Rat.cast_ofNat, Real.rpow_ofNat]
    norm_num
  have p2 : 0 < slfProb ((2 : ℚ) : ℝ) ((2 : ℚ) : ℝ) := by rw [h2]; simp [slfProb]
  have p4 : 0 < slfProb ((2 : ℚ) : ℝ) ((4 : ℚ) : ℝ) := by rw [h4]; simp [slfProb]
  refine C133 exSlfReal rfl ((2 : ℚ) : ℝ) ((0 : ℚ) : ℝ) (by norm_num) (by norm_num) _ _ ?_ ?_ ?_
  · refine .cons ?_ (.cons ?_ (.cons ?_ .nil))
    · refine ⟨["wdpenalty=+11/1".toList, "base=+11/1".toList], ["base=+/1".toList, "wdpenalty=+1111/1".toList],
        by simp only [exSlfReal]; decide +kernel, by simp only [exSlfReal]; decide +kernel, ?_, ?_⟩
      · refine .right (v := "+/1".toList) rfl (exSlfReal_parse (by decide +kernel)) ?_
        refine .score (name := "wdpenalty".toList) (by decide) rfl rfl (exSlfReal_parse (q := 2) (by decide +kernel))
          (exSlfReal_parse (q := 4) (by decide +kernel)) p2 h2 ?_
        exact .left (v := "+11/1".toList) rfl (exSlfReal_parse (by decide +kernel)) .nil
      · exact .inr ⟨.inr ⟨"wdpenalty".toList, ⟨_, _, _, rfl, rfl⟩, by decide⟩,
          .inr ⟨"base".toList, ⟨_, _, _, rfl, rfl⟩, by decide⟩⟩
    · refine ⟨["N=+11".toList, "L=+1".toList], ["N=+11".toList, "L=+1".toList],
        by simp only [exSlfReal]; decide +kernel, by simp only [exSlfReal]; decide +kernel, ?_, ?_⟩
      · exact .other (exField (n := "N".toList) rfl (by decide)) (.other (exField (n := "L".toList) rfl (by decide)) .nil)
      · exact .inl ⟨"N".toList, ⟨_, _, _, rfl, rfl⟩, ⟨_, _, _, rfl, rfl⟩⟩
    · refine ⟨["J=+".toList, "S=+".toList, "E=+1".toList, "a=+1111/1".toList, "W=hei".toList],
        ["J=+".toList, "S=+".toList, "E=+1".toList, "a=+1111111111111111/1".toList, "W=hei".toList],
        by simp only [exSlfReal]; decide +kernel, by simp only [exSlfReal]; decide +kernel, ?_, ?_⟩
      · refine .other (exField (n := "J".toList) rfl (by decide)) (.other (exField (n := "S".toList) rfl (by decide))
          (.other (exField (n := "E".toList) rfl (by decide)) ?_))
        refine .score (name := "a".toList) (by decide) rfl rfl (exSlfReal_parse (q := 4) (by decide +kernel))
          (exSlfReal_parse (q := 16) (by decide +kernel)) p4 h4 ?_
        exact .other (exField (n := "W".toList) rfl (by decide)) .nil
      · exact .inl ⟨"J".toList, ⟨_, _, _, rfl, rfl⟩, ⟨_, _, _, rfl, rfl⟩⟩
  · exact exDeclares (toks := ["wdpenalty=+11/1".toList, "base=+11/1".toList]) (by decide +kernel)
      (f := "base=+11/1".toList) (v := "+11/1".toList) (by decide +kernel) rfl (by decide +kernel)
  · exact exDeclares (toks := ["base=+/1".toList, "wdpenalty=+1111/1".toList]) (by decide +kernel)
      (f := "base=+/1".toList) (v := "+/1".toList) (by decide +kernel) rfl (by decide +kernel)

/-- Natural logarithms do not have to be declared; the file is read. -/
example : readSlf exSlfReal (["N=+11 L=+1".toList, "J=+ S=+ E=+1 a=+1111/1 W=hei".toList] : List Str) = .ok
    ⟨[⟨[0], [], none, false⟩, ⟨[], [0], none, true⟩], [⟨0, 1, some "hei".toList, some (((4 : ℚ) : ℝ) * 1), none, []⟩], 0,
      none, none, none⟩ := by
  rfl

end TheanoLM
