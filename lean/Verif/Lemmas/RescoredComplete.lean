import Verif.Lemmas.RescoredFollow
/-!
# Lemmas about rescored lattices: the links of recombined tokens
-/
namespace TheanoLM

variable {S St : Type} {L : Lattice S}

set_option linter.unusedSectionVars false

section
variable [Field S] [LinearOrder S]
variable {Kept : List Str → Prop} {G : List Str → Option (List Str) → Option Str → S → Prop}
  {names : List (List Str)} {R R' : RLat S} {info : List (Nat × List Str)}
  {sc sa : Prop} {F : Nat → List Str → S → Prop}

/-- There is a link to the final node. -/
def FinalLink (R : RLat S) (u : Nat) : Prop := ∃ k ∈ R.links, k.startNode = u ∧ k.endNode = none ∧ k.word = none

theorem FinalLink.mono (hR : ∀ k ∈ R.links, k ∈ R'.links) {u : Nat} (h : FinalLink R u) : FinalLink R' u := by
  obtain ⟨k, h1, h2⟩ := h
  exact ⟨k, hR k h1, h2⟩

theorem addFinal_kept (hw : L.WF) (hd : Determinized L) (hpre : ∀ p w, Kept (p ++ [w]) → Kept p)
    (hG : LinksGood L Kept G) {depth : Nat}
    {maps : List (List (Str × Nat))} (hm : wordMaps L depth (List.range L.nodes.length) = .ok maps) (f : Nat → Option Str)
    (t : Token S St) {p : List Str} {eos : Str} {segs : List (List (Link S))} {b : Nat}
    (hh : historyWords f t.history.tail = .ok (p ++ [eos])) (heos : ∀ k ∈ L.links, k.word ≠ some eos)
    (hp : WordPath L L.initial p segs b) (hk : Kept p) (hg : G p none none t.nnLm)
    (hI : RInv L sc sa F info R) (hN : NInv Kept G names R)
    (h : addFinal L maps depth f R t = .ok R') : ∃ names', NInv Kept G names' R' ∧
      (∀ u w e, leadStep R u w = some e → leadStep R' u w = some e) ∧ ∃ v, lead R' p 0 = some v ∧ FinalLink R' v := by
  unfold addFinal followIds at h
  rw [hh] at h
  simp only at h
  cases hf : followWords L maps depth true (p ++ [eos]) R 0 L.initial with
  | error e => rw [hf] at h; cases h
  | ok r =>
    obtain ⟨R1, node⟩ := r
    obtain ⟨info', b', ws', pre', h1, _, _, _, h5, _⟩ :=
      followWords_inv hw hd hm true _ info R R1 0 node L.initial [] hI hI.root hf
    obtain ⟨names', g1, g2, g3⟩ := followWords_kept hw hd hpre hG hm true [eos] hp
      (fun w hw' => by rw [List.mem_singleton.mp hw']; exact heos) hN hw.initial (pre := [])
      ⟨[], .nil _⟩ rfl hk hf
    rw [List.nil_append] at g2
    rw [hf] at h
    simp only at h
    have hnode := g1.lead_lt g2
    obtain ⟨nd, hnd⟩ : ∃ nd, R1.nodes[node]? = some nd := ⟨_, List.getElem?_eq_getElem hnode⟩
    rw [List.getD_eq_getElem?_getD, hnd, Option.getD_some] at h
    split at h
    · rename_i hany
      cases h
      refine ⟨names', g1, g3, node, g2, ?_⟩
      obtain ⟨l, hl, hlk⟩ := List.any_eq_true.mp hany
      obtain ⟨k, hk, hks⟩ := (h1.outs node nd hnd l).mp hl
      rw [hk] at hlk
      simp only [decide_eq_true_eq] at hlk
      have hkm := List.mem_of_getElem? hk
      obtain ⟨_, _, hkw, _⟩ := h1.fin k hkm hlk
      exact ⟨k, hkm, hks, hlk, hkw⟩
    · cases h
      have hmono : ∀ u w e, leadStep R1 u w = some e →
          leadStep (R1.addLink ⟨node, none, none, 0, t.nnLm, []⟩) u w = some e := by
        intro u w e he
        rw [leadStep_addFinal g1]; exact he
      exact ⟨names', g1.addFinal _ _ _ _ ⟨p, g1.name hpre p hk _ g2, hg⟩,
        fun u w e he => hmono u w e (g3 u w e he), node, lead_mono hmono _ _ _ g2,
        _, List.mem_append_right _ (List.mem_singleton.mpr rfl), rfl, rfl, rfl⟩

theorem addFinals_kept (hw : L.WF) (hd : Determinized L) (hn : NoNulls L) (hpre : ∀ p w, Kept (p ++ [w]) → Kept p)
    (hG : LinksGood L Kept G) {depth : Nat} {maps : List (List (Str × Nat))}
    (hm : wordMaps L depth (List.range L.nodes.length) = .ok maps) (f : Nat → Option Str) (T : List (Token S St)) (ts : List (Token S St)) :
    ∀ {info : List (Nat × List Str)} {names : List (List Str)} {R R' : RLat S}, (∀ t ∈ ts, t ∈ T) →
    (∀ t ∈ ts, ∃ ls, TokenFor L f t ls ∧ Kept (pathText ls)) →
    (∀ t ∈ ts, ∀ ls, TokenFor L f t ls → Kept (pathText ls) → G (pathText ls) none none t.nnLm) →
    RInv L True True (FinalFor L f T) info R →
    NInv Kept G names R → addAll (addFinal L maps depth f) ts R = .ok R' →
    ∃ names', NInv Kept G names' R' ∧ (∀ u w e, leadStep R u w = some e → leadStep R' u w = some e) ∧
      (∀ k ∈ R.links, k ∈ R'.links) ∧
      ∀ t ∈ ts, ∀ ls, TokenFor L f t ls → Kept (pathText ls) → ∃ v, lead R' (pathText ls) 0 = some v ∧ FinalLink R' v := by
  induction ts with
  | nil => intro info names R R' _ _ _ _ hN h; cases h; exact ⟨names, hN, fun _ _ _ h => h, fun k hk => hk, by simp⟩
  | cons t ts ih =>
    intro info names R R' hT hls hgs hI hN h
    unfold addAll at h
    cases hf : addFinal L maps depth f R t with
    | error e => rw [hf] at h; cases h
    | ok R1 =>
      rw [hf] at h
      simp only at h
      obtain ⟨ls0, h0, hk0⟩ := hls t (by simp)
      obtain ⟨info1, h1, h2, _⟩ := addFinal_inv hw hd hm f T t (hT t (by simp)) ls0 h0 hI hf
      have key : ∀ ls, TokenFor L f t ls → Kept (pathText ls) → ∃ names', NInv Kept G names' R1 ∧
          (∀ u w e, leadStep R u w = some e → leadStep R1 u w = some e) ∧
          ∃ v, lead R1 (pathText ls) 0 = some v ∧ FinalLink R1 v := by
        intro ls htf hk
        have hg := hgs t (by simp) ls htf hk
        obtain ⟨n, eos, hp, _, hh, heos, _⟩ := htf
        obtain ⟨segs, hwp⟩ := noNulls_wordPath hn hp
        exact addFinal_kept hw hd hpre hG hm f t hh heos hwp hk hg hI hN hf
      obtain ⟨names1, n1, n2, _⟩ := key ls0 h0 hk0
      obtain ⟨names2, m1, m2, m3, m4⟩ := ih (fun t ht => hT t (List.mem_cons_of_mem _ ht))
        (fun t ht => hls t (List.mem_cons_of_mem _ ht)) (fun t ht => hgs t (List.mem_cons_of_mem _ ht)) h1 n1 h
      refine ⟨names2, m1, fun u w e he => m2 u w e (n2 u w e he), fun k hk => m3 k (h2 k hk), ?_⟩
      intro t' ht' ls hl hk
      rcases List.mem_cons.mp ht' with rfl | ht'
      · obtain ⟨_, _, _, v, g1, g2⟩ := key ls hl hk
        exact ⟨v, lead_mono m2 _ _ _ g1, g2.mono m3⟩
      · exact m4 t' ht' ls hl hk

/-- The last word of the recombined token is not on any link. -/
def AbsentEvent (L : Lattice S) (f : Nat → Option Str) (e : Recomb S St) : Prop :=
  ∃ (b : HistWord) (w : Str), e.1.history.getLast? = some b ∧ historyWords f [b] = .ok [w] ∧ ∀ k ∈ L.links, k.word ≠ some w

/-- A token with the words `p` and `w` was recombined with a kept token with the words `q` and `w`. -/
structure EventFor (L : Lattice S) (f : Nat → Option Str) (Kept : List Str → Prop) (e : Recomb S St) (p q : List Str)
    (w : Str) : Prop where
  histories : ∃ (h h' : HistWord) (hi hi' : List HistWord) (last : HistWord), e.1.history = h :: (hi ++ [last]) ∧
    e.2.1 = h' :: (hi' ++ [last]) ∧ historyWords f hi = .ok p ∧ historyWords f hi' = .ok q ∧
    historyWords f [last] = .ok [w]
  dropped : Kept p
  kept : Kept (q ++ [w])
  same : Kept (p ++ [w]) → p = q
  path : ∃ segs b, WordPath L L.initial p segs b
  path' : ∃ segs b, WordPath L L.initial q segs b

theorem addRecomb_absent {maps : List (List (Str × Nat))} {depth : Nat} {f : Nat → Option Str} {e : Recomb S St}
    (he : AbsentEvent L f e) (hI : RInv L sc sa F info R) (h : addRecomb L maps depth f R e = .ok R') : R' = R := by
  obtain ⟨b, w, hb, hbw, habs⟩ := he
  unfold addRecomb at h
  rw [hb] at h
  split at h
  · rename_i a b' ha hb'
    cases hb'
    split at h
    · cases h
    · rw [hbw] at h
      simp only at h
      split at h
      · cases h; rfl
      · cases h
      · rw [map_absent hI habs] at h
        cases h; rfl
  · cases h

theorem followWord_error {maps : List (List (Str × Nat))} {w : Str} (d : Nat) : ∀ n : Nat,
    followWord L maps w d n ≠ .error .nodeNotFound := by
  induction d with
  | zero => intro n h; cases h
  | succ d ih =>
    intro n h
    unfold followWord at h
    split at h
    · cases h
    · split at h
      · cases h
      · split at h
        · cases h
        · split at h
          · rename_i hf
            cases h
            exact ih _ hf
          · cases h
          · cases h

/-- Searching for the words of a path without creating nodes. -/
theorem followWords_search (hw : L.WF) (hd : Determinized L) {depth : Nat} {maps : List (List (Str × Nat))}
    (hm : wordMaps L depth (List.range L.nodes.length) = .ok maps) {orig b : Nat} {ws : List Str}
    {segs : List (List (Link S))} (hp : WordPath L orig ws segs b) : ∀ {node : Nat}, orig < L.nodes.length →
    (∀ R0 x, followWords L maps depth false ws R node orig = .ok (R0, x) → R0 = R ∧ lead R ws node = some x) ∧
    (followWords L maps depth false ws R node orig = .error .nodeNotFound → lead R ws node = none) := by
  induction hp with
  | nil a =>
    intro node _
    refine ⟨fun R0 x h => ?_, fun h => by cases h⟩
    cases h
    exact ⟨rfl, rfl⟩
  | cons a b c w ws seg segs h1 _ ih =>
    intro node hlt
    unfold followWords
    cases hf : followWord L maps w depth a with
    | error e =>
      refine ⟨fun R0 x h => (by cases h), fun h => ?_⟩
      simp only [Except.error.injEq] at h
      subst h
      exact absurd hf (followWord_error _ _)
    | ok r =>
      obtain ⟨hnone, hsome⟩ := followWord_spec hw hm w depth a r hlt hf
      cases r with
      | none => exact absurd h1 (hnone rfl _ _)
      | some r =>
        obtain ⟨hre, seg', hstep, _⟩ := hsome r rfl
        obtain ⟨_, rfl⟩ := hd _ _ _ _ _ _ h1 hstep
        simp only
        cases hg : mapGet (R.nodes.getD node ⟨[], []⟩).wordToLink w with
        | some l =>
          simp only
          cases hrl : R.links[l]? with
          | none => exact ⟨fun R0 x h => (by cases h), fun h => (by cases h)⟩
          | some k =>
            simp only
            cases hke : k.endNode with
            | none => exact ⟨fun R0 x h => (by cases h), fun h => (by cases h)⟩
            | some e =>
              have hst : leadStep R node w = some e := by
                unfold leadStep
                rw [hg]
                simp [hrl, hke]
              simp only [lead, hst, Option.bind_some]
              exact ih hre
        | none =>
          have hst : leadStep R node w = none := by
            unfold leadStep
            rw [hg]
            rfl
          simp only [if_true, lead, hst, Option.bind_none]
          exact ⟨fun R0 x h => (by cases h), fun _ => trivial⟩

theorem addRecomb_kept (hw : L.WF) (hd : Determinized L) (hpre : ∀ p w, Kept (p ++ [w]) → Kept p)
    (hG : LinksGood L Kept G) {depth : Nat}
    {maps : List (List (Str × Nat))} (hm : wordMaps L depth (List.range L.nodes.length) = .ok maps) (f : Nat → Option Str)
    {e : Recomb S St} {p q : List Str} {w : Str} (he : EventFor L f Kept e p q w)
    (hgd : ∀ lm, G q (some (q ++ [w])) (some w) lm → G p (some (q ++ [w])) (some w) (lm + (e.1.nnLm - e.2.2)))
    (hN : NInv Kept G names R)
    (h : addRecomb L maps depth f R e = .ok R') : ∃ names', NInv Kept G names' R' ∧
      (∀ r v, Kept r → lead R r 0 = some v → lead R' r 0 = some v) ∧
      ∀ v, lead R (q ++ [w]) 0 = some v → ∃ u, lead R' p 0 = some u ∧
        ∃ k ∈ R'.links, k.startNode = u ∧ k.word = some w ∧ k.endNode = some v := by
  obtain ⟨h0, h0', hi, hi', last, e1, e2, t1, t2, t3⟩ := he.histories
  obtain ⟨segs, b, hwp⟩ := he.path
  obtain ⟨segs', b', hwp'⟩ := he.path'
  have hl1 : e.1.history.getLast? = some last := by rw [e1, ← List.cons_append, List.getLast?_append]; simp
  have hl2 : e.2.1.getLast? = some last := by rw [e2, ← List.cons_append, List.getLast?_append]; simp
  have hd1 : e.1.history.dropLast = h0 :: hi := by rw [e1, ← List.cons_append, List.dropLast_concat]
  have hd2 : e.2.1.dropLast = h0' :: hi' := by rw [e2, ← List.cons_append, List.dropLast_concat]
  unfold addRecomb at h
  rw [hl1, hl2] at h
  simp only [ne_eq, not_true_eq_false, if_false] at h
  rw [t3] at h
  simp only at h
  rw [hd1, hd2] at h
  unfold followIds at h
  simp only [List.tail_cons] at h
  rw [t1, t2] at h
  simp only at h
  have hqk : Kept q := hpre _ _ he.kept
  -- the node where the kept token comes from
  have hsearch : (∀ v, lead R (q ++ [w]) 0 = some v → False) → R' = R → ∃ names', NInv Kept G names' R' ∧
      (∀ r v, Kept r → lead R r 0 = some v → lead R' r 0 = some v) ∧
      ∀ v, lead R (q ++ [w]) 0 = some v → ∃ u, lead R' p 0 = some u ∧
        ∃ k ∈ R'.links, k.startNode = u ∧ k.word = some w ∧ k.endNode = some v := by
    rintro hno rfl
    exact ⟨names, hN, fun _ _ _ h => h, fun v hv => (hno v hv).elim⟩
  obtain ⟨hs1, hs2⟩ := followWords_search (R := R) hw hd hm hwp' (node := 0) hw.initial
  split at h
  · rename_i hf
    cases h
    refine hsearch (fun v hv => ?_) rfl
    obtain ⟨x, hx, _⟩ := lead_snoc.mp hv
    rw [hs2 hf] at hx
    cases hx
  · cases h
  · rename_i R0 recombFrom hf
    obtain ⟨rfl, hlead⟩ := hs1 _ _ hf
    split at h
    · rename_i hg
      cases h
      refine hsearch (fun v hv => ?_) rfl
      obtain ⟨x, hx, hxw⟩ := lead_snoc.mp hv
      rw [hlead] at hx
      cases hx
      unfold leadStep at hxw
      rw [hg] at hxw
      cases hxw
    · rename_i l hg
      split at h
      · cases h
      · rename_i rl hrl
        split at h
        · cases h
        · rename_i R2 fromNode hff
          cases h
          -- the link that was kept
          have hrn := hN.lead_lt hlead
          obtain ⟨nd, hnd⟩ : ∃ nd, R0.nodes[recombFrom]? = some nd := ⟨_, List.getElem?_eq_getElem hrn⟩
          have hg' := hg
          rw [List.getD_eq_getElem?_getD, hnd, Option.getD_some] at hg'
          obtain ⟨k0, en, hk0, hks, hkw, hke, hen⟩ := hN.entry _ nd hnd _ (mapGet_some hg')
          simp only at hk0 hkw
          rw [hrl] at hk0
          cases hk0
          have hstep : leadStep R0 recombFrom w = some en := by
            unfold leadStep
            rw [hg]
            simp [hrl, hke]
          obtain ⟨names2, n1, n2, n3⟩ := followWords_kept hw hd hpre hG hm true [] hwp (by simp) hN hw.initial
            (pre := []) ⟨[], .nil _⟩ rfl he.dropped (by simpa using hff)
          rw [List.nil_append] at n2
          have hstep2 := n3 _ _ _ hstep
          have hfrom := n1.lead_lt n2
          have hname := n1.name hpre p he.dropped _ n2
          have hen2 := (n1.link hstep2).1
          have hlead2 : lead R2 q 0 = some recombFrom := lead_mono n3 _ _ _ hlead
          have hname' := n1.name hpre q hqk _ hlead2
          rw [hke]
          -- if the token was also kept, the link is the same
          have hsame : Kept (p ++ [w]) → leadStep R2 fromNode w = some en := by
            intro hk
            obtain rfl := he.same hk
            rw [n2] at hlead2
            cases hlead2
            exact hstep2
          have hN2 := n1.addLink (u := fromNode) (e := en) (w := w) rl.ac (rl.lm + (e.1.nnLm - e.2.2)) rl.transitions hfrom
            hen2 (fun nm hnm hk => by
              rw [hname] at hnm
              cases hnm
              exact n1.step _ _ _ _ hname (hsame hk) hk)
            ⟨p, q ++ [w], hname, n1.step _ _ _ _ hname' hstep2 he.kept, hgd _ (by
              obtain ⟨nm, x1, x2⟩ := hN.good rl (List.mem_of_getElem? hrl)
              have hq := hN.name hpre q hqk _ hlead
              rw [hks, hq] at x1
              cases x1
              rcases x2 with ⟨v, nm', y1, y2, y3⟩ | ⟨y1, _⟩
              · rw [hke] at y1
                cases y1
                rw [hN.step _ _ _ _ hq hstep he.kept] at y2
                cases y2
                rw [hkw] at y3
                exact y3
              · rw [hke] at y1; cases y1)⟩
          have hkeep : ∀ r : List Str, Kept r → ∀ v, lead R2 r 0 = some v →
              lead (R2.addLink ⟨fromNode, some en, some w, rl.ac, rl.lm + (e.1.nnLm - e.2.2), rl.transitions⟩) r 0 =
                some v := by
            intro r
            induction r using List.reverseRecOn with
            | nil => intro _ v hv; exact hv
            | append_singleton r x ih =>
              intro hk v hv
              obtain ⟨y, h1, h2⟩ := lead_snoc.mp hv
              refine lead_snoc.mpr ⟨y, ih (hpre _ _ hk) y h1, ?_⟩
              rw [leadStep_addLink n1 _ _ _ _ _ _ hfrom]
              split
              · rename_i hyx
                obtain ⟨rfl, rfl⟩ := hyx
                have hr := n1.name hpre r (hpre _ _ hk) _ h1
                rw [hname] at hr
                cases hr
                rw [← hsame hk, h2]
              · exact h2
          refine ⟨names2, hN2, fun r v hk hv => hkeep r hk v (lead_mono n3 _ _ _ hv), ?_⟩
          intro v hv
          obtain ⟨y, h1, h2⟩ := lead_snoc.mp hv
          rw [hlead] at h1
          cases h1
          rw [hstep] at h2
          cases h2
          exact ⟨fromNode, hkeep p he.dropped _ n2, _, List.mem_append_right _ (List.mem_singleton.mpr rfl), rfl, rfl, rfl⟩

theorem addRecombs_kept (hw : L.WF) (hd : Determinized L) (hn : NoNulls L) (hpre : ∀ p w, Kept (p ++ [w]) → Kept p)
    (hG : LinksGood L Kept G) {depth : Nat} {maps : List (List (Str × Nat))}
    (hm : wordMaps L depth (List.range L.nodes.length) = .ok maps) (f : Nat → Option Str) (es : List (Recomb S St)) :
    ∀ {info : List (Nat × List Str)} {names : List (List Str)} {R R' : RLat S}, (∀ e ∈ es, RecombFor L f e) →
    (∀ e ∈ es, AbsentEvent L f e ∨ ∃ p q w, EventFor L f Kept e p q w) →
    (∀ e ∈ es, ∀ p q w, EventFor L f Kept e p q w → ∀ lm, G q (some (q ++ [w])) (some w) lm →
      G p (some (q ++ [w])) (some w) (lm + (e.1.nnLm - e.2.2))) → RInv L False False F info R →
    NInv Kept G names R → addAll (addRecomb L maps depth f) es R = .ok R' →
    ∃ info' names', RInv L False False F info' R' ∧ NInv Kept G names' R' ∧
      (∀ r v, Kept r → lead R r 0 = some v → lead R' r 0 = some v) ∧ (∀ k ∈ R.links, k ∈ R'.links) ∧
      ∀ e ∈ es, ∀ p q w v, EventFor L f Kept e p q w → lead R (q ++ [w]) 0 = some v →
        ∃ u, lead R' p 0 = some u ∧ ∃ k ∈ R'.links, k.startNode = u ∧ k.word = some w ∧ k.endNode = some v := by
  induction es with
  | nil =>
    intro info names R R' _ _ _ hI hN h
    cases h
    exact ⟨info, names, hI, hN, fun _ _ _ h => h, fun k hk => hk, by simp⟩
  | cons e es ih =>
    intro info names R R' hrf hev hgs hI hN h
    unfold addAll at h
    split at h
    · cases h
    · rename_i R1 hf
      obtain ⟨info1, hI1⟩ := addRecomb_inv hw hd hn False.elim hm f (hrf e (by simp)) hI hf
      have hlk := addRecomb_links hf
      have h1 : ∃ names1, NInv Kept G names1 R1 ∧ (∀ r v, Kept r → lead R r 0 = some v → lead R1 r 0 = some v) := by
        rcases hev e (by simp) with ha | ⟨p, q, w, he⟩
        · obtain rfl := addRecomb_absent ha hI hf
          exact ⟨names, hN, fun _ _ _ h => h⟩
        · obtain ⟨names1, g1, g2, _⟩ := addRecomb_kept hw hd hpre hG hm f he (hgs e (by simp) _ _ _ he) hN hf
          exact ⟨names1, g1, g2⟩
      obtain ⟨names1, hN1, hk1⟩ := h1
      obtain ⟨info2, names2, hI2, hN2, hk2, hlk2, hlast⟩ := ih (fun e' he' => hrf e' (List.mem_cons_of_mem _ he'))
        (fun e' he' => hev e' (List.mem_cons_of_mem _ he')) (fun e' he' => hgs e' (List.mem_cons_of_mem _ he')) hI1 hN1 h
      refine ⟨info2, names2, hI2, hN2, fun r v hk hv => hk2 r v hk (hk1 r v hk hv), fun k hk => hlk2 k (hlk k hk), ?_⟩
      intro e' he' p q w v hev' hv
      rcases List.mem_cons.mp he' with rfl | he'
      · obtain ⟨_, _, _, g3⟩ := addRecomb_kept hw hd hpre hG hm f hev' (hgs _ (by simp) _ _ _ hev') hN hf
        obtain ⟨u, g4, k, g5, g6⟩ := g3 v hv
        exact ⟨u, hk2 p u hev'.dropped g4, k, hlk2 k g5, g6⟩
      · exact hlast e' he' p q w v hev' (hk1 _ v hev'.kept hv)

theorem addRecombs_absent {depth : Nat} {maps : List (List (Str × Nat))} {f : Nat → Option Str} (es : List (Recomb S St)) :
    ∀ {R R' : RLat S}, RInv L sc sa F info R → (∀ e ∈ es, AbsentEvent L f e) →
    addAll (addRecomb L maps depth f) es R = .ok R' → R' = R := by
  induction es with
  | nil => intro R R' _ _ h; cases h; rfl
  | cons e es ih =>
    intro R R' hI he h
    unfold addAll at h
    split at h
    · cases h
    · rename_i R1 hf
      obtain rfl := addRecomb_absent (he e (by simp)) hI hf
      exact ih hI (fun e' he' => he e' (List.mem_cons_of_mem _ he')) h

theorem addAll_append {α : Type} (f : RLat S → α → Except Err (RLat S)) (xs ys : List α) : ∀ {R R' : RLat S},
    addAll f (xs ++ ys) R = .ok R' ↔ ∃ R1, addAll f xs R = .ok R1 ∧ addAll f ys R1 = .ok R' := by
  induction xs with
  | nil => intro R R'; simp [addAll]
  | cons x xs ih =>
    intro R R'
    simp only [List.cons_append, addAll]
    cases f R x with
    | error e => simp
    | ok R1 => simp only [ih]

end
end TheanoLM
