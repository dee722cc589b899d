import Verif.Props.TrainScore
import Verif.Props.LayerEquations
/-!
# Training with the option to exclude `<unk>`: C116
-/
set_option linter.unusedSectionVars false
namespace TheanoLM

/-! ## Evaluating the layers before the output layer -/

section
variable {S : Type} [Add S] [Mul S] [Sub S] [Div S] [Zero S] [One S]

/-- The layer is not a softmax layer. -/
def Layer.NotSoftmax (l : Layer S) : Prop := ∀ b u, l ≠ .softmax b u

theorem evalLayers_append (act : Act S) (opts : EvalOptions) (pre post : List (Layer S)) (k : Nat) (g : List (List (Entry S))) :
    evalLayers act opts k (pre ++ post) g =
      match evalLayers act opts k pre g with
      | .error e => .error e
      | .ok g' => evalLayers act opts (k + pre.length) post g' := by
  induction pre generalizing k g with
  | nil => rfl
  | cons l pre ih =>
    simp only [List.cons_append, evalLayers]
    cases evalLayer act opts l k (gather l.inputs g) with
    | error e => rfl
    | ok outs =>
      simp only
      rw [ih]
      rw [List.length_cons, show k + 1 + pre.length = k + (pre.length + 1) by omega]

theorem evalLayers_unk (act : Act S) (x : Bool) (keep : Nat → Nat → Nat → List Bool) (layers : List (Layer S))
    (h : ∀ l ∈ layers, l.NotSoftmax) (k : Nat) (g : List (List (Entry S))) (y z : Bool) :
    evalLayers act ⟨x, y, keep⟩ k layers g = evalLayers act ⟨x, z, keep⟩ k layers g := by
  induction layers generalizing k g with
  | nil => rfl
  | cons layer layers ih =>
    have e : ∀ g, evalLayer act ⟨x, y, keep⟩ layer k g = evalLayer act ⟨x, z, keep⟩ layer k g := by
      intro g
      have hd := h layer List.mem_cons_self
      cases layer with
      | softmax b u => exact absurd rfl (hd b u)
      | _ => rfl
    unfold evalLayers
    rw [e]
    split
    · rfl
    · exact ih (fun l hl => h l (List.mem_cons_of_mem _ hl)) _ _

theorem posAt_zipWith_add {g : List (List (Entry S))} {outs : List (List (Elem S))} {t s : Nat} {e : Entry S}
    (h : posAt (List.zipWith addOutputs g outs) t s = some e) : ∃ e0 x, posAt g t s = some e0 ∧ e.outs = e0.outs ++ [x] := by
  obtain ⟨row, h1, h2⟩ := posAt_some.mp h
  rw [List.getElem?_zipWith] at h1
  cases hg : g[t]? with
  | none => rw [hg] at h1; cases h1
  | some r =>
    cases ho : outs[t]? with
    | none => rw [hg, ho] at h1; cases h1
    | some o =>
      rw [hg, ho] at h1
      cases h1
      unfold addOutputs at h2
      rw [List.getElem?_zipWith] at h2
      cases hr : r[s]? with
      | none => rw [hr] at h2; cases h2
      | some e0 =>
        cases hx : o[s]? with
        | none => rw [hr, hx] at h2; cases h2
        | some x =>
          rw [hr, hx] at h2
          cases h2
          exact ⟨e0, x, posAt_some.mpr ⟨r, hg, hr⟩, rfl⟩

theorem evalLayers_grows {act : Act S} {opts : EvalOptions} {layers : List (Layer S)} {k : Nat} {g out : List (List (Entry S))}
    (h : evalLayers act opts k layers g = .ok out) {t s : Nat} {e : Entry S} (he : posAt out t s = some e) :
    ∃ e0 ys, posAt g t s = some e0 ∧ e.outs = e0.outs ++ ys ∧ ys.length = layers.length := by
  induction layers generalizing k g with
  | nil => cases h; exact ⟨e, [], he, (List.append_nil _).symm, rfl⟩
  | cons l layers ih =>
    unfold evalLayers at h
    split at h
    · cases h
    · rename_i outs _
      obtain ⟨e1, ys, h1, h2, h3⟩ := ih h
      obtain ⟨e0, x, h4, h5⟩ := posAt_zipWith_add h1
      exact ⟨e0, x :: ys, h4, by rw [h2, h5, List.append_assoc]; rfl, by rw [List.length_cons, List.length_cons, h3]⟩

/-- The outputs of the layers before the first softmax layer do not depend on whether `<unk>` is excluded. -/
theorem outputs_unk {act : Act S} {x y z : Bool} {keep : Nat → Nat → Nat → List Bool} {layers : List (Layer S)} {n : Nat}
    (h : ∀ k l, k < n → layers[k]? = some l → l.NotSoftmax) {batch : List (List InputCell)} {out out' : List (List (Entry S))}
    (h1 : evalNetwork act ⟨x, y, keep⟩ layers batch = .ok out) (h2 : evalNetwork act ⟨x, z, keep⟩ layers batch = .ok out')
    {t s : Nat} {e e' : Entry S} (he : posAt out t s = some e) (he' : posAt out' t s = some e') :
    ∀ i, i < n → e.outs[i]? = e'.outs[i]? := by
  unfold evalNetwork at h1 h2
  rw [← List.take_append_drop n layers, evalLayers_append] at h1 h2
  rw [evalLayers_unk act x keep (layers.take n) (fun l hl => by
    obtain ⟨k, hk⟩ := List.mem_iff_getElem?.mp hl
    have hlt : k < n := by
      by_contra hge
      rw [List.getElem?_take, if_neg hge] at hk
      cases hk
    rw [List.getElem?_take_of_lt hlt] at hk
    exact h k l hlt hk) 0 _ z y] at h2
  cases hp : evalLayers act ⟨x, y, keep⟩ 0 (layers.take n) (batch.map fun row => row.map fun c => (⟨c, []⟩ : Entry S)) with
  | error e => rw [hp] at h1; cases h1
  | ok g =>
    rw [hp] at h1 h2
    simp only at h1 h2
    obtain ⟨e0, ys, a1, a2, a3⟩ := evalLayers_grows h1 he
    obtain ⟨e0', ys', b1, b2, b3⟩ := evalLayers_grows h2 he'
    rw [a1] at b1
    cases b1
    obtain ⟨e00, zs, c1, c2, c3⟩ := evalLayers_grows hp a1
    intro i hi
    have hlen : layers.length ≤ n ∨ i < e0.outs.length := by
      by_cases hn : layers.length ≤ n
      · exact .inl hn
      · right
        rw [c2, List.length_append, c3, List.length_take]
        omega
    rcases hlen with hn | hlt
    · have e1 : ys = [] := List.length_eq_zero_iff.mp (by rw [a3, List.length_drop]; omega)
      have e2 : ys' = [] := List.length_eq_zero_iff.mp (by rw [b3, List.length_drop]; omega)
      rw [a2, b2, e1, e2]
    · rw [a2, b2, List.getElem?_append_left hlt, List.getElem?_append_left hlt]

end

/-! ## The probabilities -/

theorem softmaxElem_unk {act : Act ℝ} {y : Bool} {b : Basic ℝ} {u : Nat} {ins : List (Option (Elem ℝ))} {x : Elem ℝ}
    (h : softmaxElem act y b u ins = .ok x) :
    ∃ z, ∀ y', softmaxElem act y' b u ins = .ok (.probs (normalize (softmaxExps act y' u z))) := by
  unfold softmaxElem at h ⊢
  cases hc : concatInputs ins with
  | error e => rw [hc] at h; cases h
  | ok v =>
    rw [hc] at h
    simp only at h ⊢
    cases hp : tensorPreact b.devices b.weights b.biases "input".toList true v with
    | error e => rw [hp] at h; cases h
    | ok z =>
      rw [hp] at h
      simp only at h ⊢
      refine ⟨z, fun y' => ?_⟩
      split at h
      · cases h
      · split at h
        · cases h
        · rfl

theorem sum_zero_lt {l l' : List ℝ} (h : List.Forall₂ (· ≤ ·) l l') (i : Nat) (a b : ℝ) (h1 : l[i]? = some a) (h2 : l'[i]? = some b)
    (hab : a < b) : l.sum < l'.sum := by
  induction h generalizing i with
  | nil => cases h1
  | cons hx ht ih =>
    rw [List.sum_cons, List.sum_cons]
    cases i with
    | zero =>
      cases h1; cases h2
      exact add_lt_add_of_lt_of_le hab ht.sum_le_sum
    | succ i => exact add_lt_add_of_le_of_lt hx (ih i h1 h2)

/-- Excluding the class of `<unk>` increases the probabilities of the other classes. -/
theorem softmax_unk_lt {act : Act ℝ} (hexp : ∀ x, 0 < act.exp x) {u i : Nat} {z : List ℝ} {a : ℝ} (hu : u < z.length) (hi : i ≠ u)
    (h : (normalize (softmaxExps act false u z))[i]? = some a) :
    ∃ a', (normalize (softmaxExps act true u z))[i]? = some a' ∧ 0 < a ∧ a < a' := by
  unfold normalize softmaxExps at h ⊢
  rw [List.getElem?_map, List.getElem?_mapIdx] at h ⊢
  cases hz : z[i]? with
  | none => rw [hz] at h; cases h
  | some x =>
    rw [hz] at h
    simp only [Option.map_some, Bool.false_and, Bool.false_eq_true, if_false, Option.some.injEq, Bool.true_and, beq_iff_eq, hi] at h ⊢
    subst h
    have hi' : i < z.length := by
      obtain ⟨h, _⟩ := List.getElem?_eq_some_iff.mp hz
      exact h
    have hlt : (z.mapIdx fun j v => if j = u then 0 else act.exp v).sum < (z.mapIdx fun _ v => act.exp v).sum := by
      refine sum_zero_lt ?_ u 0 (act.exp z[u]) ?_ ?_ (hexp _)
      · rw [List.forall₂_iff_get]
        refine ⟨by simp, fun j h1 h2 => ?_⟩
        simp only [List.get_eq_getElem, List.getElem_mapIdx]
        split
        · exact (hexp _).le
        · exact le_rfl
      · rw [List.getElem?_mapIdx, List.getElem?_eq_getElem hu, Option.map_some, if_pos rfl]
      · rw [List.getElem?_mapIdx, List.getElem?_eq_getElem hu, Option.map_some]
    have hpos : 0 < (z.mapIdx fun j v => if j = u then 0 else act.exp v).sum := by
      have := sum_zero_lt (l := List.replicate z.length 0) (l' := z.mapIdx fun j v => if j = u then 0 else act.exp v) ?_ i 0 (act.exp x)
        (by rw [List.getElem?_replicate, if_pos hi']) (by rw [List.getElem?_mapIdx, hz, Option.map_some, if_neg hi]) (hexp _)
      · simpa using this
      · rw [List.forall₂_iff_get]
        refine ⟨by simp, fun j h1 h2 => ?_⟩
        simp only [List.get_eq_getElem, List.getElem_mapIdx, List.getElem_replicate]
        split
        · exact le_rfl
        · exact (hexp _).le
    exact ⟨_, rfl, div_pos (hexp _) (hpos.trans hlt), div_lt_div_of_pos_left (hexp _) hpos hlt⟩

section
variable {P : Parsers} {v : Vocab} {unkId : Nat} {env : CreateEnv ℝ} {a : Architecture} {layers : List (Created ℝ)} {output : Nat}

/-- The class that the output layer excludes is the class of `<unk>`. -/
theorem output_unkClass (hm : ModelOf env a v layers output) {c : Created ℝ} {b : Basic ℝ} {u : Nat} (hc : layers[output]? = some c)
    (hl : c.layer = .softmax b u) : u = env.unkClass ∧ c.size = v.numClasses := by
  obtain ⟨net, h1, h2, h3, h4⟩ := hm.created
  obtain ⟨c0, hc0, hs0, hl0⟩ := (h3.at output).1 c hc
  obtain ⟨hlen, _, i3, i4, c1, hc1, hname⟩ := C80_layers env a net hm.prior h1
  rw [h2, hc0] at hc1
  cases hc1
  have hge : a.inputs.length ≤ output := by
    by_contra hlt
    obtain ⟨c2, hc2, hdi⟩ := i3 output _ (List.getElem?_eq_getElem (by omega))
    rw [hc0] at hc2
    cases hc2
    rw [hl] at hl0
    rcases hdi.type with ⟨_, ht, _⟩ | ⟨_, ht, _⟩ <;> rw [ht] at hl0 <;> cases hl0
  have hout : output < net.layers.length := (List.getElem?_eq_some_iff.mp hc0).1
  have hd : a.layers[output - a.inputs.length]? = some (a.layers[output - a.inputs.length]'(by omega)) := List.getElem?_eq_getElem (by omega)
  obtain ⟨c2, hc2, hdesc⟩ := i4 _ _ hd
  rw [show a.inputs.length + (output - a.inputs.length) = output by omega, hc0] at hc2
  cases hc2
  refine ⟨?_, by rw [← hs0, hdesc.outputSize hname, hm.classes]⟩
  rw [hl] at hl0
  generalize hg : c0.layer = l at hl0
  cases hl0
  exact hdesc.unk _ _ hg

/-- Excluding `<unk>` increases the scores of the words in the other classes than that of `<unk>`. -/
theorem networkScore_unk_lt (hv : Constructible P v) (hu : v.wordToId unk = some unkId) (hm : ModelOf env a v layers output)
    (hout : ∃ c b u, layers[output]? = some c ∧ c.layer = .softmax b u)
    (hns : ∀ k c, k < output → layers[k]? = some c → c.layer.NotSoftmax) (us : Bool) (b : MiniBatch) (t i : Nat) (ht : t < b.steps)
    (hi : i < b.n) (hcl : (memberOf v (b.word (t + 1) i)).1 ≠ env.unkClass) :
    ∃ y y', (scorerOf v unkId layers output us false).networkScore b t i = .fin y ∧
      (scorerOf v unkId layers output us true).networkScore b t i = .fin y' ∧ y < y' := by
  obtain ⟨c, bas, u, hc, hl⟩ := hout
  obtain ⟨rfl, hsize⟩ := output_unkClass hm hc hl
  have hk : (layers.map Created.layer)[output]? = some (.softmax bas env.unkClass) := by rw [List.getElem?_map, hc, Option.map_some, hl]
  have hw := (memberOf_class hv hu (b.word (t + 1) i)).1
  have hunk : env.unkClass < v.numClasses := by
    obtain ⟨m1, m2, _⟩ := memberOf_class hv hu unkId
    rw [ite_self, hm.unkClass unkId hu] at m2
    injection m2 with m2
    omega
  have h2 : 2 ≤ v.numClasses := by omega
  obtain ⟨out, o1, o2, o3, o4⟩ := output_distribution_le hm (excludeUnk := false) (fun h => by cases h) (by omega)
    (batch := table b.steps b.n (cellOf v unkId b)) rect_table (cells_valid hv hu hm.words hm.classes b b.steps)
  obtain ⟨out', o1', o2', o3', o4'⟩ := output_distribution_le hm (excludeUnk := true) (fun _ => h2) (by omega)
    (batch := table b.steps b.n (cellOf v unkId b)) rect_table (cells_valid hv hu hm.words hm.classes b b.steps)
  obtain ⟨e, he⟩ := Option.isSome_iff_exists.mp ((posAt_isSome o3 t i).mpr ⟨by rw [o2]; simp [table]; omega, hi⟩)
  obtain ⟨e', he'⟩ := Option.isSome_iff_exists.mp ((posAt_isSome o3' t i).mpr ⟨by rw [o2']; simp [table]; omega, hi⟩)
  obtain ⟨p, hp, p1, _⟩ := o4 _ _ e he
  obtain ⟨p', hp', p1', _⟩ := o4' _ _ e' he'
  have heq := outputs_unk (n := output) (fun k l hkl hl' => by
    rw [List.getElem?_map] at hl'
    cases hlk : layers[k]? with
    | none => rw [hlk] at hl'; cases hl'
    | some ck =>
      rw [hlk] at hl'
      cases hl'
      exact hns k ck hkl hlk) o1 o1' he he'
  have htake : e.outs.take output = e'.outs.take output := by
    apply List.ext_getElem?
    intro j
    rw [List.getElem?_take, List.getElem?_take]
    split
    · exact heq j ‹_›
    · rfl
  obtain ⟨x, x1, x2⟩ := point_at rect_table o1 hk (fun g => rfl) he
  obtain ⟨x', x1', x2'⟩ := point_at rect_table o1' hk (fun g => rfl) he'
  simp only [pointFun, pointElem, Option.getD_some] at x1 x1'
  rw [← htake] at x1'
  obtain ⟨z, hz⟩ := softmaxElem_unk x1
  rw [hz false] at x1
  rw [hz true] at x1'
  injection x1 with x1
  injection x1' with x1'
  subst x1 x1'
  have ep : p = normalize (softmaxExps realAct false env.unkClass z) := by
    unfold Entry.probs at hp
    rw [x2] at hp
    exact (Option.some.inj hp).symm
  have ep' : p' = normalize (softmaxExps realAct true env.unkClass z) := by
    unfold Entry.probs at hp'
    rw [x2'] at hp'
    exact (Option.some.inj hp').symm
  have hzl : z.length = v.numClasses := by
    rw [← p1, ep]
    simp [normalize, softmaxExps]
  obtain ⟨y, hy⟩ : ∃ y, p[(memberOf v (b.word (t + 1) i)).1]? = some y := ⟨_, List.getElem?_eq_getElem (by rw [p1]; exact hw)⟩
  obtain ⟨y', hy', hpos, hlt⟩ := softmax_unk_lt (act := realAct) (u := env.unkClass) (z := z) (a := y) Real.exp_pos (by omega) hcl (by rw [← ep]; exact hy)
  rw [← ep'] at hy'
  refine ⟨Real.log y, Real.log y', ?_, ?_, Real.log_lt_log hpos hlt⟩
  · rw [score_of_output ht hi o1 he hp, hy]
    simp only [fltLog]
    rw [if_neg hpos.ne', if_pos hpos]
  · rw [score_of_output ht hi o1' he' hp', hy']
    simp only [fltLog]
    rw [if_neg (hpos.trans hlt).ne', if_pos (hpos.trans hlt)]

end

/-! ## The perplexity -/

theorem forall₂_lt_sum {xs ys : List ℝ} (h : List.Forall₂ (· < ·) xs ys) (hne : xs ≠ []) : xs.sum < ys.sum := by
  cases h with
  | nil => exact absurd rfl hne
  | cons h1 h2 =>
    rw [List.sum_cons, List.sum_cons]
    exact add_lt_add_of_lt_of_le h1 (h2.imp fun _ _ h => h.le).sum_le_sum

theorem forall₂_fin {l l' : List (Flt ℝ)} {xs : List ℝ} (h : List.Forall₂ (fun x x' => ∀ y, x = .fin y → ∃ y', x' = .fin y' ∧ y < y') l l')
    (hl : l = xs.map .fin) : ∃ xs', l' = xs'.map .fin ∧ List.Forall₂ (· < ·) xs xs' := by
  induction h generalizing xs with
  | nil =>
    cases xs with
    | nil => exact ⟨[], rfl, .nil⟩
    | cons x xs => cases hl
  | cons h1 _ ih =>
    cases xs with
    | nil => cases hl
    | cons x xs =>
      injection hl with e1 e2
      obtain ⟨y', g1, g2⟩ := h1 x e1
      obtain ⟨xs', g3, g4⟩ := ih e2
      exact ⟨y' :: xs', by rw [g1, g3]; rfl, .cons g2 g4⟩

theorem forall₂_flatten_rel {α β : Type} {R : α → β → Prop} {l : List (List α)} {l' : List (List β)}
    (h : List.Forall₂ (List.Forall₂ R) l l') : List.Forall₂ R l.flatten l'.flatten := by
  induction h with
  | nil => exact .nil
  | cons h1 _ ih =>
    rw [List.flatten_cons, List.flatten_cons]
    exact List.rel_append h1 ih

/-- A model that gives greater probabilities to all the words has a smaller perplexity. -/
theorem perplexity_lt {P : Parsers} {sc sc' : Scorer ℝ} (h : sc.Proper P) (h' : sc'.Proper P) (hi : sc.BatchIndependent)
    (hi' : sc'.BatchIndependent) (hn : sc.NonPositive) (hn' : sc'.NonPositive) (hvoc : sc'.vocab = sc.vocab) (hunk : sc'.unkId = sc.unkId)
    (hexp : sc.exp = Real.exp) (hexp' : sc'.exp = Real.exp) (hinc : ∀ b t i, sc'.Included b t i ↔ sc.Included b t i)
    (files : List Str) (maxLen : Option Nat) (hm : maxLen ≠ some 0) (ss : List (List Tok)) (hs : Sequences files maxLen ss)
    (hlt : ∀ seq ∈ ss, ∀ ids, List.Forall₂ (fun (p : Tok) id => IdOf sc.vocab false sc.unkId p.1 id) seq ids → ∀ t,
      t < (sentenceBatch ids).steps → sc.Included (sentenceBatch ids) t 0 → ∀ x x', sc.WordScore (sentenceBatch ids) t 0 x →
        sc'.WordScore (sentenceBatch ids) t 0 x' → ∀ y, x = .fin y → ∃ y', x' = .fin y' ∧ y < y')
    (B : Nat) (hB : 0 < B) (p : ℝ) (hp : ∃ N, ∀ fuel, N ≤ fuel → sc.filePerplexity files ⟨B, maxLen⟩ fuel = some (.ok (.fin p))) :
    ∃ p', p' < p ∧ ∃ N, ∀ fuel, N ≤ fuel → sc'.filePerplexity files ⟨B, maxLen⟩ fuel = some (.ok (.fin p')) := by
  obtain ⟨scores, r, s1, s2, s3⟩ := C110_perplexity P sc h hi hn files maxLen hm ss hs
  obtain ⟨scores', r', s1', s2', s3'⟩ := C110_perplexity P sc' h' hi' hn' files maxLen hm ss hs
  have hr : r = .ok (.fin p) := by
    obtain ⟨N, hN⟩ := hp
    obtain ⟨M, hM⟩ := s3 B hB
    have := hM (max N M) (le_max_right _ _)
    rw [hN (max N M) (le_max_left _ _)] at this
    exact (Option.some.inj this).symm
  have hrel : List.Forall₂ (List.Forall₂ (fun x x' => ∀ y, x = .fin y → ∃ y', x' = .fin y' ∧ y < y')) scores scores' := by
    have key : ∀ seq ∈ ss, ∀ xs xs', SequenceScored sc seq xs → SequenceScored sc' seq xs' →
        List.Forall₂ (fun x x' => ∀ y, x = .fin y → ∃ y', x' = .fin y' ∧ y < y') xs xs' := by
      rintro seq hseq xs xs' ⟨ids, g1, g2⟩ ⟨ids', g1', g2'⟩
      rw [hvoc, hunk] at g1'
      have : ids = ids' := forall₂_unique (R := fun (p : Tok) id => IdOf sc.vocab false sc.unkId p.1 id)
        (fun _ _ _ a b => idOf_unique (constructible_nodup h.vocab) a b) g1 g1'
      subst this
      unfold Scorer.IncludedScores at g2 g2'
      rw [List.filter_congr (q := fun p => decide (sc.Included (sentenceBatch ids) p.1 p.2))
        (fun p _ => by rw [decide_eq_decide]; exact hinc _ _ _)] at g2'
      have hmem : ∀ p ∈ (sentenceBatch ids).positions.filter (fun p => decide (sc.Included (sentenceBatch ids) p.1 p.2)),
          p.1 < (sentenceBatch ids).steps ∧ p.2 = 0 ∧ sc.Included (sentenceBatch ids) p.1 p.2 := by
        intro p hp
        obtain ⟨hp1, hp2⟩ := List.mem_filter.mp hp
        obtain ⟨q1, q2⟩ := mem_positions hp1
        exact ⟨q1, by have : p.2 < 1 := q2; omega, by simpa using hp2⟩
      generalize (sentenceBatch ids).positions.filter (fun p => decide (sc.Included (sentenceBatch ids) p.1 p.2)) = ps at g2 g2' hmem
      clear s1 s1' s2 s2'
      induction g2 generalizing xs' with
      | nil => cases g2'; exact .nil
      | cons w1 _ ih =>
        cases g2' with
        | cons w1' w2' =>
          obtain ⟨m1, m2, m3⟩ := hmem _ List.mem_cons_self
          rw [m2] at w1 w1' m3
          exact .cons (hlt seq hseq ids g1 _ m1 m3 _ _ w1 w1') (ih _ w2' fun p hp => hmem p (List.mem_cons_of_mem _ hp))
    clear s2 s2' hlt hs
    induction s1 generalizing scores' with
    | nil => cases s1'; exact .nil
    | cons w1 _ ih =>
      cases s1' with
      | cons w1' w2' =>
        exact .cons (key _ List.mem_cons_self _ _ w1 w1') (ih _ w2' fun seq hseq => key seq (List.mem_cons_of_mem _ hseq))
  rw [hr, hexp] at s2
  rw [hexp'] at s2'
  generalize hf : scores.flatten = fl at s2
  cases s2 with
  | perplexity xs hne =>
    obtain ⟨xs', e1, e2⟩ := forall₂_fin (by rw [← hf]; exact forall₂_flatten_rel hrel) rfl
    rw [e1] at s2'
    have hne' : xs' ≠ [] := by
      rintro rfl
      cases e2
      exact hne rfl
    refine ⟨Real.exp (-xs'.sum / xs'.length), Real.exp_lt_exp.mpr ?_, ?_⟩
    · rw [← e2.length_eq]
      exact div_lt_div_of_pos_right (neg_lt_neg (forall₂_lt_sum e2 hne)) (by
        have := List.length_pos_iff.mpr hne
        exact_mod_cast this)
    · rw [← s2'.unique (.perplexity xs' hne')]
      exact s3' B hB

/-! ## C116 -/

section
variable {P : Parsers} {v : Vocab} {unkId : Nat} {cenv : CreateEnv ℝ} {a : Architecture} {net : CreatedNetwork ℝ} {layers : List (Created ℝ)}
  {X I J B : Type} {e e' : CreateEnv ℝ} {env : TrainEnv ℝ X I J B} {t : Trainer ℝ X I J} {f : TrainFile ℝ X J} {text : Str}
  {sf : StateFile ℝ}

/-- C116 is violated with the option to exclude `<unk>`: in training, the option excludes `<unk>` only from the words that are counted, but
the score command also removes it from the distribution of the next word.  If the output layer is the only softmax layer, `<unk>` is
alone in its class, and all the words of the validation text are in the shortlist, the score command reports a smaller perplexity than
the train command. -/
theorem C116_violated_exclude (h : TrainedModel P e v unkId cenv a net env t f true text sf layers) (hm : SameMachine e e')
    (hout : ∃ c b u, net.layers[net.output]? = some c ∧ c.layer = .softmax b u)
    (hns : ∀ k c, k < net.output → net.layers[k]? = some c → c.layer.NotSoftmax)
    (hcls : ∀ w, w ≠ unkId → v.classOf[w]? ≠ v.classOf[unkId]?) (ss : List (List Tok)) (hs : Sequences [text] none ss)
    (hin : ∀ seq ∈ ss, ∀ tok ∈ seq, ∀ id, IdOf v false unkId tok.1 id → id < v.numShortlist)
    (showNum : Flt ℝ → Str) (hnl : ∀ x, '\n' ∉ showNum x) (log : Nat → ℝ) (base : Option Nat) :
    ∃ p p', finishTrain env t = .ok (some (.best p)) ∧ p' < p ∧
      ∃ N out, (∀ fuel, N ≤ fuel → scoreReal showNum log e' sf true true base fuel text = .ok (some (out, none))) ∧
        (fileLines out).getLast? = some ("Perplexity: ".toList ++ showNum (.fin p') ++ "\n".toList) := by
  obtain ⟨hv, hmodel, hfw, hsame, _, p, g1, batchSize, hB, hper⟩ := h.facts
  have hu := h.unk
  obtain ⟨c, bas, u, hc, hl⟩ := hout
  obtain ⟨c', hc', _, hl'⟩ := (hsame.at net.output).2 c hc
  have hout' : ∃ c b u, layers[net.output]? = some c ∧ c.layer = .softmax b u := by
    rw [hl] at hl'
    generalize hg : c'.layer = l at hl'
    cases hl'
    exact ⟨c', _, _, hc', hg⟩
  have hns' : ∀ k c, k < net.output → layers[k]? = some c → c.layer.NotSoftmax := by
    intro k c hk hck b u hbu
    obtain ⟨c0, h0, _, h1⟩ := (hsame.at k).1 c hck
    rw [hbu] at h1
    generalize hg : c0.layer = l at h1
    cases h1
    exact hns k c0 hk h0 _ _ hg
  set sc := validationScorer realAct fltLog (fun q => (q : ℝ)) v unkId (layers.map Created.layer) net.output true with hsc
  set sc' := scorerOf v unkId layers net.output true true with hsc'
  have hshort : (scorerOf v unkId layers net.output true false).UsesShortlist ↔ sc.UsesShortlist := Iff.rfl
  have hunkClass : v.classOf[unkId]? = some cenv.unkClass := hmodel.unkClass unkId hu
  have h2 : 2 ≤ v.numClasses := by
    obtain ⟨sosId, k1, k2, _⟩ := C12_special P v hv sos (.inl rfl)
    have hne : sosId ≠ unkId := by
      rintro rfl
      obtain ⟨i, _, q2, q3⟩ := C12_special P v hv unk (.inr (.inr rfl))
      obtain ⟨j, _, r2, r3⟩ := C12_special P v hv sos (.inl rfl)
      rw [k2] at r2
      cases r2
      rw [hu] at q2
      cases q2
      have e1 := (q3 sosId).mpr rfl
      have e2 := (r3 sosId).mpr rfl
      rw [e1] at e2
      exact absurd (Option.some.inj e2) (by decide)
    have m1 := memberOf_class hv hu sosId
    have m2 := memberOf_class hv hu unkId
    have hlt : sosId < v.numShortlist := by simpa [Vocab.inShortlist, Vocab.numShortlist] using k1
    rw [if_pos hlt] at m1
    rw [ite_self] at m2
    have := hcls sosId hne
    rw [m1.2.1, m2.2.1] at this
    have : (memberOf v sosId).1 ≠ (memberOf v unkId).1 := fun e => this (by rw [e])
    omega
  have hres : ∃ p', p' < p ∧ ∃ N, ∀ fuel, N ≤ fuel → sc'.filePerplexity [text] ⟨batchSize, none⟩ fuel = some (.ok (.fin p')) := by
    refine perplexity_lt (P := P) (sc := sc) (sc' := sc') ⟨hv, hu⟩ ⟨hv, hu⟩
      (C96_independent hv hu hmodel hfw true false) (C96_independent hv hu hmodel hfw true true)
      (fun ids t x _ ht _ hx => C110_probability hv hu hmodel true false (fun h => by cases h) h.nonneg h.unigram (sentenceBatch ids) t 0 ht
        (by simp [sentenceBatch]) x hx)
      (fun ids t x _ ht _ hx => C110_probability hv hu hmodel true true (fun _ => h2) h.nonneg h.unigram (sentenceBatch ids) t 0 ht
        (by simp [sentenceBatch]) x hx)
      rfl rfl rfl rfl (fun _ _ _ => Iff.rfl) [text] none (by simp) ss hs ?_ batchSize hB p hper
    intro seq hseq ids hids t ht hinc x x' hx hx' y hy
    have hword : (sentenceBatch ids).word (t + 1) 0 = ids.getD (t + 1) 0 := rfl
    have hsteps : t < ids.length - 1 := ht
    have hid : ids[t + 1]? = some (ids.getD (t + 1) 0) := by
      rw [List.getD_eq_getElem?_getD, List.getElem?_eq_getElem (by omega)]
      rfl
    obtain ⟨tok, htok, hidof⟩ := forall₂_mem_right hids (List.mem_of_getElem? hid)
    have hlt := hin seq hseq tok htok _ hidof
    have hne : ids.getD (t + 1) 0 ≠ unkId := by
      have := hinc.2.1
      rw [hword] at this
      unfold Scorer.Excluded at this
      split at this
      · exact this
      · exact fun e => this ⟨rfl, .inl e⟩
    have hcl : (memberOf v ((sentenceBatch ids).word (t + 1) 0)).1 ≠ cenv.unkClass := by
      rw [hword]
      obtain ⟨_, m2, _⟩ := memberOf_class hv hu (ids.getD (t + 1) 0)
      rw [if_pos hlt] at m2
      intro e
      have := hcls _ hne
      rw [m2, hunkClass, e] at this
      exact this rfl
    obtain ⟨z, z', n1, n2, n3⟩ := networkScore_unk_lt hv hu hmodel hout' hns' true (sentenceBatch ids) t 0 ht (by simp [sentenceBatch]) hcl
    have n1' : sc.networkScore (sentenceBatch ids) t 0 = .fin z := n1
    have n2' : sc'.networkScore (sentenceBatch ids) t 0 = .fin z' := n2
    by_cases hus : sc.UsesShortlist
    · obtain ⟨l, q, w1, w2, w3⟩ := hx.2 hus
      obtain ⟨l', q', w1', w2', w3'⟩ := hx'.2 hus
      have el : l' = l := Option.some.inj (w1'.symm.trans w1)
      subst el
      have eq' : q' = q := Option.some.inj (w2'.symm.trans w2)
      subst eq'
      rw [hy, n1'] at w3
      obtain ⟨y1, y2, b1, b2, rfl⟩ := Flt.add_fin w3.symm
      obtain ⟨y3, y4, b3, b4, rfl⟩ := Flt.add_fin b1
      cases b3
      refine ⟨z' + y4 + y2, ?_, by linarith⟩
      rw [w3', n2']
      have b4' : sc'.log (memberOf sc'.vocab ((sentenceBatch ids).word (t + 1) 0)).2 = .fin y4 := b4
      rw [b4']
      cases q' with
      | none => cases b2
      | some q =>
        have b2' : sc'.log q = .fin y2 := b2
        show ((Flt.fin z').add (.fin y4)).add (sc'.log q) = _
        rw [b2']
        rfl
    · have w3 := hx.1 hus
      have w3' := hx'.1 hus
      rw [hy, n1'] at w3
      obtain ⟨y3, y4, b3, b4, rfl⟩ := Flt.add_fin w3.symm
      cases b3
      refine ⟨z' + y4, ?_, by linarith⟩
      rw [w3', n2']
      have b4' : sc'.log (memberOf sc'.vocab ((sentenceBatch ids).word (t + 1) 0)).2 = .fin y4 := b4
      rw [b4']
      rfl
  obtain ⟨p', hlt, hper'⟩ := hres
  obtain ⟨N, out, r1, r2⟩ := C111_network hv hu hmodel hfw true true (fun _ => h2) h.nonneg h.unkProb h.unigram showNum hnl
    log base text batchSize hB _ hper'
  refine ⟨p, p', g1, hlt, N, out, fun fuel hfuel => ?_, r2⟩
  rw [scoreReal_saved h hm]
  exact congrArg _ (r1 fuel hfuel)

end

end TheanoLM
