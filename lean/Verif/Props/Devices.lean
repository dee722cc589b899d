import Verif.Model.Devices
import Verif.Lemmas.Vocabulary
import Mathlib.Algebra.BigOperators.Group.List.Basic
import Mathlib.Data.Int.Basic
/-!
# Division of the parameters of a layer to devices (C54)
-/
namespace TheanoLM
set_option linter.unusedSectionVars false

/-! ## Lemmas -/

/-- The end of the part of the `k`th device. -/
def splitBound (q r k : Nat) : Nat := k * q + min k r

theorem splitBound_le (q r : Nat) {k l : Nat} (h : k ≤ l) : splitBound q r k ≤ splitBound q r l := by
  unfold splitBound
  have := Nat.mul_le_mul_right q h
  omega

theorem splitLoop_eq (q r left i : Nat) :
    splitLoop q r left (i + 1) (splitBound q r i) =
      (List.range' i left).map fun k => (splitBound q r k, splitBound q r (k + 1)) := by
  induction left generalizing i with
  | zero => rfl
  | succ left ih =>
    rw [splitLoop, List.range'_succ, List.map_cons]
    congr 1
    exact ih (i + 1)

theorem splitBound_last {n total : Nat} (hn : 0 < n) : splitBound (total / n) (total % n) n = total := by
  unfold splitBound
  have h1 := Nat.mod_lt total hn
  have h2 := Nat.div_add_mod total n
  rw [Nat.min_eq_right (Nat.le_of_lt h1)]
  exact h2

theorem sum_split (q r left i : Nat) :
    ((List.range' i left).map fun k => splitBound q r (k + 1) - splitBound q r k).sum + splitBound q r i =
      splitBound q r (i + left) := by
  induction left generalizing i with
  | zero => simp
  | succ left ih =>
    rw [List.range'_succ, List.map_cons, List.sum_cons]
    have h := ih (i + 1)
    have h1 := splitBound_le q r (Nat.le_succ i)
    have e : i + (left + 1) = i + 1 + left := by omega
    rw [e]
    simp only [Nat.succ_eq_add_one] at h1
    omega

theorem splitPerDevice_eq {n total : Nat} (hn : 0 < n) (ht : n ≤ total) :
    splitPerDevice n total = .ok ((List.range n).map fun k =>
      (splitBound (total / n) (total % n) k, splitBound (total / n) (total % n) (k + 1))) := by
  unfold splitPerDevice
  rw [if_neg (by omega), if_neg (by omega)]
  have h0 : splitBound (total / n) (total % n) 0 = 0 := by simp [splitBound]
  have := splitLoop_eq (total / n) (total % n) n 0
  rw [h0] at this
  simp only
  rw [this, ← List.range_eq_range', if_pos]
  refine ⟨by simp, ?_⟩
  rw [List.map_map]
  have h := sum_split (total / n) (total % n) n 0
  rw [h0, ← List.range_eq_range', Nat.zero_add, splitBound_last hn] at h
  exact h

/-- A part of a list. -/
def deviceChunk {α : Type} (v : List α) (r : Nat × Nat) : List α := (v.take r.2).drop r.1

theorem chunks_flatten {α : Type} (v : List α) (q r left i : Nat) :
    ((List.range' i left).map fun k => deviceChunk v (splitBound q r k, splitBound q r (k + 1))).flatten =
      (v.take (splitBound q r (i + left))).drop (splitBound q r i) := by
  induction left generalizing i with
  | zero => simp
  | succ left ih =>
    rw [List.range'_succ, List.map_cons, List.flatten_cons, ih]
    have h1 := splitBound_le q r (Nat.le_succ i)
    have h2 := splitBound_le q r (show i + 1 ≤ i + 1 + left by omega)
    have e : i + (left + 1) = i + 1 + left := by omega
    rw [e, deviceChunk]
    simp only [Nat.succ_eq_add_one] at h1
    generalize splitBound q r (i + 1 + left) = c at *
    generalize splitBound q r (i + 1) = b at *
    generalize splitBound q r i = a at *
    apply List.ext_getElem?
    intro j
    rw [List.getElem?_append]
    simp only [List.getElem?_drop, List.getElem?_take, List.length_drop, List.length_take]
    by_cases hj : j < min b v.length - a
    · rw [if_pos hj, if_pos (by omega), if_pos (by omega)]
    · rw [if_neg hj]
      by_cases hb : b ≤ v.length
      · have : b + (j - (min b v.length - a)) = a + j := by omega
        rw [this]
      · have h3 : v[a + j]? = none := List.getElem?_eq_none (by omega)
        have h4 : v[b + (j - (min b v.length - a))]? = none := List.getElem?_eq_none (by omega)
        rw [h3, h4]
        simp

theorem chunks_cover {α : Type} (v : List α) {n : Nat} (hn : 0 < n) :
    ((List.range n).map fun k => deviceChunk v (splitBound (v.length / n) (v.length % n) k,
      splitBound (v.length / n) (v.length % n) (k + 1))).flatten = v := by
  have h := chunks_flatten v (v.length / n) (v.length % n) n 0
  rw [← List.range_eq_range', Nat.zero_add, splitBound_last hn] at h
  rw [h]
  simp [splitBound]

theorem chunk_map {α β : Type} (f : α → β) (v : List α) (r : Nat × Nat) : (deviceChunk v r).map f = deviceChunk (v.map f) r := by
  simp [deviceChunk, List.map_drop, List.map_take]

theorem chunk_zipWith {α β γ : Type} (f : α → β → γ) (v : List α) (w : List β) (r : Nat × Nat) :
    List.zipWith f (deviceChunk v r) (deviceChunk w r) = deviceChunk (List.zipWith f v w) r := by
  simp [deviceChunk, List.drop_zipWith, List.take_zipWith]

theorem paramPath_inj (name : Str) {d e : Str} (h : paramPath name (some d) = paramPath name (some e)) : d = e := by
  unfold paramPath at h
  simpa using h

theorem addParts_eq {α : Type} (name : Str) (value : List α) (devices : List Str) (ranges : List (Nat × Nat))
    (hn : devices.Nodup) (d : ParamDict α) (hf : ∀ e ∈ devices, dictGet? d (paramPath name (some e)) = none) :
    addParts name value ((devices.map some).zip ranges) d =
      .ok (d ++ (devices.zip ranges).map fun x => (paramPath name (some x.1), deviceChunk value x.2)) := by
  induction devices generalizing ranges d with
  | nil => simp [addParts]
  | cons e devices ih =>
    cases ranges with
    | nil => simp [addParts]
    | cons r ranges =>
      rw [List.map_cons, List.zip_cons_cons, addParts]
      unfold addParam
      rw [hf e List.mem_cons_self]
      simp only [Option.isSome_none, Bool.false_eq_true, if_false]
      rw [ih ranges hn.of_cons]
      · simp [deviceChunk, List.append_assoc]
      · intro e' he'
        have hne : e ≠ e' := by
          rintro rfl
          exact (List.nodup_cons.mp hn).1 he'
        have : paramPath name (some e) ≠ paramPath name (some e') := fun h => hne (paramPath_inj name h)
        have hd := hf e' (List.mem_cons_of_mem _ he')
        unfold dictGet? at hd ⊢
        rw [Option.map_eq_none_iff] at hd
        rw [List.find?_append, hd]
        simp [this]

theorem dictGet?_zip {α : Type} (name : Str) (value : List α) (devices : List Str) (ranges : List (Nat × Nat))
    (hn : devices.Nodup) {j : Nat} (hd : j < devices.length) (hr : j < ranges.length) :
    dictGet? ((devices.zip ranges).map fun x => (paramPath name (some x.1), deviceChunk value x.2)) (paramPath name (some devices[j])) =
      some (deviceChunk value ranges[j]) := by
  induction devices generalizing ranges j with
  | nil => simp at hd
  | cons e devices ih =>
    cases ranges with
    | nil => simp at hr
    | cons r ranges =>
      cases j with
      | zero => simp [dictGet?]
      | succ j =>
        have hd' : j < devices.length := by simpa using hd
        have hr' : j < ranges.length := by simpa using hr
        have hne : e ≠ devices[j] := by
          intro h
          exact (List.nodup_cons.mp hn).1 (h ▸ List.getElem_mem hd')
        have : paramPath name (some e) ≠ paramPath name (some devices[j]) := fun h => hne (paramPath_inj name h)
        have h := ih ranges hn.of_cons hd' hr'
        simp only [List.getElem_cons_succ]
        rw [List.zip_cons_cons, List.map_cons]
        simpa [dictGet?, this] using h

/-- The parts of a parameter created for distinct devices. -/
theorem initParam_devices {α : Type} (devices : List Str) (hn : devices.Nodup) (hne : devices ≠ []) (name : Str)
    (value : List α) (hsz : devices.length ≤ value.length) :
    ∃ d, initParam (devices.map some) true name value [] = .ok d ∧
      ∀ j (h : j < devices.length), getParam name (some devices[j]) d =
        .ok (deviceChunk value (splitBound (value.length / devices.length) (value.length % devices.length) j,
          splitBound (value.length / devices.length) (value.length % devices.length) (j + 1))) := by
  have hpos : 0 < devices.length := List.length_pos_iff.mpr hne
  have hnone : devices.map some ≠ [none] := by
    intro h
    cases devices with
    | nil => exact hne rfl
    | cons e es => simp at h
  unfold initParam
  rw [if_neg (by simp), if_neg hnone, List.length_map, splitPerDevice_eq hpos hsz]
  simp only
  rw [addParts_eq name value devices _ hn [] (fun _ _ => rfl)]
  refine ⟨_, rfl, fun j hj => ?_⟩
  unfold getParam
  rw [List.nil_append, dictGet?_zip name value devices _ hn hj (by simpa using hj)]
  simp

variable {S : Type} [Add S] [Mul S] [Zero S]

theorem mapE_devices {β : Type} (f : Option Str → Except Err β) (devices : List Str) (g : Nat → β)
    (h : ∀ j (hj : j < devices.length), f (some devices[j]) = .ok (g j)) :
    mapE f (devices.map some) = .ok ((List.range devices.length).map g) := by
  induction devices generalizing g with
  | nil => rfl
  | cons e devices ih =>
    have h0 := h 0 (by simp)
    rw [List.getElem_cons_zero] at h0
    have ih' := ih (fun j => g (j + 1)) fun j hj => by
      have := h (j + 1) (by simpa using hj)
      simpa using this
    rw [List.map_cons, mapE, h0]
    simp only
    rw [ih', List.length_cons, List.range_succ_eq_map, List.map_cons, List.map_map]
    rfl

theorem concatResults_eq {α : Type} (l : List (List α)) (h : l ≠ []) : concatResults l = .ok l.flatten := by
  cases l with
  | nil => exact absurd rfl h
  | cons _ _ => simp [concatResults]

/-! ## Properties -/

/-- C54: the outputs are divided to ranges that cover every output exactly once, in order. -/
theorem C54_ranges (n total : Nat) (hn : 1 ≤ n) (ht : n ≤ total) :
    ∃ ranges, splitPerDevice n total = .ok ranges ∧ ranges.length = n ∧
      (ranges.flatMap fun r => List.range' r.1 (r.2 - r.1)) = List.range total ∧
      ∀ r ∈ ranges, ∀ s ∈ ranges, r.1 < r.2 ∧ r.2 - r.1 ≤ s.2 - s.1 + 1 := by
  refine ⟨_, splitPerDevice_eq hn ht, by simp, ?_, ?_⟩
  · have h := chunks_cover (List.range total) hn
    rw [List.length_range] at h
    rw [List.flatMap_def, List.map_map]
    conv_rhs => rw [← h]
    congr 1
    apply List.map_congr_left
    intro k hk
    have hk' := List.mem_range.mp hk
    have hb : splitBound (total / n) (total % n) (k + 1) ≤ total := by
      have := splitBound_le (total / n) (total % n) (show k + 1 ≤ n by omega)
      rwa [splitBound_last hn] at this
    have h1 := splitBound_le (total / n) (total % n) (Nat.le_succ k)
    simp only [Function.comp_apply, deviceChunk, Nat.succ_eq_add_one] at h1 ⊢
    apply List.ext_getElem?
    intro j
    simp only [List.getElem?_drop, List.getElem?_take]
    split
    · rw [List.getElem?_range' (by omega), List.getElem?_range (by omega)]; simp
    · exact List.getElem?_eq_none (by rw [List.length_range']; omega)
  · intro r hr s hs
    obtain ⟨k, _, rfl⟩ := List.mem_map.mp hr
    obtain ⟨l, _, rfl⟩ := List.mem_map.mp hs
    simp only [splitBound]
    have hq : 1 ≤ total / n := (Nat.one_le_div_iff hn).mpr ht
    have e1 : (k + 1) * (total / n) = k * (total / n) + total / n := Nat.succ_mul _ _
    have e2 : (l + 1) * (total / n) = l * (total / n) + total / n := Nat.succ_mul _ _
    rw [e1, e2]
    omega

/-- C54: it is an error to divide to no devices, or fewer outputs than there are devices. -/
theorem C54_errors (total n : Nat) :
    splitPerDevice 0 total = .error .runtimeError ∧
      (total < n → splitPerDevice n total = .error .valueError) := by
  refine ⟨rfl, fun h => ?_⟩
  unfold splitPerDevice
  rw [if_neg (by omega), if_pos h]

/-- C54: when the weight and the bias of a layer are divided to any number of distinct devices, the concatenated pre-activation is
the same as when they are not divided: for every output the inner product of the input and the weights of that output, plus the
bias of that output. -/
theorem C54_preact (devices : List Str) (hn : devices.Nodup) (hne : devices ≠ []) (name : Str) (weight : List (List S))
    (bias : List S) (hlen : weight.length = bias.length) (hsz : devices.length ≤ weight.length) (x : List S) :
    ∃ w b w' b',
      initParam (devices.map some) true (name ++ "/W".toList) weight [] = .ok w ∧
      initParam (devices.map some) true (name ++ "/b".toList) bias [] = .ok b ∧
      initParam [none] true (name ++ "/W".toList) weight [] = .ok w' ∧
      initParam [none] true (name ++ "/b".toList) bias [] = .ok b' ∧
      (∀ y, y = List.zipWith (fun column c => (List.zipWith (· * ·) x column).sum + c) weight bias →
        tensorPreact (devices.map some) w b name true x = .ok y ∧ tensorPreact [none] w' b' name true x = .ok y) ∧
      (∀ y, y = weight.map (fun column => (List.zipWith (· * ·) x column).sum) →
        tensorPreact (devices.map some) w b name false x = .ok y ∧ tensorPreact [none] w' b' name false x = .ok y) := by
  have hpos : 0 < devices.length := List.length_pos_iff.mpr hne
  obtain ⟨w, ew, hw⟩ := initParam_devices devices hn hne (name ++ "/W".toList) weight hsz
  obtain ⟨b, eb, hb⟩ := initParam_devices devices hn hne (name ++ "/b".toList) bias (by omega)
  refine ⟨w, b, [(name ++ "/W".toList, weight)], [(name ++ "/b".toList, bias)], ew, eb, rfl, rfl, ?_, ?_⟩
  · rintro _ rfl
    constructor
    · unfold tensorPreact
      rw [mapE_devices (devicePreact w b name true x) devices (fun j =>
        deviceChunk (List.zipWith (fun column c => (List.zipWith (· * ·) x column).sum + c) weight bias)
          (splitBound (weight.length / devices.length) (weight.length % devices.length) j,
          splitBound (weight.length / devices.length) (weight.length % devices.length) (j + 1)))]
      · simp only
        rw [concatResults_eq _ (by simpa using hne)]
        congr 1
        have := chunks_cover (List.zipWith (fun column c => (List.zipWith (· * ·) x column).sum + c) weight bias) hpos
        rw [List.length_zipWith, ← hlen, Nat.min_self] at this
        exact this
      · intro j hj
        unfold devicePreact
        rw [hw j hj]
        simp only
        rw [if_pos trivial, hb j hj]
        simp only
        rw [chunk_map, ← hlen, chunk_zipWith, List.zipWith_map_left]
        rfl
    · simp [tensorPreact, mapE, devicePreact, getParam, paramPath, dictGet?, concatResults, List.zipWith_map_left, dot]
  · rintro _ rfl
    constructor
    · unfold tensorPreact
      rw [mapE_devices (devicePreact w b name false x) devices (fun j =>
        deviceChunk (weight.map (fun column => (List.zipWith (· * ·) x column).sum))
          (splitBound (weight.length / devices.length) (weight.length % devices.length) j,
          splitBound (weight.length / devices.length) (weight.length % devices.length) (j + 1)))]
      · simp only
        rw [concatResults_eq _ (by simpa using hne)]
        congr 1
        have := chunks_cover (weight.map (fun column => (List.zipWith (· * ·) x column).sum)) hpos
        rw [List.length_map] at this
        exact this
      · intro j hj
        unfold devicePreact
        rw [hw j hj]
        simp only
        rw [if_neg (by simp), chunk_map]
        rfl
    · simp [tensorPreact, mapE, devicePreact, getParam, paramPath, dictGet?, concatResults, dot]

/-- C54: the same for a convolution layer when only the filters are divided: the convolved features are the same. -/
theorem C54_conv_partial (devices : List Str) (hn : devices.Nodup) (hne : devices ≠ []) (name : Str)
    (filters : List (List (List S))) (hsz : devices.length ≤ filters.length) (region : List (List S)) (b : ParamDict S) :
    ∃ w w', initParam (devices.map some) true (name ++ "/W".toList) filters [] = .ok w ∧
      initParam [none] true (name ++ "/W".toList) filters [] = .ok w' ∧
      tensorConv1d (devices.map some) w b name region = tensorConv1d [none] w' b name region := by
  have hpos : 0 < devices.length := List.length_pos_iff.mpr hne
  obtain ⟨w, ew, hw⟩ := initParam_devices devices hn hne (name ++ "/W".toList) filters hsz
  refine ⟨w, [(name ++ "/W".toList, filters)], ew, rfl, ?_⟩
  unfold tensorConv1d
  have e1 : mapE (fun device => getParam (name ++ "/W".toList) device [(name ++ "/W".toList, filters)]) [none] = .ok [filters] := by
    simp [mapE, getParam, paramPath, dictGet?]
  rw [mapE_devices (fun device => getParam (name ++ "/W".toList) device w) devices _ hw, e1]
  simp only
  rw [concatResults_eq _ (by simpa using hne), concatResults_eq _ (by simp)]
  have h := chunks_cover (filters.map (dot2 region)) hpos
  rw [List.length_map] at h
  have e2 : (List.map (fun fs => List.map (dot2 region) fs) (List.map (fun j => deviceChunk filters
      (splitBound (filters.length / devices.length) (filters.length % devices.length) j,
      splitBound (filters.length / devices.length) (filters.length % devices.length) (j + 1)))
      (List.range devices.length))).flatten = filters.map (dot2 region) := by
    rw [List.map_map]
    conv_rhs => rw [← h]
    congr 1
    apply List.map_congr_left
    intro k _
    exact chunk_map _ _ _
  rw [e2]
  simp

theorem getParam_other {α : Type} (devices : List Str) (hn : devices.Nodup) (hne : devices ≠ []) (name : Str)
    (value : List α) (hsz : devices.length ≤ value.length) {d : ParamDict α}
    (hd : initParam (devices.map some) true name value [] = .ok d) : getParam name none d = .error .keyError := by
  have hpos : 0 < devices.length := List.length_pos_iff.mpr hne
  have hnone : devices.map some ≠ [none] := by
    intro h
    cases devices with
    | nil => exact hne rfl
    | cons e es => simp at h
  unfold initParam at hd
  rw [if_neg (by simp), if_neg hnone, List.length_map, splitPerDevice_eq hpos hsz] at hd
  simp only at hd
  rw [addParts_eq name value devices _ hn [] (fun _ _ => rfl)] at hd
  injection hd with hd
  subst hd
  unfold getParam paramPath
  have : dictGet? ([] ++ List.map (fun x => (paramPath name (some x.1), deviceChunk value x.2)) (devices.zip
      ((List.range devices.length).map fun k =>
        (splitBound (value.length / devices.length) (value.length % devices.length) k,
          splitBound (value.length / devices.length) (value.length % devices.length) (k + 1))))) name = none := by
    unfold dictGet?
    rw [Option.map_eq_none_iff, List.find?_eq_none]
    intro x hx
    rw [List.nil_append] at hx
    obtain ⟨y, _, rfl⟩ := List.mem_map.mp hx
    simp [paramPath]
  unfold paramPath at this
  rw [this]

/-- C54 does not hold for convolution layers: when such a layer has been assigned to any named devices, even to one device, the
network cannot be created, because the bias is divided to devices but it is not read from them. -/
theorem C54_violated_conv (devices : List Str) (hn : devices.Nodup) (hne : devices ≠ []) (name : Str)
    (filters : List (List (List S))) (bias : List S) (hsz : devices.length ≤ filters.length)
    (hb : devices.length ≤ bias.length) (region : List (List S)) :
    ∃ w b, initParam (devices.map some) true (name ++ "/W".toList) filters [] = .ok w ∧
      initParam (devices.map some) true (name ++ "/b".toList) bias [] = .ok b ∧
      tensorConv1d (devices.map some) w b name region = .error .keyError := by
  obtain ⟨w, ew, hw⟩ := initParam_devices devices hn hne (name ++ "/W".toList) filters hsz
  obtain ⟨b, eb, _⟩ := initParam_devices devices hn hne (name ++ "/b".toList) bias hb
  refine ⟨w, b, ew, eb, ?_⟩
  unfold tensorConv1d
  rw [mapE_devices (fun device => getParam (name ++ "/W".toList) device w) devices _ hw]
  simp only
  rw [concatResults_eq _ (by simpa using hne)]
  simp only
  rw [getParam_other devices hn hne _ bias hb eb]

/-- C54 does not hold for a softmax layer with one named device: the pre-activations of the target classes are read from the
parameters without the device, so the network cannot be created.  With no named device it can, and with several named devices it
can. -/
theorem C54_violated_softmax (device : Str) (weight : List (List S)) (bias : List S) (hsz : 1 ≤ weight.length)
    (hlen : weight.length = bias.length) (x : List S) (target : Nat) :
    ∃ w b, initParam [some device] true ("input".toList ++ "/W".toList) weight [] = .ok w ∧
      initParam [some device] true ("input".toList ++ "/b".toList) bias [] = .ok b ∧
      softmaxPreact [some device] w b x target = .error .keyError := by
  obtain ⟨w, b, w', b', ew, eb, _, _, h, _⟩ := C54_preact [device] (by simp) (by simp) "input".toList weight bias hlen hsz x
  refine ⟨w, b, ew, eb, ?_⟩
  have hp := (h _ rfl).1
  unfold softmaxPreact
  rw [show [some device] = [device].map some from rfl, hp]
  simp only
  rw [if_neg (by simp)]
  unfold targetPreact
  rw [getParam_other [device] (by simp) (by simp) _ weight hsz ew]

/-- The outputs of a softmax layer that has no named device or that has been divided to several devices: the pre-activation is the
same.  The pre-activation of the target class is available in the first case, and it is the one of the target class. -/
theorem C54_softmax_partial (devices : List Str) (hn : devices.Nodup) (h2 : 2 ≤ devices.length) (weight : List (List S))
    (bias : List S) (hlen : weight.length = bias.length) (hsz : devices.length ≤ weight.length) (x : List S) (target : Nat)
    (ht : target < weight.length) :
    ∃ w b w' b' y, 
      initParam (devices.map some) true ("input".toList ++ "/W".toList) weight [] = .ok w ∧
      initParam (devices.map some) true ("input".toList ++ "/b".toList) bias [] = .ok b ∧
      initParam [none] true ("input".toList ++ "/W".toList) weight [] = .ok w' ∧
      initParam [none] true ("input".toList ++ "/b".toList) bias [] = .ok b' ∧
      softmaxPreact (devices.map some) w b x target = .ok (y, none) ∧
      ∃ p, softmaxPreact [none] w' b' x target = .ok (y, some p) ∧ y[target]? = some p := by
  obtain ⟨w, b, w', b', ew, eb, ew', eb', h, _⟩ :=
    C54_preact devices hn (by intro h; simp [h] at h2) "input".toList weight bias hlen hsz x
  refine ⟨w, b, w', b', List.zipWith (fun column c => (List.zipWith (· * ·) x column).sum + c) weight bias, ew, eb, ew', eb',
    ?_, ?_⟩
  · unfold softmaxPreact
    rw [(h _ rfl).1]
    simp only
    rw [if_pos (by rw [List.length_map]; omega)]
  · refine ⟨dot x weight[target] + bias[target], ?_, ?_⟩
    · unfold softmaxPreact
      rw [(h _ rfl).2]
      simp only
      rw [if_neg (by simp)]
      have e1 : w' = [("input".toList ++ "/W".toList, weight)] := by injection ew' with e; exact e.symm
      have e2 : b' = [("input".toList ++ "/b".toList, bias)] := by injection eb' with e; exact e.symm
      have e3 : targetPreact w' b' "input".toList x target = .ok (dot x weight[target] + bias[target]) := by
        unfold targetPreact getParam paramPath
        rw [e1, e2]
        simp only [dictGet?, List.find?_cons, decide_true, Option.map_some]
        rw [List.getElem?_eq_getElem ht, List.getElem?_eq_getElem (by omega)]
      rw [e3]
    · rw [List.getElem?_zipWith, List.getElem?_eq_getElem ht, List.getElem?_eq_getElem (by omega)]
      rfl

/-- C54: assigning a layer twice to the same device is an error. -/
theorem C54_duplicate {α : Type} (device : Str) (name : Str) (value : List α) (hsz : 2 ≤ value.length) :
    initParam [some device, some device] true name value [] = .error .valueError := by
  unfold initParam
  rw [if_neg (by simp), if_neg (by simp)]
  have : splitPerDevice [some device, some device].length value.length = _ := splitPerDevice_eq (by simp) hsz
  rw [this]
  simp only
  show addParts name value [(some device, _), (some device, _)] [] = _
  simp [addParts, addParam, dictGet?]

/-- Five outputs on two devices. -/
example : splitPerDevice 2 5 = .ok [(0, 3), (3, 5)] := by decide

example : splitPerDevice 3 11 = .ok [(0, 4), (4, 8), (8, 11)] := by decide

end TheanoLM
