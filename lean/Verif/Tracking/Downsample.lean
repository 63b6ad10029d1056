import Verif.Tracking.Theorems
/-!
Property theorems about downsampling tracking arcs: C25.
-/
namespace Verif.Tracking
set_option linter.unusedSectionVars false

variable {T K : Type} [LinearOrder T] [DecidableEq K]

theorem minSep_le (l : List (Msr T K)) (s : Int) (h : minSep l = some s) :
    l.IsChain (fun a b => s ≤ b.epoch - a.epoch) := by
  induction l generalizing s with
  | nil => exact List.IsChain.nil
  | cons a l ih =>
    cases l with
    | nil => exact List.IsChain.singleton _
    | cons b l =>
      rw [minSep] at h
      simp only [Option.some.injEq] at h
      cases hm : minSep (b :: l) with
      | none =>
        rw [hm] at h
        cases l with
        | nil =>
          refine List.IsChain.cons_cons ?_ (List.IsChain.singleton _)
          simp only at h; omega
        | cons c l => rw [minSep] at hm; simp at hm
      | some s' =>
        rw [hm] at h
        simp only at h
        refine List.IsChain.cons_cons (by omega) ?_
        exact (ih s' hm).imp (fun hab => by omega)

/-- A positive separation means strictly increasing epochs. -/
theorem strict_of_minSep (l : List (Msr T K)) (s : Int) (h : minSep l = some s) (hs : 0 < s) :
    l.Pairwise (fun a b => a.epoch < b.epoch) := by
  have : IsTrans (Msr T K) (fun a b => a.epoch < b.epoch) := ⟨fun a b c h1 h2 => by omega⟩
  exact ((minSep_le l s h).imp (fun hab => by omega)).pairwise

theorem windowAt_ne_nil (l : List (Msr T K)) (w i : Nat) (h : i < l.length) :
    windowAt l w i ≠ [] := by
  apply List.ne_nil_of_length_pos
  unfold windowAt
  rw [List.length_drop, List.length_take]
  omega

/-- The window around `i` is made of the measurements at most `w / 2` places away. -/
theorem mem_windowAt (l : List (Msr T K)) (w i : Nat) (x : Msr T K) (h : x ∈ windowAt l w i) :
    ∃ j, l[j]? = some x ∧ i ≤ j + w / 2 ∧ j ≤ i + w / 2 := by
  unfold windowAt at h
  obtain ⟨k, hk⟩ := List.mem_iff_getElem?.mp h
  rw [List.getElem?_drop, List.getElem?_take] at hk
  split at hk
  · rename_i hlt
    exact ⟨_, hk, by omega, by omega⟩
  · simp at hk

/-- The measurement produced at an index. -/
theorem averaged_some (l : List (Msr T K)) (types : List K) (w i : Nat) (m : Msr T K)
    (h : l[i]? = some m) :
    ∃ o, averaged l types w i m = some o ∧ o.epoch = m.epoch ∧ o.rejected = false ∧
      (∃ f, (windowAt l w i).head? = some f ∧ o.tracker = f.tracker) ∧
      ∀ e ∈ o.data, 0 < (valuesOf (windowAt l w i) e.1).length ∧
        e.2 * (valuesOf (windowAt l w i) e.1).length = (valuesOf (windowAt l w i) e.1).sum := by
  have hne := windowAt_ne_nil l w i (List.getElem?_eq_some_iff.mp h).1
  unfold averaged
  cases hw : windowAt l w i with
  | nil => exact absurd hw hne
  | cons f win =>
    refine ⟨_, rfl, rfl, rfl, ⟨f, rfl, rfl⟩, ?_⟩
    rintro ⟨k, v⟩ he
    simp only [List.mem_filterMap] at he
    obtain ⟨ty, _, he⟩ := he
    split at he
    · rename_i hpos
      simp only [Option.some.injEq, Prod.mk.injEq] at he
      obtain ⟨rfl, rfl⟩ := he
      refine ⟨hpos, ?_⟩
      have : ((valuesOf (f :: win) ty).length : Rat) ≠ 0 := by
        exact_mod_cast hpos.ne'
      field_simp
    · simp at he

/-- The measurements before the final sort. -/
def rawDown (l : List (Msr T K)) (w : Nat) : List (Msr T K) :=
  (stepIdx l.length w).filterMap (fun i =>
    match l[i]? with
    | some m => averaged l (uniqueTypes l) w i m
    | none => none)

theorem rawDown_strict (l : List (Msr T K)) (w : Nat)
    (h : l.Pairwise (fun a b => a.epoch < b.epoch)) : (rawDown l w).Pairwise ltKey := by
  unfold rawDown
  rw [List.pairwise_filterMap]
  have hr : (stepIdx l.length w).Pairwise (· < ·) :=
    List.pairwise_lt_range.sublist List.filter_sublist
  refine hr.imp ?_
  intro i j hij a ha b hb
  cases hi : l[i]? with
  | none => rw [hi] at ha; simp at ha
  | some m =>
    cases hj : l[j]? with
    | none => rw [hj] at hb; simp at hb
    | some m' =>
      rw [hi] at ha; rw [hj] at hb
      simp only at ha hb
      obtain ⟨o, h1, h2, _⟩ := averaged_some l (uniqueTypes l) w i m hi
      obtain ⟨o', h1', h2', _⟩ := averaged_some l (uniqueTypes l) w j m' hj
      rw [h1] at ha; rw [h1'] at hb
      simp only [Option.some.injEq] at ha hb
      subst ha; subst hb
      left
      rw [h2, h2']
      obtain ⟨hil, rfl⟩ := List.getElem?_eq_some_iff.mp hi
      obtain ⟨hjl, rfl⟩ := List.getElem?_eq_some_iff.mp hj
      exact List.pairwise_iff_getElem.mp h i j hil hjl hij

/-- What downsampling computes when no two measurements are simultaneous. -/
theorem downsample_eq (srt : List (Msr T K) → List (Msr T K)) (hsrt : Sorts srt) (umax : Nat)
    (a : Arc T K) (target current : Int) (hc : minSep a.measurements = some current)
    (hpos : 0 < current) (hlt : current < target) :
    a.downsample srt umax target =
      ⟨rawDown a.measurements (windowSize umax current target), none, false⟩ := by
  unfold Arc.downsample
  rw [hc]
  simp only
  rw [if_neg (by omega)]
  have := sort_idempotent srt hsrt _ (rawDown_strict a.measurements
    (windowSize umax current target) (strict_of_minSep _ _ hc hpos))
  exact congrArg (fun m => (⟨m, none, false⟩ : Arc T K)) this

theorem mean_bounds (vs : List Rat) (v lo hi : Rat) (hpos : 0 < vs.length)
    (hv : v * vs.length = vs.sum) (h : ∀ x ∈ vs, lo ≤ x ∧ x ≤ hi) : lo ≤ v ∧ v ≤ hi := by
  have hb : lo * vs.length ≤ vs.sum ∧ vs.sum ≤ hi * vs.length := by
    clear hpos hv
    induction vs with
    | nil => simp
    | cons x vs ih =>
      have h1 := h x (by simp)
      have h2 := ih (fun y hy => h y (by simp [hy]))
      rw [List.sum_cons, List.length_cons]
      push_cast
      constructor <;> linarith [h1.1, h1.2, h2.1, h2.2]
  have hp : (0 : Rat) < vs.length := by exact_mod_cast hpos
  rw [← hv] at hb
  exact ⟨le_of_mul_le_mul_right hb.1 hp, le_of_mul_le_mul_right hb.2 hp⟩

/-- **C25 (partial).** Downsampling an arc of a single tracker, with no rejected measurement, no
moduli and no simultaneous measurements: all results are of that tracker, at epochs of the arc
(those of every `w`-th measurement, the first included), and each value is the mean of the values of its type
at most `w / 2` places away, hence between the extreme values of the arc. Missing: several trackers,
rejected measurements, moduli, refuted below. -/
theorem downsample_single_tracker_partial (srt : List (Msr T K) → List (Msr T K)) (hsrt : Sorts srt)
    (umax : Nat) (a : Arc T K) (t : T) (target current : Int)
    (hc : minSep a.measurements = some current) (hpos : 0 < current) (hlt : current < target)
    (ht : ∀ m ∈ a.measurements, m.tracker = t)
    (hr : ∀ m ∈ a.measurements, m.rejected = false) (hmod : a.moduli = none) :
    (a.downsample srt umax target).moduli = a.moduli ∧
    (a.downsample srt umax target).measurements.map Msr.epoch =
      ((List.range a.measurements.length).filter
        (fun i => i % windowSize umax current target == 0)).filterMap
          (fun i => (a.measurements[i]?).map Msr.epoch) ∧
    ∀ o ∈ (a.downsample srt umax target).measurements, o.tracker = t ∧ o.rejected = false ∧
      ∀ ty v, get o.data ty = some v → ∀ lo hi,
        (∀ m ∈ a.measurements, ∀ x, get m.data ty = some x → lo ≤ x ∧ x ≤ hi) → lo ≤ v ∧ v ≤ hi := by
  rw [downsample_eq srt hsrt umax a target current hc hpos hlt, hmod]
  refine ⟨rfl, ?_, ?_⟩
  · simp only
    unfold rawDown stepIdx
    rw [List.map_filterMap]
    apply List.filterMap_congr
    intro i _
    cases hi : a.measurements[i]? with
    | none => rfl
    | some m =>
      obtain ⟨o, h1, h2, _⟩ := averaged_some a.measurements (uniqueTypes a.measurements)
        (windowSize umax current target) i m hi
      simp only [h1, Option.map_some, h2]
  · intro o ho
    simp only [rawDown, List.mem_filterMap] at ho
    obtain ⟨i, _, ho⟩ := ho
    cases hi : a.measurements[i]? with
    | none => rw [hi] at ho; simp at ho
    | some m =>
      rw [hi] at ho
      obtain ⟨o', h1, h2, h3, ⟨f, hf, h4⟩, h5⟩ := averaged_some a.measurements
        (uniqueTypes a.measurements) (windowSize umax current target) i m hi
      simp only [h1, Option.some.injEq] at ho
      subst ho
      have hmem : ∀ x ∈ windowAt a.measurements (windowSize umax current target) i,
          x ∈ a.measurements := by
        intro x hx
        obtain ⟨j, hj, _⟩ := mem_windowAt _ _ _ _ hx
        exact List.mem_of_getElem? hj
      refine ⟨?_, h3, ?_⟩
      · rw [h4]
        exact ht f (hmem f (List.mem_of_mem_head? hf))
      · intro ty v hv lo hi' hb
        obtain ⟨p1, p2⟩ := h5 (ty, v) (get_mem _ _ _ hv)
        refine mean_bounds _ v lo hi' p1 p2 ?_
        intro x hx
        unfold valuesOf at hx
        obtain ⟨m', hm', hx'⟩ := List.mem_filterMap.mp hx
        exact hb m' (hmem m' hm') x hx'

/-- **C25.** Asking for a finer sampling than the arc has returns the arc unchanged. -/
theorem downsample_noop (srt : List (Msr T K) → List (Msr T K)) (umax : Nat) (a : Arc T K)
    (target : Int) (h : ∀ c, minSep a.measurements = some c → target ≤ c) :
    a.downsample srt umax target = a := by
  unfold Arc.downsample
  cases hc : minSep a.measurements with
  | none => rfl
  | some c => simp only; rw [if_pos (h c hc)]

/-- Four measurements, every 10 s, alternately by trackers 0 and 1. -/
def mixedArc : Arc Nat Nat :=
  ⟨[⟨0, 0, [(0, 100)], false⟩, ⟨1, 10, [(0, 300)], false⟩, ⟨0, 20, [(0, 100)], false⟩,
    ⟨1, 30, [(0, 300)], false⟩], none, false⟩

/-- **C25 refuted (trackers).** Tracker 0 always measures 100 and tracker 1 always 300; after
downsampling by two, tracker 0 measures 200 at the start, and tracker 1 has a measurement at 20 s, when only
tracker 0 measured. -/
theorem downsample_mixes_trackers (srt : List (Msr Nat Nat) → List (Msr Nat Nat))
    (hsrt : Sorts srt) (umax : Nat) :
    (mixedArc.downsample srt umax 20).measurements =
      [⟨0, 0, [(0, 200)], false⟩, ⟨1, 20, [(0, 700 / 3)], false⟩] := by
  rw [downsample_eq srt hsrt umax mixedArc 20 10 (by decide) (by decide) (by decide)]
  have hw : windowSize umax 10 20 = 2 := by simp [windowSize]
  rw [hw]
  simp [rawDown, mixedArc, stepIdx, List.range_succ, averaged, windowAt, uniqueTypes, valuesOf, get]
  norm_num

/-- Two measurements 10 s apart, one flagged as rejected (an outlier), with a range modulus. -/
def outlierArc : Arc Nat Nat :=
  ⟨[⟨0, 0, [(0, 100)], false⟩, ⟨0, 10, [(0, 900000)], true⟩], some [(0, 75660)], false⟩

/-- **C25 refuted (rejections and moduli).** The rejected outlier contributes to the average, the
result is not flagged, and the range modulus is lost. -/
theorem downsample_uses_rejected (srt : List (Msr Nat Nat) → List (Msr Nat Nat))
    (hsrt : Sorts srt) (umax : Nat) :
    outlierArc.downsample srt umax 20 = ⟨[⟨0, 0, [(0, 450050)], false⟩], none, false⟩ := by
  rw [downsample_eq srt hsrt umax outlierArc 20 10 (by decide) (by decide) (by decide)]
  have hw : windowSize umax 10 20 = 2 := by simp [windowSize]
  rw [hw]
  simp [rawDown, outlierArc, stepIdx, List.range_succ, averaged, windowAt, uniqueTypes, valuesOf,
    get]
  norm_num

/-- Two trackers measuring simultaneously, twice, an hour apart. -/
def simultaneousArc : Arc Nat Nat :=
  ⟨[⟨0, 0, [(0, 100)], false⟩, ⟨1, 0, [(0, 300)], false⟩, ⟨0, 3600, [(0, 500)], false⟩,
    ⟨1, 3600, [(0, 700)], false⟩], none, false⟩

/-- **C25 refuted (simultaneous measurements).** With two trackers measuring at the same epoch, the
minimum separation is zero, the window size saturates and the whole arc becomes one measurement.
`umax` is `usize::MAX`. -/
theorem downsample_simultaneous_collapses (srt : List (Msr Nat Nat) → List (Msr Nat Nat))
    (hsrt : Sorts srt) (umax : Nat) (hu : 65535 ≤ umax) :
    (simultaneousArc.downsample srt umax 1).measurements = [⟨0, 0, [(0, 400)], false⟩] := by
  have hidx : stepIdx 4 umax = [0] := by
    simp [stepIdx, List.range_succ, Nat.mod_eq_of_lt (show 1 < umax by omega),
      Nat.mod_eq_of_lt (show 2 < umax by omega), Nat.mod_eq_of_lt (show 3 < umax by omega)]
  have hwin : windowAt simultaneousArc.measurements umax 0 = simultaneousArc.measurements := by
    unfold windowAt
    rw [show min (0 + umax / 2 + 1) simultaneousArc.measurements.length = 4 by
      simp only [simultaneousArc, List.length_cons, List.length_nil]; omega]
    rw [Nat.zero_sub]; rfl
  have hraw : rawDown simultaneousArc.measurements umax = [⟨0, 0, [(0, 400)], false⟩] := by
    unfold rawDown
    rw [show simultaneousArc.measurements.length = 4 from rfl, hidx]
    simp only [List.filterMap_cons, List.filterMap_nil]
    unfold averaged
    rw [hwin]
    simp [simultaneousArc, uniqueTypes, valuesOf, get]
    norm_num
  have h : simultaneousArc.downsample srt umax 1 =
      ⟨sort srt (rawDown simultaneousArc.measurements umax), none, false⟩ := by
    unfold Arc.downsample
    rw [show minSep simultaneousArc.measurements = some 0 by decide]
    simp only
    rw [if_neg (by decide)]
    rfl
  rw [h, hraw]
  exact sort_idempotent srt hsrt _ (by simp)

example : ∃ c, minSep (Arc.measurements ⟨[⟨0, 0, [(0, 1)], false⟩, ⟨0, 10, [(0, 2)], false⟩,
    ⟨0, 20, [(0, 3)], false⟩], none, false⟩ : List (Msr Nat Nat)) = some c ∧ 0 < c ∧ c < 20 :=
  ⟨10, by decide, by decide, by decide⟩

example (umax : Nat) := downsample_mixes_trackers _ sorts_mergeSort umax

end Verif.Tracking
