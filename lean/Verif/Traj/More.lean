import Verif.Traj.Theorems
import Mathlib.Tactic.Ring
import Mathlib.Tactic.FieldSimp
/-!
Property theorems about trajectories, continued: C17 – C20, C77.
-/
namespace Verif.Traj
open Verif.Util

variable {X E Fr : Type}

/-! ## C17 -/

theorem mem_timeSeries (start end_ step : Int) (hstep : 0 < step) :
    ∃ es, timeSeries start end_ step = some es ∧ es.Pairwise (· < ·) ∧
      ∀ e, e ∈ es ↔ ∃ k : Nat, e = start + k * step ∧ e ≤ end_ := by
  unfold timeSeries
  by_cases h : end_ < start
  · rw [if_pos h]
    refine ⟨[], rfl, by simp, ?_⟩
    intro e
    simp only [List.not_mem_nil, false_iff, not_exists, not_and]
    intro k he
    have : 0 ≤ (k : Int) * step := by positivity
    omega
  · rw [if_neg h, if_neg (by omega)]
    refine ⟨_, rfl, ?_, ?_⟩
    · rw [List.pairwise_map]
      refine List.pairwise_lt_range.imp ?_
      intro a b hab
      have : ((a : Int)) * step < b * step := mul_lt_mul_of_pos_right (by exact_mod_cast hab) hstep
      omega
    · intro e
      simp only [List.mem_map, List.mem_range]
      have hdiv : 0 ≤ (end_ - start) / step := Int.ediv_nonneg (by omega) hstep.le
      constructor
      · rintro ⟨k, hk, rfl⟩
        refine ⟨k, rfl, ?_⟩
        have : (k : Int) ≤ (end_ - start) / step := by omega
        have := (Int.le_ediv_iff_mul_le hstep).mp this
        omega
      · rintro ⟨k, rfl, he⟩
        refine ⟨k, ?_, rfl⟩
        have : (k : Int) ≤ (end_ - start) / step := (Int.le_ediv_iff_mul_le hstep).mpr (by omega)
        omega

theorem collectAt_all (f : Int → Res (AtErr E) (TS X)) (es : List Int)
    (h : ∀ e ∈ es, ∃ s, f e = .ok s ∧ s.epoch = e) :
    (collectAt f es).map TS.epoch = es ∧ ∀ s ∈ collectAt f es, f s.epoch = .ok s := by
  induction es with
  | nil => simp [collectAt]
  | cons e es ih =>
    obtain ⟨s, hs, he⟩ := h e (by simp)
    obtain ⟨i1, i2⟩ := ih (fun e' he' => h e' (by simp [he']))
    rw [collectAt, hs]
    simp only [List.map_cons, List.mem_cons, forall_eq_or_imp]
    refine ⟨by rw [i1, he], by rw [he, hs], i2⟩

/-- Inside the span of a trajectory `at` succeeds when interpolation succeeds, with the requested
epoch. -/
theorem at_inside (search : List Int → Int → Except Nat Nat)
    (interp : TS X → Int → List (TS X) → Except E (TS X))
    (hint : ∀ s e w, ∃ r, interp s e w = .ok r ∧ r.epoch = e) (l : List (TS X)) (epoch : Int)
    (hs : SearchOk (l.map TS.epoch) epoch (search (l.map TS.epoch) epoch))
    (f la : TS X) (hf : l.head? = some f) (hla : l.getLast? = some la)
    (h1 : f.epoch ≤ epoch) (h2 : epoch ≤ la.epoch) :
    ∃ s, at_ search interp l epoch = .ok s ∧ s.epoch = epoch := by
  rcases at_spec search interp l epoch hs with ⟨_, h⟩ | ⟨t, _, he, h⟩ | ⟨idx, t, _, _, _, _, _, h⟩
  · exfalso
    rcases h with h | ⟨f', hf', hlt⟩ | ⟨la', hla', hlt⟩
    · subst h; simp at hf
    · rw [hf] at hf'; simp only [Option.some.injEq] at hf'; subst hf'; omega
    · rw [hla] at hla'; simp only [Option.some.injEq] at hla'; subst hla'; omega
  · exact ⟨t, h, he⟩
  · obtain ⟨r, hr, hre⟩ := hint t epoch ((l.drop (window l.length idx).1).take
      ((window l.length idx).2 - (window l.length idx).1))
    rw [h, hr]
    exact ⟨r, rfl, hre⟩

/-- **C17.** Iterating a non empty trajectory with a positive step between two epochs yields, in
increasing order, exactly one state for each epoch `max start first + k * step` not after
`min end last`, each being the value of `at` there. -/
theorem every_between_grid (search : List Int → Int → Except Nat Nat)
    (interp : TS X → Int → List (TS X) → Except E (TS X))
    (hint : ∀ s e w, ∃ r, interp s e w = .ok r ∧ r.epoch = e) (l : List (TS X))
    (hs : ∀ e, SearchOk (l.map TS.epoch) e (search (l.map TS.epoch) e))
    (f la : TS X) (hf : l.head? = some f) (hla : l.getLast? = some la)
    (step start end_ : Int) (hstep : 0 < step) :
    ∃ r, everyBetween search interp l step start end_ = .ok (some r) ∧
      Sorted r ∧
      (∀ e, e ∈ r.map TS.epoch ↔
        ∃ k : Nat, e = max start f.epoch + k * step ∧ e ≤ min end_ la.epoch) ∧
      ∀ s ∈ r, at_ search interp l s.epoch = .ok s := by
  obtain ⟨es, h1, h2, h3⟩ := mem_timeSeries (max start f.epoch) (min end_ la.epoch) step hstep
  have hall : ∀ e ∈ es, ∃ s, at_ search interp l e = .ok s ∧ s.epoch = e := by
    intro e he
    obtain ⟨k, hk, hle⟩ := (h3 e).mp he
    have hk0 : 0 ≤ (k : Int) * step := by positivity
    have ha := le_max_right start f.epoch
    have hb := min_le_right end_ la.epoch
    exact at_inside search interp hint l e (hs e) f la hf hla (by omega) (by omega)
  obtain ⟨c1, c2⟩ := collectAt_all _ es hall
  refine ⟨collectAt (at_ search interp l) es, ?_, ?_, ?_, c2⟩
  · unfold everyBetween; rw [hf, hla]; simp only; rw [h1]; rfl
  · rw [← c1, List.pairwise_map] at h2; exact h2
  · intro e; rw [c1]; exact h3 e

/-- **C17**, `resample`: same grid over the whole trajectory, starting with the first state, and
`finalize` changes nothing. -/
theorem resample_grid (search : List Int → Int → Except Nat Nat)
    (interp : TS X → Int → List (TS X) → Except E (TS X))
    (hint : ∀ s e w, ∃ r, interp s e w = .ok r ∧ r.epoch = e) (l : List (TS X))
    (hsort : Sorted l)
    (hs : ∀ e, SearchOk (l.map TS.epoch) e (search (l.map TS.epoch) e))
    (f la : TS X) (hf : l.head? = some f) (hla : l.getLast? = some la)
    (step : Int) (hstep : 0 < step) :
    ∃ r, resample search interp l step = .ok (some r) ∧ Sorted r ∧ f ∈ r ∧
      (∀ e, e ∈ r.map TS.epoch ↔ ∃ k : Nat, e = f.epoch + k * step ∧ e ≤ la.epoch) := by
  obtain ⟨r, h1, h2, h3, h4⟩ :=
    every_between_grid search interp hint l hs f la hf hla step f.epoch la.epoch hstep
  rw [max_self, min_self] at h3
  have hfm : f ∈ l := List.mem_of_mem_head? hf
  have hfle : f.epoch ≤ la.epoch := by
    obtain ⟨l', rfl⟩ := List.getLast?_eq_some_iff.mp hla
    rcases List.mem_append.mp hfm with h | h
    · have := (List.pairwise_append.mp hsort).2.2 f h la (by simp); omega
    · simp only [List.mem_singleton] at h; rw [h]
  refine ⟨r, ?_, h2, ?_, h3⟩
  · unfold resample; rw [hf, hla]; simp only; rw [h1]; simp only [Option.map_some]
    rw [finalize_idem_of_sorted r h2]
  · obtain ⟨s, hsr, hse⟩ := List.mem_map.mp ((h3 f.epoch).mpr ⟨0, by simp, hfle⟩)
    have ha := h4 s hsr
    rw [hse, at_stored search interp l f hsort hfm (hs _)] at ha
    simp only [Res.ok.injEq] at ha
    rw [ha]; exact hsr

example : (∀ (s : TS Unit) (e : Int) (_ : List (TS Unit)),
    ∃ r : TS Unit, (Except.ok ⟨e, s.x⟩ : Except Unit (TS Unit)) = .ok r ∧ r.epoch = e) :=
  fun _ _ _ => ⟨_, rfl, rfl⟩

/-! ## C18 -/

/-- Specification of a range of offsets or epochs. -/
def InBounds (lo hi : Bound) (e : Int) : Prop :=
  (∀ d, lo = .included d → d ≤ e) ∧ (∀ d, lo = .excluded d → d < e) ∧
  (∀ d, hi = .included d → e ≤ d) ∧ (∀ d, hi = .excluded d → e < d)

theorem inRange_iff (lo hi : Bound) (e : Int) : inRange lo hi e = true ↔ InBounds lo hi e := by
  unfold inRange InBounds
  cases lo <;> cases hi <;> simp [aboveLo, belowHi]

/-- **C18 (epoch).** `filter_by_epoch` keeps exactly the states in the range, in their order. -/
theorem filter_by_epoch_exact (l : List (TS X)) (lo hi : Bound) :
    (filterByEpoch l lo hi).Sublist l ∧
    ∀ s, s ∈ filterByEpoch l lo hi ↔ s ∈ l ∧ InBounds lo hi s.epoch := by
  refine ⟨List.filter_sublist, ?_⟩
  intro s
  unfold filterByEpoch
  rw [List.mem_filter, inRange_iff]

/-- **C18 (offset, partial).** On a sorted trajectory `filter_by_offset` keeps exactly the states
whose offset from the first state is in the range, provided no bound is exclusive. Missing: exclusive bounds, refuted
below. -/
theorem filter_by_offset_partial (l : List (TS X)) (hsort : Sorted l) (lo hi : Bound)
    (hlo : ∀ d, lo ≠ .excluded d) (hhi : ∀ d, hi ≠ .excluded d) (f : TS X)
    (hf : l.head? = some f) :
    (filterByOffset l lo hi).Sublist l ∧
    ∀ s, s ∈ filterByOffset l lo hi ↔ s ∈ l ∧ InBounds lo hi (s.epoch - f.epoch) := by
  obtain ⟨la, hla⟩ : ∃ la, l.getLast? = some la := by
    cases l with
    | nil => simp at hf
    | cons a l => exact ⟨_, List.getLast?_eq_some_getLast (by simp)⟩
  have hfirst : ∀ s ∈ l, f.epoch ≤ s.epoch := by
    intro s hs
    cases l with
    | nil => simp at hs
    | cons a l =>
      simp only [List.head?_cons, Option.some.injEq] at hf
      subst hf
      rcases List.mem_cons.mp hs with rfl | h
      · omega
      · have := (List.pairwise_cons.mp hsort).1 s h; omega
  have hlast : ∀ s ∈ l, s.epoch ≤ la.epoch := by
    intro s hs
    obtain ⟨l', rfl⟩ := List.getLast?_eq_some_iff.mp hla
    rcases List.mem_append.mp hs with h | h
    · have := (List.pairwise_append.mp hsort).2.2 s h la (by simp); omega
    · simp only [List.mem_singleton] at h; rw [h]
  unfold filterByOffset
  rw [hf, hla]
  simp only
  refine ⟨(filter_by_epoch_exact _ _ _).1, ?_⟩
  intro s
  rw [(filter_by_epoch_exact _ _ _).2]
  apply and_congr_right
  intro hsl
  have h1 := hfirst s hsl
  have h2 := hlast s hsl
  unfold InBounds
  cases lo with
  | excluded d => exact absurd rfl (hlo d)
  | included d =>
    cases hi with
    | excluded d => exact absurd rfl (hhi d)
    | included d' => simp; omega
    | unbounded => simp; omega
  | unbounded =>
    cases hi with
    | excluded d => exact absurd rfl (hhi d)
    | included d' => simp; omega
    | unbounded => simp; omega

/-- **C18 refuted (exclusive offset bound).** `0..10` keeps the state at offset exactly 10. -/
theorem filter_by_offset_false : ∃ l : List (TS Unit), Sorted l ∧
    filterByOffset l (.included 0) (.excluded 10) = [⟨0, ()⟩, ⟨10, ()⟩] :=
  ⟨[⟨0, ()⟩, ⟨10, ()⟩, ⟨20, ()⟩], by simp [Sorted], by decide⟩

example : filterByOffset ([⟨5, ()⟩, ⟨15, ()⟩, ⟨25, ()⟩] : List (TS Unit)) (.included 10) .unbounded
    = [⟨15, ()⟩, ⟨25, ()⟩] := by decide

/-! ## C19 -/

/-- **C19.** Adding two strictly sorted trajectories in the same frame gives all of the first then
exactly the states of the second that are after its end; the result is strictly sorted. -/
theorem add_concat [DecidableEq Fr] (frameOf : X → Fr) (t1 t2 : List (TS X)) (h1 : Sorted t1)
    (h2 : Sorted t2) (f1 l1 f2 : TS X) (hf1 : t1.head? = some f1) (hl1 : t1.getLast? = some l1)
    (hf2 : t2.head? = some f2) (hfr : frameOf f1.x = frameOf f2.x) :
    add frameOf t1 t2 = .ok (t1 ++ t2.filter (fun s => decide (l1.epoch < s.epoch))) ∧
    Sorted (t1 ++ t2.filter (fun s => decide (l1.epoch < s.epoch))) := by
  have hs : Sorted (t1 ++ t2.filter (fun s => decide (l1.epoch < s.epoch))) := by
    unfold Sorted
    rw [List.pairwise_append]
    refine ⟨h1, h2.sublist List.filter_sublist, ?_⟩
    intro a ha b hb
    simp only [List.mem_filter, decide_eq_true_eq] at hb
    obtain ⟨l', rfl⟩ := List.getLast?_eq_some_iff.mp hl1
    rcases List.mem_append.mp ha with h | h
    · have := (List.pairwise_append.mp h1).2.2 a h l1 (by simp); omega
    · simp only [List.mem_singleton] at h; rw [h]; exact hb.2
  refine ⟨?_, hs⟩
  unfold add
  rw [hf1, hl1, hf2]
  simp only [gt_iff_lt]
  rw [if_neg (by simpa using hfr), finalize_idem_of_sorted _ hs]

/-- **C19 (frames).** Non empty trajectories in different frames are refused. -/
theorem add_frame_mismatch [DecidableEq Fr] (frameOf : X → Fr) (t1 t2 : List (TS X)) (f1 f2 : TS X)
    (hf1 : t1.head? = some f1) (hf2 : t2.head? = some f2) (hfr : frameOf f1.x ≠ frameOf f2.x) :
    add frameOf t1 t2 = .err () := by
  obtain ⟨la, hla⟩ : ∃ la, t1.getLast? = some la := by
    cases t1 with
    | nil => simp at hf1
    | cons a l => exact ⟨_, List.getLast?_eq_some_getLast (by simp)⟩
  unfold add
  rw [hf1, hla, hf2]
  simp only
  rw [if_pos hfr]

/-- Adding an empty trajectory panics (on either side) instead of returning an error or the other
trajectory. -/
theorem add_empty_panics [DecidableEq Fr] (frameOf : X → Fr) (t : List (TS X)) :
    add frameOf t [] = .panic ∧ add frameOf [] t = .panic := by
  constructor
  · unfold add
    cases t.head? <;> cases t.getLast? <;> rfl
  · rfl

example : add id ([⟨0, true⟩, ⟨10, true⟩] : List (TS Bool)) [⟨5, true⟩, ⟨15, true⟩] =
    .ok [⟨0, true⟩, ⟨10, true⟩, ⟨15, true⟩] := by
  have := (add_concat id ([⟨0, true⟩, ⟨10, true⟩] : List (TS Bool)) [⟨5, true⟩, ⟨15, true⟩]
    (by simp [Sorted]) (by simp [Sorted]) _ _ _ rfl rfl rfl rfl).1
  simpa using this

/-! ## C20 -/

/-- Specification: linear interpolation between two (time, mass) points. -/
def linInterp (t : Rat) (p q : Rat × Rat) : Rat :=
  p.2 + (q.2 - p.2) / (q.1 - p.1) * (t - p.1)

/-- **C20 (partial).** When the mass is constant over the window, the interpolated mass is that
mass, which is also the linear interpolation of the bracketing states. Missing: windows with a burn,
refuted below. -/
theorem interpMass_constant_partial (m t t0 t1 tp tn : Rat) :
    interpMass m t (t0, m) (t1, m) = linInterp t (tp, m) (tn, m) := by
  unfold interpMass linInterp; simp

/-- **C20, what the code computes.** If the mass is `a + b t` at all stored states (so linear
interpolation is exact), the interpolated mass is off by `b` times the time from the window's first
state to the next stored state. -/
theorem interpMass_affine_error (a b t t0 t1 tn : Rat) (h : t0 ≠ t1) :
    interpMass (a + b * tn) t (t0, a + b * t0) (t1, a + b * t1) = (a + b * t) + b * (tn - t0) := by
  have : t1 - t0 ≠ 0 := sub_ne_zero.mpr (Ne.symm h)
  unfold interpMass
  simp only
  field_simp
  ring

/-- **C20 refuted.** Three states 10 s apart, burning 1 kg/s from 100 kg: between 90 kg (10 s) and
80 kg (20 s) the interpolation at 15 s gives 65 kg, outside of the bracketing masses. -/
theorem interpMass_between_false :
    interpMass 80 15 (0, 100) (20, 80) = 65 ∧ linInterp 15 (10, 90) (20, 80) = 85 := by
  unfold interpMass linInterp; norm_num

/-! ## C77 -/

theorem median_mem (l : List Int) (m : Int) (h : median l = some m) : m ∈ l := by
  unfold median at h
  exact (List.mergeSort_perm _ _).mem_iff.mp (List.mem_of_getElem? h)

theorem median_isSome (l : List Int) (h : l ≠ []) : (median l).isSome := by
  unfold median
  have : 0 < l.length := List.length_pos_of_ne_nil h
  rw [List.getElem?_eq_getElem (by rw [List.length_mergeSort]; omega)]
  rfl

theorem smoothAt_spec (half : Nat) (l : List Int) (i : Nat) :
    (smoothAt half l i).length = l.length ∧ ∀ x ∈ smoothAt half l i, x ∈ l := by
  unfold smoothAt
  split
  · rename_i m hm
    refine ⟨by simp, ?_⟩
    intro x hx
    rcases List.mem_or_eq_of_mem_set hx with h | h
    · exact h
    · subst h
      have := median_mem _ _ hm
      unfold winOf at this
      exact List.mem_of_mem_take (List.mem_of_mem_drop this)
  · exact ⟨rfl, fun _ h => h⟩

/-- The window always contains the element being replaced, so the median exists: the code's
indexing of the buffer is safe at every element. -/
theorem smooth_window_nonempty (half : Nat) (l : List Int) (i : Nat) (h : i < l.length) :
    (median (winOf half i l)).isSome := by
  apply median_isSome
  apply List.ne_nil_of_length_pos
  unfold winOf
  rw [List.length_drop, List.length_take]
  omega

/-- **C77 (partial).** Smoothing keeps the number of samples and every smoothed value is one of the
original values (so it stays within their minimum and maximum), for every window. Missing: being
the median of the original neighbours, refuted below. -/
theorem smooth_values_partial (half : Nat) (l : List Int) :
    (smooth half l).length = l.length ∧ ∀ x ∈ smooth half l, x ∈ l := by
  unfold smooth
  have : ∀ (is : List Nat) (l' : List Int), (l'.length = l.length ∧ ∀ x ∈ l', x ∈ l) →
      ((is.foldl (smoothAt half) l').length = l.length ∧
        ∀ x ∈ is.foldl (smoothAt half) l', x ∈ l) := by
    intro is
    induction is with
    | nil => intro l' h; exact h
    | cons i is ih =>
      intro l' h
      rw [List.foldl_cons]
      apply ih
      obtain ⟨a, b⟩ := smoothAt_spec half l' i
      exact ⟨by rw [a, h.1], fun x hx => h.2 x (b x hx)⟩
  exact this _ _ ⟨rfl, fun _ h => h⟩

/-- Specification: the median filter of the original data. -/
def medianFilter (half : Nat) (l : List Int) : List (Option Int) :=
  (List.range l.length).map (fun i => median (winOf half i l))

/-- **C77 refuted.** Because the array is smoothed in place, later windows contain already smoothed
values: the result is not the median filter of the data. -/
theorem smooth_is_median_filter_false : ∃ l : List Int, l.length = 6 ∧
    (smooth 2 l).map some ≠ medianFilter 2 l :=
  ⟨[0, 0, 0, 1, 0, 1], rfl, by
    simp [smooth, medianFilter, smoothAt, median, winOf, List.range_succ, List.mergeSort,
      List.MergeSort.Internal.splitInTwo, List.merge]⟩

end Verif.Traj
