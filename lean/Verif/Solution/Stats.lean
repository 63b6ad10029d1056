import Verif.Solution.Smooth
/-!
Model of the statistics of a solution, od/process/solution/stats.rs, and theorems C41, C91-C93.
-/
set_option linter.unusedSectionVars false

namespace Verif.Solution
open Verif.Kalman Matrix

variable {E T K G Q : Type} {m : Nat}

/-- The measurement residuals of a solution, `residuals.iter().flatten()`. -/
def Sol.flat (o : Sol E T K (RData m) G Q) : List (RData m) :=
  (o.residuals.filterMap id).map Rsd.data

/-- `accepted_residuals`. od/process/solution/mod.rs:177-184. -/
def Sol.accepted (o : Sol E T K (RData m) G Q) : List (RData m) := o.flat.filter fun r => !r.rejected

/-- `rejected_residuals`. od/process/solution/mod.rs:187-194. -/
def Sol.rejectedRes (o : Sol E T K (RData m) G Q) : List (RData m) := o.flat.filter fun r => r.rejected

/-- `rms_prefit_residuals`; the divisor is the length of the column of residuals. stats.rs:148-154. -/
noncomputable def Sol.rmsPrefit (o : Sol E T K (RData m) G Q) : ℝ :=
  Real.sqrt (o.flat.foldl (fun sum r => sum + r.prefit ⬝ᵥ r.prefit) 0 / (o.residuals.length : ℝ))

/-- Sum of a number that may be NaN. -/
noncomputable def addNan (sum : Option ℝ) (x : Option ℝ) : Option ℝ :=
  sum.bind fun a => x.map fun b => a + b

/-- `rms_postfit_residuals`; `none` is NaN. stats.rs:157-163. -/
noncomputable def Sol.rmsPostfit (o : Sol E T K (RData m) G Q) : Option ℝ :=
  (o.flat.foldl (fun sum r => addNan sum (r.postfit.map fun v => v ⬝ᵥ v)) (some 0)).map fun sum =>
    Real.sqrt (sum / (o.residuals.length : ℝ))

/-- `rms_residual_ratios`. stats.rs:166-172. -/
noncomputable def Sol.rmsRatios (o : Sol E T K (RData m) G Q) : ℝ :=
  Real.sqrt (o.flat.foldl (fun sum r => sum + r.ratio ^ 2) 0 / (o.residuals.length : ℝ))

/-- The counting loop of `residual_ratio_within_threshold`: total and within. stats.rs:176-183. -/
noncomputable def withinLoop (threshold : ℝ) : List (RData m) → Nat × Nat → Nat × Nat
  | [], c => c
  | r :: l, c => withinLoop threshold l (c.1 + 1, if |r.ratio| ≤ threshold then c.2 + 1 else c.2)

/-- `residual_ratio_within_threshold`; `none` is the error. stats.rs:175-191. -/
noncomputable def Sol.withinThreshold (o : Sol E T K (RData m) G Q) (threshold : ℝ) : Option ℝ :=
  let c := withinLoop threshold o.flat (0, 0)
  if c.1 > 0 then some ((c.2 : ℝ) / (c.1 : ℝ)) else none

/-- The loop of `ks_test_normality` from index `i` over the sorted values, `n` values in all, with the
distribution function of the normal law. stats.rs:222-231. -/
noncomputable def ksLoop (n : ℝ) (cdf : ℝ → ℝ) : Nat → List ℝ → ℝ → ℝ
  | _, [], d => d
  | i, v :: l, d =>
    ksLoop n cdf (i + 1) l (if |((i : ℝ) + 1) / n - cdf v| > d then |((i : ℝ) + 1) / n - cdf v| else d)

/-- The empirical mean. stats.rs:210. -/
noncomputable def meanOf (l : List ℝ) : ℝ := l.sum / (l.length : ℝ)

/-- The empirical standard deviation. stats.rs:211-216. -/
noncomputable def stdOf (l : List ℝ) : ℝ :=
  Real.sqrt ((l.map fun v => (v - meanOf l) ^ 2).sum / (l.length : ℝ))

/-- The whitened components of the accepted residuals. stats.rs:197-201. -/
def Sol.whitened (o : Sol E T K (RData m) G Q) : List ℝ :=
  o.accepted.flatMap fun r => List.ofFn r.whitened

/-- `ks_test_normality`. `normal mean std` is `Normal::new` of statrs, `none` is its error, unwrapped by the
code, thus a panic. stats.rs:196-232. -/
noncomputable def Sol.ksTest (normal : ℝ → ℝ → Option (ℝ → ℝ)) (o : Sol E T K (RData m) G Q) : Res ℝ :=
  if o.whitened = [] then .err
  else
    match normal (meanOf o.whitened) (stdOf o.whitened) with
    | none => .panic
    | some cdf => .ok (ksLoop (o.whitened.length : ℝ) cdf 0
        (o.whitened.mergeSort fun a b => decide (a ≤ b)) 0)

/-- `NormalizedConsistency`. stats.rs:36-44. -/
structure Consistency where
  sum : ℝ
  k : ℝ
  lower : ℝ
  upper : ℝ

/-- `is_consistent`. stats.rs:58-60. -/
def Consistency.isConsistent (c : Consistency) : Prop := c.sum < c.upper ∧ c.sum > c.lower

/-- `is_underconfident`. stats.rs:63-65. -/
def Consistency.isUnder (c : Consistency) : Prop := c.sum < c.lower

/-- `is_overconfident`. stats.rs:68-70. -/
def Consistency.isOver (c : Consistency) : Prop := c.sum > c.upper

/-- The bounds of Wilson and Hilferty for `k` degrees of freedom and quantile `z`. stats.rs:313-315. -/
noncomputable def wilson (sum k z : ℝ) : Consistency where
  sum := sum
  k := k
  lower := k * (1 - 2 / (9 * k) - z * Real.sqrt (2 / (9 * k))) ^ 3
  upper := k * (1 - 2 / (9 * k) + z * Real.sqrt (2 / (9 * k))) ^ 3

/-- `Residual::nis`. od/estimate/residual.rs:175-177. -/
noncomputable def RData.nis (r : RData m) : ℝ := r.whitened ⬝ᵥ r.whitened

/-- `nis_consistency`; `z` is the quantile `inverse_cdf(1 - alpha / 2)`, `none` is the error.
stats.rs:282-326. -/
noncomputable def Sol.nisConsistency (z : ℝ) (o : Sol E T K (RData m) G Q) : Option Consistency :=
  if o.accepted.length = 0 then none
  else some (wilson ((o.accepted.map RData.nis).sum) ((o.accepted.length * m : Nat) : ℝ) z)

/-! ### Root mean squares -/

theorem foldl_sum {α : Type} (f : α → ℝ) (l : List α) (a : ℝ) :
    l.foldl (fun sum r => sum + f r) a = a + (l.map f).sum := by
  induction l generalizing a with
  | nil => simp
  | cons x l ih => rw [List.foldl_cons, ih]; simp; ring

/-- The root of the mean of the squares of a list: the specification. -/
noncomputable def rootMeanSquare (l : List ℝ) : ℝ := Real.sqrt ((l.map fun x => x ^ 2).sum / (l.length : ℝ))

/-- The norm of a residual vector. -/
noncomputable def norm2 (v : Fin m → ℝ) : ℝ := Real.sqrt (v ⬝ᵥ v)

theorem norm2_sq (v : Fin m → ℝ) : norm2 v ^ 2 = v ⬝ᵥ v := by
  unfold norm2
  exact Real.sq_sqrt (Finset.sum_nonneg fun i _ => mul_self_nonneg _)

/-- How the reported value relates to the root mean square of `n` numbers when it is divided by `len`. -/
theorem rms_scaled (l : List ℝ) (len : Nat) (hlen : l.length ≤ len) (h0 : 0 < len) :
    Real.sqrt ((l.map fun x => x ^ 2).sum / (len : ℝ)) =
      rootMeanSquare l * Real.sqrt ((l.length : ℝ) / (len : ℝ)) := by
  unfold rootMeanSquare
  have hs : 0 ≤ (l.map fun x => x ^ 2).sum := by
    apply List.sum_nonneg
    intro x hx
    obtain ⟨y, _, rfl⟩ := List.mem_map.1 hx
    positivity
  rw [← Real.sqrt_mul (by positivity)]
  congr 1
  rcases Nat.eq_zero_or_pos l.length with h | h
  · have : l = [] := List.length_eq_zero_iff.1 h
    subst this
    simp
  · have : (l.length : ℝ) ≠ 0 := by positivity
    field_simp

theorem flat_length_le (o : Sol E T K (RData m) G Q) : o.flat.length ≤ o.residuals.length := by
  unfold Sol.flat
  rw [List.length_map]
  exact List.length_filterMap_le _ _

/-- **C41 (partial).** The reported values are the root mean square over the measurement residuals, times the
root of the share of measurements among the entries. Missing: they should not depend on the number of time
updates, see `rms_counts_time_updates`. -/
theorem rms_partial (o : Sol E T K (RData m) G Q) (h0 : 0 < o.residuals.length) :
    o.rmsPrefit = rootMeanSquare (o.flat.map fun r => norm2 r.prefit) *
        Real.sqrt ((o.flat.length : ℝ) / (o.residuals.length : ℝ)) ∧
      o.rmsRatios = rootMeanSquare (o.flat.map fun r => r.ratio) *
        Real.sqrt ((o.flat.length : ℝ) / (o.residuals.length : ℝ)) := by
  constructor
  · have := rms_scaled (o.flat.map fun r => norm2 r.prefit) o.residuals.length
      (by simpa using flat_length_le o) h0
    rw [List.length_map] at this
    rw [← this, Sol.rmsPrefit, foldl_sum, zero_add, List.map_map]
    congr 4
    funext r
    exact (norm2_sq _).symm
  · have := rms_scaled (o.flat.map fun r => r.ratio) o.residuals.length
      (by simpa using flat_length_le o) h0
    rw [List.length_map] at this
    rw [← this, Sol.rmsRatios, foldl_sum, zero_add, List.map_map]
    rfl

/-- **C41 (partial).** Without time updates the reported values are the root mean squares. -/
theorem rms_exact_partial (o : Sol E T K (RData m) G Q) (h0 : o.residuals ≠ [])
    (h : ∀ r ∈ o.residuals, r ≠ none) :
    o.rmsPrefit = rootMeanSquare (o.flat.map fun r => norm2 r.prefit) ∧
      o.rmsRatios = rootMeanSquare (o.flat.map fun r => r.ratio) := by
  have hpos : 0 < o.residuals.length := List.length_pos_iff.2 h0
  have hl : o.flat.length = o.residuals.length := by
    unfold Sol.flat
    rw [List.length_map]
    generalize o.residuals = l at h
    clear h0 hpos
    induction l with
    | nil => rfl
    | cons x l ih =>
      cases x with
      | none => exact absurd rfl (h none (List.mem_cons_self ..))
      | some x =>
        have := ih fun r hr => h r (List.mem_cons_of_mem _ hr)
        simpa using this
  obtain ⟨h1, h2⟩ := rms_partial o hpos
  have : (o.residuals.length : ℝ) ≠ 0 := by positivity
  rw [h1, h2, hl, div_self this, Real.sqrt_one, mul_one, mul_one]
  exact ⟨rfl, rfl⟩

theorem postfit_fold (l : List (RData m)) : ∀ a : Option ℝ,
    (l.foldl (fun sum r => addNan sum (r.postfit.map fun v => v ⬝ᵥ v)) a).isSome = true ↔
      a.isSome = true ∧ ∀ r ∈ l, r.postfit.isSome = true := by
  induction l with
  | nil => intro a; simp
  | cons x l ih =>
    intro a
    rw [List.foldl_cons, ih]
    cases a with
    | none => simp [addNan]
    | some a =>
      cases hx : x.postfit with
      | none => simp [addNan, hx]
      | some v => simp [addNan, hx]

/-- **C41 (postfit).** The reported postfit value is a number exactly if no measurement residual has a
postfit that is not a number: one rejected residual makes it NaN. -/
theorem rms_postfit_nan (o : Sol E T K (RData m) G Q) :
    o.rmsPostfit.isSome = true ↔ ∀ r ∈ o.flat, r.postfit.isSome = true := by
  unfold Sol.rmsPostfit
  rw [Option.isSome_map, postfit_fold]
  simp

/-- **C41 is refuted**: one measurement with prefit 1 and one time update, the reported value is not 1 but
the root of one half. -/
theorem rms_counts_time_updates : ∃ o : Sol Unit Unit Unit (RData 1) Unit Unit,
    o.Aligned ∧ o.flat.map (fun r => norm2 r.prefit) = [1] ∧ rootMeanSquare [1] = 1 ∧
      o.rmsPrefit = Real.sqrt (1 / 2) ∧ o.rmsPrefit ≠ 1 := by
  refine ⟨(Sol.new.pushMsr () ⟨some (), [()], ⟨0, 1, some 0, 0, 0, 0, 0, false⟩⟩ none).pushTime (),
    ⟨rfl, rfl, rfl⟩, ?_, ?_, ?_, ?_⟩
  · simp [Sol.flat, Sol.new, Sol.pushMsr, Sol.pushTime, norm2]
  · simp [rootMeanSquare]
  · simp [Sol.rmsPrefit, Sol.flat, Sol.new, Sol.pushMsr, Sol.pushTime]
  · have : Sol.rmsPrefit ((Sol.new.pushMsr () ⟨some (), [()], ⟨0, 1, some 0, 0, 0, 0, 0, false⟩⟩
        none).pushTime () : Sol Unit Unit Unit (RData 1) Unit Unit) = Real.sqrt (1 / 2) := by
      simp [Sol.rmsPrefit, Sol.flat, Sol.new, Sol.pushMsr, Sol.pushTime]
    rw [this]
    intro h
    have h2 : Real.sqrt (1 / 2) ^ 2 = (1 / 2 : ℝ) := Real.sq_sqrt (by norm_num)
    rw [h] at h2
    norm_num at h2

/-! ### Fractions -/

theorem withinLoop_eq (t : ℝ) (l : List (RData m)) : ∀ c : Nat × Nat,
    withinLoop t l c = (c.1 + l.length,
      c.2 + (open Classical in (l.filter fun r => decide (|r.ratio| ≤ t)).length)) := by
  induction l with
  | nil => intro c; simp [withinLoop]
  | cons r l ih =>
    intro c
    rw [withinLoop, ih]
    by_cases h : |r.ratio| ≤ t
    · simp [h]; omega
    · simp [h]; omega

/-- **C91.** The fraction within a threshold is the number of measurement residuals within it over their
number, whatever the time updates; it is in [0, 1], grows with the threshold, and is an error exactly when
there is no measurement residual. -/
theorem within_threshold (o : Sol E T K (RData m) G Q) (t : ℝ) :
    (o.withinThreshold t = none ↔ o.flat = []) ∧
    ∀ v, o.withinThreshold t = some v →
      v * (o.flat.length : ℝ) = (open Classical in ((o.flat.filter fun r => decide (|r.ratio| ≤ t)).length : ℝ)) ∧
      0 ≤ v ∧ v ≤ 1 ∧
      ∀ t' v', t ≤ t' → o.withinThreshold t' = some v' → v ≤ v' := by
  classical
  have hval : ∀ t v, o.withinThreshold t = some v → 0 < o.flat.length ∧
      v = ((o.flat.filter fun r => decide (|r.ratio| ≤ t)).length : ℝ) / (o.flat.length : ℝ) := by
    intro t v h
    unfold Sol.withinThreshold at h
    simp only [withinLoop_eq, Nat.zero_add] at h
    split at h
    · rename_i hp
      refine ⟨hp, ?_⟩
      rw [← Option.some.inj h]
    · cases h
  constructor
  · unfold Sol.withinThreshold
    simp only [withinLoop_eq, Nat.zero_add]
    split
    · rename_i hp
      simp only [reduceCtorEq, false_iff]
      exact List.length_pos_iff.1 hp
    · rename_i hp
      simp only [true_iff]
      exact List.length_eq_zero_iff.1 (by omega)
  · intro v hv
    obtain ⟨hp, rfl⟩ := hval t v hv
    have hp' : (0 : ℝ) < o.flat.length := by exact_mod_cast hp
    refine ⟨?_, by positivity, ?_, ?_⟩
    · rw [div_mul_cancel₀ _ hp'.ne']
    · rw [div_le_one hp']
      exact_mod_cast List.length_filter_le _ _
    · intro t' v' ht hv'
      obtain ⟨_, rfl⟩ := hval t' v' hv'
      apply div_le_div_of_nonneg_right _ hp'.le
      have : (o.flat.filter fun r => decide (|r.ratio| ≤ t)).length ≤
          (o.flat.filter fun r => decide (|r.ratio| ≤ t')).length := by
        apply List.Sublist.length_le
        apply List.monotone_filter_right
        intro r hr
        simp only [decide_eq_true_eq] at hr ⊢
        exact hr.trans ht
      exact_mod_cast this

/-- **C91.** Accepted and rejected residuals partition the measurement residuals. -/
theorem accepted_rejected_partition (o : Sol E T K (RData m) G Q) :
    (o.accepted ++ o.rejectedRes).Perm o.flat := by
  unfold Sol.accepted Sol.rejectedRes
  have := List.filter_append_perm (fun r : RData m => r.rejected) o.flat
  exact List.perm_append_comm.trans this

/-! ### Kolmogorov-Smirnov -/

theorem ksLoop_ge (n : ℝ) (cdf : ℝ → ℝ) (l : List ℝ) : ∀ (i : Nat) (d : ℝ), d ≤ ksLoop n cdf i l d ∧
    ∀ j (h : j < l.length), |((i + j : Nat) + 1 : ℝ) / n - cdf l[j]| ≤ ksLoop n cdf i l d := by
  induction l with
  | nil => intro i d; exact ⟨le_refl _, by simp⟩
  | cons v l ih =>
    intro i d
    rw [ksLoop]
    obtain ⟨h1, h2⟩ := ih (i + 1) (if |((i : ℝ) + 1) / n - cdf v| > d then |((i : ℝ) + 1) / n - cdf v| else d)
    have hd : d ≤ (if |((i : ℝ) + 1) / n - cdf v| > d then |((i : ℝ) + 1) / n - cdf v| else d) := by
      split
      · exact le_of_lt ‹_›
      · exact le_refl _
    refine ⟨hd.trans h1, ?_⟩
    intro j hj
    cases j with
    | zero =>
      refine le_trans ?_ h1
      simp only [Nat.add_zero, List.getElem_cons_zero]
      split
      · exact le_refl _
      · exact not_lt.1 ‹_›
    | succ j =>
      have := h2 j (by simpa using hj)
      simp only [List.getElem_cons_succ]
      have e : i + 1 + j = i + (j + 1) := by omega
      rw [e] at this
      exact this

theorem ksLoop_mem (n : ℝ) (cdf : ℝ → ℝ) (l : List ℝ) : ∀ (i : Nat) (d : ℝ), ksLoop n cdf i l d = d ∨
    ∃ j, ∃ h : j < l.length, ksLoop n cdf i l d = |((i + j : Nat) + 1 : ℝ) / n - cdf l[j]| := by
  induction l with
  | nil => intro i d; exact Or.inl rfl
  | cons v l ih =>
    intro i d
    rw [ksLoop]
    rcases ih (i + 1) (if |((i : ℝ) + 1) / n - cdf v| > d then |((i : ℝ) + 1) / n - cdf v| else d) with h | h
    · rw [h]
      split
      · exact Or.inr ⟨0, by simp, by simp⟩
      · exact Or.inl rfl
    · obtain ⟨j, hj, h⟩ := h
      refine Or.inr ⟨j + 1, by simpa using hj, ?_⟩
      rw [h]
      have e : i + 1 + j = i + (j + 1) := by omega
      simp only [e, List.getElem_cons_succ]

/-- What is used of the normal law: a standard deviation that is not positive is refused, otherwise the
distribution function is monotone with values in [0, 1]. -/
def NormalSpec (normal : ℝ → ℝ → Option (ℝ → ℝ)) : Prop :=
  (∀ a b, normal a b = none ↔ b ≤ 0) ∧
  ∀ a b F, normal a b = some F → Monotone F ∧ ∀ x, 0 ≤ F x ∧ F x ≤ 1

/-- The share of the values up to `x`. -/
noncomputable def empirical (l : List ℝ) (x : ℝ) : ℝ :=
  (open Classical in ((l.filter fun v => decide (v ≤ x)).length : ℝ)) / (l.length : ℝ)

theorem countLe_sorted (l : List ℝ) (hs : l.Pairwise (· ≤ ·)) (x : ℝ) :
    ∃ j, j ≤ l.length ∧ (open Classical in (l.filter fun v => decide (v ≤ x)).length) = j ∧
      (∀ i (h : i < l.length), i < j → l[i] ≤ x) ∧ (∀ i (h : i < l.length), j ≤ i → x < l[i]) := by
  classical
  induction l with
  | nil => exact ⟨0, by simp, by simp, by simp, by simp⟩
  | cons v l ih =>
    rw [List.pairwise_cons] at hs
    obtain ⟨j, h1, h2, h3, h4⟩ := ih hs.2
    by_cases hv : v ≤ x
    · refine ⟨j + 1, by simpa using h1, ?_, ?_, ?_⟩
      · rw [List.filter_cons_of_pos (by simpa using hv), List.length_cons]
        rw [h2]
      · intro i hi hij
        cases i with
        | zero => exact hv
        | succ i => exact h3 i (by simpa using hi) (by omega)
      · intro i hi hij
        cases i with
        | zero => omega
        | succ i => exact h4 i (by simpa using hi) (by omega)
    · have hall : ∀ w ∈ l, x < w := fun w hw => lt_of_lt_of_le (not_le.1 hv) (hs.1 w hw)
      refine ⟨0, by simp, ?_, by simp, ?_⟩
      · rw [List.filter_cons_of_neg (by simpa using hv)]
        rw [List.length_eq_zero_iff, List.filter_eq_nil_iff]
        intro w hw
        simpa using hall w hw
      · intro i hi _
        cases i with
        | zero => exact not_le.1 hv
        | succ i => exact hall _ (List.getElem_mem _)

/-- **C92.** The statistic returned is in [0, 1], and it bounds, up to one over the number of values, the
distance between the empirical distribution of the whitened residuals of the accepted measurements and the
normal law with the mean and the (population) standard deviation of these residuals, at every point. -/
theorem ks_statistic (normal : ℝ → ℝ → Option (ℝ → ℝ)) (hN : NormalSpec normal)
    (o : Sol E T K (RData m) G Q) (d : ℝ) (h : o.ksTest normal = .ok d) :
    0 ≤ d ∧ d ≤ 1 ∧ ∃ μ σ F, (o.whitened.length : ℝ) * μ = o.whitened.sum ∧ 0 ≤ σ ∧
      (o.whitened.length : ℝ) * σ ^ 2 = (o.whitened.map fun v => (v - μ) ^ 2).sum ∧ normal μ σ = some F ∧
      ∀ x, |empirical o.whitened x - F x| ≤ d + 1 / (o.whitened.length : ℝ) := by
  classical
  unfold Sol.ksTest at h
  split at h
  · cases h
  · rename_i hne
    split at h
    · cases h
    · rename_i F hF
      simp only [Res.ok.injEq] at h
      obtain ⟨hmono, h01⟩ := hN.2 _ _ _ hF
      set w := o.whitened with hw
      set srt := w.mergeSort fun a b => decide (a ≤ b) with hsrt
      have hperm : srt.Perm w := List.mergeSort_perm _ _
      have hlen : srt.length = w.length := hperm.length_eq
      have hpos : 0 < w.length := List.length_pos_iff.2 hne
      have hposR : (0 : ℝ) < w.length := by exact_mod_cast hpos
      have hsorted : srt.Pairwise (· ≤ ·) := by
        have := List.pairwise_mergeSort (le := fun a b : ℝ => decide (a ≤ b))
          (fun a b c h1 h2 => by simp only [decide_eq_true_eq] at *; exact h1.trans h2)
          (fun a b => by simp only [Bool.or_eq_true, decide_eq_true_eq]; exact le_total a b) w
        refine this.imp ?_
        intro a b hab
        simpa using hab
      obtain ⟨hge, hall⟩ := ksLoop_ge (w.length : ℝ) F srt 0 0
      rw [h] at hge hall
      have hd1 : d ≤ 1 := by
        rcases ksLoop_mem (w.length : ℝ) F srt 0 0 with hm | ⟨j, hj, hm⟩
        · rw [← h, hm]; norm_num
        · rw [← h, hm, abs_le]
          have hj' : ((0 + j : Nat) + 1 : ℝ) ≤ w.length := by
            rw [hlen] at hj
            exact_mod_cast (by omega : 0 + j + 1 ≤ w.length)
          have h1 : ((0 + j : Nat) + 1 : ℝ) / w.length ≤ 1 := by rw [div_le_one hposR]; exact hj'
          have h2 : 0 ≤ ((0 + j : Nat) + 1 : ℝ) / w.length := by positivity
          obtain ⟨h3, h4⟩ := h01 srt[j]
          constructor <;> linarith
      have hvar : 0 ≤ (w.map fun v => (v - meanOf w) ^ 2).sum / (w.length : ℝ) := by
        refine div_nonneg (List.sum_nonneg fun y hy => ?_) hposR.le
        obtain ⟨v, -, rfl⟩ := List.mem_map.1 hy
        exact sq_nonneg _
      refine ⟨hge, hd1, meanOf w, stdOf w, F, ?_, Real.sqrt_nonneg _, ?_, hF, ?_⟩
      · unfold meanOf
        field_simp
      · unfold stdOf
        rw [Real.sq_sqrt hvar]
        field_simp
      intro x
      obtain ⟨j, hj1, hj2, hj3, hj4⟩ := countLe_sorted srt hsorted x
      have hemp : empirical w x = (j : ℝ) / w.length := by
        unfold empirical
        congr 2
        rw [← hj2]
        exact ((hperm.filter _).length_eq).symm
      rw [hemp, abs_le]
      have hinv : 0 < 1 / (w.length : ℝ) := by positivity
      obtain ⟨hx0, hx1⟩ := h01 x
      constructor
      · rcases Nat.lt_or_ge j srt.length with hlt | hge'
        · have h1 := hall j hlt
          rw [abs_le] at h1
          have h2 := hmono (hj4 j hlt (le_refl _)).le
          have h3 : ((0 + j : Nat) + 1 : ℝ) / w.length = (j : ℝ) / w.length + 1 / w.length := by
            push_cast; ring
          rw [h3] at h1
          linarith [h1.1]
        · have : j = w.length := by omega
          rw [this, div_self hposR.ne']
          linarith
      · rcases Nat.eq_zero_or_pos j with h0 | hjp
        · rw [h0]
          simp only [Nat.cast_zero, zero_div]
          linarith
        · have hlt : j - 1 < srt.length := by omega
          have h1 := hall (j - 1) hlt
          rw [abs_le] at h1
          have h2 := hmono (hj3 (j - 1) hlt (by omega))
          have h3 : ((0 + (j - 1) : Nat) + 1 : ℝ) = (j : ℝ) := by
            have : 0 + (j - 1) + 1 = j := by omega
            exact_mod_cast this
          rw [h3] at h1
          linarith [h1.2]

/-- **C92 (panic).** The test panics when the whitened residuals are all equal, in particular when there is
only one. -/
theorem ks_panics_on_one (normal : ℝ → ℝ → Option (ℝ → ℝ)) (hN : NormalSpec normal)
    (o : Sol E T K (RData m) G Q) (v : ℝ) (h : o.whitened = [v]) : o.ksTest normal = .panic := by
  unfold Sol.ksTest
  rw [if_neg (by rw [h]; simp)]
  have : normal (meanOf o.whitened) (stdOf o.whitened) = none := by
    rw [hN.1, h]
    simp [stdOf, meanOf]
  rw [this]

/-! ### Consistency tests -/

/-- **C93 (verdicts).** The three verdicts exclude each other if the bounds are ordered, and one of them holds
unless the sum is exactly a bound. -/
theorem verdicts (c : Consistency) (h : c.lower < c.upper) :
    ¬ (c.isConsistent ∧ c.isUnder) ∧ ¬ (c.isConsistent ∧ c.isOver) ∧ ¬ (c.isUnder ∧ c.isOver) ∧
      (c.isConsistent ∨ c.isUnder ∨ c.isOver ∨ c.sum = c.lower ∨ c.sum = c.upper) := by
  unfold Consistency.isConsistent Consistency.isUnder Consistency.isOver
  refine ⟨fun h => by linarith [h.1.2, h.2], fun h => by linarith [h.1.1, h.2],
    fun h => by linarith [h.1, h.2], ?_⟩
  rcases lt_trichotomy c.sum c.lower with h1 | h1 | h1
  · exact Or.inr (Or.inl h1)
  · exact Or.inr (Or.inr (Or.inr (Or.inl h1)))
  · rcases lt_trichotomy c.sum c.upper with h2 | h2 | h2
    · exact Or.inl ⟨h2, h1⟩
    · exact Or.inr (Or.inr (Or.inr (Or.inr h2)))
    · exact Or.inr (Or.inr (Or.inl h2))

theorem wilson_ordered (sum k z : ℝ) (hk : 0 < k) (hz : 0 < z) : (wilson sum k z).lower < (wilson sum k z).upper := by
  unfold wilson
  simp only
  apply mul_lt_mul_of_pos_left _ hk
  have hs : 0 < Real.sqrt (2 / (9 * k)) := Real.sqrt_pos.2 (by positivity)
  have : 1 - 2 / (9 * k) - z * Real.sqrt (2 / (9 * k)) < 1 - 2 / (9 * k) + z * Real.sqrt (2 / (9 * k)) := by
    have := mul_pos hz hs
    linarith
  exact (Odd.strictMono_pow (by decide : Odd 3)) this

/-- **C93.** The innovation test: an error exactly without accepted residuals; otherwise the sum is that of the
squared norms of the whitened accepted residuals only, the degrees of freedom are their number times the size
of a measurement, and the bounds are ordered for every level below one (positive quantile). -/
theorem nis_consistency_spec (z : ℝ) (hz : 0 < z) (hm : 0 < m) (o : Sol E T K (RData m) G Q) :
    (o.nisConsistency z = none ↔ ∀ r ∈ o.flat, r.rejected = true) ∧
    ∀ c, o.nisConsistency z = some c →
      c.sum = ((o.flat.filter fun r => !r.rejected).map fun r => ∑ i, r.whitened i ^ 2).sum ∧
      c.k = ((o.flat.filter fun r => !r.rejected).length : ℝ) * (m : ℝ) ∧ 0 ≤ c.sum ∧
      c.lower < c.upper := by
  unfold Sol.nisConsistency
  constructor
  · constructor
    · intro h
      split at h
      · rename_i h0
        rw [List.length_eq_zero_iff, Sol.accepted, List.filter_eq_nil_iff] at h0
        intro r hr
        simpa using h0 r hr
      · cases h
    · intro h
      rw [if_pos]
      rw [List.length_eq_zero_iff, Sol.accepted, List.filter_eq_nil_iff]
      intro r hr
      simpa using h r hr
  · intro c hc
    split at hc
    · cases hc
    · rename_i h0
      simp only [Option.some.injEq] at hc
      subst hc
      have hnis : ∀ r : RData m, r.nis = ∑ i, r.whitened i ^ 2 := by
        intro r
        simp only [RData.nis, dotProduct, pow_two]
      refine ⟨?_, ?_, ?_, ?_⟩
      · show (o.accepted.map RData.nis).sum = _
        unfold Sol.accepted
        congr 1
        exact List.map_congr_left fun r _ => hnis r
      · show ((o.accepted.length * m : Nat) : ℝ) = _
        rw [Nat.cast_mul]; rfl
      · show 0 ≤ (o.accepted.map RData.nis).sum
        apply List.sum_nonneg
        intro x hx
        obtain ⟨r, _, rfl⟩ := List.mem_map.1 hx
        rw [hnis]
        exact Finset.sum_nonneg fun i _ => sq_nonneg _
      · apply wilson_ordered _ _ _ _ hz
        have : 0 < o.accepted.length * m := Nat.mul_pos (by omega) hm
        exact_mod_cast this

/-! ### Normalized estimation error -/

/-- The inverted spectrum: eigenvalues above the noise floor are inverted, the others are zero.
stats.rs:444-455. -/
noncomputable def invSpectrum {n : Nat} (eps : ℝ) (lam : Fin n → ℝ) : Fin n → ℝ := fun i =>
  if lam i > eps then 1 / lam i else 0

/-- The noise floor: the greatest eigenvalue times the size times the machine epsilon. stats.rs:440-441. -/
noncomputable def floorOf {n : Nat} [NeZero n] (macheps : ℝ) (lam : Fin n → ℝ) : ℝ :=
  (Finset.univ.sup' ⟨0, Finset.mem_univ _⟩ lam) * (n : ℝ) * macheps

/-- One term of the sum: `e^T Q L^+ Q^T e`. stats.rs:458-464. -/
noncomputable def neesTerm {n : Nat} [NeZero n] (macheps : ℝ) (V : Matrix (Fin n) (Fin n) ℝ) (lam : Fin n → ℝ)
    (e : Fin n → ℝ) : ℝ :=
  e ⬝ᵥ ((V * Matrix.diagonal (invSpectrum (floorOf macheps lam) lam) * Vᵀ) *ᵥ e)

/-- What `symmetric_eigen` of nalgebra returns for a symmetric matrix. -/
def EigenOf {n : Nat} (P V : Matrix (Fin n) (Fin n) ℝ) (lam : Fin n → ℝ) : Prop :=
  Vᵀ * V = 1 ∧ P = V * Matrix.diagonal lam * Vᵀ

/-- **C93 (NEES term).** For a covariance whose eigenvalues are above the noise floor, the term is the
error weighted by the inverse of the covariance. In nearly singular covariances the small directions are
ignored; there the term is non negative, see `nees_nonneg`. -/
theorem nees_term {n : Nat} [NeZero n] (macheps : ℝ) (P V : Matrix (Fin n) (Fin n) ℝ)
    (lam e : Fin n → ℝ) (h : EigenOf P V lam) (hm : 0 ≤ macheps) (hpos : ∀ i, 0 < lam i)
    (hl : ∀ i, lam i > (Finset.univ.sup' ⟨0, Finset.mem_univ _⟩ lam) * (n : ℝ) * macheps) :
    IsUnit P.det ∧ neesTerm macheps V lam e = e ⬝ᵥ (P⁻¹ *ᵥ e) := by
  obtain ⟨hV, hP⟩ := h
  have hV' : V * Vᵀ = 1 := mul_eq_one_comm.1 hV
  have hd : Matrix.diagonal lam * Matrix.diagonal (invSpectrum (floorOf macheps lam) lam) = 1 := by
    rw [Matrix.diagonal_mul_diagonal, ← Matrix.diagonal_one]
    congr 1
    funext i
    have hi : lam i > floorOf macheps lam := hl i
    rw [invSpectrum, if_pos hi, mul_one_div, div_self (hpos i).ne']
  have hinv : P * (V * Matrix.diagonal (invSpectrum (floorOf macheps lam) lam) * Vᵀ) = 1 := by
    calc P * (V * Matrix.diagonal (invSpectrum (floorOf macheps lam) lam) * Vᵀ)
        = V * (Matrix.diagonal lam * ((Vᵀ * V) * Matrix.diagonal (invSpectrum (floorOf macheps lam) lam))) * Vᵀ := by
          rw [hP]; simp only [Matrix.mul_assoc]
      _ = 1 := by rw [hV, Matrix.one_mul, hd, Matrix.mul_one, hV']
  refine ⟨?_, ?_⟩
  · rw [← Matrix.isUnit_iff_isUnit_det]
    exact ⟨⟨P, _, hinv, mul_eq_one_comm.1 hinv⟩, rfl⟩
  · unfold neesTerm
    rw [Matrix.inv_eq_right_inv hinv]

/-- **C93 (NEES).** Every term is non negative, even for corrupted covariances with negative eigenvalues. -/
theorem nees_nonneg {n : Nat} [NeZero n] (macheps : ℝ) (V : Matrix (Fin n) (Fin n) ℝ) (lam e : Fin n → ℝ)
    (hm : 0 ≤ macheps) (hn : (n : ℝ) * macheps ≤ 1) : 0 ≤ neesTerm macheps V lam e := by
  have hspec : ∀ i, 0 ≤ invSpectrum (floorOf macheps lam) lam i := by
    intro i
    have hi : lam i ≤ Finset.univ.sup' ⟨0, Finset.mem_univ _⟩ lam := Finset.le_sup' lam (Finset.mem_univ i)
    unfold invSpectrum floorOf
    generalize Finset.univ.sup' ⟨0, Finset.mem_univ _⟩ lam = mx at hi ⊢
    split
    · rename_i h
      have hnm : 0 ≤ (n : ℝ) * macheps := by positivity
      have : 0 < lam i := by
        rcases le_or_gt 0 mx with h0 | h0
        · have : 0 ≤ mx * n * macheps := by positivity
          linarith
        · nlinarith
      positivity
    · exact le_refl _
  have hpsd := posSemidef_conj (Matrix.PosSemidef.diagonal hspec) V
  have := hpsd.dotProduct_mulVec_nonneg e
  simpa [neesTerm] using this

/-! ### Examples -/

/-- A solution with two accepted residuals, a rejected one, and a time update. -/
def exStats : Sol Unit Unit Unit (RData 1) Unit Unit :=
  ⟨[(), (), (), ()],
    [some ⟨some (), [()], ⟨0, 1, some 0, 1, 0, 0, fun _ => 1, false⟩⟩,
     some ⟨some (), [()], ⟨1, 1, some 0, 2, 0, 0, fun _ => -1, false⟩⟩,
     some ⟨some (), [()], ⟨2, 1, none, 9, 0, 0, fun _ => 9, true⟩⟩, none],
    [none, none, none, none], [none, none, none, none]⟩

/-- The tests on the example: two accepted residuals, the sum of the test is 2 with 2 degrees of freedom. -/
example : exStats.Aligned ∧ exStats.flat.length = 3 ∧ exStats.accepted.length = 2 ∧
    ∃ c, exStats.nisConsistency 2 = some c ∧ c.sum = 2 ∧ c.k = 2 := by
  refine ⟨⟨rfl, rfl, rfl⟩, rfl, rfl, _, rfl, ?_, ?_⟩
  · simp [wilson, Sol.accepted, Sol.flat, exStats, RData.nis, dotProduct]
    norm_num
  · simp [wilson, Sol.accepted, Sol.flat, exStats]

/-- The fraction within 3 on the example exists, and the postfit value is not a number. -/
example : (∃ v, exStats.withinThreshold 3 = some v) ∧ exStats.rmsPostfit.isSome = false ∧
    0 < exStats.residuals.length := by
  refine ⟨?_, ?_, by decide⟩
  · cases h : exStats.withinThreshold 3 with
    | some v => exact ⟨v, rfl⟩
    | none =>
      have := (within_threshold exStats 3).1.1 h
      simp [Sol.flat, exStats] at this
  · have := (rms_postfit_nan exStats).not.2 (by
      intro h
      have := h ⟨2, 1, none, 9, 0, 0, fun _ => 9, true⟩ (by simp [Sol.flat, exStats])
      simp at this)
    simpa using this

/-- A law that satisfies the specification (a step instead of the normal law), for which the test of the
example returns a statistic. -/
example : ∃ normal, NormalSpec normal ∧ ∃ d, exStats.ksTest normal = .ok d := by
  classical
  refine ⟨fun _ b => if b ≤ 0 then none else some fun x => if 0 ≤ x then 1 else 0, ⟨?_, ?_⟩, ?_⟩
  · intro a b
    simp
  · intro a b F h
    simp only [Option.ite_none_left_eq_some, Option.some.injEq] at h
    obtain ⟨_, rfl⟩ := h
    refine ⟨fun x y hxy => ?_, fun x => ?_⟩
    · simp only
      split
      · rw [if_pos (by linarith)]
      · split <;> norm_num
    · simp only
      split <;> norm_num
  · have hw : exStats.whitened = [1, -1] := by
      simp [Sol.whitened, Sol.accepted, Sol.flat, exStats]
    have hs : ¬ stdOf exStats.whitened ≤ 0 := by
      rw [hw]
      simp only [stdOf, meanOf]
      norm_num
    unfold Sol.ksTest
    rw [if_neg (by rw [hw]; simp)]
    simp only
    rw [if_neg hs]
    exact ⟨_, rfl⟩

/-- The hypotheses of the theorem on the terms hold of a unit covariance and a small machine epsilon. -/
example : EigenOf (1 : Matrix (Fin 2) (Fin 2) ℝ) 1 1 ∧
    ∀ i : Fin 2, (1 : Fin 2 → ℝ) i > (Finset.univ.sup' ⟨0, Finset.mem_univ _⟩ (1 : Fin 2 → ℝ)) *
      ((2 : Nat) : ℝ) * (1 / 4) := by
  refine ⟨⟨by simp, by simp⟩, fun i => ?_⟩
  have : (Finset.univ.sup' ⟨0, Finset.mem_univ _⟩ (1 : Fin 2 → ℝ)) = 1 := by
    apply le_antisymm
    · exact Finset.sup'_le _ _ fun _ _ => le_refl _
    · exact Finset.le_sup' (1 : Fin 2 → ℝ) (Finset.mem_univ 0)
  rw [this]
  norm_num

example := rms_exact_partial (⟨[(), ()], [some ⟨some (), [()], ⟨0, 1, some 0, 1, 0, 0, fun _ => 1, false⟩⟩,
  some ⟨some (), [()], ⟨1, 1, some 0, 2, 0, 0, fun _ => -1, true⟩⟩], [none, none], [none, none]⟩ : Sol Unit Unit Unit (RData 1) Unit Unit)
  (by simp) (by simp)

example := nis_consistency_spec 2 (by norm_num) one_pos exStats

example := nees_nonneg (1 / 4) (1 : Matrix (Fin 2) (Fin 2) ℝ) 1 ![1, 2] (by norm_num) (by norm_num)

end Verif.Solution
