import Mathlib.Analysis.Real.Sqrt
import Mathlib.Algebra.BigOperators.Fin
import Mathlib.Algebra.Order.BigOperators.Group.Finset
import Mathlib.Data.Fin.VecNotation
import Mathlib.Tactic.Linarith
import Mathlib.Tactic.NormNum
import Mathlib.Tactic.Ring
import Mathlib.Tactic.FinCases
import Mathlib.Tactic.FieldSimp
import Mathlib.Tactic.Positivity
/-!
Model of the error control of the adaptive step: nyx-core/src/propagators/error_ctrl.rs. Floating point numbers
are real numbers.
-/
namespace Verif.Rk
open Finset

variable {n : Nat}

/-- `OVector::norm` (nalgebra). -/
noncomputable def l2 {n : Nat} (v : Fin n → ℝ) : ℝ := Real.sqrt (∑ i, v i ^ 2)

/-- `fixed_rows::<3>(o)`; the callers check the dimension. -/
def rows3 (v : Fin n → ℝ) (o : Nat) : Fin 3 → ℝ := fun i => if h : o + i < n then v ⟨o + i, h⟩ else 0

/-- `REL_ERR_THRESH`. error_ctrl.rs:26. -/
noncomputable def relErrThresh : ℝ := 0.1

/-- `ErrorControl`. error_ctrl.rs:29-71. -/
inductive ErrorControl where
  | rssCartesianState | rssCartesianStep | rssState | rssStep | largestError | largestState | largestStep

/-- `RSSStep::estimate`. error_ctrl.rs:186-203. -/
noncomputable def rssStep {n : Nat} (err cand cur : Fin n → ℝ) : ℝ :=
  if l2 (cand - cur) > Real.sqrt relErrThresh then l2 err / l2 (cand - cur) else l2 err

/-- `RSSState::estimate`. error_ctrl.rs:216-230. -/
noncomputable def rssState {n : Nat} (err cand cur : Fin n → ℝ) : ℝ :=
  if 0.5 * l2 (cand + cur) > relErrThresh then l2 err / (0.5 * l2 (cand + cur)) else l2 err

/-- The loop of `LargestError`: the components in order. error_ctrl.rs:137-147. -/
noncomputable def largestErrorLoop (err delta : Fin n → ℝ) : List (Fin n) → ℝ → ℝ
  | [], acc => acc
  | i :: l, acc =>
    let e := if delta i > relErrThresh then |err i / delta i| else |err i|
    largestErrorLoop err delta l (if e > acc then e else acc)

/-- The loops of `LargestState` and `LargestStep`: magnitude and error. error_ctrl.rs:153-156, 164-167. -/
def sumLoop (k : ℝ) (err v : Fin n → ℝ) : List (Fin n) → ℝ × ℝ → ℝ × ℝ
  | [], acc => acc
  | i :: l, acc => sumLoop k err v l (acc.1 + k * |v i|, acc.2 + |err i|)

/-- The end of `LargestState` and `LargestStep`. error_ctrl.rs:158, 169. -/
noncomputable def relative (p : ℝ × ℝ) : ℝ := if p.1 > relErrThresh then p.2 / p.1 else p.2

/-- `ErrorControl::estimate`. error_ctrl.rs:79-172. -/
noncomputable def estimate {n : Nat} (c : ErrorControl) (err cand cur : Fin n → ℝ) : ℝ :=
  match c with
  | .rssCartesianState =>
    if 6 ≤ n then
      max (rssState (rows3 err 0) (rows3 cand 0) (rows3 cur 0))
        (rssState (rows3 err 3) (rows3 cand 3) (rows3 cur 3))
    else rssStep err cand cur
  | .rssCartesianStep =>
    if 6 ≤ n then
      max (rssStep (rows3 err 0) (rows3 cand 0) (rows3 cur 0))
        (rssStep (rows3 err 3) (rows3 cand 3) (rows3 cur 3))
    else rssStep err cand cur
  | .rssState => rssState err cand cur
  | .rssStep => rssStep err cand cur
  | .largestError => largestErrorLoop err (cand - cur) (List.finRange n) 0
  | .largestState => relative (sumLoop 0.5 err (cand + cur) (List.finRange n) (0, 0))
  | .largestStep => relative (sumLoop 1 err (cand - cur) (List.finRange n) (0, 0))

/-! ### Lemmas -/

theorem l2_nonneg (v : Fin n → ℝ) : 0 ≤ l2 v := Real.sqrt_nonneg _

theorem l2_neg (v : Fin n → ℝ) : l2 (-v) = l2 v := by simp [l2]

theorem l2_smul (a : ℝ) (ha : 0 ≤ a) (v : Fin n → ℝ) : l2 (a • v) = a * l2 v := by
  unfold l2
  have : ∑ i, (a • v) i ^ 2 = a ^ 2 * ∑ i, v i ^ 2 := by
    rw [mul_sum]
    refine sum_congr rfl fun i _ => ?_
    simp only [Pi.smul_apply, smul_eq_mul]
    ring
  rw [this, Real.sqrt_mul (sq_nonneg a), Real.sqrt_sq ha]

theorem rows3_neg (v : Fin n → ℝ) (o : Nat) : rows3 (-v) o = -rows3 v o := by
  ext i
  simp only [rows3, Pi.neg_apply]
  split <;> simp

theorem rows3_smul (a : ℝ) (v : Fin n → ℝ) (o : Nat) : rows3 (a • v) o = a • rows3 v o := by
  ext i
  simp only [rows3, Pi.smul_apply, smul_eq_mul]
  split <;> simp

theorem sumLoop_eq (k : ℝ) (err v : Fin n → ℝ) : ∀ (l : List (Fin n)) (acc : ℝ × ℝ),
    sumLoop k err v l acc =
      (acc.1 + (l.map fun i => k * |v i|).sum, acc.2 + (l.map fun i => |err i|).sum) := by
  intro l
  induction l with
  | nil => intro acc; simp [sumLoop]
  | cons i l ih =>
    intro acc
    rw [sumLoop, ih]
    simp only [List.map_cons, List.sum_cons]
    ext <;> simp only <;> ring

theorem sum_finRange (g : Fin n → ℝ) : ((List.finRange n).map g).sum = ∑ i, g i := by
  rw [← List.sum_ofFn, List.ofFn_eq_map]

theorem sumLoop_sum (k : ℝ) (err v : Fin n → ℝ) :
    sumLoop k err v (List.finRange n) (0, 0) = (k * ∑ i, |v i|, ∑ i, |err i|) := by
  rw [sumLoop_eq, sum_finRange, sum_finRange, zero_add, zero_add, mul_sum]

/-- Error of a component for `LargestError`. -/
noncomputable def compErr (err delta : Fin n → ℝ) (i : Fin n) : ℝ :=
  if delta i > relErrThresh then |err i / delta i| else |err i|

theorem largestErrorLoop_le (err delta : Fin n → ℝ) : ∀ (l : List (Fin n)) (acc b : ℝ),
    largestErrorLoop err delta l acc ≤ b ↔ acc ≤ b ∧ ∀ i ∈ l, compErr err delta i ≤ b := by
  intro l
  induction l with
  | nil => intro acc b; simp [largestErrorLoop]
  | cons i l ih =>
    intro acc b
    unfold largestErrorLoop
    have e : (if delta i > relErrThresh then |err i / delta i| else |err i|) = compErr err delta i := rfl
    simp only [e]
    rw [ih]
    have : (if compErr err delta i > acc then compErr err delta i else acc) =
        max acc (compErr err delta i) := by
      split
      · next h => rw [max_eq_right (le_of_lt h)]
      · next h => rw [max_eq_left (not_lt.1 h)]
    rw [this, max_le_iff]
    simp only [List.mem_cons, forall_eq_or_imp]
    tauto

theorem compErr_nonneg (err delta : Fin n → ℝ) (i : Fin n) : 0 ≤ compErr err delta i := by
  unfold compErr
  split <;> exact abs_nonneg _

theorem thresh_pos : 0 < relErrThresh := by unfold relErrThresh; norm_num

theorem rel_bound {e m thr t : ℝ} (ht : 0 ≤ t) (hthr : 0 ≤ thr)
    (h : (if m > thr then e / m else e) ≤ t) : e ≤ t * max 1 m := by
  split at h
  · next hm =>
    have hp : 0 < m := lt_of_le_of_lt hthr hm
    rw [div_le_iff₀ hp] at h
    exact h.trans (mul_le_mul_of_nonneg_left (le_max_right _ _) ht)
  · calc e ≤ t := h
      _ = t * 1 := (mul_one t).symm
      _ ≤ t * max 1 m := mul_le_mul_of_nonneg_left (le_max_left _ _) ht

/-! ### C99 -/

/-- **C99.** The error estimate is never negative. -/
theorem estimate_nonneg (c : ErrorControl) (err cand cur : Fin n → ℝ) : 0 ≤ estimate c err cand cur := by
  have hstep : ∀ {m : Nat} (e a b : Fin m → ℝ), 0 ≤ rssStep e a b := by
    intro m e a b
    unfold rssStep
    split
    · exact div_nonneg (l2_nonneg _) (l2_nonneg _)
    · exact l2_nonneg _
  have hstate : ∀ {m : Nat} (e a b : Fin m → ℝ), 0 ≤ rssState e a b := by
    intro m e a b
    unfold rssState
    split
    · exact div_nonneg (l2_nonneg _) (mul_nonneg (by norm_num) (l2_nonneg _))
    · exact l2_nonneg _
  have hrel : ∀ k e (v : Fin n → ℝ), 0 ≤ relative (sumLoop k e v (List.finRange n) (0, 0)) := by
    intro k e v
    rw [sumLoop_sum]
    unfold relative
    have h0 : 0 ≤ ∑ i, |e i| := sum_nonneg fun i _ => abs_nonneg _
    split
    · next h => exact div_nonneg h0 (le_of_lt (lt_trans thresh_pos h))
    · exact h0
  cases c with
  | rssCartesianState =>
    unfold estimate; simp only
    split
    · exact le_max_of_le_left (hstate _ _ _)
    · exact hstep _ _ _
  | rssCartesianStep =>
    unfold estimate; simp only
    split
    · exact le_max_of_le_left (hstep _ _ _)
    · exact hstep _ _ _
  | rssState => exact hstate _ _ _
  | rssStep => exact hstep _ _ _
  | largestError =>
    exact ((largestErrorLoop_le err (cand - cur) (List.finRange n) 0 _).1 le_rfl).1
  | largestState => exact hrel _ _ _
  | largestStep => exact hrel _ _ _

/-- What an estimate within the tolerance says about the error of the step: its size is at most the
tolerance, or the tolerance relative to the change (or the state) if that is larger. -/
def WithinTol (c : ErrorControl) (err cand cur : Fin n → ℝ) (t : ℝ) : Prop :=
  match c with
  | .rssCartesianState =>
    if 6 ≤ n then
      l2 (rows3 err 0) ≤ t * max 1 (l2 (rows3 cand 0 + rows3 cur 0) / 2) ∧
      l2 (rows3 err 3) ≤ t * max 1 (l2 (rows3 cand 3 + rows3 cur 3) / 2)
    else l2 err ≤ t * max 1 (l2 (cand - cur))
  | .rssCartesianStep =>
    if 6 ≤ n then
      l2 (rows3 err 0) ≤ t * max 1 (l2 (rows3 cand 0 - rows3 cur 0)) ∧
      l2 (rows3 err 3) ≤ t * max 1 (l2 (rows3 cand 3 - rows3 cur 3))
    else l2 err ≤ t * max 1 (l2 (cand - cur))
  | .rssState => l2 err ≤ t * max 1 (l2 (cand + cur) / 2)
  | .rssStep => l2 err ≤ t * max 1 (l2 (cand - cur))
  | .largestError => ∀ i, |err i| ≤ t * max 1 |cand i - cur i|
  | .largestState => ∑ i, |err i| ≤ t * max 1 ((∑ i, |cand i + cur i|) / 2)
  | .largestStep => ∑ i, |err i| ≤ t * max 1 (∑ i, |cand i - cur i|)

/-- **C99.** Whatever the control, a step whose estimate is within the tolerance (the test of `derive`)
has an error within the tolerance, absolute or relative. -/
theorem accepted_error_bound (c : ErrorControl) (err cand cur : Fin n → ℝ) (t : ℝ)
    (h : estimate c err cand cur ≤ t) : WithinTol c err cand cur t := by
  have ht : 0 ≤ t := le_trans (estimate_nonneg c err cand cur) h
  have hstep : ∀ {m : Nat} (e a b : Fin m → ℝ), rssStep e a b ≤ t → l2 e ≤ t * max 1 (l2 (a - b)) :=
    fun e a b h => rel_bound ht (Real.sqrt_nonneg _) h
  have hstate : ∀ {m : Nat} (e a b : Fin m → ℝ), rssState e a b ≤ t →
      l2 e ≤ t * max 1 (l2 (a + b) / 2) := by
    intro m e a b h
    have := rel_bound ht (le_of_lt thresh_pos) h
    rwa [show (0.5 : ℝ) * l2 (a + b) = l2 (a + b) / 2 by ring] at this
  cases c with
  | rssCartesianState =>
    unfold estimate at h; unfold WithinTol; simp only at h ⊢
    split at h
    · next hn =>
      rw [if_pos hn]
      rw [max_le_iff] at h
      exact ⟨hstate _ _ _ h.1, hstate _ _ _ h.2⟩
    · next hn =>
      rw [if_neg hn]
      exact hstep _ _ _ h
  | rssCartesianStep =>
    unfold estimate at h; unfold WithinTol; simp only at h ⊢
    split at h
    · next hn =>
      rw [if_pos hn]
      rw [max_le_iff] at h
      exact ⟨hstep _ _ _ h.1, hstep _ _ _ h.2⟩
    · next hn =>
      rw [if_neg hn]
      exact hstep _ _ _ h
  | rssState => exact hstate _ _ _ h
  | rssStep => exact hstep _ _ _ h
  | largestError =>
    intro i
    have := ((largestErrorLoop_le err (cand - cur) (List.finRange n) 0 t).1 h).2 i (List.mem_finRange i)
    unfold compErr at this
    simp only [Pi.sub_apply] at this
    split at this
    · next hd =>
      have hp : 0 < cand i - cur i := lt_trans thresh_pos hd
      rw [abs_div, div_le_iff₀ (abs_pos.2 (ne_of_gt hp))] at this
      exact this.trans (mul_le_mul_of_nonneg_left (le_max_right _ _) ht)
    · calc |err i| ≤ t := this
        _ = t * 1 := (mul_one t).symm
        _ ≤ _ := mul_le_mul_of_nonneg_left (le_max_left _ _) ht
  | largestState =>
    unfold estimate at h
    simp only at h
    rw [sumLoop_sum] at h
    have := rel_bound ht (le_of_lt thresh_pos) h
    simp only [Pi.add_apply] at this
    rwa [show (0.5 : ℝ) * ∑ i, |cand i + cur i| = (∑ i, |cand i + cur i|) / 2 by ring] at this
  | largestStep =>
    unfold estimate at h
    simp only at h
    rw [sumLoop_sum] at h
    have := rel_bound ht (le_of_lt thresh_pos) h
    simp only [Pi.sub_apply, one_mul] at this
    exact this

/-- **C99 (scaling).** An error `a` times as large has an estimate `a` times as large. -/
theorem estimate_scale (c : ErrorControl) (a : ℝ) (ha : 0 ≤ a) (err cand cur : Fin n → ℝ) :
    estimate c (a • err) cand cur = a * estimate c err cand cur := by
  have hstep : ∀ {m : Nat} (e x y : Fin m → ℝ), rssStep (a • e) x y = a * rssStep e x y := by
    intro m e x y
    unfold rssStep
    rw [l2_smul a ha]
    split
    · rw [mul_div_assoc]
    · rfl
  have hstate : ∀ {m : Nat} (e x y : Fin m → ℝ), rssState (a • e) x y = a * rssState e x y := by
    intro m e x y
    unfold rssState
    rw [l2_smul a ha]
    split
    · rw [mul_div_assoc]
    · rfl
  have hrel : ∀ k (e v : Fin n → ℝ), relative (sumLoop k (a • e) v (List.finRange n) (0, 0)) =
      a * relative (sumLoop k e v (List.finRange n) (0, 0)) := by
    intro k e v
    rw [sumLoop_sum, sumLoop_sum]
    have : ∑ i, |(a • e) i| = a * ∑ i, |e i| := by
      rw [mul_sum]
      refine sum_congr rfl fun i _ => ?_
      rw [Pi.smul_apply, smul_eq_mul, abs_mul, abs_of_nonneg ha]
    unfold relative
    simp only [this]
    split
    · rw [mul_div_assoc]
    · rfl
  cases c with
  | rssCartesianState =>
    unfold estimate; simp only
    split
    · rw [rows3_smul, rows3_smul, hstate, hstate, mul_max_of_nonneg _ _ ha]
    · exact hstep _ _ _
  | rssCartesianStep =>
    unfold estimate; simp only
    split
    · rw [rows3_smul, rows3_smul, hstep, hstep, mul_max_of_nonneg _ _ ha]
    · exact hstep _ _ _
  | rssState => exact hstate _ _ _
  | rssStep => exact hstep _ _ _
  | largestState => exact hrel _ _ _
  | largestStep => exact hrel _ _ _
  | largestError =>
    have hc : ∀ i, compErr (a • err) (cand - cur) i = a * compErr err (cand - cur) i := by
      intro i
      unfold compErr
      simp only [Pi.smul_apply, smul_eq_mul]
      split
      · rw [mul_div_assoc, abs_mul, abs_of_nonneg ha]
      · rw [abs_mul, abs_of_nonneg ha]
    have hl : ∀ (l : List (Fin n)) (acc : ℝ), largestErrorLoop (a • err) (cand - cur) l (a * acc) =
        a * largestErrorLoop err (cand - cur) l acc := by
      intro l
      induction l with
      | nil => intro acc; rfl
      | cons i l ih =>
        intro acc
        unfold largestErrorLoop
        have e1 : (if (cand - cur) i > relErrThresh then |(a • err) i / (cand - cur) i|
          else |(a • err) i|) = compErr (a • err) (cand - cur) i := rfl
        have e2 : (if (cand - cur) i > relErrThresh then |err i / (cand - cur) i| else |err i|) =
          compErr err (cand - cur) i := rfl
        simp only [e1, e2, hc]
        rcases eq_or_lt_of_le ha with h0 | h0
        · subst h0
          simp only [zero_mul, gt_iff_lt, lt_irrefl, if_false]
          have := ih (if compErr err (cand - cur) i > acc then compErr err (cand - cur) i else acc)
          rwa [zero_mul, zero_mul] at this
        · have : (a * compErr err (cand - cur) i > a * acc) ↔ compErr err (cand - cur) i > acc :=
            mul_lt_mul_iff_right₀ h0
          simp only [this]
          rw [← ih]
          split <;> rfl
    have := hl (List.finRange n) 0
    rwa [mul_zero] at this

/-- **C99 (mirror), partial.** A step mirrored through the origin has the same estimate, for every
control but `LargestError`; for that one only if no component changes by more than 0.1. The full
claim is refuted by `estimate_mirror_false`. -/
theorem estimate_mirror_partial (c : ErrorControl) (err cand cur : Fin n → ℝ)
    (hc : c = .largestError → ∀ i, |cand i - cur i| ≤ relErrThresh) :
    estimate c (-err) (-cand) (-cur) = estimate c err cand cur := by
  have e1 : ∀ {m : Nat} (a b : Fin m → ℝ), -a - -b = -(a - b) := fun a b => by ext; simp; ring
  have e2 : ∀ {m : Nat} (a b : Fin m → ℝ), -a + -b = -(a + b) := fun a b => by ext; simp; ring
  have hstep : ∀ {m : Nat} (e x y : Fin m → ℝ), rssStep (-e) (-x) (-y) = rssStep e x y := by
    intro m e x y
    unfold rssStep
    rw [e1, l2_neg, l2_neg]
  have hstate : ∀ {m : Nat} (e x y : Fin m → ℝ), rssState (-e) (-x) (-y) = rssState e x y := by
    intro m e x y
    unfold rssState
    rw [e2, l2_neg, l2_neg]
  have hrel : ∀ k (e v : Fin n → ℝ), sumLoop k (-e) (-v) (List.finRange n) (0, 0) =
      sumLoop k e v (List.finRange n) (0, 0) := by
    intro k e v
    rw [sumLoop_sum, sumLoop_sum]
    simp
  cases c with
  | rssCartesianState =>
    unfold estimate; simp only [rows3_neg, hstate, hstep]
  | rssCartesianStep =>
    unfold estimate; simp only [rows3_neg, hstep]
  | rssState => exact hstate _ _ _
  | rssStep => exact hstep _ _ _
  | largestState => unfold estimate; simp only; rw [e2, hrel]
  | largestStep => unfold estimate; simp only; rw [e1, hrel]
  | largestError =>
    unfold estimate
    simp only
    rw [e1]
    have hb := hc rfl
    have hcomp : ∀ i, compErr (-err) (-(cand - cur)) i = compErr err (cand - cur) i := by
      intro i
      have := abs_le.1 (hb i)
      unfold compErr
      rw [if_neg (by simp only [Pi.neg_apply, Pi.sub_apply, gt_iff_lt, not_lt]; linarith),
        if_neg (by simp only [Pi.sub_apply, gt_iff_lt, not_lt]; linarith)]
      simp
    apply le_antisymm
    · rw [largestErrorLoop_le]
      have := (largestErrorLoop_le err (cand - cur) (List.finRange n) 0 _).1 le_rfl
      exact ⟨this.1, fun i hi => by rw [hcomp]; exact this.2 i hi⟩
    · rw [largestErrorLoop_le]
      have := (largestErrorLoop_le (-err) (-(cand - cur)) (List.finRange n) 0 _).1 le_rfl
      exact ⟨this.1, fun i hi => by rw [← hcomp]; exact this.2 i hi⟩

/-- **C99 refuted (mirror).** `LargestError` tests the signed change of the component: a body that moves
by ten towards the positive side has a tenth of the error of its mirror image. -/
theorem estimate_mirror_false :
    estimate .largestError (fun _ : Fin 1 => 1) (fun _ => 10) (fun _ => 0) = 1 / 10 ∧
    estimate .largestError (-(fun _ : Fin 1 => (1 : ℝ))) (-(fun _ => 10)) (-(fun _ => 0)) = 1 := by
  have hr : List.finRange 1 = [0] := by decide
  constructor
  · unfold estimate
    simp only [hr, largestErrorLoop, Pi.sub_apply]
    unfold relErrThresh
    norm_num
  · unfold estimate
    simp only [hr, largestErrorLoop, Pi.sub_apply, Pi.neg_apply]
    unfold relErrThresh
    norm_num

/-- **C99 (what is controlled).** The Cartesian controls look at the first six components only: the
spacecraft parameters and the STM do not influence the size of the steps. -/
theorem cartesian_first_six (c : ErrorControl) (hc : c = .rssCartesianState ∨ c = .rssCartesianStep)
    (hn : 6 ≤ n) (e e' a a' b b' : Fin n → ℝ) (he : ∀ i : Fin n, i.1 < 6 → e i = e' i)
    (ha : ∀ i : Fin n, i.1 < 6 → a i = a' i) (hb : ∀ i : Fin n, i.1 < 6 → b i = b' i) :
    estimate c e a b = estimate c e' a' b' := by
  have h3 : ∀ (v v' : Fin n → ℝ), (∀ i : Fin n, i.1 < 6 → v i = v' i) → ∀ o, o ≤ 3 →
      rows3 v o = rows3 v' o := by
    intro v v' h o ho
    ext i
    unfold rows3
    have := i.2
    split
    · exact h _ (by simp only; omega)
    · rfl
  rcases hc with rfl | rfl <;> unfold estimate <;> simp only [if_pos hn] <;>
    rw [h3 e e' he 0 (by omega), h3 e e' he 3 (by omega), h3 a a' ha 0 (by omega),
      h3 a a' ha 3 (by omega), h3 b b' hb 0 (by omega), h3 b b' hb 3 (by omega)]

/-- A step of `LargestError` with small changes meets the hypothesis. -/
example := estimate_mirror_partial .largestError (![1, 2] : Fin 2 → ℝ) ![0.05, 0.1] ![0, 0.01] (by
  intro _ i
  unfold relErrThresh
  fin_cases i <;> norm_num [abs_le])

example : estimate .rssStep (fun _ : Fin 1 => 3) (fun _ => 10) (fun _ => 0) ≤ 0.3 := by
  have h : l2 (fun _ : Fin 1 => (10 : ℝ)) = 10 := by
    simp [l2]
  have h3 : l2 (fun _ : Fin 1 => (3 : ℝ)) = 3 := by
    simp [l2]
  have hd : (fun _ : Fin 1 => (10 : ℝ)) - (fun _ => 0) = fun _ => 10 := by ext; simp
  have hs : Real.sqrt relErrThresh < 10 := by
    rw [Real.sqrt_lt' (by norm_num)]
    unfold relErrThresh
    norm_num
  unfold estimate rssStep
  simp only
  rw [hd, h, h3, if_pos hs]
  norm_num

example := estimate_scale .rssCartesianState 2 (by norm_num) (fun i : Fin 9 => (i : ℝ)) (fun i => 7000 + i) (fun i => 6990 + i)

/-- A change of the seventh component (a mass, say) is not seen. -/
example := cartesian_first_six .rssCartesianStep (.inr rfl) (n := 9) (by norm_num) (fun i => (i : ℝ))
  (fun i => if i.1 < 6 then (i : ℝ) else 1000) (fun i => 7000 + i) (fun i => 7000 + i) (fun _ => 1) (fun _ => 1)
  (fun i hi => by simp [hi]) (fun _ _ => rfl) (fun _ _ => rfl)

end Verif.Rk
