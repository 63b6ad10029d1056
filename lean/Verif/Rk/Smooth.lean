import Verif.Rk.Converge
import Mathlib.Analysis.ODE.Gronwall
import Mathlib.Analysis.Calculus.FDeriv.Analytic
import Mathlib.Analysis.Analytic.Basic
import Mathlib.Algebra.Module.Rat
import Mathlib.Analysis.Calculus.Deriv.Pow
import Mathlib.Topology.Algebra.Order.Archimedean
/-!
C216: the error of one step on `x' = f(x)`, `f` close to a polynomial near the state: the difference between the state after a step of size `h` and
the exact solution is at most a constant times `h ^ (p + 1)`, `p` the order of the method.  The theorems for smooth equations are in `Uniform.lean`.
-/
namespace Verif.Rk
open Finset Filter Topology

variable {E : Type} [NormedAddCommGroup E] [NormedSpace ℝ E] [Module ℚ E]

/-! ### The Taylor polynomial of the equations of motion -/

/-- The homogeneous parts of a power series, up to the degree `p - 1`, as a function of lists. -/
noncomputable def listSeries (ps : FormalMultilinearSeries ℝ E E) (p : Nat) (l : List E) : E :=
  if l.length < p then ps l.length fun i => l.getD i 0 else 0

theorem listSeries_eq (ps : FormalMultilinearSeries ℝ E E) (p n : Nat) (l : List E) (hl : l.length = n) :
    listSeries ps p l = if n < p then ps n (fun i => l.getD i 0) else 0 := by
  subst hl
  rfl

theorem getD_update (l r : List E) (a : E) (n : Nat) (hn : l.length + r.length + 1 = n) :
    (fun i : Fin n => (l ++ a :: r).getD i 0) = Function.update (fun i : Fin n => (l ++ 0 :: r).getD i 0) ⟨l.length, by omega⟩ a := by
  funext i
  by_cases h : i = ⟨l.length, by omega⟩
  · subst h
    simp
  · rw [Function.update_of_ne h]
    have h' : i.1 ≠ l.length := fun e => h (Fin.ext e)
    rcases Nat.lt_or_gt_of_ne h' with h1 | h1
    · rw [List.getD_append _ _ _ _ h1, List.getD_append _ _ _ _ h1]
    · rw [List.getD_append_right _ _ _ _ h1.le, List.getD_append_right _ _ _ _ h1.le]
      obtain ⟨k, hk⟩ : ∃ k, i.1 - l.length = k + 1 := ⟨i.1 - l.length - 1, by omega⟩
      rw [hk, List.getD_cons_succ, List.getD_cons_succ]

theorem listSeries_multi (ps : FormalMultilinearSeries ℝ E E) (p : Nat) : Multi (listSeries ps p) := by
  have len : ∀ (l r : List E) (a : E), (l ++ a :: r).length = l.length + r.length + 1 := by
    intro l r a
    simp only [List.length_append, List.length_cons]
    omega
  constructor
  · intro l a b r
    rw [listSeries_eq ps p _ _ (len l r (a + b)), listSeries_eq ps p _ _ (len l r a), listSeries_eq ps p _ _ (len l r b)]
    split
    · rw [getD_update l r (a + b) _ rfl, getD_update l r a _ rfl, getD_update l r b _ rfl, (ps _).map_update_add]
    · simp
  · intro l c a r
    rw [listSeries_eq ps p _ _ (len l r (c • a)), listSeries_eq ps p _ _ (len l r a)]
    split
    · rw [getD_update l r (c • a) _ rfl, getD_update l r a _ rfl, ← Rat.cast_smul_eq_qsmul ℝ, (ps _).map_update_smul, Rat.cast_smul_eq_qsmul]
    · simp

theorem listSeries_expands (ps : FormalMultilinearSeries ℝ E E) (p : Nat) (hp : 1 ≤ p) (x : E) :
    Expands (fun v => ps.partialSum p (x + v - x)) (p - 1) (listSeries ps p) := by
  refine ⟨listSeries_multi ps p, fun l hl => if_neg (by omega), fun v => ?_⟩
  show ps.partialSum p (x + v - x) = _
  rw [add_sub_cancel_left, FormalMultilinearSeries.partialSum, Nat.sub_add_cancel hp]
  refine sum_congr rfl fun d hd => ?_
  rw [listSeries_eq ps p d _ (List.length_replicate ..), if_pos (mem_range.1 hd)]
  congr 1
  funext i
  simp [List.getD_eq_getElem?_getD]

/-! ### The stages -/

/-- What is used of the equations of motion near a state: a Taylor polynomial `P` with its remainder, and a Lipschitz constant. -/
structure Near (f P : E → E) (x : E) (p : Nat) (r C L : ℝ) : Prop where
  r_pos : 0 < r
  r_le : r ≤ 1
  C_nonneg : 0 ≤ C
  L_pos : 1 ≤ L
  taylor : ∀ v, ‖v‖ ≤ r → ‖f (x + v) - P (x + v)‖ ≤ C * ‖v‖ ^ p
  lip : ∀ u v, ‖u‖ ≤ r → ‖v‖ ≤ r → ‖f (x + u) - f (x + v)‖ ≤ L * ‖u - v‖

/-- Sums of stages, with real bounds. -/
theorem norm_combination (n : Nat) (c : Nat → ℚ) (u : Nat → E) (B : ℝ) (hB : 0 ≤ B) (hu : ∀ i < n, ‖u i‖ ≤ B) (A : ℚ)
    (hA : ∑ i ∈ range n, |c i| ≤ A) : ‖∑ i ∈ range n, c i • u i‖ ≤ A * B := by
  calc ‖∑ i ∈ range n, c i • u i‖ ≤ ∑ i ∈ range n, ‖c i • u i‖ := norm_sum_le _ _
    _ ≤ ∑ i ∈ range n, (|c i| : ℚ) * B := sum_le_sum fun i hi => by
        rw [← Rat.cast_smul_eq_qsmul ℝ, norm_smul, Real.norm_eq_abs, Rat.cast_abs]
        exact mul_le_mul_of_nonneg_left (hu i (mem_range.1 hi)) (abs_nonneg _)
    _ = ((∑ i ∈ range n, |c i| : ℚ) : ℝ) * B := by rw [Rat.cast_sum, sum_mul]
    _ ≤ A * B := mul_le_mul_of_nonneg_right (by exact_mod_cast hA) hB

theorem norm_qsmul (c : ℚ) (v : E) : ‖c • v‖ = |(c : ℝ)| * ‖v‖ := by
  rw [← Rat.cast_smul_eq_qsmul ℝ, norm_smul, Real.norm_eq_abs]

/-- The stages of the equations of motion and of their Taylor polynomial: they differ by terms of the order of `h ^ p`. -/
theorem stages_close (t : Tab) {f P : E → E} {x : E} {p : Nat} {r C L : ℝ} (hn : Near f P x p r C L) :
    ∃ c h0 : ℝ, 0 ≤ c ∧ 0 < h0 ∧ ∀ (h : ℚ), |(h : ℝ)| ≤ h0 → ∀ K M : Nat → E,
      (∀ i < t.stages, f (x + h • ∑ j ∈ range i, t.a i j • K j) = K i) → (∀ i < t.stages, P (x + h • ∑ j ∈ range i, t.a i j • M j) = M i) →
      ∀ i < t.stages, ‖K i - M i‖ ≤ c * |(h : ℝ)| ^ p := by
  obtain ⟨hr, hr1, hC, hL, htay, hlip⟩ := hn
  obtain ⟨A, hAd⟩ : ∃ A : ℚ, A = max 1 (rowMax t) := ⟨_, rfl⟩
  have hA1 : (1 : ℝ) ≤ A := by
    rw [hAd]
    exact_mod_cast le_max_left _ _
  have hrow : ∀ i < t.stages, ∑ j ∈ range i, |t.a i j| ≤ A := fun i hi => (row_le t i hi).trans (by rw [hAd]; exact le_max_right _ _)
  obtain ⟨B, hBd⟩ : ∃ B : ℝ, B = ‖f x‖ + L + C + 1 := ⟨_, rfl⟩
  have hB : 1 ≤ B := by
    have := norm_nonneg (f x)
    linarith
  have hfB : ∀ v, ‖v‖ ≤ r → ‖f (x + v)‖ ≤ B := by
    intro v hv
    have h1 := hlip v 0 hv (by simpa using hr.le)
    rw [add_zero, sub_zero] at h1
    have h2 : ‖f (x + v)‖ ≤ ‖f x‖ + ‖f (x + v) - f x‖ := by
      have := norm_add_le (f x) (f (x + v) - f x)
      simpa using this
    have h3 : L * ‖v‖ ≤ L * 1 := mul_le_mul_of_nonneg_left (hv.trans hr1) (by linarith)
    linarith
  have hPB : ∀ v, ‖v‖ ≤ r → ‖P (x + v)‖ ≤ B := by
    intro v hv
    have h1 := hlip v 0 hv (by simpa using hr.le)
    rw [add_zero, sub_zero] at h1
    have h2 : ‖f (x + v)‖ ≤ ‖f x‖ + ‖f (x + v) - f x‖ := by
      have := norm_add_le (f x) (f (x + v) - f x)
      simpa using this
    have h3 : L * ‖v‖ ≤ L * 1 := mul_le_mul_of_nonneg_left (hv.trans hr1) (by linarith)
    have h4 := htay v hv
    have h5 : ‖P (x + v)‖ ≤ ‖f (x + v)‖ + ‖f (x + v) - P (x + v)‖ := by
      have := norm_sub_le (f (x + v)) (f (x + v) - P (x + v))
      simpa using this
    have h6 : C * ‖v‖ ^ p ≤ C * 1 := mul_le_mul_of_nonneg_left (pow_le_one₀ (norm_nonneg _) (hv.trans hr1)) hC
    linarith
  have hAB : 0 < (A : ℝ) * B := by positivity
  have hLA : 0 < 2 * L * (A : ℝ) := by positivity
  refine ⟨2 * (C * (A * B) ^ p), min (r / (A * B)) (1 / (2 * L * A)), by positivity, by positivity, ?_⟩
  intro h hh K M hK hM
  have hh1 : |(h : ℝ)| * (A * B) ≤ r := by
    have := hh.trans (min_le_left _ _)
    rwa [le_div_iff₀ hAB] at this
  have hh2 : |(h : ℝ)| * (2 * L * A) ≤ 1 := by
    have := hh.trans (min_le_right _ _)
    rwa [le_div_iff₀ hLA] at this
  have hball : ∀ (Q : E → E) (G : Nat → E), (∀ v, ‖v‖ ≤ r → ‖Q (x + v)‖ ≤ B) →
      (∀ i < t.stages, Q (x + h • ∑ j ∈ range i, t.a i j • G j) = G i) →
      ∀ i < t.stages, ‖G i‖ ≤ B ∧ ‖h • ∑ j ∈ range i, t.a i j • G j‖ ≤ |(h : ℝ)| * (A * B) := by
    intro Q G hQ hG i
    induction i using Nat.strong_induction_on with
    | _ i ih =>
      intro hi
      have e1 : ‖h • ∑ j ∈ range i, t.a i j • G j‖ ≤ |(h : ℝ)| * (A * B) := by
        rw [norm_qsmul]
        exact mul_le_mul_of_nonneg_left (norm_combination i (fun j => t.a i j) G B (by linarith) (fun j hj => (ih j hj (hj.trans hi)).1) A
          (hrow i hi)) (abs_nonneg _)
      refine ⟨?_, e1⟩
      rw [← hG i hi]
      exact hQ _ (e1.trans hh1)
  have hKb := hball f K hfB hK
  have hMb := hball P M hPB hM
  intro i
  induction i using Nat.strong_induction_on with
  | _ i ih =>
    intro hi
    have e0 : K i - M i = (f (x + h • ∑ j ∈ range i, t.a i j • K j) - f (x + h • ∑ j ∈ range i, t.a i j • M j)) +
        (f (x + h • ∑ j ∈ range i, t.a i j • M j) - P (x + h • ∑ j ∈ range i, t.a i j • M j)) := by
      rw [hK i hi, hM i hi]
      abel
    have e1 := hlip _ _ ((hKb i hi).2.trans hh1) ((hMb i hi).2.trans hh1)
    have e2 := htay _ ((hMb i hi).2.trans hh1)
    have e3 : h • ∑ j ∈ range i, t.a i j • K j - h • ∑ j ∈ range i, t.a i j • M j = h • ∑ j ∈ range i, t.a i j • (K j - M j) := by
      simp only [smul_sub, sum_sub_distrib]
    have e4 := norm_combination i (fun j => t.a i j) (fun j => K j - M j) (2 * (C * (A * B) ^ p) * |(h : ℝ)| ^ p) (by positivity)
      (fun j hj => ih j hj (hj.trans hi)) A (hrow i hi)
    rw [e3, norm_qsmul] at e1
    have e5 : C * ‖h • ∑ j ∈ range i, t.a i j • M j‖ ^ p ≤ C * (|(h : ℝ)| * (A * B)) ^ p :=
      mul_le_mul_of_nonneg_left (pow_le_pow_left₀ (norm_nonneg _) (hMb i hi).2 p) hC
    have e6 : L * (|(h : ℝ)| * ‖∑ j ∈ range i, t.a i j • (K j - M j)‖) ≤ L * (|(h : ℝ)| * (A * (2 * (C * (A * B) ^ p) * |(h : ℝ)| ^ p))) :=
      mul_le_mul_of_nonneg_left (mul_le_mul_of_nonneg_left e4 (abs_nonneg _)) (by linarith)
    have e7 : L * (|(h : ℝ)| * (A * (2 * (C * (A * B) ^ p) * |(h : ℝ)| ^ p))) = (|(h : ℝ)| * (2 * L * A)) * (C * (A * B) ^ p * |(h : ℝ)| ^ p) := by ring
    have e8 : (|(h : ℝ)| * (2 * L * A)) * (C * (A * B) ^ p * |(h : ℝ)| ^ p) ≤ 1 * (C * (A * B) ^ p * |(h : ℝ)| ^ p) :=
      mul_le_mul_of_nonneg_right hh2 (by positivity)
    rw [mul_pow] at e5
    rw [e0]
    refine (norm_add_le _ _).trans ?_
    linarith

/-! ### The solution -/

/-- The polynomial curve with the coefficients `y`, at real times. -/
noncomputable def curveR (y : Nat → E) (n : Nat) (t : ℝ) : E := ∑ k ∈ range n, t ^ k • y k

theorem curveR_rat (y : Nat → E) (n : Nat) (h : ℚ) : curveR y n h = ∑ k ∈ range n, h ^ k • y k := by
  refine sum_congr rfl fun k _ => ?_
  rw [← Rat.cast_pow, Rat.cast_smul_eq_qsmul]

theorem curveR_continuous (y : Nat → E) (n : Nat) : Continuous (curveR y n) := by
  unfold curveR
  fun_prop

theorem curveR_deriv (y : Nat → E) (n : Nat) (t : ℝ) :
    HasDerivAt (curveR y (n + 1)) (curveR (fun k => ((k : ℝ) + 1) • y (k + 1)) n t) t := by
  have h : ∀ k ∈ range (n + 1), HasDerivAt (fun t : ℝ => t ^ k • y k) (((k : ℝ) * t ^ (k - 1)) • y k) t := fun k _ =>
    (hasDerivAt_pow k t).smul_const (y k)
  have := HasDerivAt.fun_sum h
  refine this.congr_deriv ?_
  rw [sum_range_succ']
  simp only [Nat.cast_zero, zero_mul, zero_smul, add_zero, curveR, Nat.add_sub_cancel]
  refine sum_congr rfl fun k _ => ?_
  rw [smul_smul, mul_comm]
  push_cast
  rfl

theorem curveR_bound (y : Nat → E) (n : Nat) (t : ℝ) (ht : |t| ≤ 1) : ‖curveR y n t‖ ≤ ∑ k ∈ range n, ‖y k‖ := by
  refine (norm_sum_le _ _).trans (sum_le_sum fun k _ => ?_)
  rw [norm_smul, norm_pow, Real.norm_eq_abs]
  exact mul_le_of_le_one_left (norm_nonneg _) (pow_le_one₀ (abs_nonneg _) ht)

/-- A polynomial curve which satisfies the equation up to terms of degree `p` is close to the solution. -/
theorem solution_close {f P : E → E} {x : E} {p : Nat} {r C L : ℝ} (hn : Near f P x p r C L) (hP : Continuous P) (y q : Nat → E) (N : Nat)
    (hy0 : y 0 = x)
    (hY : ∀ h : ℚ, P (∑ n ∈ range (p + 1), h ^ n • y n) = ∑ n ∈ range p, h ^ n • (((n : ℚ) + 1) • y (n + 1)) + h ^ p • ∑ n ∈ range N, h ^ n • q n)
    (z : ℝ → E) (hz0 : z 0 = x) (hz : ∀ᶠ t in 𝓝 (0 : ℝ), HasDerivAt z (f (z t)) t) :
    ∃ c h0 : ℝ, 0 ≤ c ∧ 0 < h0 ∧ ∀ h : ℝ, 0 ≤ h → h ≤ h0 → ‖curveR y (p + 1) h - z h‖ ≤ c * h ^ (p + 1) := by
  obtain ⟨hr, hr1, hC, hL, htay, hlip⟩ := hn
  -- the equation at real times
  have hYr : ∀ t : ℝ, P (curveR y (p + 1) t) = curveR (fun k => ((k : ℝ) + 1) • y (k + 1)) p t + t ^ p • curveR q N t := by
    have h1 : Continuous fun t : ℝ => P (curveR y (p + 1) t) := hP.comp (curveR_continuous _ _)
    have h2 : Continuous fun t : ℝ => curveR (fun k => ((k : ℝ) + 1) • y (k + 1)) p t + t ^ p • curveR q N t :=
      (curveR_continuous _ _).add ((continuous_pow p).smul (curveR_continuous _ _))
    have := (Rat.denseRange_cast (𝕜 := ℝ)).equalizer h1 h2 (by
      funext h
      simp only [Function.comp]
      rw [curveR_rat, hY h, curveR_rat, curveR_rat, ← Rat.cast_pow, Rat.cast_smul_eq_qsmul]
      congr 1
      refine sum_congr rfl fun n _ => ?_
      congr 1
      rw [← Rat.cast_smul_eq_qsmul ℝ]
      push_cast
      rfl)
    exact fun t => congrFun this t
  obtain ⟨My, hMy⟩ : ∃ M : ℝ, M = ∑ k ∈ range p, ‖y (k + 1)‖ := ⟨_, rfl⟩
  have hMy0 : 0 ≤ My := by
    rw [hMy]
    positivity
  obtain ⟨Mq, hMq⟩ : ∃ M : ℝ, M = ∑ k ∈ range N, ‖q k‖ := ⟨_, rfl⟩
  have hMq0 : 0 ≤ Mq := by
    rw [hMq]
    positivity
  have hYx : ∀ t : ℝ, 0 ≤ t → t ≤ 1 → ‖curveR y (p + 1) t - x‖ ≤ t * My := by
    intro t ht ht1
    have e : curveR y (p + 1) t - x = t • curveR (fun k => y (k + 1)) p t := by
      rw [curveR, sum_range_succ', hy0, pow_zero, one_smul, add_sub_cancel_right, curveR, smul_sum]
      exact sum_congr rfl fun k _ => by rw [smul_smul, ← pow_succ']
    rw [e, norm_smul, Real.norm_of_nonneg ht, hMy]
    exact mul_le_mul_of_nonneg_left (curveR_bound _ _ _ (by rwa [abs_of_nonneg ht])) ht
  -- the times at which the solution is near
  have hzc : ContinuousAt z 0 := by
    obtain h := hz.self_of_nhds
    exact h.continuousAt
  have hzr : ∀ᶠ t in 𝓝 (0 : ℝ), ‖z t - x‖ ≤ r := by
    have h1 : Tendsto (fun t => ‖z t - x‖) (𝓝 0) (𝓝 0) := by
      have := (hzc.sub (continuousAt_const : ContinuousAt (fun _ : ℝ => x) 0)).norm
      simpa [ContinuousAt, hz0] using this
    exact (h1.eventually (ge_mem_nhds hr))
  obtain ⟨d, hd, hev⟩ := Metric.eventually_nhds_iff_ball.1 (hz.and hzr)
  obtain ⟨h0, hh0⟩ : ∃ h0 : ℝ, h0 = min (min 1 (1 / L)) (min (d / 2) (r / (My + 1))) := ⟨_, rfl⟩
  have hL0 : 0 < L := by linarith
  have hh0p : 0 < h0 := by
    rw [hh0]
    positivity
  have b1 : h0 ≤ 1 := by
    rw [hh0]
    exact (min_le_left _ _).trans (min_le_left _ _)
  have b2 : h0 ≤ 1 / L := by
    rw [hh0]
    exact (min_le_left _ _).trans (min_le_right _ _)
  have b3 : h0 < d := by
    have : h0 ≤ d / 2 := by
      rw [hh0]
      exact (min_le_right _ _).trans (min_le_left _ _)
    linarith
  have b4 : h0 * My ≤ r := by
    have : h0 ≤ r / (My + 1) := by
      rw [hh0]
      exact (min_le_right _ _).trans (min_le_right _ _)
    rw [le_div_iff₀ (by linarith)] at this
    nlinarith
  refine ⟨2 * (Mq + C * My ^ p), h0, by positivity, hh0p, fun h hh hhh => ?_⟩
  have hin : ∀ t ∈ Set.Icc (0 : ℝ) h, HasDerivAt z (f (z t)) t ∧ ‖z t - x‖ ≤ r := fun t ht => hev t (by
    rw [Metric.mem_ball, dist_zero_right, Real.norm_of_nonneg ht.1]
    linarith [ht.2])
  have hYin : ∀ t ∈ Set.Icc (0 : ℝ) h, ‖curveR y (p + 1) t - x‖ ≤ r := fun t ht => by
    refine (hYx t ht.1 (by linarith [ht.2])).trans (le_trans ?_ b4)
    exact mul_le_mul_of_nonneg_right (ht.2.trans hhh) hMy0
  have hlipK : LipschitzOnWith ⟨L, hL0.le⟩ f {w | ‖w - x‖ ≤ r} := LipschitzOnWith.of_dist_le_mul fun u hu v hv => by
    have := hlip (u - x) (v - x) hu hv
    rw [add_sub_cancel, add_sub_cancel, sub_sub_sub_cancel_right] at this
    rw [dist_eq_norm, dist_eq_norm]
    exact this
  have hg := dist_le_of_approx_trajectories_ODE_of_mem (v := fun _ => f) (s := fun _ => {w | ‖w - x‖ ≤ r}) (K := ⟨L, hL0.le⟩)
    (f := curveR y (p + 1)) (g := z) (f' := fun t => curveR (fun k => ((k : ℝ) + 1) • y (k + 1)) p t) (g' := fun t => f (z t)) (a := 0) (b := h)
    (εf := (Mq + C * My ^ p) * h ^ p) (εg := 0) (δ := 0) (fun t _ => hlipK) (curveR_continuous _ _).continuousOn
    (fun t _ => (curveR_deriv y p t).hasDerivWithinAt)
    (fun t ht => by
      have ht' : t ∈ Set.Icc (0 : ℝ) h := ⟨ht.1, ht.2.le⟩
      have hY1 := hYr t
      have e1 := htay (curveR y (p + 1) t - x) (hYin t ht')
      rw [add_sub_cancel] at e1
      have e2 : C * ‖curveR y (p + 1) t - x‖ ^ p ≤ C * (t * My) ^ p :=
        mul_le_mul_of_nonneg_left (pow_le_pow_left₀ (norm_nonneg _) (hYx t ht.1 (by linarith [ht.2])) p) hC
      have e3 : ‖t ^ p • curveR q N t‖ ≤ t ^ p * Mq := by
        rw [norm_smul, norm_pow, Real.norm_of_nonneg ht.1, hMq]
        exact mul_le_mul_of_nonneg_left (curveR_bound _ _ _ (by rw [abs_of_nonneg ht.1]; linarith [ht.2])) (pow_nonneg ht.1 _)
      have e4 : curveR (fun k => ((k : ℝ) + 1) • y (k + 1)) p t - f (curveR y (p + 1) t) =
          -(f (curveR y (p + 1) t) - P (curveR y (p + 1) t)) - t ^ p • curveR q N t := by
        rw [hY1]
        abel
      rw [dist_eq_norm, e4]
      refine (norm_sub_le _ _).trans ?_
      rw [norm_neg]
      have e5 : t ^ p ≤ h ^ p := pow_le_pow_left₀ ht.1 ht.2.le p
      rw [mul_pow] at e2
      have e6 : (Mq + C * My ^ p) * t ^ p ≤ (Mq + C * My ^ p) * h ^ p := mul_le_mul_of_nonneg_left e5 (by positivity)
      linarith)
    (fun t ht => hYin t ⟨ht.1, ht.2.le⟩) (fun t ht => (hin t ht).1.continuousAt.continuousWithinAt)
    (fun t ht => (hin t ⟨ht.1, ht.2.le⟩).1.hasDerivWithinAt) (fun t _ => by rw [dist_self]) (fun t ht => (hin t ⟨ht.1, ht.2.le⟩).2)
    (by rw [hz0, curveR, sum_range_succ', hy0]; simp) h ⟨hh, le_rfl⟩
  rw [dist_eq_norm, add_zero, sub_zero, gronwallBound_of_K_ne_0 (by exact hL0.ne')] at hg
  simp only [NNReal.coe_mk, zero_mul, zero_add] at hg
  refine hg.trans ?_
  have hLh : L * h ≤ 1 := by
    have := hhh.trans b2
    rwa [le_div_iff₀ hL0, mul_comm] at this
  have hexp := Real.abs_exp_sub_one_le (x := L * h) (by rwa [abs_of_nonneg (by positivity)])
  rw [abs_of_nonneg (by positivity : 0 ≤ L * h)] at hexp
  have hexp2 : Real.exp (L * h) - 1 ≤ 2 * (L * h) := (le_abs_self _).trans hexp
  have h3 : (Mq + C * My ^ p) * h ^ p / L * (Real.exp (L * h) - 1) ≤ (Mq + C * My ^ p) * h ^ p / L * (2 * (L * h)) :=
    mul_le_mul_of_nonneg_left hexp2 (by positivity)
  refine h3.trans (le_of_eq ?_)
  field_simp
  ring

/-! ### One step -/

theorem defect_bound (ts : List (ℚ × ℚ × E)) (tol : ℚ) (h : ∀ t ∈ ts, 0 < t.1 ∧ |t.2.1| ≤ tol) :
    ‖(ts.map fun t => t.2.1 • t.2.2).sum‖ ≤ tol * (ts.map fun t => ‖t.2.2‖).sum := by
  induction ts with
  | nil => simp
  | cons a ts ih =>
    simp only [List.map_cons, List.sum_cons, mul_add]
    refine (norm_add_le _ _).trans (add_le_add ?_ (ih fun t ht => h t (List.mem_cons_of_mem _ ht)))
    rw [norm_qsmul, ← Rat.cast_abs]
    exact mul_le_mul_of_nonneg_right (by exact_mod_cast (h a (List.mem_cons_self ..)).2) (norm_nonneg _)

theorem treeTol_nonneg (m : Method) (b : Bool) : 0 ≤ treeTol m b := by
  cases m <;> cases b <;> decide +kernel

/-- A step forward. -/
theorem local_forward (m : Method) (f : E → E) (x : E) (ps : FormalMultilinearSeries ℝ E E) {r C L : ℝ}
    (hn : Near f (fun z => ps.partialSum m.tab.order (z - x)) x m.tab.order r C L) (z : ℝ → E) (hz0 : z 0 = x)
    (hz : ∀ᶠ t in 𝓝 (0 : ℝ), HasDerivAt z (f (z t)) t) :
    ∃ c h0 : ℝ, 0 ≤ c ∧ 0 < h0 ∧ ∀ h : ℚ, 0 ≤ h → (h : ℝ) ≤ h0 → ∀ K : Nat → E,
      (∀ i < m.tab.stages, f (x + h • ∑ j ∈ range i, m.tab.a i j • K j) = K i) →
      ‖x + h • ∑ i ∈ range m.tab.stages, m.tab.b i • K i - z h‖ ≤ c * ((h : ℝ) ^ (m.tab.order + 1) + treeTol m false * h) := by
  have hp1 : 1 ≤ m.tab.order := by cases m <;> decide
  generalize hp : m.tab.order = p at *
  obtain ⟨y, e, rr, q, N, h0, he0, h1, h2, h3⟩ := order_expands m (fun z => ps.partialSum p (z - x)) x (p - 1) (listSeries ps p)
    (listSeries_expands ps p hp1 x)
  rw [hp] at h1 h2 h3
  obtain ⟨c1, d1, hc1, hd1, hst⟩ := stages_close m.tab hn
  obtain ⟨c2, d2, hc2, hd2, hsol⟩ := solution_close hn ((ps.partialSum_continuous p).comp (continuous_id.sub continuous_const)) y q N h0 h1 z hz0 hz
  -- the terms of higher degree and the defects
  obtain ⟨Mr, hMr⟩ : ∃ M : ℝ, M = ∑ k ∈ range N, ‖rr k‖ := ⟨_, rfl⟩
  have hMr0 : 0 ≤ Mr := by
    rw [hMr]
    positivity
  have hdef : ∃ Me : ℝ, 0 ≤ Me ∧ ∀ h : ℝ, 0 ≤ h → h ≤ 1 → ‖curveR e (p + 1) h‖ ≤ Me * (treeTol m false * h) := by
    have hts : ∀ n, ∃ b : ℝ, 0 ≤ b ∧ (n < p → ‖e (n + 1)‖ ≤ treeTol m false * b) := by
      intro n
      by_cases hn : n < p
      · obtain ⟨ts, t1, -, t2⟩ := h2 n hn
        refine ⟨(ts.map fun t => ‖t.2.2‖).sum, List.sum_nonneg (by
          intro a ha
          obtain ⟨t, -, rfl⟩ := List.mem_map.1 ha
          exact norm_nonneg _), fun _ => ?_⟩
        rw [t2]
        exact defect_bound ts _ t1
      · exact ⟨0, le_rfl, fun h => absurd h hn⟩
    choose b hb0 hb using hts
    refine ⟨∑ n ∈ range p, b n, sum_nonneg fun n _ => hb0 n, fun h hh hh1 => ?_⟩
    have e1 : curveR e (p + 1) h = h • curveR (fun k => e (k + 1)) p h := by
      rw [curveR, sum_range_succ', he0, smul_zero, add_zero, curveR, smul_sum]
      exact sum_congr rfl fun k _ => by rw [smul_smul, ← pow_succ']
    rw [e1, norm_smul, Real.norm_of_nonneg hh]
    have e2 := curveR_bound (fun k => e (k + 1)) p h (by rwa [abs_of_nonneg hh])
    have e3 : ∑ k ∈ range p, ‖e (k + 1)‖ ≤ ∑ k ∈ range p, treeTol m false * b k := sum_le_sum fun k hk => hb k (mem_range.1 hk)
    rw [← mul_sum] at e3
    have e4 := mul_le_mul_of_nonneg_left (e2.trans e3) hh
    linarith
  obtain ⟨Me, hMe0, hMe⟩ := hdef
  obtain ⟨W, hW⟩ : ∃ W : ℚ, W = weightSum m.tab := ⟨_, rfl⟩
  have hW0 : (0 : ℝ) ≤ W := by
    rw [hW, weightSum_eq]
    exact_mod_cast sum_nonneg fun i _ => abs_nonneg _
  have htol : (0 : ℝ) ≤ treeTol m false := by exact_mod_cast treeTol_nonneg m false
  refine ⟨W * c1 + c2 + Mr + Me, min 1 (min d1 d2), by positivity, by positivity, fun h hh hhh K hK => ?_⟩
  have hh' : (0 : ℝ) ≤ h := by exact_mod_cast hh
  have k1 : (h : ℝ) ≤ 1 := hhh.trans (min_le_left _ _)
  have k2 : (h : ℝ) ≤ d1 := hhh.trans ((min_le_right _ _).trans (min_le_left _ _))
  have k3 : (h : ℝ) ≤ d2 := hhh.trans ((min_le_right _ _).trans (min_le_right _ _))
  obtain ⟨⟨next, err⟩, hs⟩ := rkStep_total m.tab (method_shaped m) (fun _ v => some (ps.partialSum p (v - x))) (fun τ v => ⟨_, rfl⟩) true x h
  obtain ⟨M, hM, -, -⟩ := rkStep_ok m.tab (method_shaped m).1 _ true x h next err hs
  have hM' : ∀ i < m.tab.stages, ps.partialSum p (x + h • ∑ j ∈ range i, m.tab.a i j • M j - x) = M i := fun i hi => by simpa using hM i hi
  have hclose := hst h (by rwa [abs_of_nonneg hh']) K M hK hM'
  have hpoly := h3 h M hM'
  have hpoly' : x + h • ∑ i ∈ range m.tab.stages, m.tab.b i • M i = curveR y (p + 1) h + curveR e (p + 1) h + (h : ℝ) ^ (p + 1) • curveR rr N h := by
    rw [hpoly, curveR_rat, curveR_rat, curveR_rat, ← Rat.cast_pow, Rat.cast_smul_eq_qsmul]
    simp only [smul_add, sum_add_distrib]
  have hsplit : x + h • ∑ i ∈ range m.tab.stages, m.tab.b i • K i - z h = h • ∑ i ∈ range m.tab.stages, m.tab.b i • (K i - M i) +
      (curveR y (p + 1) h - z h) + (h : ℝ) ^ (p + 1) • curveR rr N h + curveR e (p + 1) h := by
    have : x + h • ∑ i ∈ range m.tab.stages, m.tab.b i • K i = h • ∑ i ∈ range m.tab.stages, m.tab.b i • (K i - M i) +
        (x + h • ∑ i ∈ range m.tab.stages, m.tab.b i • M i) := by
      simp only [smul_sub, sum_sub_distrib]
      abel
    rw [this, hpoly']
    abel
  have a1 : ‖h • ∑ i ∈ range m.tab.stages, m.tab.b i • (K i - M i)‖ ≤ W * c1 * (h : ℝ) ^ (p + 1) := by
    have b1 := norm_combination m.tab.stages (fun i => m.tab.b i) (fun i => K i - M i) (c1 * (h : ℝ) ^ p) (by positivity)
      (fun i hi => by simpa [abs_of_nonneg hh'] using hclose i hi) W (by rw [hW, weightSum_eq])
    rw [norm_qsmul, abs_of_nonneg hh']
    have b2 := mul_le_mul_of_nonneg_left b1 hh'
    rw [pow_succ]
    linarith
  have a2 := hsol h hh' k3
  have a3 : ‖(h : ℝ) ^ (p + 1) • curveR rr N h‖ ≤ Mr * (h : ℝ) ^ (p + 1) := by
    rw [norm_smul, norm_pow, Real.norm_of_nonneg hh', hMr, mul_comm]
    exact mul_le_mul_of_nonneg_right (curveR_bound _ _ _ (by rwa [abs_of_nonneg hh'])) (by positivity)
  have a4 := hMe h hh' k1
  rw [hsplit]
  refine (norm_add₄_le).trans ?_
  have b1 : 0 ≤ (W * c1 + c2 + Mr) * (treeTol m false * (h : ℝ)) := by positivity
  have b2 : 0 ≤ Me * (h : ℝ) ^ (p + 1) := by positivity
  linarith

/-- A step in either direction. -/
theorem local_both (m : Method) (f : E → E) (x : E) (ps : FormalMultilinearSeries ℝ E E) {r C L : ℝ}
    (hn : Near f (fun z => ps.partialSum m.tab.order (z - x)) x m.tab.order r C L) (z : ℝ → E) (hz0 : z 0 = x)
    (hz : ∀ᶠ t in 𝓝 (0 : ℝ), HasDerivAt z (f (z t)) t) :
    ∃ c h0 : ℝ, 0 ≤ c ∧ 0 < h0 ∧ ∀ h : ℚ, |(h : ℝ)| ≤ h0 → ∀ K : Nat → E,
      (∀ i < m.tab.stages, f (x + h • ∑ j ∈ range i, m.tab.a i j • K j) = K i) →
      ‖x + h • ∑ i ∈ range m.tab.stages, m.tab.b i • K i - z h‖ ≤ c * (|(h : ℝ)| ^ (m.tab.order + 1) + treeTol m false * |(h : ℝ)|) := by
  obtain ⟨c1, d1, hc1, hd1, h1⟩ := local_forward m f x ps hn z hz0 hz
  have hn' : Near (fun v => -f v) (fun z => (-ps).partialSum m.tab.order (z - x)) x m.tab.order r C L := by
    have e : ∀ v, (-ps).partialSum m.tab.order v = -ps.partialSum m.tab.order v := fun v => by
      simp only [FormalMultilinearSeries.partialSum, ← sum_neg_distrib]
      rfl
    obtain ⟨k1, k2, k3, k4, k5, k6⟩ := hn
    refine ⟨k1, k2, k3, k4, fun v hv => ?_, fun u v hu hv => ?_⟩
    · rw [e, neg_sub_neg, norm_sub_rev]
      exact k5 v hv
    · rw [neg_sub_neg, norm_sub_rev]
      exact k6 u v hu hv
  have hz' : ∀ᶠ t in 𝓝 (0 : ℝ), HasDerivAt (fun t => z (-t)) (-f (z (-t))) t := by
    have h0 : Tendsto (fun t : ℝ => -t) (𝓝 0) (𝓝 0) := by
      have := (continuous_neg (G := ℝ)).tendsto 0
      simpa using this
    filter_upwards [h0.eventually hz] with t ht
    have := ht.scomp t (hasDerivAt_neg t)
    simpa [Function.comp_def] using this
  obtain ⟨c2, d2, hc2, hd2, h2⟩ := local_forward m (fun v => -f v) x (-ps) hn' (fun t => z (-t)) (by simpa using hz0) hz'
  refine ⟨max c1 c2, min d1 d2, le_max_of_le_left hc1, lt_min hd1 hd2, fun h hh K hK => ?_⟩
  have htol : (0 : ℝ) ≤ treeTol m false := by exact_mod_cast treeTol_nonneg m false
  have hnn : 0 ≤ |(h : ℝ)| ^ (m.tab.order + 1) + treeTol m false * |(h : ℝ)| := by positivity
  rcases le_total 0 h with hs | hs
  · have hs' : (0 : ℝ) ≤ h := by exact_mod_cast hs
    rw [abs_of_nonneg hs'] at hh hnn ⊢
    exact (h1 h hs (hh.trans (min_le_left _ _)) K hK).trans (mul_le_mul_of_nonneg_right (le_max_left _ _) hnn)
  · have hs' : (h : ℝ) ≤ 0 := by exact_mod_cast hs
    rw [abs_of_nonpos hs'] at hh hnn ⊢
    have := h2 (-h) (by linarith) (by push_cast; exact hh.trans (min_le_right _ _)) (fun i => -K i) (fun i hi => by
      simp only [smul_neg, sum_neg_distrib, neg_smul, neg_neg]
      rw [hK i hi])
    simp only [smul_neg, sum_neg_distrib, neg_smul, neg_neg] at this
    push_cast at this
    rw [neg_neg] at this
    exact this.trans (mul_le_mul_of_nonneg_right (le_max_right _ _) hnn)

end Verif.Rk
