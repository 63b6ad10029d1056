import Verif.Rk.Smooth
import Mathlib.Analysis.Calculus.TaylorIntegral
import Mathlib.Topology.ContinuousMap.Compact
import Mathlib.Topology.MetricSpace.Thickening
import Mathlib.Analysis.Calculus.MeanValue
import Mathlib.Analysis.InnerProductSpace.Calculus
import Mathlib.Analysis.Complex.Basic
import Mathlib.Analysis.SpecialFunctions.Complex.Log
/-!
C216 and C217: the error of a step and of a propagation on `x' = f(t, x)`, `f` smooth, along an exact solution.
-/
namespace Verif.Rk
open Finset Filter Topology Nat

variable {E : Type} [NormedAddCommGroup E] [NormedSpace ℝ E]

/-! ### Taylor polynomials, uniformly on a compact set -/

/-- The Taylor series of a function at a point. -/
noncomputable def taylorAt (f : E → E) (x : E) : FormalMultilinearSeries ℝ E E := fun n => (n ! : ℝ)⁻¹ • iteratedFDeriv ℝ n f x

theorem taylor_bound [CompleteSpace E] (f : E → E) (x v : E) (p : Nat) (hp : 1 ≤ p) (M : ℝ) (hf : ∀ t ∈ Set.Icc (0 : ℝ) 1, ContDiffAt ℝ p f (x + t • v))
    (hM : ∀ t ∈ Set.Icc (0 : ℝ) 1, ‖iteratedFDeriv ℝ p f (x + t • v)‖ ≤ M) : ‖f (x + v) - (taylorAt f x).partialSum p v‖ ≤ M * ‖v‖ ^ p := by
  obtain ⟨n, rfl⟩ : ∃ n, p = n + 1 := ⟨p - 1, by omega⟩
  have hM0 : 0 ≤ M := (norm_nonneg _).trans (hM 0 (by simp))
  have h1 := map_add_eq_sum_add_integral_iteratedFDeriv (n := n) (f := f) (x := x) (y := v) (fun t ht => by exact_mod_cast hf t ht)
  have h2 : (taylorAt f x).partialSum (n + 1) v = ∑ k ∈ range (n + 1), (k ! : ℝ)⁻¹ • iteratedFDeriv ℝ k f x fun _ => v := rfl
  rw [h1, h2, add_sub_cancel_left, norm_smul]
  have h3 : ‖∫ t in (0 : ℝ)..1, (1 - t) ^ n • iteratedFDeriv ℝ (n + 1) f (x + t • v) fun _ => v‖ ≤ M * ‖v‖ ^ (n + 1) * |(1 : ℝ) - 0| := by
    refine intervalIntegral.norm_integral_le_of_norm_le_const fun t ht => ?_
    rw [Set.uIoc_of_le zero_le_one] at ht
    have e1 := (iteratedFDeriv ℝ (n + 1) f (x + t • v)).le_opNorm fun _ => v
    simp only [prod_const, Finset.card_univ, Fintype.card_fin] at e1
    have e2 := hM t ⟨ht.1.le, ht.2⟩
    rw [norm_smul, norm_pow]
    have e3 : ‖1 - t‖ ^ n ≤ 1 := pow_le_one₀ (norm_nonneg _) (by rw [Real.norm_of_nonneg (by linarith [ht.2])]; linarith [ht.1])
    have e4 : ‖iteratedFDeriv ℝ (n + 1) f (x + t • v)‖ * ‖v‖ ^ (n + 1) ≤ M * ‖v‖ ^ (n + 1) := mul_le_mul_of_nonneg_right e2 (by positivity)
    have e5 := mul_le_mul e3 (e1.trans e4) (norm_nonneg _) zero_le_one
    linarith
  have h4 : ‖(n ! : ℝ)⁻¹‖ ≤ 1 := by
    rw [norm_inv, Real.norm_of_nonneg (by positivity)]
    exact inv_le_one_of_one_le₀ (by exact_mod_cast Nat.one_le_iff_ne_zero.2 (Nat.factorial_ne_zero n))
  have h5 := mul_le_mul h4 h3 (norm_nonneg _) zero_le_one
  simpa using h5

theorem near_uniform [CompleteSpace E] {f : E → E} {S : Set E} (hS : IsCompact S) (p : Nat) (hp : 1 ≤ p) (hf : ∀ x ∈ S, ContDiffAt ℝ p f x) :
    ∃ r C L : ℝ, 0 < r ∧ (∀ x ∈ S, Near f (fun z => (taylorAt f x).partialSum p (z - x)) x p r C L) ∧
      ∀ x ∈ S, ∀ v, ‖v‖ ≤ r → ContDiffAt ℝ p f (x + v) := by
  obtain ⟨r, M, hr, hM⟩ : ∃ r M : ℝ, 0 < r ∧ ∀ x ∈ S, ∀ y, ‖y - x‖ ≤ r → ContDiffAt ℝ p f y ∧ ‖iteratedFDeriv ℝ p f y‖ ≤ M ∧ ‖fderiv ℝ f y‖ ≤ M := by
    refine hS.induction_on (p := fun T => ∃ r M : ℝ, 0 < r ∧ ∀ x ∈ T, ∀ y, ‖y - x‖ ≤ r →
      ContDiffAt ℝ p f y ∧ ‖iteratedFDeriv ℝ p f y‖ ≤ M ∧ ‖fderiv ℝ f y‖ ≤ M) ⟨1, 0, one_pos, by simp⟩ ?_ ?_ ?_
    · rintro s t hst ⟨r, M, hr, h⟩
      exact ⟨r, M, hr, fun x hx => h x (hst hx)⟩
    · rintro s t ⟨r, M, hr, h⟩ ⟨r', M', hr', h'⟩
      refine ⟨min r r', max M M', lt_min hr hr', fun x hx y hy => ?_⟩
      rcases hx with hx | hx
      · obtain ⟨a, b, c⟩ := h x hx y (hy.trans (min_le_left _ _))
        exact ⟨a, b.trans (le_max_left _ _), c.trans (le_max_left _ _)⟩
      · obtain ⟨a, b, c⟩ := h' x hx y (hy.trans (min_le_right _ _))
        exact ⟨a, b.trans (le_max_right _ _), c.trans (le_max_right _ _)⟩
    · intro x hx
      have h1 := (hf x hx).eventually (by simp)
      have h2 : ContinuousAt (fun y => ‖iteratedFDeriv ℝ p f y‖) x := ((hf x hx).continuousAt_iteratedFDeriv le_rfl).norm
      have h3 : ContinuousAt (fun y => ‖fderiv ℝ f y‖) x := ((hf x hx).fderiv_right (m := 0) (by exact_mod_cast hp)).continuousAt.norm
      have h4 := h2.eventually (gt_mem_nhds (lt_add_one _))
      have h5 := h3.eventually (gt_mem_nhds (lt_add_one _))
      obtain ⟨ρ, hρ, h6⟩ := Metric.eventually_nhds_iff_ball.1 (h1.and (h4.and h5))
      refine ⟨Metric.ball x (ρ / 2), mem_nhdsWithin_of_mem_nhds (Metric.ball_mem_nhds _ (by positivity)), ρ / 3,
        max (‖iteratedFDeriv ℝ p f x‖ + 1) (‖fderiv ℝ f x‖ + 1), by positivity, fun w hw y hy => ?_⟩
      have hy' : y ∈ Metric.ball x ρ := by
        rw [Metric.mem_ball, dist_eq_norm] at *
        have := norm_add_le (y - w) (w - x)
        rw [sub_add_sub_cancel] at this
        linarith
      obtain ⟨a, b, c⟩ := h6 y hy'
      exact ⟨a, b.le.trans (le_max_left _ _), c.le.trans (le_max_right _ _)⟩
  refine ⟨min 1 r, max M 0, max M 1, lt_min one_pos hr, fun x hx => ⟨lt_min one_pos hr, min_le_left _ _, le_max_right _ _, le_max_right _ _, ?_, ?_⟩, ?_⟩
  · intro v hv
    have hv' : ∀ t ∈ Set.Icc (0 : ℝ) 1, ‖x + t • v - x‖ ≤ r := by
      intro t ht
      rw [add_sub_cancel_left, norm_smul, Real.norm_of_nonneg ht.1]
      have := mul_le_mul ht.2 (hv.trans (min_le_right _ _)) (norm_nonneg _) zero_le_one
      linarith
    show ‖f (x + v) - (taylorAt f x).partialSum p (x + v - x)‖ ≤ _
    rw [add_sub_cancel_left]
    exact taylor_bound f x v p hp _ (fun t ht => (hM x hx _ (hv' t ht)).1) fun t ht => (hM x hx _ (hv' t ht)).2.1.trans (le_max_left _ _)
  · intro u v hu hv
    have := (convex_closedBall x r).norm_image_sub_le_of_norm_fderiv_le (𝕜 := ℝ) (f := f) (C := max M 1) (x := x + v) (y := x + u)
      (fun y hy => (hM x hx y (by simpa [dist_eq_norm] using hy)).1.differentiableAt (by exact_mod_cast (by omega : p ≠ 0)))
      (fun y hy => (hM x hx y (by simpa [dist_eq_norm] using hy)).2.2.trans (le_max_left _ _))
      (by simpa [dist_eq_norm] using hv.trans (min_le_right _ _)) (by simpa [dist_eq_norm] using hu.trans (min_le_right _ _))
    rwa [add_sub_add_left_eq_sub] at this
  · intro x hx v hv
    exact (hM x hx _ (by rw [add_sub_cancel_left]; exact hv.trans (min_le_right _ _))).1

/-! ### All the states of a trajectory at once -/

variable {α : Type} [TopologicalSpace α] [CompactSpace α]

open Classical in
/-- The equations of motion, on families of states. -/
noncomputable def family (f : E → E) (u : C(α, E)) : C(α, E) := if h : Continuous fun s => f (u s) then ⟨_, h⟩ else 0

theorem family_apply {f : E → E} {u : C(α, E)} (h : Continuous fun s => f (u s)) (s : α) : family f u s = f (u s) := by
  rw [family, dif_pos h]
  rfl

/-- A family of multilinear maps, as a multilinear map on families. -/
noncomputable def liftMulti {n : Nat} (T : C(α, ContinuousMultilinearMap ℝ (fun _ : Fin n => E) E)) :
    ContinuousMultilinearMap ℝ (fun _ : Fin n => C(α, E)) C(α, E) :=
  MultilinearMap.mkContinuous
    { toFun := fun w => ⟨fun s => T s fun i => w i s, by fun_prop⟩
      map_update_add' := by
        intro _ w i x y
        ext s
        have e : ∀ v : C(α, E), (fun j => Function.update w i v j s) = Function.update (fun j => w j s) i (v s) := by
          intro v
          funext j
          by_cases h : j = i
          · subst h
            simp
          · simp [Function.update_of_ne h]
        show T s (fun j => Function.update w i (x + y) j s) = T s (fun j => Function.update w i x j s) + T s (fun j => Function.update w i y j s)
        rw [e, e, e]
        exact (T s).map_update_add (fun j => w j s) i (x s) (y s)
      map_update_smul' := by
        intro _ w i c x
        ext s
        have e : ∀ v : C(α, E), (fun j => Function.update w i v j s) = Function.update (fun j => w j s) i (v s) := by
          intro v
          funext j
          by_cases h : j = i
          · subst h
            simp
          · simp [Function.update_of_ne h]
        show T s (fun j => Function.update w i (c • x) j s) = c • T s (fun j => Function.update w i x j s)
        rw [e, e]
        exact (T s).map_update_smul (fun j => w j s) i c (x s) }
    ‖T‖ (by
      intro w
      refine (ContinuousMap.norm_le _ (by positivity)).2 fun s => ?_
      refine ((T s).le_opNorm _).trans ?_
      exact mul_le_mul (T.norm_coe_le_norm s) (prod_le_prod (fun _ _ => norm_nonneg _) fun i _ => (w i).norm_coe_le_norm s) (by positivity)
        (norm_nonneg (E := C(α, ContinuousMultilinearMap ℝ (fun _ : Fin n => E) E)) T))

theorem liftMulti_apply {n : Nat} (T : C(α, ContinuousMultilinearMap ℝ (fun _ : Fin n => E) E)) (w : Fin n → C(α, E)) (s : α) :
    liftMulti T w s = T s fun i => w i s := rfl

open Classical in
/-- The Taylor series of the equations of motion on families. -/
noncomputable def taylorFamily (f : E → E) (u : C(α, E)) : FormalMultilinearSeries ℝ C(α, E) C(α, E) := fun n =>
  if h : Continuous fun s => taylorAt f (u s) n then liftMulti ⟨_, h⟩ else 0

theorem taylorFamily_apply {f : E → E} {u : C(α, E)} {p : Nat} (hf : ∀ s, ContDiffAt ℝ p f (u s)) (v : C(α, E)) (s : α) :
    (taylorFamily f u).partialSum p v s = (taylorAt f (u s)).partialSum p (v s) := by
  simp only [FormalMultilinearSeries.partialSum, ContinuousMap.sum_apply]
  refine sum_congr rfl fun k hk => ?_
  have hc : Continuous fun s => taylorAt f (u s) k := by
    refine continuous_iff_continuousAt.2 fun s => ?_
    have h1 := (hf s).continuousAt_iteratedFDeriv (k := k) (by exact_mod_cast (mem_range.1 hk).le)
    have h2 : ContinuousAt (fun s => iteratedFDeriv ℝ k f (u s)) s := ContinuousAt.comp (f := u) h1 u.continuous.continuousAt
    exact h2.const_smul (k ! : ℝ)⁻¹
  rw [taylorFamily, dif_pos hc]
  rfl

theorem near_family [CompleteSpace E] {f : E → E} {u : C(α, E)} (p : Nat) (hp : 1 ≤ p) (hf : ∀ s, ContDiffAt ℝ p f (u s)) :
    ∃ r C L : ℝ, Near (family f) (fun z => (taylorFamily f u).partialSum p (z - u)) u p r C L ∧ 0 < r ∧
      (∀ s, Near f (fun z => (taylorAt f (u s)).partialSum p (z - u s)) (u s) p r C L) ∧
      ∀ w : C(α, E), ‖w‖ ≤ r → Continuous fun s => f (u s + w s) := by
  obtain ⟨r, C, L, hr, h1, h2⟩ := near_uniform (isCompact_range u.continuous) p hp (by rintro _ ⟨s, rfl⟩; exact hf s)
  have h1' : ∀ s, Near f (fun z => (taylorAt f (u s)).partialSum p (z - u s)) (u s) p r C L := fun s => h1 _ ⟨s, rfl⟩
  have hc : ∀ w : C(α, E), ‖w‖ ≤ r → Continuous fun s => f (u s + w s) := by
    intro w hw
    refine continuous_iff_continuousAt.2 fun s => ?_
    have := (h2 (u s) ⟨s, rfl⟩ (w s) ((w.norm_coe_le_norm s).trans hw)).continuousAt
    exact ContinuousAt.comp (f := fun s => u s + w s) this (by fun_prop)
  by_cases hα : Nonempty α
  · obtain ⟨s0⟩ := hα
    obtain ⟨-, k2, k3, k4, -, -⟩ := h1' s0
    refine ⟨r, C, L, ⟨hr, k2, k3, k4, fun v hv => ?_, fun v w hv hw => ?_⟩, hr, h1', hc⟩
    · refine (ContinuousMap.norm_le _ (by positivity)).2 fun s => ?_
      have hv' := (v.norm_coe_le_norm s).trans hv
      have e1 := (h1' s).taylor (v s) hv'
      simp only [ContinuousMap.sub_apply]
      rw [family_apply (u := u + v) (hc v hv), taylorFamily_apply hf]
      refine e1.trans (mul_le_mul_of_nonneg_left (pow_le_pow_left₀ (norm_nonneg _) (v.norm_coe_le_norm s) p) k3)
    · refine (ContinuousMap.norm_le _ (by positivity)).2 fun s => ?_
      have e1 := (h1' s).lip (v s) (w s) ((v.norm_coe_le_norm s).trans hv) ((w.norm_coe_le_norm s).trans hw)
      simp only [ContinuousMap.sub_apply]
      rw [family_apply (u := u + v) (hc v hv), family_apply (u := u + w) (hc w hw)]
      exact e1.trans (mul_le_mul_of_nonneg_left ((v - w).norm_coe_le_norm s) (by linarith))
  · have : ∀ v : C(α, E), v = 0 := fun v => by
      ext s
      exact absurd ⟨s⟩ hα
    refine ⟨min 1 r, 0, 1, ⟨lt_min one_pos hr, min_le_left _ _, le_rfl, le_rfl, fun v hv => ?_, fun v w hv hw => ?_⟩, lt_min one_pos hr, ?_, ?_⟩
    · rw [this (family f (u + v) - _)]
      simp
    · rw [this (family f (u + v) - _)]
      simp
    · exact fun s => absurd ⟨s⟩ hα
    · exact fun w hw => hc w (hw.trans (min_le_right _ _))

/-! ### The trajectory as a motion of families -/

open Classical in
/-- The states of the trajectory `z` at the times of `[a, b]`, shifted by `τ`. -/
noncomputable def shift (z : ℝ → E) (a b τ : ℝ) : C(Set.Icc a b, E) :=
  if h : Continuous fun s : Set.Icc a b => z (s + τ) then ⟨_, h⟩ else 0

theorem shift_apply {z : ℝ → E} {a b τ : ℝ} (h : Continuous fun s : Set.Icc a b => z (s + τ)) (s : Set.Icc a b) : shift z a b τ s = z (s + τ) := by
  rw [shift, dif_pos h]
  rfl

theorem shift_continuous {z z' : ℝ → E} {a b δ : ℝ} (hz : ∀ t, a - δ < t → t < b + δ → HasDerivAt z (z' t) t) {τ : ℝ} (hτ : |τ| < δ) :
    Continuous fun s : Set.Icc a b => z (s + τ) := by
  refine continuous_iff_continuousAt.2 fun s => ?_
  have h1 := abs_lt.1 hτ
  have h2 := s.2.1
  have h3 := s.2.2
  have := (hz (s + τ) (by linarith) (by linarith)).continuousAt
  exact ContinuousAt.comp (f := fun s : Set.Icc a b => (s : ℝ) + τ) this (by fun_prop)

theorem shift_deriv {f : E → E} {z : ℝ → E} {a b δ : ℝ} (hz : ∀ t, a - δ < t → t < b + δ → HasDerivAt z (f (z t)) t)
    (hc : ∀ t, a - δ < t → t < b + δ → ContinuousAt f (z t)) {τ : ℝ} (hτ : |τ| < δ / 2) :
    HasDerivAt (shift z a b) (family f (shift z a b τ)) τ := by
  have hδ : 0 < δ := by
    have := abs_nonneg τ
    linarith
  have hcg : ∀ t, a - δ < t → t < b + δ → ContinuousAt (fun t => f (z t)) t := fun t h1 h2 =>
    ContinuousAt.comp (f := z) (hc t h1 h2) (hz t h1 h2).continuousAt
  have hu : UniformContinuousOn (fun t => f (z t)) (Set.Icc (a - 3 * δ / 4) (b + 3 * δ / 4)) :=
    isCompact_Icc.uniformContinuousOn_of_continuous fun t ht => (hcg t (by linarith [ht.1]) (by linarith [ht.2])).continuousWithinAt
  have hτ' := abs_lt.1 hτ
  have hfam : ∀ s, family f (shift z a b τ) s = f (z (s + τ)) := by
    intro s
    have e : ∀ s, shift z a b τ s = z (s + τ) := shift_apply (shift_continuous hz (by linarith))
    rw [family_apply, e]
    simp only [e]
    refine continuous_iff_continuousAt.2 fun s => ?_
    have h2 := s.2.1
    have h3 := s.2.2
    exact ContinuousAt.comp (f := fun s : Set.Icc a b => (s : ℝ) + τ) (hcg (s + τ) (by linarith) (by linarith)) (by fun_prop)
  rw [hasDerivAt_iff_isLittleO, Asymptotics.isLittleO_iff]
  intro ε hε
  obtain ⟨η, hη, hηu⟩ := Metric.uniformContinuousOn_iff.1 hu ε hε
  filter_upwards [Metric.ball_mem_nhds τ (lt_min hη (by positivity : 0 < δ / 4))] with x hx
  rw [Metric.mem_ball, Real.dist_eq] at hx
  have hx1 := lt_of_lt_of_le hx (min_le_left _ _)
  have hx2 := lt_of_lt_of_le hx (min_le_right _ _)
  have hx2' := abs_lt.1 hx2
  refine (ContinuousMap.norm_le _ (by positivity)).2 fun s => ?_
  have h2 := s.2.1
  have h3 := s.2.2
  simp only [ContinuousMap.sub_apply, ContinuousMap.smul_apply]
  rw [hfam, shift_apply (τ := x) (shift_continuous hz (abs_lt.2 ⟨by linarith, by linarith⟩)), shift_apply (τ := τ) (shift_continuous hz (by linarith))]
  have hseg : ∀ σ ∈ Set.uIcc ((s : ℝ) + τ) (s + x), |σ - (s + τ)| ≤ |x - τ| := by
    intro σ hσ
    have := Set.abs_sub_left_of_mem_uIcc hσ
    rwa [add_sub_add_left_eq_sub] at this
  have hder : ∀ σ ∈ Set.uIcc ((s : ℝ) + τ) (s + x), HasDerivWithinAt (fun σ => z σ - (σ - (s + τ)) • f (z (s + τ))) (f (z σ) - f (z (s + τ)))
      (Set.uIcc ((s : ℝ) + τ) (s + x)) σ := by
    intro σ hσ
    have e := abs_le.1 ((hseg σ hσ).trans hx2.le)
    have e1 := (hz σ (by linarith) (by linarith)).sub (((hasDerivAt_id σ).sub_const ((s : ℝ) + τ)).smul_const (f (z (s + τ))))
    rw [one_smul] at e1
    exact e1.hasDerivWithinAt
  have hbd : ∀ σ ∈ Set.uIcc ((s : ℝ) + τ) (s + x), ‖f (z σ) - f (z (s + τ))‖ ≤ ε := by
    intro σ hσ
    have e := hseg σ hσ
    have e' := abs_le.1 (e.trans hx2.le)
    have := hηu σ ⟨by linarith, by linarith⟩ (s + τ) ⟨by linarith, by linarith⟩ (by rw [Real.dist_eq]; linarith)
    rw [dist_eq_norm] at this
    exact this.le
  have key := Convex.norm_image_sub_le_of_norm_hasDerivWithin_le hder hbd (convex_uIcc _ _) Set.left_mem_uIcc Set.right_mem_uIcc
  have e1 : z (s + x) - z (s + τ) - (x - τ) • f (z (s + τ)) = (z (s + x) - ((s : ℝ) + x - (s + τ)) • f (z (s + τ))) -
      (z (s + τ) - ((s : ℝ) + τ - (s + τ)) • f (z (s + τ))) := by
    rw [sub_self, zero_smul, sub_zero, add_sub_add_left_eq_sub]
    abel
  rw [e1]
  simpa using key

/-! ### The stages stay near the trajectory -/

variable [Module ℚ E]

/-- The stages of a step from `x + d` stay within the distance `r` of `x`, if the step is short. -/
theorem stage_ball (t : Tab) {Q : E → E} {x d : E} {r B : ℝ} {A : ℚ} (hA : ∀ i < t.stages, ∑ j ∈ range i, |t.a i j| ≤ A) (hB : 0 ≤ B)
    (hQ : ∀ v, ‖v‖ ≤ r → ‖Q (x + v)‖ ≤ B) {h : ℚ} (hh : ‖d‖ + |(h : ℝ)| * (A * B) ≤ r) (G : Nat → E)
    (hG : ∀ i < t.stages, Q (x + d + h • ∑ j ∈ range i, t.a i j • G j) = G i) :
    ∀ i < t.stages, ‖G i‖ ≤ B ∧ ‖d + h • ∑ j ∈ range i, t.a i j • G j‖ ≤ r := by
  intro i
  induction i using Nat.strong_induction_on with
  | _ i ih =>
    intro hi
    have e1 : ‖h • ∑ j ∈ range i, t.a i j • G j‖ ≤ |(h : ℝ)| * (A * B) := by
      rw [norm_qsmul]
      exact mul_le_mul_of_nonneg_left (norm_combination i (fun j => t.a i j) G B hB (fun j hj => (ih j hj (hj.trans hi)).1) A
        (hA i hi)) (abs_nonneg _)
    have e2 : ‖d + h • ∑ j ∈ range i, t.a i j • G j‖ ≤ r := (norm_add_le _ _).trans (by linarith)
    refine ⟨?_, e2⟩
    rw [← hG i hi, add_assoc]
    exact hQ _ e2

omit [Module ℚ E] in
theorem near_bound {f P : E → E} {x : E} {p : Nat} {r C L G : ℝ} (hn : Near f P x p r C L) (hG : ‖f x‖ ≤ G) (v : E) (hv : ‖v‖ ≤ r) :
    ‖f (x + v)‖ ≤ G + L := by
  obtain ⟨hr, hr1, hC, hL, htay, hlip⟩ := hn
  have h1 := hlip v 0 hv (by simpa using hr.le)
  rw [add_zero, sub_zero] at h1
  have h2 : ‖f (x + v)‖ ≤ ‖f x‖ + ‖f (x + v) - f x‖ := by
    have := norm_add_le (f x) (f (x + v) - f x)
    simpa using this
  have h3 : L * ‖v‖ ≤ L * 1 := mul_le_mul_of_nonneg_left (hv.trans hr1) (by linarith)
  linarith

theorem rat_smul_continuous : ContinuousConstSMul ℚ E := ⟨fun c => by
  have : (fun v : E => c • v) = fun v : E => (c : ℝ) • v := by
    funext v
    rw [Rat.cast_smul_eq_qsmul]
  rw [this]
  exact continuous_const_smul _⟩

/-- What the trajectory satisfies: it solves the equations near the times `[a, b]`, and there the equations are smooth. -/
structure Auto (f : E → E) (p : Nat) (z : ℝ → E) (a b : ℝ) : Prop where
  solves : ∀ t ∈ Set.Icc a b, ∀ᶠ s in 𝓝 t, HasDerivAt z (f (z s)) s
  smooth : ∀ t ∈ Set.Icc a b, ContDiffAt ℝ p f (z t)

omit [Module ℚ E] in
theorem Auto.wide {f : E → E} {p : Nat} {z : ℝ → E} {a b : ℝ} (h : Auto f p z a b) (hab : a ≤ b) :
    ∃ δ > 0, ∀ t, a - δ < t → t < b + δ → HasDerivAt z (f (z t)) t ∧ ContinuousAt f (z t) := by
  have hU : ∀ t ∈ Set.Icc a b, {s | HasDerivAt z (f (z s)) s ∧ ContinuousAt f (z s)} ∈ 𝓝 t := by
    intro t ht
    have h1 := h.solves t ht
    have h2 := ((h.smooth t ht).eventually (by simp)).mono fun y hy => hy.continuousAt
    have h3 : ContinuousAt z t := (h1.self_of_nhds).continuousAt
    exact (h1.and (h3.eventually h2))
  obtain ⟨δ, hδ, hs⟩ := (isCompact_Icc (a := a) (b := b)).exists_thickening_subset_open
    (isOpen_interior (s := {s | HasDerivAt z (f (z s)) s ∧ ContinuousAt f (z s)})) fun t ht => mem_interior_iff_mem_nhds.2 (hU t ht)
  refine ⟨δ, hδ, fun t h1 h2 => ?_⟩
  suffices h : t ∈ Metric.thickening δ (Set.Icc a b) from interior_subset (s := {s | HasDerivAt z (f (z s)) s ∧ ContinuousAt f (z s)}) (hs h)
  rw [Metric.mem_thickening_iff]
  rcases lt_or_ge t a with h3 | h3
  · exact ⟨a, ⟨le_rfl, hab⟩, by rw [Real.dist_eq, abs_lt]; constructor <;> linarith⟩
  · rcases lt_or_ge b t with h4 | h4
    · exact ⟨b, ⟨hab, le_rfl⟩, by rw [Real.dist_eq, abs_lt]; constructor <;> linarith⟩
    · exact ⟨t, ⟨h3, h4⟩, by simpa using hδ⟩

/-- The errors of single steps along a trajectory, and the bounds near the trajectory. -/
theorem local_along [CompleteSpace E] (m : Method) (f : E → E) (z : ℝ → E) (a b : ℝ) (hab : a ≤ b) (hz : Auto f m.tab.order z a b) :
    ∃ c h0 : ℝ, 0 ≤ c ∧ 0 < h0 ∧ ∀ t ∈ Set.Icc a b, ∀ h : ℚ, |(h : ℝ)| ≤ h0 → ∀ K : Nat → E,
      (∀ i < m.tab.stages, f (z t + h • ∑ j ∈ range i, m.tab.a i j • K j) = K i) →
      ‖z t + h • ∑ i ∈ range m.tab.stages, m.tab.b i • K i - z (t + h)‖ ≤ c * (|(h : ℝ)| ^ (m.tab.order + 1) + treeTol m false * |(h : ℝ)|) := by
  obtain ⟨δ, hδ, hw⟩ := hz.wide hab
  have hp : 1 ≤ m.tab.order := by cases m <;> decide
  have hsc : ∀ τ, |τ| < δ → Continuous fun s : Set.Icc a b => z (s + τ) := fun τ hτ =>
    shift_continuous (z' := fun t => f (z t)) (fun t h1 h2 => (hw t h1 h2).1) hτ
  have hu : ∀ s, shift z a b 0 s = z s := fun s => by
    rw [shift_apply (hsc 0 (by simpa using hδ)), add_zero]
  obtain ⟨r, C, L, hn, hr, -, hcont⟩ := near_family (f := f) (u := shift z a b 0) m.tab.order hp fun s => by
    rw [hu]
    exact hz.smooth s s.2
  haveI := rat_smul_continuous (E := E)
  obtain ⟨c, d, hc, hd, hloc⟩ := local_both m (family f) (shift z a b 0) (taylorFamily f (shift z a b 0)) hn (shift z a b) rfl (by
    filter_upwards [Metric.ball_mem_nhds (0 : ℝ) (by positivity : 0 < δ / 2)] with τ hτ
    exact shift_deriv (fun t h1 h2 => (hw t h1 h2).1) (fun t h1 h2 => (hw t h1 h2).2) (by simpa using hτ))
  obtain ⟨A, hAd⟩ : ∃ A : ℚ, A = max 1 (rowMax m.tab) := ⟨_, rfl⟩
  have hA1 : (1 : ℝ) ≤ A := by
    rw [hAd]
    exact_mod_cast le_max_left _ _
  have hrow : ∀ i < m.tab.stages, ∑ j ∈ range i, |m.tab.a i j| ≤ A := fun i hi => (row_le m.tab i hi).trans (by rw [hAd]; exact le_max_right _ _)
  have hL := hn.L_pos
  obtain ⟨B, hBd⟩ : ∃ B : ℝ, B = ‖family f (shift z a b 0)‖ + L := ⟨_, rfl⟩
  have hB : 1 ≤ B := by
    have := norm_nonneg (family f (shift z a b 0))
    linarith
  have hAB : 0 < (A : ℝ) * B := by positivity
  refine ⟨c, min (min d (δ / 2)) (r / (A * B)), hc, by positivity, fun t ht h hh K hK => ?_⟩
  have k1 : |(h : ℝ)| ≤ d := hh.trans ((min_le_left _ _).trans (min_le_left _ _))
  have k2 : |(h : ℝ)| ≤ δ / 2 := hh.trans ((min_le_left _ _).trans (min_le_right _ _))
  have k3 : |(h : ℝ)| * (A * B) ≤ r := by
    have := hh.trans (min_le_right _ _)
    rwa [le_div_iff₀ hAB] at this
  obtain ⟨⟨next, err⟩, hs⟩ := rkStep_total m.tab (method_shaped m) (fun _ v => some (family f v)) (fun τ v => ⟨_, rfl⟩) true (shift z a b 0) h
  obtain ⟨M, hM, -, -⟩ := rkStep_ok m.tab (method_shaped m).1 _ true (shift z a b 0) h next err hs
  have hM' : ∀ i < m.tab.stages, family f (shift z a b 0 + h • ∑ j ∈ range i, m.tab.a i j • M j) = M i := fun i hi => by simpa using hM i hi
  have hb := stage_ball m.tab (x := shift z a b 0) (d := 0) hrow (by linarith : (0 : ℝ) ≤ B) (fun v hv => by
    rw [hBd]
    exact near_bound hn le_rfl v hv) (h := h) (by simpa using k3) M (fun i hi => by simpa using hM' i hi)
  have hMK : ∀ i < m.tab.stages, M i ⟨t, ht⟩ = K i := by
    intro i
    induction i using Nat.strong_induction_on with
    | _ i ih =>
      intro hi
      have e1 := (hb i hi).2
      rw [zero_add] at e1
      rw [← hM' i hi, family_apply (u := shift z a b 0 + h • ∑ j ∈ range i, m.tab.a i j • M j) (hcont _ e1), ← hK i hi]
      simp only [ContinuousMap.add_apply, ContinuousMap.smul_apply, ContinuousMap.sum_apply]
      rw [hu]
      refine congrArg (fun w => f (z t + h • w)) (sum_congr rfl fun j hj => ?_)
      rw [ih j (mem_range.1 hj) ((mem_range.1 hj).trans hi)]
  have key := ContinuousMap.norm_coe_le_norm (shift z a b 0 + h • ∑ i ∈ range m.tab.stages, m.tab.b i • M i - shift z a b h) ⟨t, ht⟩
  have key2 := key.trans (hloc h k1 M hM')
  simp only [ContinuousMap.add_apply, ContinuousMap.sub_apply, ContinuousMap.smul_apply, ContinuousMap.sum_apply] at key2
  rw [hu, shift_apply (hsc h (by linarith))] at key2
  have e : ∑ i ∈ range m.tab.stages, m.tab.b i • M i ⟨t, ht⟩ = ∑ i ∈ range m.tab.stages, m.tab.b i • K i :=
    sum_congr rfl fun i hi => by rw [hMK i (mem_range.1 hi)]
  rwa [e] at key2

/-- Two steps of the same size from states near each other. -/
theorem step_stable (t : Tab) {f P : E → E} {x d : E} {p : Nat} {r C L G : ℝ} (hn : Near f P x p r C L) (hG : ‖f x‖ ≤ G) {A : ℚ} (hA0 : 0 ≤ A)
    (hA : ∀ i < t.stages, ∑ j ∈ range i, |t.a i j| ≤ A) (hd : ‖d‖ ≤ r / 2) {h : ℚ} (h1 : |(h : ℝ)| * (A * (G + L)) ≤ r / 2)
    (h2 : |(h : ℝ)| * (2 * L * A) ≤ 1) (K M : Nat → E) (hK : ∀ i < t.stages, f (x + d + h • ∑ j ∈ range i, t.a i j • K j) = K i)
    (hM : ∀ i < t.stages, f (x + h • ∑ j ∈ range i, t.a i j • M j) = M i) :
    ‖x + d + h • ∑ i ∈ range t.stages, t.b i • K i - (x + h • ∑ i ∈ range t.stages, t.b i • M i)‖ ≤ (1 + 2 * L * weightSum t * |(h : ℝ)|) * ‖d‖ := by
  have hL := hn.L_pos
  have hr := hn.r_pos
  have hB : 0 ≤ G + L := by
    have := norm_nonneg (f x)
    linarith
  have hAr : (0 : ℝ) ≤ A := by exact_mod_cast hA0
  have kb := stage_ball t hA hB (near_bound hn hG) (d := d) (by linarith) K hK
  have mb := stage_ball t hA hB (near_bound hn hG) (d := 0) (h := h) (by rw [norm_zero]; linarith) M (fun i hi => by simpa using hM i hi)
  have key : ∀ i < t.stages, ‖K i - M i‖ ≤ 2 * L * ‖d‖ := by
    intro i
    induction i using Nat.strong_induction_on with
    | _ i ih =>
      intro hi
      have e0 := (mb i hi).2
      rw [zero_add] at e0
      have e1 := hn.lip _ _ (kb i hi).2 e0
      rw [← add_assoc, hK i hi, hM i hi] at e1
      have e2 : d + h • ∑ j ∈ range i, t.a i j • K j - h • ∑ j ∈ range i, t.a i j • M j = d + h • ∑ j ∈ range i, t.a i j • (K j - M j) := by
        simp only [smul_sub, sum_sub_distrib]
        abel
      have e3 := norm_combination i (fun j => t.a i j) (fun j => K j - M j) (2 * L * ‖d‖) (by positivity)
        (fun j hj => ih j hj (hj.trans hi)) A (hA i hi)
      have e4 := norm_add_le d (h • ∑ j ∈ range i, t.a i j • (K j - M j))
      rw [norm_qsmul] at e4
      have e5 := mul_le_mul_of_nonneg_left e3 (abs_nonneg (h : ℝ))
      have e6 := mul_le_mul_of_nonneg_right h2 (norm_nonneg d)
      rw [e2] at e1
      have e7 : ‖d + h • ∑ j ∈ range i, t.a i j • (K j - M j)‖ ≤ 2 * ‖d‖ := by linarith
      have e8 := mul_le_mul_of_nonneg_left e7 (by linarith : 0 ≤ L)
      linarith
  have e1 : x + d + h • ∑ i ∈ range t.stages, t.b i • K i - (x + h • ∑ i ∈ range t.stages, t.b i • M i) =
      d + h • ∑ i ∈ range t.stages, t.b i • (K i - M i) := by
    simp only [smul_sub, sum_sub_distrib]
    abel
  have e2 := norm_combination t.stages (fun i => t.b i) (fun i => K i - M i) (2 * L * ‖d‖) (by positivity) key (weightSum t) (by rw [weightSum_eq])
  have e3 := norm_add_le d (h • ∑ i ∈ range t.stages, t.b i • (K i - M i))
  rw [norm_qsmul] at e3
  have e4 := mul_le_mul_of_nonneg_left e2 (abs_nonneg (h : ℝ))
  rw [e1]
  linarith

/-- The errors of the steps add up. -/
theorem accumulate (n : Nat) (e g δ : Nat → ℝ) (Λ D : ℝ) (hΛ : 0 ≤ Λ) (hD : 0 ≤ D) (hg : ∀ k < n, 0 ≤ g k) (hδ : ∀ k < n, 0 ≤ δ k) (he : 0 ≤ e 0) (ρ : ℝ)
    (hρ : Real.exp (Λ * ∑ k ∈ range n, g k) * (e 0 + D * ∑ k ∈ range n, g k + ∑ k ∈ range n, δ k) ≤ ρ)
    (hs : ∀ k < n, e k ≤ ρ → e (k + 1) ≤ (1 + Λ * g k) * e k + D * g k + δ k) :
    e n ≤ Real.exp (Λ * ∑ k ∈ range n, g k) * (e 0 + D * ∑ k ∈ range n, g k + ∑ k ∈ range n, δ k) := by
  have key : ∀ k ≤ n, e k ≤ Real.exp (Λ * ∑ j ∈ range k, g j) * (e 0 + D * ∑ j ∈ range k, g j + ∑ j ∈ range k, δ j) := by
    intro k
    induction k with
    | zero => simp
    | succ k ih =>
      intro hk
      have hk' : k < n := hk
      have h1 := ih hk'.le
      have hS : 0 ≤ ∑ j ∈ range k, g j := sum_nonneg fun j hj => hg j ((mem_range.1 hj).trans hk')
      have hSn : ∑ j ∈ range k, g j ≤ ∑ j ∈ range n, g j :=
        sum_le_sum_of_subset_of_nonneg (range_subset_range.2 hk'.le) fun j hj _ => hg j (mem_range.1 hj)
      have hR : 0 ≤ ∑ j ∈ range k, δ j := sum_nonneg fun j hj => hδ j ((mem_range.1 hj).trans hk')
      have hRn : ∑ j ∈ range k, δ j ≤ ∑ j ∈ range n, δ j :=
        sum_le_sum_of_subset_of_nonneg (range_subset_range.2 hk'.le) fun j hj _ => hδ j (mem_range.1 hj)
      have hgk := hg k hk'
      have hδk := hδ k hk'
      have h2 : e k ≤ ρ := by
        refine h1.trans (le_trans ?_ hρ)
        gcongr
      have h3 := hs k hk' h2
      rw [sum_range_succ, sum_range_succ]
      generalize ∑ j ∈ range k, g j = S at *
      generalize ∑ j ∈ range k, δ j = R at *
      have hX : 0 ≤ e 0 + D * S + R := by positivity
      have h4 : 1 + Λ * g k ≤ Real.exp (Λ * g k) := by
        have := Real.add_one_le_exp (Λ * g k)
        linarith
      have h5 : (1 + Λ * g k) * e k ≤ Real.exp (Λ * g k) * (Real.exp (Λ * S) * (e 0 + D * S + R)) :=
        (mul_le_mul_of_nonneg_left h1 (by positivity)).trans (mul_le_mul_of_nonneg_right h4 (by positivity))
      have h6 : (1 : ℝ) ≤ Real.exp (Λ * (S + g k)) := Real.one_le_exp (by positivity)
      have h7 : D * g k + δ k ≤ Real.exp (Λ * (S + g k)) * (D * g k + δ k) := le_mul_of_one_le_left (by positivity) h6
      have h8 : Real.exp (Λ * g k) * (Real.exp (Λ * S) * (e 0 + D * S + R)) = Real.exp (Λ * (S + g k)) * (e 0 + D * S + R) := by
        rw [← mul_assoc, ← Real.exp_add]
        congr 2
        ring
      have h9 : Real.exp (Λ * (S + g k)) * (e 0 + D * (S + g k) + (R + δ k)) =
          Real.exp (Λ * (S + g k)) * (e 0 + D * S + R) + Real.exp (Λ * (S + g k)) * (D * g k + δ k) := by ring
      linarith
  exact key n le_rfl

theorem converge_core [CompleteSpace E] (m : Method) (f : E → E) (z : ℝ → E) (a b : ℝ) (hab : a ≤ b) (hz : Auto f m.tab.order z a b) (T : ℝ) (hT : 0 ≤ T) :
    ∃ c h0 ρ : ℝ, 0 ≤ c ∧ 0 < h0 ∧ 0 < ρ ∧ ∀ (H η : ℝ) (δ : Nat → ℝ) (x : Nat → E) (K : Nat → Nat → E) (t : Nat → ℝ) (h : Nat → ℚ) (n : Nat),
      0 ≤ H → H ≤ h0 → 0 ≤ η → η ≤ 1 → (∀ k ≤ n, t k ∈ Set.Icc a b) → (∀ k < n, |t (k + 1) - (t k + h k)| ≤ η * |(h k : ℝ)|) → (∀ k < n, |(h k : ℝ)| ≤ H) →
      ∑ k ∈ range n, |(h k : ℝ)| ≤ T →
      (∀ k < n, ∀ i < m.tab.stages, f (x k + h k • ∑ j ∈ range i, m.tab.a i j • K k j) = K k i) →
      (∀ k < n, 0 ≤ δ k) →
      (∀ k < n, ‖x (k + 1) - z (t (k + 1))‖ ≤ ‖x k + h k • ∑ i ∈ range m.tab.stages, m.tab.b i • K k i - z (t (k + 1))‖ + δ k) →
      c * (‖x 0 - z (t 0)‖ + H ^ m.tab.order + treeTol m false + η + ∑ k ∈ range n, δ k) ≤ ρ →
      ‖x n - z (t n)‖ ≤ c * (‖x 0 - z (t 0)‖ + H ^ m.tab.order + treeTol m false + η + ∑ k ∈ range n, δ k) := by
  obtain ⟨c1, d1, hc1, hd1, hloc⟩ := local_along m f z a b hab hz
  have hp : 1 ≤ m.tab.order := by cases m <;> decide
  have hzc : ContinuousOn z (Set.Icc a b) := fun t ht => (hz.solves t ht).self_of_nhds.continuousAt.continuousWithinAt
  obtain ⟨r, C, L, hr, hn, -⟩ := near_uniform (isCompact_Icc.image_of_continuousOn hzc) m.tab.order hp (f := f) (by
    rintro _ ⟨t, ht, rfl⟩
    exact hz.smooth t ht)
  have hn' : ∀ t ∈ Set.Icc a b, Near f (fun w => (taylorAt f (z t)).partialSum m.tab.order (w - z t)) (z t) m.tab.order r C L :=
    fun t ht => hn _ ⟨t, ht, rfl⟩
  obtain ⟨G, hG⟩ : ∃ G, ∀ t ∈ Set.Icc a b, ‖f (z t)‖ ≤ G := by
    have h1 : ContinuousOn (fun t => f (z t)) (Set.Icc a b) := fun t ht =>
      (ContinuousAt.comp (f := z) (hz.smooth t ht).continuousAt (hz.solves t ht).self_of_nhds.continuousAt).continuousWithinAt
    obtain ⟨G, hG⟩ := (isCompact_Icc (a := a) (b := b)).exists_bound_of_continuousOn h1
    exact ⟨G, hG⟩
  -- the speed of the trajectory, also a little before and after
  obtain ⟨w, hw0, hw⟩ := hz.wide hab
  obtain ⟨S, hS⟩ : ∃ S, ∀ t ∈ Set.Icc (a - w / 2) (b + w / 2), ‖f (z t)‖ ≤ S := by
    have h1 : ContinuousOn (fun t => f (z t)) (Set.Icc (a - w / 2) (b + w / 2)) := fun t ht => by
      obtain ⟨w1, w2⟩ := hw t (by linarith [ht.1]) (by linarith [ht.2])
      exact (ContinuousAt.comp (f := z) w2 w1.continuousAt).continuousWithinAt
    obtain ⟨S, hS⟩ := (isCompact_Icc (a := a - w / 2) (b := b + w / 2)).exists_bound_of_continuousOn h1
    exact ⟨S, hS⟩
  have hS0 : 0 ≤ S := (norm_nonneg _).trans (hS a ⟨by linarith, by linarith⟩)
  have hspeed : ∀ s ∈ Set.Icc (a - w / 2) (b + w / 2), ∀ u ∈ Set.Icc (a - w / 2) (b + w / 2), ‖z u - z s‖ ≤ S * ‖u - s‖ := fun s hs u hu =>
    Convex.norm_image_sub_le_of_norm_hasDerivWithin_le (f' := fun t => f (z t))
      (fun t ht => (hw t (by linarith [ht.1]) (by linarith [ht.2])).1.hasDerivWithinAt) hS (convex_Icc _ _) hs hu
  have hL := (hn' a ⟨le_rfl, hab⟩).L_pos
  have hG0 : 0 ≤ G := (norm_nonneg _).trans (hG a ⟨le_rfl, hab⟩)
  obtain ⟨A, hAd⟩ : ∃ A : ℚ, A = max 1 (rowMax m.tab) := ⟨_, rfl⟩
  have hA1 : (1 : ℝ) ≤ A := by
    rw [hAd]
    exact_mod_cast le_max_left _ _
  have hA0 : (0 : ℚ) ≤ A := by
    rw [hAd]
    exact le_max_of_le_left zero_le_one
  have hrow : ∀ i < m.tab.stages, ∑ j ∈ range i, |m.tab.a i j| ≤ A := fun i hi => (row_le m.tab i hi).trans (by rw [hAd]; exact le_max_right _ _)
  have hW : (0 : ℝ) ≤ weightSum m.tab := by
    rw [weightSum_eq]
    exact_mod_cast sum_nonneg fun i _ => abs_nonneg _
  have htol : (0 : ℝ) ≤ treeTol m false := by exact_mod_cast treeTol_nonneg m false
  obtain ⟨Λ, hΛd⟩ : ∃ Λ : ℝ, Λ = 2 * L * weightSum m.tab := ⟨_, rfl⟩
  have hΛ : 0 ≤ Λ := by
    rw [hΛd]
    positivity
  have p1 : 0 < (A : ℝ) * (G + L) := by positivity
  have p2 : 0 < 2 * L * (A : ℝ) := by positivity
  refine ⟨Real.exp (Λ * T) * (1 + (c1 + S) * T), min (min d1 (w / 2)) (min (r / 2 / (A * (G + L))) (1 / (2 * L * A))), r / 2, by positivity, by positivity, by positivity, ?_⟩
  intro H η δ x K t h n hH0 hH hη0 hη1 ht hstep hhH hsum hK hδ hx hρ
  have q1 : ∀ k < n, |(h k : ℝ)| ≤ d1 := fun k hk => (hhH k hk).trans (hH.trans ((min_le_left _ _).trans (min_le_left _ _)))
  have q0 : ∀ k < n, |(h k : ℝ)| ≤ w / 2 := fun k hk => (hhH k hk).trans (hH.trans ((min_le_left _ _).trans (min_le_right _ _)))
  have q2 : ∀ k < n, |(h k : ℝ)| * (A * (G + L)) ≤ r / 2 := fun k hk => by
    have := (hhH k hk).trans (hH.trans ((min_le_right _ _).trans (min_le_left _ _)))
    rwa [le_div_iff₀ p1] at this
  have q3 : ∀ k < n, |(h k : ℝ)| * (2 * L * A) ≤ 1 := fun k hk => by
    have := (hhH k hk).trans (hH.trans ((min_le_right _ _).trans (min_le_right _ _)))
    rwa [le_div_iff₀ p2] at this
  have hD : 0 ≤ c1 * (H ^ m.tab.order + treeTol m false) + S * η := by positivity
  have hSum0 : 0 ≤ ∑ k ∈ range n, |(h k : ℝ)| := sum_nonneg fun k _ => abs_nonneg _
  have hcomp : Real.exp (Λ * ∑ k ∈ range n, |(h k : ℝ)|) * (‖x 0 - z (t 0)‖ + (c1 * (H ^ m.tab.order + treeTol m false) + S * η) * ∑ k ∈ range n, |(h k : ℝ)| +
      ∑ k ∈ range n, δ k) ≤ Real.exp (Λ * T) * (1 + (c1 + S) * T) * (‖x 0 - z (t 0)‖ + H ^ m.tab.order + treeTol m false + η + ∑ k ∈ range n, δ k) := by
    rw [mul_assoc (Real.exp (Λ * T))]
    have e0 := norm_nonneg (x 0 - z (t 0))
    have hR : 0 ≤ ∑ k ∈ range n, δ k := sum_nonneg fun k hk => hδ k (mem_range.1 hk)
    generalize ∑ k ∈ range n, δ k = R at *
    have e1 : ‖x 0 - z (t 0)‖ + (c1 * (H ^ m.tab.order + treeTol m false) + S * η) * ∑ k ∈ range n, |(h k : ℝ)| + R ≤
        ‖x 0 - z (t 0)‖ + (c1 * (H ^ m.tab.order + treeTol m false) + S * η) * T + R := by gcongr
    have e2 : ‖x 0 - z (t 0)‖ + (c1 * (H ^ m.tab.order + treeTol m false) + S * η) * T + R ≤
        (1 + (c1 + S) * T) * (‖x 0 - z (t 0)‖ + H ^ m.tab.order + treeTol m false + η + R) := by
      have f1 : 0 ≤ (c1 + S) * T * ‖x 0 - z (t 0)‖ := by positivity
      have f2 : 0 ≤ H ^ m.tab.order := by positivity
      have f3 : 0 ≤ S * T * (H ^ m.tab.order + treeTol m false) := by positivity
      have f4 : 0 ≤ c1 * T * η := by positivity
      have f5 : 0 ≤ (c1 + S) * T * R := by positivity
      linarith
    exact mul_le_mul (Real.exp_le_exp.2 (mul_le_mul_of_nonneg_left hsum hΛ)) (e1.trans e2) (by positivity) (by positivity)
  refine (accumulate n (fun k => ‖x k - z (t k)‖) (fun k => |(h k : ℝ)|) δ Λ (c1 * (H ^ m.tab.order + treeTol m false) + S * η) hΛ hD (fun k _ => abs_nonneg _)
    hδ (norm_nonneg _) (r / 2) (hcomp.trans hρ) fun k hk hek => ?_).trans hcomp
  obtain ⟨⟨next, err⟩, hs⟩ := rkStep_total m.tab (method_shaped m) (fun _ v => some (f v)) (fun τ v => ⟨_, rfl⟩) true (z (t k)) (h k)
  obtain ⟨M, hM, -, -⟩ := rkStep_ok m.tab (method_shaped m).1 _ true (z (t k)) (h k) next err hs
  have hM' : ∀ i < m.tab.stages, f (z (t k) + h k • ∑ j ∈ range i, m.tab.a i j • M j) = M i := fun i hi => by simpa using hM i hi
  have hxk : z (t k) + (x k - z (t k)) = x k := add_sub_cancel _ _
  have s1 := step_stable m.tab (hn' (t k) (ht k hk.le)) (hG (t k) (ht k hk.le)) hA0 hrow (d := x k - z (t k)) hek (q2 k hk) (q3 k hk) (K k) M
    (by rw [hxk]; exact hK k hk) hM'
  have s2 := hloc (t k) (ht k hk.le) (h k) (q1 k hk) M hM'
  rw [hxk] at s1
  have s3 := hx k hk
  refine s3.trans ?_
  have g1 := ht k hk.le
  have g2 := ht (k + 1) hk
  have g3 := abs_le.1 (q0 k hk)
  have s0 : ‖z (t k + h k) - z (t (k + 1))‖ ≤ S * η * |(h k : ℝ)| := by
    refine (hspeed (t (k + 1)) ⟨by linarith [g2.1], by linarith [g2.2]⟩ (t k + h k) ⟨by linarith [g1.1], by linarith [g1.2]⟩).trans ?_
    rw [mul_assoc, Real.norm_eq_abs, abs_sub_comm]
    exact mul_le_mul_of_nonneg_left (hstep k hk) hS0
  have s4 := norm_add₃_le (a := x k + h k • ∑ i ∈ range m.tab.stages, m.tab.b i • K k i - (z (t k) + h k • ∑ i ∈ range m.tab.stages, m.tab.b i • M i))
    (b := z (t k) + h k • ∑ i ∈ range m.tab.stages, m.tab.b i • M i - z (t k + h k)) (c := z (t k + h k) - z (t (k + 1)))
  rw [sub_add_sub_cancel, sub_add_sub_cancel] at s4
  have s5 : |(h k : ℝ)| ^ (m.tab.order + 1) ≤ H ^ m.tab.order * |(h k : ℝ)| := by
    rw [pow_succ]
    exact mul_le_mul_of_nonneg_right (pow_le_pow_left₀ (abs_nonneg _) (hhH k hk) _) (abs_nonneg _)
  have s6 := mul_le_mul_of_nonneg_left s5 hc1
  rw [hΛd]
  linarith

/-! ### The theorems -/

/-- What is asked of the trajectory `z` of `x' = f(t, x)`: it solves the equations near the times `[a, b]`, and there the equations are smooth: `p`
times continuously differentiable in time and state together. -/
structure Along (f : ℝ → E → E) (p : Nat) (z : ℝ → E) (a b : ℝ) : Prop where
  order : a ≤ b
  solves : ∀ t ∈ Set.Icc a b, ∀ᶠ s in 𝓝 t, HasDerivAt z (f s (z s)) s
  smooth : ∀ t ∈ Set.Icc a b, ContDiffAt ℝ p (fun w : ℝ × E => f w.1 w.2) (t, z t)

/-- The equations of motion given to a step from the time `t`, if they return a value, return that of `f`. -/
def Gives (f : ℝ → E → E) (t : ℝ) (eom : Eom E) : Prop := ∀ τ v k, eom τ v = some k → k = f (t + τ) v

omit [Module ℚ E] in
theorem Along.auto {f : ℝ → E → E} {p : Nat} {z : ℝ → E} {a b : ℝ} (h : Along f p z a b) :
    Auto (fun w : ℝ × E => ((1 : ℝ), f w.1 w.2)) p (fun t => (t, z t)) a b := by
  refine ⟨fun t ht => ?_, fun t ht => contDiffAt_const.prodMk (h.smooth t ht)⟩
  filter_upwards [h.solves t ht] with s hs
  exact (hasDerivAt_id s).prodMk hs

/-- The stages of a step, with the time as a further component of the state. -/
theorem stages_auto (m : Method) {f : ℝ → E → E} {t : ℝ} {eom : Eom E} (he : Gives f t eom) {fixed : Bool} {x next err : E} {h : ℚ}
    (hs : rkStep m.tab eom fixed x h = .ok (next, err)) :
    ∃ K : Nat → ℝ × E, (∀ i < m.tab.stages, (fun w : ℝ × E => ((1 : ℝ), f w.1 w.2)) ((t, x) + h • ∑ j ∈ range i, m.tab.a i j • K j) = K i) ∧
      ((t, x) + h • ∑ i ∈ range m.tab.stages, m.tab.b i • K i).2 = next := by
  obtain ⟨K, hK, hn, -⟩ := rkStep_ok m.tab (method_shaped m).1 eom fixed x h next err hs
  have sn : ∀ (s : Finset Nat) (k : Nat → ℝ × E), (∑ n ∈ s, k n).2 = ∑ n ∈ s, (k n).2 := fun s k => Prod.snd_sum
  have fs : ∀ (s : Finset Nat) (k : Nat → ℝ × E), (∑ n ∈ s, k n).1 = ∑ n ∈ s, (k n).1 := fun s k => Prod.fst_sum
  refine ⟨fun i => ((1 : ℝ), K i), fun i hi => Prod.ext rfl ?_, ?_⟩
  · have e := he _ _ _ (hK i hi)
    show f ((t, x) + h • ∑ j ∈ range i, m.tab.a i j • ((1 : ℝ), K j)).1 _ = K i
    rw [e]
    simp only [Prod.fst_add, Prod.snd_add, Prod.smul_fst, Prod.smul_snd, fs, sn]
    congr 2
    rw [Tab.c, sum_range_list]
    push_cast
    rw [mul_comm, Rat.smul_def]
    congr 1
    exact sum_congr rfl fun j _ => by rw [Rat.smul_def, mul_one]
  · simp only [Prod.snd_add, Prod.smul_snd, sn]
    exact hn.symm

/-- **C216.** Along a trajectory of smooth equations of motion the error of every single step of a shipped method, forward or backward, from a state of
the trajectory is at most a constant times `|h| ^ (p + 1)`, `p` the order of the method, up to the rounding of the coefficients of the table; the
constant is the same for all the states of the trajectory. -/
theorem local_error [CompleteSpace E] (m : Method) (f : ℝ → E → E) (z : ℝ → E) (a b : ℝ) (hz : Along f m.tab.order z a b) :
    ∃ c h0 : ℝ, 0 ≤ c ∧ 0 < h0 ∧ ∀ t ∈ Set.Icc a b, ∀ h : ℚ, |(h : ℝ)| ≤ h0 → ∀ eom : Eom E, Gives f t eom → ∀ (fixed : Bool) (next err : E),
      rkStep m.tab eom fixed (z t) h = .ok (next, err) →
      ‖next - z (t + h)‖ ≤ c * (|(h : ℝ)| ^ (m.tab.order + 1) + treeTol m false * |(h : ℝ)|) := by
  obtain ⟨c, h0, hc, hh0, hl⟩ := local_along m _ _ a b hz.order hz.auto
  refine ⟨c, h0, hc, hh0, fun t ht h hh eom he fixed next err hs => ?_⟩
  obtain ⟨K, hK, hn⟩ := stages_auto m he hs
  have := hl t ht h hh K hK
  refine le_trans ?_ this
  rw [← hn]
  exact norm_snd_le ((t, z t) + h • ∑ i ∈ range m.tab.stages, m.tab.b i • K i - (t + (h : ℝ), z (t + h)))

/-- **C217.** A propagation along a trajectory of smooth equations of motion: the error at the end is at most a constant times the sum of the error of
the initial state, `H ^ p` and the rounding of the coefficients of the table, where `H` bounds the sizes of the steps and `p` is the order of the
method.  The steps may change size and direction, as those of the adaptive step control do; their sizes together are at most `T`.  The times `t` of the
states may differ from the sums of the steps, by at most `η` times the step: the adaptive control rounds them to nanoseconds.
Each state `x (k + 1)` may differ from that of the exact step by `δ k`, as it does for computations in floating point. -/
theorem convergence [CompleteSpace E] (m : Method) (f : ℝ → E → E) (z : ℝ → E) (a b : ℝ) (hz : Along f m.tab.order z a b) (T : ℝ) (hT : 0 ≤ T) :
    ∃ c h0 ρ : ℝ, 0 ≤ c ∧ 0 < h0 ∧ 0 < ρ ∧
      ∀ (H η : ℝ) (t δ : Nat → ℝ) (h : Nat → ℚ) (eom : Nat → Eom E) (fixed : Nat → Bool) (x next err : Nat → E) (n : Nat), 0 ≤ H → H ≤ h0 → 0 ≤ η → η ≤ 1 →
      (∀ k ≤ n, t k ∈ Set.Icc a b) → (∀ k < n, |t (k + 1) - (t k + h k)| ≤ η * |(h k : ℝ)|) → (∀ k < n, |(h k : ℝ)| ≤ H) → ∑ k ∈ range n, |(h k : ℝ)| ≤ T →
      (∀ k < n, Gives f (t k) (eom k)) → (∀ k < n, rkStep m.tab (eom k) (fixed k) (x k) (h k) = .ok (next k, err k)) →
      (∀ k < n, ‖x (k + 1) - next k‖ ≤ δ k) →
      c * (‖x 0 - z (t 0)‖ + H ^ m.tab.order + treeTol m false + η + ∑ k ∈ range n, δ k) ≤ ρ →
      ‖x n - z (t n)‖ ≤ c * (‖x 0 - z (t 0)‖ + H ^ m.tab.order + treeTol m false + η + ∑ k ∈ range n, δ k) := by
  obtain ⟨c, h0, ρ, hc, hh0, hρ, hl⟩ := converge_core m _ _ a b hz.order hz.auto T hT
  refine ⟨c, h0, ρ, hc, hh0, hρ, fun H η t δ h eom fixed x next err n hH0 hH hη0 hη1 ht hstep hhH hsum he hs hδ hcρ => ?_⟩
  have hst : ∀ k, ∃ K : Nat → ℝ × E, k < n →
      (∀ i < m.tab.stages, (fun w : ℝ × E => ((1 : ℝ), f w.1 w.2)) ((t k, x k) + h k • ∑ j ∈ range i, m.tab.a i j • K j) = K i) ∧
      ((t k, x k) + h k • ∑ i ∈ range m.tab.stages, m.tab.b i • K i).2 = next k := by
    intro k
    by_cases hk : k < n
    · obtain ⟨K, hK⟩ := stages_auto m (he k hk) (hs k hk)
      exact ⟨K, fun _ => hK⟩
    · exact ⟨fun _ => 0, fun h => absurd h hk⟩
  choose K hK using hst
  have hnorm : ∀ k, ‖((t k, x k) : ℝ × E) - (t k, z (t k))‖ = ‖x k - z (t k)‖ := fun k => by
    rw [Prod.mk_sub_mk, sub_self, Prod.norm_mk, norm_zero]
    exact max_eq_right (norm_nonneg _)
  have := hl H η δ (fun k => (t k, x k)) K t h n hH0 hH hη0 hη1 ht hstep hhH hsum (fun k hk => (hK k hk).1) (fun k hk => (norm_nonneg _).trans (hδ k hk)) (fun k hk => by
    rw [hnorm]
    have e1 := norm_sub_le_norm_sub_add_norm_sub (x (k + 1)) (next k) (z (t (k + 1)))
    have e2 := hδ k hk
    refine e1.trans (le_trans (add_le_add_left e2 _) ?_)
    rw [add_comm]
    refine add_le_add_left ?_ _
    rw [← (hK k hk).2]
    exact norm_snd_le ((t k, x k) + h k • ∑ i ∈ range m.tab.stages, m.tab.b i • K k i - (t (k + 1), z (t (k + 1)))))
    (by rw [hnorm]; exact hcρ)
  rwa [hnorm, hnorm] at this

/-- The methods whose tables are exact. -/
theorem exact_methods (m : Method) : treeTol m false = 0 ↔ m = .dormandPrince45 ∨ m = .rungeKutta4 ∨ m = .cashKarp45 ∨ m = .verner56 := by
  cases m <;> decide +kernel

/-- **C217 (exact tables).** With an exact table and from a state of the trajectory, the error at the end of the propagation is at most a constant times
`H ^ p` as soon as the steps are short enough: the propagation converges to the trajectory, with the order of the method. -/
theorem convergence_exact [CompleteSpace E] (m : Method) (hm : m = .dormandPrince45 ∨ m = .rungeKutta4 ∨ m = .cashKarp45 ∨ m = .verner56)
    (f : ℝ → E → E) (z : ℝ → E) (a b : ℝ) (hz : Along f m.tab.order z a b) (T : ℝ) (hT : 0 ≤ T) :
    ∃ c h0 : ℝ, 0 ≤ c ∧ 0 < h0 ∧
      ∀ (H : ℝ) (t : Nat → ℝ) (h : Nat → ℚ) (eom : Nat → Eom E) (fixed : Nat → Bool) (x err : Nat → E) (n : Nat), 0 ≤ H → H ≤ h0 →
      (∀ k ≤ n, t k ∈ Set.Icc a b) → (∀ k < n, t (k + 1) = t k + h k) → (∀ k < n, |(h k : ℝ)| ≤ H) → ∑ k ∈ range n, |(h k : ℝ)| ≤ T →
      (∀ k < n, Gives f (t k) (eom k)) → (∀ k < n, rkStep m.tab (eom k) (fixed k) (x k) (h k) = .ok (x (k + 1), err k)) →
      x 0 = z (t 0) → ‖x n - z (t n)‖ ≤ c * H ^ m.tab.order := by
  obtain ⟨c, h0, ρ, hc, hh0, hρ, hl⟩ := convergence m f z a b hz T hT
  have h0' : (treeTol m false : ℝ) = 0 := by exact_mod_cast (exact_methods m).2 hm
  have hp : 1 ≤ m.tab.order := by cases m <;> decide
  refine ⟨c, min h0 (min 1 (ρ / (c + 1))), hc, by positivity, fun H t h eom fixed x err n hH0 hH ht hstep hhH hsum he hs hx0 => ?_⟩
  have h1 : H ≤ 1 := hH.trans ((min_le_right _ _).trans (min_le_left _ _))
  have h2 : H * (c + 1) ≤ ρ := by
    have := hH.trans ((min_le_right _ _).trans (min_le_right _ _))
    rwa [le_div_iff₀ (by positivity)] at this
  have h3 : H ^ m.tab.order ≤ H := pow_le_of_le_one hH0 h1 (by omega)
  have := hl H 0 t (fun _ => 0) h eom fixed x (fun k => x (k + 1)) err n hH0 (hH.trans (min_le_left _ _)) le_rfl zero_le_one ht
    (fun k hk => by rw [hstep k hk]; simp) hhH hsum he hs (fun k _ => by simp) (by
    rw [hx0, sub_self, norm_zero, h0', zero_add, add_zero, add_zero, sum_const_zero, add_zero]
    have := mul_le_mul_of_nonneg_left h3 hc
    linarith)
  rwa [hx0, sub_self, norm_zero, h0', zero_add, add_zero, add_zero, sum_const_zero, add_zero] at this

/-! ### An orbit -/

/-- The motion around a centre of attraction, in the plane of the orbit: position and velocity as complex numbers. -/
noncomputable def planar (_ : ℝ) (w : ℂ × ℂ) : ℂ × ℂ := (w.2, -(1 / ‖w.1‖ ^ 3 : ℝ) • w.1)

/-- The circular orbit. -/
noncomputable def circle (t : ℝ) : ℂ × ℂ := (Complex.exp (t * Complex.I), Complex.I * Complex.exp (t * Complex.I))

theorem circle_along (p : Nat) (a b : ℝ) (hab : a ≤ b) : Along planar p circle a b := by
  have hnorm : ∀ t : ℝ, ‖(circle t).1‖ = 1 := fun t => Complex.norm_exp_ofReal_mul_I t
  refine ⟨hab, fun t _ => Eventually.of_forall fun s => ?_, fun t _ => ?_⟩
  · have h1 : HasDerivAt (fun s : ℝ => Complex.exp (s * Complex.I)) (Complex.I * Complex.exp (s * Complex.I)) s := by
      have := (((hasDerivAt_id (s : ℂ)).mul_const Complex.I).cexp).comp_ofReal
      simpa [mul_comm] using this
    have h2 := h1.const_mul Complex.I
    have h3 := h1.prodMk h2
    have e : planar s (circle s) = (Complex.I * Complex.exp (s * Complex.I), Complex.I * (Complex.I * Complex.exp (s * Complex.I))) := by
      rw [planar, hnorm]
      refine Prod.ext rfl ?_
      simp [circle, ← mul_assoc]
    rw [e]
    exact h3
  · have hne : (circle t).1 ≠ 0 := by
      intro h
      have := hnorm t
      rw [h, norm_zero] at this
      exact zero_ne_one this
    have h1 : ContDiffAt ℝ p (fun w : ℝ × ℂ × ℂ => w.2.1) (t, circle t) := by fun_prop
    have h2 : ContDiffAt ℝ p (fun w : ℝ × ℂ × ℂ => ‖w.2.1‖) (t, circle t) := h1.norm ℝ hne
    have h3 : ContDiffAt ℝ p (fun w : ℝ × ℂ × ℂ => (1 / ‖w.2.1‖ ^ 3 : ℝ)) (t, circle t) :=
      contDiffAt_const.div (h2.pow 3) (by rw [hnorm]; norm_num)
    have h4 : ContDiffAt ℝ p (fun w : ℝ × ℂ × ℂ => w.2.2) (t, circle t) := by fun_prop
    exact h4.prodMk (h3.neg.smul h1)

/-- The equations of motion of the orbit, in the form of the model: an error at the centre. -/
noncomputable def planarEom : Eom (ℂ × ℂ) := fun _ w => if w.1 = 0 then none else some (planar 0 w)

theorem planar_gives (t : ℝ) : Gives planar t planarEom := by
  intro τ v k h
  unfold planarEom at h
  split at h
  · cases h
  · cases h
    rfl

example := local_error .rungeKutta89 planar circle 0 10 (circle_along _ 0 10 (by norm_num))
example := convergence .dormandPrince78 planar circle 0 10 (circle_along _ 0 10 (by norm_num)) 10 (by norm_num)
example := convergence_exact .rungeKutta4 (by simp) planar circle 0 10 (circle_along _ 0 10 (by norm_num)) 10 (by norm_num)

end Verif.Rk
