import Verif.Propagate.StmLimit
import Mathlib.Analysis.ODE.Gronwall
import Mathlib.Analysis.Calculus.FDeriv.Mul
/-!
C220: the exact state transition matrix, as the derivative of the final state by the initial one.
-/
namespace Verif.Propagate
open Finset Filter Topology Verif.Rk
open scoped Matrix.Norms.Operator

variable {d : Nat}

/-- `u v` is the trajectory of `x' = f(t, x)` from the state `v` at the time `a`, for the initial states near that of the trajectory `z`; the trajectories
from near states stay near. -/
structure Flow (f : ℝ → Vec ℝ d → Vec ℝ d) (z : ℝ → Vec ℝ d) (a b : ℝ) (u : Vec ℝ d → ℝ → Vec ℝ d) : Prop where
  start : ∀ v, u v a = v
  solves : ∀ᶠ v in 𝓝 (z a), ∀ t ∈ Set.Icc a b, HasDerivAt (u v) (f t (u v t)) t
  near : ∀ ε > 0, ∀ᶠ v in 𝓝 (z a), ∀ t ∈ Set.Icc a b, ‖u v t - z t‖ ≤ ε

/-- The matrix `M` is the state transition matrix of the trajectory `z` from the time `a` to the time `b`: the derivative of the state at the time `b` by the
state at the time `a`. -/
def IsStm (f : ℝ → Vec ℝ d → Vec ℝ d) (z : ℝ → Vec ℝ d) (a b : ℝ) (M : Mat ℝ d) : Prop :=
  ∀ u, Flow f z a b u → HasFDerivAt (fun v => u v b) (LinearMap.toContinuousLinearMap (Matrix.toLin' M)) (z a)

theorem gradient_apply (f : ℝ → Vec ℝ d → Vec ℝ d) (t : ℝ) (x v : Vec ℝ d) : (gradient f t x).mulVec v = fderiv ℝ (f t) x v := by
  rw [gradient, ← Matrix.toLin'_apply, Matrix.toLin'_toMatrix']
  rfl

theorem mulVec_norm (M : Mat ℝ d) (v : Vec ℝ d) : ‖M.mulVec v‖ ≤ ‖M‖ * ‖v‖ := Matrix.linfty_opNorm_mulVec M v

/-- The derivative and the Lipschitz constant near the trajectory, uniform in the time. -/
theorem near_gradient {f : ℝ → Vec ℝ d → Vec ℝ d} {p : Nat} (hp : 2 ≤ p) {z : ℝ → Vec ℝ d} {a b : ℝ} (hz : Along f p z a b) :
    ∃ r C L : ℝ, 0 < r ∧ 0 ≤ C ∧ 0 ≤ L ∧ ∀ t ∈ Set.Icc a b, (∀ x, ‖x - z t‖ ≤ r → ‖f t x - f t (z t) - (gradient f t (z t)).mulVec (x - z t)‖ ≤ C * ‖x - z t‖ ^ 2) ∧
      (∀ x, ‖x - z t‖ ≤ r → ‖f t x - f t (z t)‖ ≤ L * ‖x - z t‖) := by
  have h2 : ∀ t ∈ Set.Icc a b, ContDiffAt ℝ 2 (fun w : ℝ × Vec ℝ d => f w.1 w.2) (t, z t) := fun t ht => (hz.smooth t ht).of_le (by exact_mod_cast hp)
  have hzc : ContinuousOn (fun t => (t, z t)) (Set.Icc a b) := fun t ht =>
    (continuousAt_id.prodMk (hz.solves t ht).self_of_nhds.continuousAt).continuousWithinAt
  obtain ⟨r, C, L, hr, hn, -⟩ := near_uniform (isCompact_Icc.image_of_continuousOn hzc) 2 (by norm_num)
    (f := fun w : ℝ × Vec ℝ d => ((1 : ℝ), f w.1 w.2)) (by
    rintro _ ⟨t, ht, rfl⟩
    exact contDiffAt_const.prodMk (h2 t ht))
  have ha : a ∈ Set.Icc a b := ⟨le_rfl, hz.order⟩
  refine ⟨r, C, L, hr, (hn _ ⟨a, ha, rfl⟩).C_nonneg, zero_le_one.trans (hn _ ⟨a, ha, rfl⟩).L_pos, fun t ht => ?_⟩
  have hnt := hn _ ⟨t, ht, rfl⟩
  have hnorm : ∀ x, ‖((0 : ℝ), x - z t)‖ = ‖x - z t‖ := fun x => by rw [Prod.norm_mk, norm_zero]; exact max_eq_right (norm_nonneg _)
  have hadd : ∀ x, (t, z t) + ((0 : ℝ), x - z t) = (t, x) := fun x => by simp
  constructor
  · intro x hx
    have := hnt.taylor (0, x - z t) (by rw [hnorm]; exact hx)
    rw [hadd, hnorm] at this
    refine le_trans ?_ this
    have e : ((taylorAt (fun w : ℝ × Vec ℝ d => ((1 : ℝ), f w.1 w.2)) (t, z t)).partialSum 2 ((t, x) - (t, z t))).2 =
        f t (z t) + (gradient f t (z t)).mulVec (x - z t) := by
      have hd : HasFDerivAt (fun w : ℝ × Vec ℝ d => f w.1 w.2) (fderiv ℝ (fun w : ℝ × Vec ℝ d => f w.1 w.2) (t, z t)) (t, z t) :=
        ((h2 t ht).differentiableAt (by norm_num)).hasFDerivAt
      have hpart : HasFDerivAt (f t) ((fderiv ℝ (fun w : ℝ × Vec ℝ d => f w.1 w.2) (t, z t)).comp (ContinuousLinearMap.inr ℝ ℝ (Vec ℝ d))) (z t) :=
        hd.comp (z t) ((hasFDerivAt_const t (z t)).prodMk (hasFDerivAt_id (z t)))
      have hF : HasFDerivAt (fun w : ℝ × Vec ℝ d => ((1 : ℝ), f w.1 w.2)) ((0 : ℝ × Vec ℝ d →L[ℝ] ℝ).prod (fderiv ℝ (fun w : ℝ × Vec ℝ d => f w.1 w.2) (t, z t))) (t, z t) :=
        (hasFDerivAt_const (1 : ℝ) (t, z t)).prodMk hd
      rw [gradient_apply, hpart.fderiv]
      simp only [FormalMultilinearSeries.partialSum, sum_range_succ, sum_range_zero, zero_add, taylorAt]
      simp only [Nat.factorial, Nat.cast_one, inv_one, one_smul, iteratedFDeriv_zero_apply, iteratedFDeriv_one_apply, Prod.snd_add]
      simp
      rw [hF.fderiv]
      simp
    have h3 := norm_snd_le (((1 : ℝ), f t x) - (taylorAt (fun w : ℝ × Vec ℝ d => ((1 : ℝ), f w.1 w.2)) (t, z t)).partialSum 2 ((t, x) - (t, z t)))
    rw [Prod.snd_sub, e] at h3
    simpa [sub_sub] using h3
  · intro x hx
    have := hnt.lip (0, x - z t) 0 (by rw [hnorm]; exact hx) (by simpa using hr.le)
    rw [hadd, add_zero, sub_zero, hnorm] at this
    refine le_trans ?_ this
    exact norm_snd_le (((1 : ℝ), f t x) - ((1 : ℝ), f t (z t)))

/-- The solution of the variational equations `Φ' = gradient · Φ` from the identity is the state transition matrix. -/
theorem variational_isStm {f : ℝ → Vec ℝ d → Vec ℝ d} {p : Nat} (hp : 2 ≤ p) {z : ℝ → Vec ℝ d} {a b : ℝ} (hz : Along f p z a b) {Φ : ℝ → Mat ℝ d} (h1 : Φ a = 1)
    (hΦ : ∀ t ∈ Set.Icc a b, HasDerivAt Φ (gradient f t (z t) * Φ t) t) : IsStm f z a b (Φ b) := by
  intro u hu
  obtain ⟨r, C, L, hr, hC, hL, hn⟩ := near_gradient hp hz
  have hA : ContinuousOn (fun t => gradient f t (z t)) (Set.Icc a b) := fun t ht =>
    (ContinuousAt.comp (f := fun t => (t, z t)) (g := fun w : ℝ × Vec ℝ d => gradient f w.1 w.2)
      (gradient_smooth ((hz.smooth t ht).of_le (by exact_mod_cast hp))).continuousAt
      (continuousAt_id.prodMk (hz.solves t ht).self_of_nhds.continuousAt)).continuousWithinAt
  obtain ⟨K, hK⟩ := (isCompact_Icc (a := a) (b := b)).exists_bound_of_continuousOn hA
  have hK0 : 0 ≤ K := (norm_nonneg _).trans (hK a ⟨le_rfl, hz.order⟩)
  -- the trajectories near `z` separate at most exponentially
  obtain ⟨G, hG⟩ : ∃ G, G = Real.exp (L * (b - a)) := ⟨_, rfl⟩
  have hG0 : 0 < G := by rw [hG]; exact Real.exp_pos _
  obtain ⟨Q, hQ⟩ : ∃ Q, Q = gronwallBound 0 K (C * G ^ 2) (b - a) := ⟨_, rfl⟩
  have hba : 0 ≤ b - a := by linarith [hz.order]
  have hder : ∀ v, (∀ t ∈ Set.Icc a b, HasDerivAt (u v) (f t (u v t)) t) → ∀ t ∈ Set.Icc a b, HasDerivAt (fun s => u v s - z s) (f t (u v t) - f t (z t)) t :=
    fun v hv t ht => (hv t ht).sub (hz.solves t ht).self_of_nhds
  have key : ∀ᶠ v in 𝓝 (z a), ‖u v b - z b - (Φ b).mulVec (v - z a)‖ ≤ gronwallBound 0 K (C * (G * ‖v - z a‖) ^ 2) (b - a) := by
    filter_upwards [hu.solves, hu.near r hr] with v hv hvr
    have sep : ∀ t ∈ Set.Icc a b, ‖u v t - z t‖ ≤ G * ‖v - z a‖ := by
      intro t ht
      have := norm_le_gronwallBound_of_norm_deriv_right_le (f := fun s => u v s - z s) (f' := fun t => f t (u v t) - f t (z t)) (δ := ‖v - z a‖) (K := L) (ε := 0)
        (fun t ht => (hder v hv t ht).continuousAt.continuousWithinAt) (fun t ht => (hder v hv t ⟨ht.1, ht.2.le⟩).hasDerivWithinAt)
        (by rw [hu.start v]) (fun t ht => by
          rw [add_zero]
          exact (hn t ⟨ht.1, ht.2.le⟩).2 (u v t) (hvr t ⟨ht.1, ht.2.le⟩)) t ht
      rw [gronwallBound_ε0, mul_comm] at this
      refine this.trans (mul_le_mul_of_nonneg_right ?_ (norm_nonneg _))
      rw [hG]
      exact Real.exp_le_exp.2 (mul_le_mul_of_nonneg_left (by linarith [ht.2]) hL)
    have hΦv : ∀ t ∈ Set.Icc a b, HasDerivAt (fun s => (Φ s).mulVec (v - z a)) ((gradient f t (z t) * Φ t).mulVec (v - z a)) t := by
      intro t ht
      let T : Mat ℝ d →ₗ[ℝ] Vec ℝ d := ⟨⟨fun M => M.mulVec (v - z a), fun M N => Matrix.add_mulVec _ _ _⟩, fun c M => by simp [Matrix.smul_mulVec]⟩
      exact (LinearMap.toContinuousLinearMap T).hasFDerivAt.comp_hasDerivAt t (hΦ t ht)
    have := norm_le_gronwallBound_of_norm_deriv_right_le (f := fun s => u v s - z s - (Φ s).mulVec (v - z a))
      (f' := fun t => f t (u v t) - f t (z t) - (gradient f t (z t) * Φ t).mulVec (v - z a)) (δ := 0) (K := K) (ε := C * (G * ‖v - z a‖) ^ 2) (a := a) (b := b)
      (fun t ht => ((hder v hv t ht).sub (hΦv t ht)).continuousAt.continuousWithinAt)
      (fun t ht => ((hder v hv t ⟨ht.1, ht.2.le⟩).sub (hΦv t ⟨ht.1, ht.2.le⟩)).hasDerivWithinAt)
      (by rw [hu.start v, h1, Matrix.one_mulVec, sub_self, norm_zero]) (fun t ht => by
        have ht' : t ∈ Set.Icc a b := ⟨ht.1, ht.2.le⟩
        have e1 := (hn t ht').1 (u v t) (hvr t ht')
        have e2 : f t (u v t) - f t (z t) - (gradient f t (z t) * Φ t).mulVec (v - z a) =
            (gradient f t (z t)).mulVec (u v t - z t - (Φ t).mulVec (v - z a)) + (f t (u v t) - f t (z t) - (gradient f t (z t)).mulVec (u v t - z t)) := by
          rw [Matrix.mulVec_sub (gradient f t (z t)) (u v t - z t), Matrix.mulVec_mulVec]
          abel
        rw [e2]
        refine (norm_add_le _ _).trans (add_le_add ((mulVec_norm _ _).trans (mul_le_mul_of_nonneg_right (hK t ht') (norm_nonneg _))) (e1.trans ?_))
        have := sep t ht'
        gcongr) b ⟨hz.order, le_rfl⟩
    exact this
  have hscale : ∀ w : ℝ, gronwallBound 0 K (C * (G * w) ^ 2) (b - a) = Q * w ^ 2 := by
    intro w
    rw [hQ]
    by_cases hk : K = 0
    · rw [hk, gronwallBound_K0, gronwallBound_K0]
      ring
    · rw [gronwallBound_of_K_ne_0 hk, gronwallBound_of_K_ne_0 hk]
      field_simp
      ring
  have hself : u (z a) b = z b := by
    have := key.self_of_nhds
    rw [hscale] at this
    simp at this
    exact sub_eq_zero.1 this
  rw [hasFDerivAt_iff_isLittleO_nhds_zero]
  have key' : ∀ᶠ w in 𝓝 (0 : Vec ℝ d), ‖u (z a + w) b - u (z a) b - (Φ b).mulVec w‖ ≤ Q * ‖w‖ ^ 2 := by
    have ht : Tendsto (fun w : Vec ℝ d => z a + w) (𝓝 0) (𝓝 (z a)) := by
      have : Tendsto (fun w : Vec ℝ d => z a + w) (𝓝 0) (𝓝 (z a + 0)) := tendsto_const_nhds.add tendsto_id
      rwa [add_zero] at this
    filter_upwards [ht.eventually key] with w hw
    rw [hscale, add_sub_cancel_left] at hw
    rwa [hself]
  have hbig : (fun w : Vec ℝ d => u (z a + w) b - u (z a) b - (LinearMap.toContinuousLinearMap (Matrix.toLin' (Φ b))) w) =O[𝓝 0] fun w => ‖w‖ ^ 2 := by
    refine Asymptotics.IsBigO.of_bound Q ?_
    filter_upwards [key'] with w hw
    rw [Real.norm_of_nonneg (by positivity)]
    exact hw
  refine hbig.trans_isLittleO ?_
  have := Asymptotics.isLittleO_norm_pow_id (E' := Vec ℝ d) (one_lt_two)
  exact this

end Verif.Propagate
