import Verif.Propagate.Flow
import Mathlib.Analysis.ODE.ExistUnique
import Mathlib.Analysis.SpecialFunctions.Pow.Deriv
import Mathlib.Analysis.SpecialFunctions.Trigonometric.Deriv
/-!
C220: when the propagated transition matrix converges to the exact one, and a trajectory on which it does not.
-/
namespace Verif.Propagate
open Finset Filter Topology Verif.Rk
open scoped Matrix.Norms.Operator

variable {d : Nat} {Er Fr C : Type}

/-! ### Gradients which commute -/

theorem widen {p : ℝ → Prop} {a b : ℝ} (hab : a ≤ b) (h : ∀ t ∈ Set.Icc a b, ∀ᶠ s in 𝓝 t, p s) : ∃ w > 0, ∀ t, a - w < t → t < b + w → p t := by
  obtain ⟨δ, hδ, hs⟩ := (isCompact_Icc (a := a) (b := b)).exists_thickening_subset_open (isOpen_interior (s := {s | p s}))
    fun t ht => mem_interior_iff_mem_nhds.2 (h t ht)
  refine ⟨δ, hδ, fun t h1 h2 => ?_⟩
  suffices h : t ∈ Metric.thickening δ (Set.Icc a b) from interior_subset (s := {s | p s}) (hs h)
  rw [Metric.mem_thickening_iff]
  rcases lt_or_ge t a with h3 | h3
  · exact ⟨a, ⟨le_rfl, hab⟩, by rw [Real.dist_eq, abs_lt]; constructor <;> linarith⟩
  · rcases lt_or_ge b t with h4 | h4
    · exact ⟨b, ⟨hab, le_rfl⟩, by rw [Real.dist_eq, abs_lt]; constructor <;> linarith⟩
    · exact ⟨t, ⟨h3, h4⟩, by simpa using hδ⟩

theorem commuting_solution {f : ℝ → Vec ℝ d → Vec ℝ d} {p : Nat} (hp : 2 ≤ p) {z : ℝ → Vec ℝ d} {a b : ℝ} (hz : Along f p z a b) {Φ : ℝ → Mat ℝ d} (h1 : Φ a = 1)
    (hΦ : ∀ t ∈ Set.Icc a b, ∀ᶠ s in 𝓝 t, HasDerivAt Φ (gradient f s (z s) * Φ s) s) {w : ℝ} (hw : 0 < w)
    (hcomm : ∀ s ∈ Set.Ioo (a - w) (b + w), ∀ t ∈ Set.Ioo (a - w) (b + w), Commute (gradient f s (z s)) (gradient f t (z t))) :
    ∀ t ∈ Set.Icc a b, ∀ᶠ s in 𝓝 t, HasDerivAt Φ (Φ s * gradient f s (z s)) s := by
  obtain ⟨A, hA⟩ : ∃ A : ℝ → Mat ℝ d, A = fun t => gradient f t (z t) := ⟨_, rfl⟩
  obtain ⟨v, hv, hq⟩ := widen hz.order (p := fun t => HasDerivAt Φ (A t * Φ t) t ∧ ContinuousAt A t) (by
    intro t ht
    have h2 : ContDiffAt ℝ 2 (fun x : ℝ × Vec ℝ d => f x.1 x.2) (t, z t) := (hz.smooth t ht).of_le (by exact_mod_cast hp)
    have hc : ContinuousAt (fun s => (s, z s)) t := continuousAt_id.prodMk (hz.solves t ht).self_of_nhds.continuousAt
    filter_upwards [hΦ t ht, hc.eventually (h2.eventually (by simp)), hz.solves t ht] with s e1 e2 e3
    refine ⟨by rw [hA]; exact e1, ?_⟩
    rw [hA]
    exact ContinuousAt.comp (f := fun s => (s, z s)) (g := fun w : ℝ × Vec ℝ d => gradient f w.1 w.2) (gradient_smooth e2).continuousAt
      (continuousAt_id.prodMk e3.continuousAt))
  obtain ⟨r, hr⟩ : ∃ r, r = min v w / 2 := ⟨_, rfl⟩
  have hm : 0 < min v w := lt_min hv hw
  have hr0 : 0 < r := by rw [hr]; linarith
  have hrv : r < v := by have := min_le_left v w; rw [hr]; linarith
  have hrw : r < w := by have := min_le_right v w; rw [hr]; linarith
  have hq' : ∀ t ∈ Set.Icc (a - r) (b + r), HasDerivAt Φ (A t * Φ t) t ∧ ContinuousAt A t := fun t ht =>
    hq t (by linarith [ht.1]) (by linarith [ht.2])
  obtain ⟨M, hM⟩ := isCompact_Icc.exists_bound_of_continuousOn (f := A) (s := Set.Icc (a - r) (b + r))
    fun t ht => (hq' t ht).2.continuousWithinAt
  have hab := hz.order
  have hM0 : 0 ≤ M := (norm_nonneg _).trans (hM a ⟨by linarith, by linarith⟩)
  have key : ∀ s ∈ Set.Ioo (a - r) (b + r), Set.EqOn (fun t => A s * Φ t) (fun t => Φ t * A s) (Set.Icc (a - r) (b + r)) := by
    intro s hs
    refine ODE_solution_unique_of_mem_Icc (v := fun t X => A t * X) (s := fun _ => Set.univ) (K := M.toNNReal) (t₀ := a) (fun t ht => ?_)
      ⟨by linarith, by linarith⟩ (fun t ht => ?_) (fun t ht => ?_) (fun _ _ => Set.mem_univ _) (fun t ht => ?_) (fun t ht => ?_) (fun _ _ => Set.mem_univ _) ?_
    · refine (LipschitzWith.of_dist_le_mul fun X Y => ?_).lipschitzOnWith
      rw [dist_eq_norm, dist_eq_norm, ← mul_sub, Real.coe_toNNReal _ hM0]
      exact (norm_mul_le _ _).trans (by gcongr; exact hM t ⟨ht.1.le, ht.2.le⟩)
    · exact (((hq' t ht).1.const_mul (A s))).continuousAt.continuousWithinAt
    · have e := (hq' t ⟨ht.1.le, ht.2.le⟩).1.const_mul (A s)
      have hc : A s * A t = A t * A s := by
        rw [hA]
        exact hcomm s ⟨by linarith [hs.1], by linarith [hs.2]⟩ t ⟨by linarith [ht.1], by linarith [ht.2]⟩
      rw [← mul_assoc, hc, mul_assoc] at e
      exact e
    · exact (((hq' t ht).1.mul_const (A s))).continuousAt.continuousWithinAt
    · have e := (hq' t ⟨ht.1.le, ht.2.le⟩).1.mul_const (A s)
      rw [mul_assoc] at e
      exact e
    · simp [h1]
  intro t ht
  have hn : Set.Ioo (a - r) (b + r) ∈ 𝓝 t := Ioo_mem_nhds (by linarith [ht.1]) (by linarith [ht.2])
  filter_upwards [hn] with s hs
  have e := (hq' s ⟨hs.1.le, hs.2.le⟩).1
  have := key s hs ⟨hs.1.le, hs.2.le⟩
  simp only at this
  rw [this, hA] at e
  exact e

/-- **C220, partial.** Along a trajectory whose gradients commute with each other, for example where the gradient is constant, the propagated transition
matrices converge to the exact ones: the derivatives of the states by the initial state. Missing: gradients which do not commute, as those of any orbit;
see `stm_wrong_limit`. -/
theorem stm_commuting_partial [DecidableEq Fr] (mt : Method) (f : ℝ → Vec ℝ d → Vec ℝ d) (z : ℝ → Vec ℝ d) (a b : ℝ) (hz : Along f mt.tab.order z a b)
    (Φ : ℝ → Mat ℝ d) (h1 : Φ a = 1) (hΦ : ∀ t ∈ Set.Icc a b, ∀ᶠ s in 𝓝 t, HasDerivAt Φ (gradient f s (z s) * Φ s) s) (w : ℝ) (hw : 0 < w)
    (hcomm : ∀ s ∈ Set.Ioo (a - w) (b + w), ∀ t ∈ Set.Ioo (a - w) (b + w), Commute (gradient f s (z s)) (gradient f t (z t))) :
    (∀ t ∈ Set.Icc a b, IsStm f z a t (Φ t)) ∧
    ∃ c h0 ρ : ℝ, 0 ≤ c ∧ 0 < h0 ∧ 0 < ρ ∧ ∀ (env : Env (Vec ℝ d × Mat ℝ d) Er Fr) (δ : ℝ), 0 ≤ δ → StepsOf env mt (Carries f) δ → env.KeepsEpoch →
      ∀ (cond : Cond (Vec ℝ d × Mat ℝ d) Er C) (fuel : Nat) (dur : Int) (i : Inst (Vec ℝ d × Mat ℝ d)) (mem : C) (m H : Int)
        (o : Outcome (Vec ℝ d × Mat ℝ d) Er C), 2 ≤ m → Drivable env m i → i.step ≤ H →
      (i.fixed = false → env.opts.maxStep ≤ H) → ((toSec H : ℚ) : ℝ) ≤ h0 →
      ((toSec i.st.epoch : ℚ) : ℝ) = a → ((toSec (i.st.epoch + dur) : ℚ) : ℝ) ∈ Set.Icc a b → i.st.x.2 = 1 →
      ∀ B : ℝ, B = c * (‖i.st.x.1 - z a‖ + ((toSec H : ℚ) : ℝ) + treeTol mt false +
        (if i.fixed then 0 else 1 / (env.opts.minStep : ℝ)) + (o.sent.length + 1 : ℕ) * δ) → B ≤ ρ →
      propagate env cond fuel dur i mem = some o →
      ∀ s, o.res = .ok s ∨ s ∈ o.sent → ‖s.x.2 - Φ (toSec s.epoch : ℚ)‖ ≤ B := by
  have hp : 2 ≤ mt.tab.order := by cases mt <;> decide
  refine ⟨fun t ht => ?_, ?_⟩
  · exact variational_isStm hp (p := mt.tab.order) ⟨ht.1, fun s hs => hz.solves s ⟨hs.1, hs.2.trans ht.2⟩, fun s hs => hz.smooth s ⟨hs.1, hs.2.trans ht.2⟩⟩ h1
      fun s hs => (hΦ s ⟨hs.1, hs.2.trans ht.2⟩).self_of_nhds
  · obtain ⟨c, h0, ρ, hc, hh0, hρ, key⟩ := stm_limit (Er := Er) (Fr := Fr) (C := C) mt f z a b hz Φ (commuting_solution hp hz h1 hΦ hw hcomm)
    refine ⟨c, h0, ρ, hc, hh0, hρ, ?_⟩
    intro env δ hδ hI hk cond fuel dur i mem m H o hm hi hstep hmax hH ht0 ht1 hone B hB hBρ hpr s hs
    refine (key env δ hδ hI hk cond fuel dur i mem m H o hm hi hstep hmax hH (by rw [ht0]; exact ⟨le_rfl, hz.order⟩) ht1 B ?_ hBρ hpr s hs).2
    rw [hB, ht0, h1, hone, sub_self, norm_zero, max_eq_left (norm_nonneg _)]

/-! ### An orbit on which the limit is wrong -/

/-- The radial motion in the field of a point mass with `μ = 2/9`, without rotation: distance and velocity. -/
noncomputable def escape (_ : ℝ) (x : Vec ℝ 2) : Vec ℝ 2 := ![x 1, -(2 / 9) / x 0 ^ 2]

/-- The parabolic escape: the distance is `t ^ (2/3)`. -/
noncomputable def escapeTraj (t : ℝ) : Vec ℝ 2 := ![(t ^ (1 / 3 : ℝ)) ^ 2, 2 / 3 / t ^ (1 / 3 : ℝ)]

theorem cbrt_deriv {t : ℝ} (ht : 0 < t) : HasDerivAt (fun s : ℝ => s ^ (1 / 3 : ℝ)) (1 / (3 * (t ^ (1 / 3 : ℝ)) ^ 2)) t := by
  have h := Real.hasDerivAt_rpow_const (x := t) (p := 1 / 3) (Or.inl ht.ne')
  convert h using 1
  have e : t ^ ((1 : ℝ) / 3 - 1) = ((t ^ (1 / 3 : ℝ)) ^ 2)⁻¹ := by
    rw [← Real.rpow_natCast, ← Real.rpow_mul ht.le, ← Real.rpow_neg ht.le]
    norm_num
  rw [e]
  have : 0 < t ^ (1 / 3 : ℝ) := Real.rpow_pos_of_pos ht _
  field_simp

/-- A function of the cube root of the time. -/
theorem of_cbrt {g : ℝ → ℝ} {g' D t : ℝ} (ht : 0 < t) (hg : HasDerivAt g g' (t ^ (1 / 3 : ℝ))) (e : D = g' * (1 / (3 * (t ^ (1 / 3 : ℝ)) ^ 2))) :
    HasDerivAt (fun s : ℝ => g (s ^ (1 / 3 : ℝ))) D t := by
  rw [e]
  exact hg.comp t (cbrt_deriv ht)

theorem escape_fderiv (t : ℝ) (x : Vec ℝ 2) (hx : x 0 ≠ 0) :
    HasFDerivAt (escape t) (LinearMap.toContinuousLinearMap (Matrix.toLin' !![0, 1; 4 / 9 / x 0 ^ 3, 0])) x := by
  rw [hasFDerivAt_pi']
  intro i
  have hproj : ∀ j : Fin 2, HasFDerivAt (fun v : Vec ℝ 2 => v j) (ContinuousLinearMap.proj (R := ℝ) (φ := fun _ : Fin 2 => ℝ) j) x := fun j => hasFDerivAt_apply j x
  fin_cases i
  · refine (hproj 1).congr_fderiv ?_
    ext v
    simp [Matrix.toLin'_apply, Matrix.mulVec, dotProduct, Fin.sum_univ_two]
  · have h : HasDerivAt (fun r : ℝ => -(2 / 9) / r ^ 2) (4 / 9 / x 0 ^ 3) (x 0) := by
      have := (hasDerivAt_const (x 0) (-(2 / 9) : ℝ)).div (hasDerivAt_pow 2 (x 0)) (pow_ne_zero 2 hx)
      refine this.congr_deriv ?_
      field_simp
      norm_num
      ring
    refine (h.comp_hasFDerivAt x (hproj 0)).congr_fderiv ?_
    ext v
    simp [Matrix.toLin'_apply, Matrix.mulVec, dotProduct, Fin.sum_univ_two]

theorem escape_gradient (t : ℝ) (x : Vec ℝ 2) (hx : x 0 ≠ 0) : gradient escape t x = !![0, 1; 4 / 9 / x 0 ^ 3, 0] := by
  unfold gradient
  rw [(escape_fderiv t x hx).fderiv]
  exact LinearMap.toMatrix'_toLin' _

theorem cbrt_pos {t : ℝ} (ht : 0 < t) : 0 < t ^ (1 / 3 : ℝ) := Real.rpow_pos_of_pos ht _

theorem escape_solves {t : ℝ} (ht : 0 < t) : HasDerivAt escapeTraj (escape t (escapeTraj t)) t := by
  have hu := cbrt_pos ht
  rw [hasDerivAt_pi]
  intro i
  fin_cases i
  · refine of_cbrt (g := fun u => u ^ 2) ht (hasDerivAt_pow 2 _) ?_
    simp only [escape, escapeTraj]
    simp
    field_simp
  · refine of_cbrt (g := fun u => 2 / 3 / u) ht ((hasDerivAt_const _ (2 / 3 : ℝ)).div (hasDerivAt_id' _) hu.ne') ?_
    simp only [escape, escapeTraj]
    simp
    field_simp
    norm_num

theorem escape_along (p : Nat) : Along escape p escapeTraj 1 8 := by
  refine ⟨by norm_num, fun t ht => ?_, fun t ht => ?_⟩
  · filter_upwards [lt_mem_nhds (show (0 : ℝ) < t by linarith [ht.1])] with s hs
    exact escape_solves hs
  · have hpos : 0 < t := by linarith [ht.1]
    have hu := cbrt_pos hpos
    rw [contDiffAt_pi]
    intro i
    have hx : ∀ j : Fin 2, ContDiffAt ℝ p (fun w : ℝ × Vec ℝ 2 => w.2 j) (t, escapeTraj t) := fun j =>
      (contDiff_apply ℝ ℝ j).contDiffAt.comp _ contDiffAt_snd
    fin_cases i
    · exact hx 1
    · refine contDiffAt_const.div ((hx 0).pow 2) ?_
      have e : escapeTraj t 0 = (t ^ (1 / 3 : ℝ)) ^ 2 := by simp [escapeTraj]
      show escapeTraj t 0 ^ 2 ≠ 0
      rw [e]
      positivity

/-- The components of the variations of the escape, by the cube root of the time. -/
noncomputable def xi1 (u : ℝ) : ℝ := (u ^ 4 + 4 / u) / 5
noncomputable def xi2 (u : ℝ) : ℝ := 3 / 5 * (u ^ 4 - 1 / u)
noncomputable def eta1 (u : ℝ) : ℝ := 4 / 15 * (u - 1 / u ^ 4)
noncomputable def eta2 (u : ℝ) : ℝ := (4 * u + 1 / u ^ 4) / 5

theorem inv_deriv (n : Nat) {u : ℝ} (hu : u ≠ 0) : HasDerivAt (fun v : ℝ => 1 / v ^ (n + 1)) (-(n + 1) / u ^ (n + 2)) u := by
  have := (hasDerivAt_const u (1 : ℝ)).div (hasDerivAt_pow (n + 1) u) (pow_ne_zero _ hu)
  refine this.congr_deriv ?_
  push_cast
  rw [div_eq_div_iff (by positivity) (by positivity)]
  ring

theorem xi1_deriv {t : ℝ} (ht : 0 < t) : HasDerivAt (fun s : ℝ => xi1 (s ^ (1 / 3 : ℝ))) (eta1 (t ^ (1 / 3 : ℝ))) t := by
  have hu := cbrt_pos ht
  have h1 := inv_deriv 0 hu.ne'
  simp only [zero_add, pow_one] at h1
  have h := ((hasDerivAt_pow 4 (t ^ (1 / 3 : ℝ))).add (h1.const_mul 4)).div_const 5
  refine of_cbrt ht (h.congr_of_eventuallyEq (Eventually.of_forall fun u => ?_)) ?_
  · simp only [xi1, Pi.add_apply]
    ring
  · simp only [eta1]
    push_cast
    field_simp
    ring

theorem xi2_deriv {t : ℝ} (ht : 0 < t) : HasDerivAt (fun s : ℝ => xi2 (s ^ (1 / 3 : ℝ))) (eta2 (t ^ (1 / 3 : ℝ))) t := by
  have hu := cbrt_pos ht
  have h1 := inv_deriv 0 hu.ne'
  simp only [zero_add, pow_one] at h1
  have h := ((hasDerivAt_pow 4 (t ^ (1 / 3 : ℝ))).sub h1).const_mul (3 / 5)
  refine of_cbrt ht (h.congr_of_eventuallyEq (Eventually.of_forall fun u => ?_)) ?_
  · simp only [xi2, Pi.sub_apply]
  · simp only [eta2]
    push_cast
    field_simp
    ring

theorem eta1_deriv {t : ℝ} (ht : 0 < t) :
    HasDerivAt (fun s : ℝ => eta1 (s ^ (1 / 3 : ℝ))) (4 / 9 / (t ^ (1 / 3 : ℝ)) ^ 6 * xi1 (t ^ (1 / 3 : ℝ))) t := by
  have hu := cbrt_pos ht
  have h1 := inv_deriv 3 hu.ne'
  norm_num at h1
  have h := ((hasDerivAt_id' (t ^ (1 / 3 : ℝ))).sub h1).const_mul (4 / 15)
  refine of_cbrt ht (h.congr_of_eventuallyEq (Eventually.of_forall fun u => ?_)) ?_
  · simp only [eta1, Pi.sub_apply, one_div]
  · simp only [xi1]
    field_simp
    ring

theorem eta2_deriv {t : ℝ} (ht : 0 < t) :
    HasDerivAt (fun s : ℝ => eta2 (s ^ (1 / 3 : ℝ))) (4 / 9 / (t ^ (1 / 3 : ℝ)) ^ 6 * xi2 (t ^ (1 / 3 : ℝ))) t := by
  have hu := cbrt_pos ht
  have h1 := inv_deriv 3 hu.ne'
  norm_num at h1
  have h := (((hasDerivAt_id' (t ^ (1 / 3 : ℝ))).const_mul 4).add h1).div_const 5
  refine of_cbrt ht (h.congr_of_eventuallyEq (Eventually.of_forall fun u => ?_)) ?_
  · simp only [eta2, Pi.add_apply, one_div]
  · simp only [xi2]
    field_simp
    ring

/-- A matrix of functions. -/
theorem matrix_deriv {p q r s : ℝ → ℝ} {p' q' r' s' t : ℝ} (hp : HasDerivAt p p' t) (hq : HasDerivAt q q' t) (hr : HasDerivAt r r' t) (hs : HasDerivAt s s' t) :
    HasDerivAt (fun t => (!![p t, q t; r t, s t] : Mat ℝ 2)) !![p', q'; r', s'] t := by
  have e : ∀ x y z w : ℝ, (!![x, y; z, w] : Mat ℝ 2) = x • !![1, 0; 0, 0] + y • !![0, 1; 0, 0] + z • !![0, 0; 1, 0] + w • !![0, 0; 0, 1] := by
    intro x y z w
    ext i j
    fin_cases i <;> fin_cases j <;> simp
  rw [e]
  simp only [e (p _) _ _ _]
  exact (((hp.smul_const _).add (hq.smul_const _)).add (hr.smul_const _)).add (hs.smul_const _)

/-- The exact transition matrix of the escape from the time 1. -/
noncomputable def escapeStm (t : ℝ) : Mat ℝ 2 := !![xi1 (t ^ (1 / 3 : ℝ)), xi2 (t ^ (1 / 3 : ℝ)); eta1 (t ^ (1 / 3 : ℝ)), eta2 (t ^ (1 / 3 : ℝ))]

/-- The limit of the propagated ones. -/
noncomputable def escapeLimit (t : ℝ) : Mat ℝ 2 := !![eta2 (t ^ (1 / 3 : ℝ)), xi2 (t ^ (1 / 3 : ℝ)); eta1 (t ^ (1 / 3 : ℝ)), xi1 (t ^ (1 / 3 : ℝ))]

theorem escape_gradient_at {t : ℝ} (ht : 0 < t) : gradient escape t (escapeTraj t) = !![0, 1; 4 / 9 / (t ^ (1 / 3 : ℝ)) ^ 6, 0] := by
  have hu := cbrt_pos ht
  have e : escapeTraj t 0 = (t ^ (1 / 3 : ℝ)) ^ 2 := by simp [escapeTraj]
  rw [escape_gradient t _ (by rw [e]; positivity), e, ← pow_mul]

theorem escapeStm_deriv {t : ℝ} (ht : 0 < t) : HasDerivAt escapeStm (gradient escape t (escapeTraj t) * escapeStm t) t := by
  have h := matrix_deriv (xi1_deriv ht) (xi2_deriv ht) (eta1_deriv ht) (eta2_deriv ht)
  rw [escape_gradient_at ht]
  refine h.congr_deriv ?_
  ext i j
  fin_cases i <;> fin_cases j <;> simp [escapeStm, Matrix.mul_apply, Fin.sum_univ_two]

theorem escapeLimit_deriv {t : ℝ} (ht : 0 < t) : HasDerivAt escapeLimit (escapeLimit t * gradient escape t (escapeTraj t)) t := by
  have h := matrix_deriv (eta2_deriv ht) (xi2_deriv ht) (eta1_deriv ht) (xi1_deriv ht)
  rw [escape_gradient_at ht]
  refine h.congr_deriv ?_
  ext i j
  fin_cases i <;> fin_cases j <;> simp [escapeLimit, Matrix.mul_apply, Fin.sum_univ_two, mul_comm]

theorem cbrt_one : (1 : ℝ) ^ (1 / 3 : ℝ) = 1 := Real.one_rpow _

theorem cbrt_eight : (8 : ℝ) ^ (1 / 3 : ℝ) = 2 := by
  have : (8 : ℝ) = 2 ^ (3 : ℝ) := by norm_num
  rw [this, ← Real.rpow_mul (by norm_num)]
  norm_num

theorem escapeStm_start : escapeStm 1 = 1 := by
  unfold escapeStm
  rw [cbrt_one]
  ext i j
  fin_cases i <;> fin_cases j <;> norm_num [xi1, xi2, eta1, eta2, Matrix.one_apply]

theorem escapeLimit_start : escapeLimit 1 = 1 := by
  unfold escapeLimit
  rw [cbrt_one]
  ext i j
  fin_cases i <;> fin_cases j <;> norm_num [xi1, xi2, eta1, eta2, Matrix.one_apply]

theorem entry_le (M : Mat ℝ d) (i j : Fin d) : |M i j| ≤ ‖M‖ := by
  have h1 := mulVec_norm M (Pi.single j 1)
  have h2 := norm_le_pi_norm (M.mulVec (Pi.single j 1)) i
  rw [Matrix.mulVec_single_one] at h1 h2
  have h3 : ‖(Pi.single j 1 : Vec ℝ d)‖ = 1 := by rw [Pi.norm_single]; simp
  rw [h3, mul_one] at h1
  exact h2.trans h1

/-- **C220, refuted.** The radial escape from a point mass, from one second to eight seconds, with the transition matrix started from the identity: the
derivative of the final distance by the initial distance is `18/5`, but with every method of exact coefficients and all steps small enough the propagated
transition matrix has an entry within `1/100` of `129/80` in its place. -/
theorem stm_wrong_limit [DecidableEq Fr] (mt : Method) (hmt : mt = .rungeKutta4 ∨ mt = .cashKarp45 ∨ mt = .dormandPrince45 ∨ mt = .verner56) :
    (∃ M, IsStm escape escapeTraj 1 8 M ∧ M 0 0 = 18 / 5) ∧
    ∃ h0 : ℝ, 0 < h0 ∧ ∀ (env : Env (Vec ℝ 2 × Mat ℝ 2) Er Fr), StepsOf env mt (Carries escape) 0 → env.KeepsEpoch →
      ∀ (fuel : Nat) (i : Inst (Vec ℝ 2 × Mat ℝ 2)) (o : Outcome (Vec ℝ 2 × Mat ℝ 2) Er Unit), i.fixed = true → 2 ≤ i.step →
      ((toSec i.step : ℚ) : ℝ) ≤ h0 → i.st = ⟨1000000000, (escapeTraj 1, 1)⟩ →
      forDuration env fuel 7000000000 i = some o → ∀ s, o.res = .ok s → |s.x.2 0 0 - 129 / 80| ≤ 1 / 100 := by
  have hpos : ∀ t ∈ Set.Icc (1 : ℝ) 8, ∀ᶠ s in 𝓝 t, (0 : ℝ) < s := fun t ht => lt_mem_nhds (by linarith [ht.1])
  refine ⟨⟨escapeStm 8, variational_isStm (p := 2) le_rfl (escape_along 2) escapeStm_start fun t ht => escapeStm_deriv (by linarith [ht.1]), ?_⟩, ?_⟩
  · unfold escapeStm
    rw [cbrt_eight]
    norm_num [xi1]
  obtain ⟨c, h0, ρ, hc, hh0, hρ, key⟩ := stm_limit (Er := Er) (Fr := Fr) (C := Unit) mt escape escapeTraj 1 8 (escape_along _) escapeLimit
    fun t ht => (hpos t ht).mono fun s hs => escapeLimit_deriv hs
  refine ⟨min h0 (min ρ (1 / 100) / (c + 1)), by positivity, ?_⟩
  intro env hI hk fuel i o hfix hstep hH hst hrun s hs
  have htol : treeTol mt false = 0 := by rcases hmt with rfl | rfl | rfl | rfl <;> rfl
  have he : i.st.epoch = 1000000000 := by rw [hst]
  have hx : i.st.x = (escapeTraj 1, 1) := by rw [hst]
  have t1 : ((toSec 1000000000 : ℚ) : ℝ) = 1 := by norm_num [toSec]
  have t8 : ((toSec (1000000000 + 7000000000) : ℚ) : ℝ) = 8 := by norm_num [toSec]
  have hstep0 : (0 : ℝ) ≤ ((toSec i.step : ℚ) : ℝ) := by
    have : (0 : ℚ) ≤ toSec i.step := by
      unfold toSec
      have : (0 : ℚ) ≤ (i.step : ℚ) := by exact_mod_cast (by omega : (0 : ℤ) ≤ i.step)
      positivity
    exact_mod_cast this
  have hB : c * ((toSec i.step : ℚ) : ℝ) ≤ min ρ (1 / 100) := by
    have h1 := hH.trans (min_le_right _ _)
    rw [le_div_iff₀ (by linarith)] at h1
    nlinarith
  have hres := key env 0 le_rfl hI hk never fuel 7000000000 i () 2 i.step o le_rfl ⟨by norm_num, hstep, fun h => by rw [hfix] at h; cases h⟩ le_rfl
    (fun h => by rw [hfix] at h; cases h) (hH.trans (min_le_left _ _)) (by rw [he, t1]; norm_num) (by rw [he, t8]; norm_num) (c * ((toSec i.step : ℚ) : ℝ)) (by
      rw [he, t1, hx, htol, hfix, escapeLimit_start]
      simp) (hB.trans (min_le_left _ _)) hrun s (Or.inl hs)
  have ha := (forDuration_arrives env hk fuel 7000000000 i o s hrun hs).1
  rw [ha, he, t8] at hres
  have h2 := (entry_le (s.x.2 - escapeLimit 8) 0 0).trans (hres.2.trans (hB.trans (min_le_right _ _)))
  have h3 : escapeLimit 8 0 0 = 129 / 80 := by
    unfold escapeLimit
    rw [cbrt_eight]
    norm_num [eta2]
  rw [Matrix.sub_apply, h3] at h2
  exact h2

/-! ### Non-vacuity -/

/-- The dynamics with the equations of motion `f` from the time `t`. -/
noncomputable def smoothDyn (f : ℝ → Vec ℝ d → Vec ℝ d) (t : ℝ) : Dyn ℝ d where
  dual := fun τ v => some (f (t + τ) v, gradient f (t + τ) v)
  plain := fun τ v => some (f (t + τ) v)

/-- The propagator of `x' = f(t, x)` and of its transition matrix with fixed steps of a shipped method. -/
noncomputable def carrier (f : ℝ → Vec ℝ d → Vec ℝ d) (mt : Method) : Env (Vec ℝ d × Mat ℝ d) Unit Unit where
  opts := { minStep := 1000000, maxStep := 10000000000, tol := 1, attempts := 50, order := mt.tab.order }
  rk := fun st s => match rkStep mt.tab ((smoothDyn f (toSec st.epoch : ℚ)).eom (some st.x.2)) true st.x s with
    | .ok (x, _) => .ok ⟨x, 0, false⟩
    | _ => .error ()
  root := fun _ _ => 1
  finally_ := fun s => .ok s
  integrationFrame := none
  frameOf := fun _ => ()
  transform := fun _ s => .ok s

theorem carrier_steps (f : ℝ → Vec ℝ d → Vec ℝ d) (mt : Method) : StepsOf (carrier f mt) mt (Carries f) 0 := by
  refine ⟨?_, ?_, rfl⟩
  · intro st s r h
    unfold carrier at h
    simp only at h
    split at h
    · rename_i x err hx
      cases h
      exact ⟨_, true, x, err, ⟨_, fun τ v r hr => by cases hr; rfl, rfl⟩, hx, by simp⟩
    · cases h
  · intro s s' h
    cases h
    rfl

theorem carrier_keeps (f : ℝ → Vec ℝ d → Vec ℝ d) (mt : Method) : (carrier f mt).KeepsEpoch := by
  constructor
  · intro s s' h
    cases h
    rfl
  · intro f s s' h
    cases h
    rfl

theorem carrier_rk (f : ℝ → Vec ℝ d → Vec ℝ d) (mt : Method) (st : St (Vec ℝ d × Mat ℝ d)) (s : ℚ) : ∃ r, (carrier f mt).rk st s = .ok r := by
  obtain ⟨r, hr⟩ := rkStep_total mt.tab (method_shaped mt) ((smoothDyn f (toSec st.epoch : ℚ)).eom (some st.x.2)) (fun τ y => ⟨_, rfl⟩) true st.x s
  unfold carrier
  simp only [hr]
  exact ⟨_, rfl⟩

/-- A propagation with fixed steps whose steps do not fail returns a state. -/
theorem fixed_returns [DecidableEq Fr] {X : Type} (env : Env X Er Fr) (hk : env.KeepsEpoch) (hrk : ∀ st s, ∃ r, env.rk st s = .ok r)
    (hfin : ∀ s, env.finally_ s = .ok s) (hfr : env.integrationFrame = none) (dur : Int) (i : Inst X) (hfix : i.fixed = true) (hs : 2 ≤ i.step) :
    ∃ fuel o s, forDuration env fuel dur i = some o ∧ o.res = .ok s := by
  have hstep : ∀ j : Inst X, j.fixed = true → ∃ j' : Inst X, j'.fixed = true ∧ singleStep env j = (.ok (), j') := by
    intro j hj
    obtain ⟨r, hr⟩ := hrk j.st (toSec j.step)
    unfold singleStep derive
    rw [if_pos hj, hr]
    simp only [hfin]
    exact ⟨⟨⟨j.st.epoch + j.step, r.x⟩, j.step, j.fixed⟩, hj, rfl⟩
  have hloop : ∀ n back stop (j : Inst X) sent o, j.fixed = true → loop env never back stop none n j sent () = some o → ∃ s, o.res = .ok s := by
    intro n
    induction n with
    | zero => intro back stop j sent o _ h; cases h
    | succ n ih =>
      intro back stop j sent o hj h
      unfold loop at h
      simp only at h
      split at h
      · split at h
        · cases h
          exact ⟨_, rfl⟩
        · obtain ⟨j', -, e⟩ := hstep ⟨j.st, stop - j.st.epoch, true⟩ rfl
          rw [e] at h
          cases h
          exact ⟨_, rfl⟩
      · obtain ⟨j', e1, e2⟩ := hstep j hj
        rw [e2] at h
        simp only [never] at h
        exact ih _ _ _ _ _ e1 h
  have ht := propagate_terminates env hk never dur i () 2 ⟨by norm_num, hs, fun h => by rw [hfix] at h; cases h⟩ fun _ => le_rfl
  obtain ⟨o, ho⟩ := Option.isSome_iff_exists.1 ht
  suffices h : ∃ s, o.res = .ok s by
    obtain ⟨s, h⟩ := h
    exact ⟨dur.natAbs / (2 : Int).natAbs + 1, o, s, ho, h⟩
  unfold propagate at ho
  split at ho
  · cases ho
    exact ⟨_, rfl⟩
  · simp only [hfin, hfr] at ho
    exact hloop _ _ _ _ _ _ (by exact hfix) ho

/-- The propagations of the counterexample exist, with every size of step. -/
theorem escape_runs (mt : Method) (step : Int) (hs : 2 ≤ step) :
    ∃ fuel o s, forDuration (carrier escape mt) fuel 7000000000 ⟨⟨1000000000, (escapeTraj 1, 1)⟩, step, true⟩ = some o ∧ o.res = .ok s :=
  fixed_returns (carrier escape mt) (carrier_keeps _ _) (carrier_rk _ _) (fun _ => rfl) rfl _ _ rfl hs

example := stm_wrong_limit (Er := Unit) (Fr := Unit) .rungeKutta4 (by simp)

/-- Non-vacuity: the harmonic oscillator. -/
noncomputable def spring (_ : ℝ) (x : Vec ℝ 2) : Vec ℝ 2 := ![x 1, -x 0]

theorem spring_gradient (t : ℝ) (x : Vec ℝ 2) : gradient spring t x = !![0, 1; -1, 0] := by
  have h : HasFDerivAt (spring t) (LinearMap.toContinuousLinearMap (Matrix.toLin' !![0, 1; -1, 0])) x := by
    rw [hasFDerivAt_pi']
    intro i
    have hproj : ∀ j : Fin 2, HasFDerivAt (fun v : Vec ℝ 2 => v j) (ContinuousLinearMap.proj (R := ℝ) (φ := fun _ : Fin 2 => ℝ) j) x := fun j => hasFDerivAt_apply j x
    fin_cases i
    · refine (hproj 1).congr_fderiv ?_
      ext v
      simp [Matrix.toLin'_apply, Matrix.mulVec, dotProduct, Fin.sum_univ_two]
    · refine (hproj 0).neg.congr_fderiv ?_
      ext v
      simp [Matrix.toLin'_apply, Matrix.mulVec, dotProduct, Fin.sum_univ_two]
  unfold gradient
  rw [h.fderiv]
  exact LinearMap.toMatrix'_toLin' _

theorem spring_along (p : Nat) : Along spring p (fun t => ![Real.cos t, -Real.sin t]) 0 1 := by
  refine ⟨by norm_num, fun t _ => Eventually.of_forall fun s => ?_, fun t _ => ?_⟩
  · rw [hasDerivAt_pi]
    intro i
    fin_cases i
    · exact Real.hasDerivAt_cos s
    · exact (Real.hasDerivAt_sin s).neg
  · rw [contDiffAt_pi]
    intro i
    have hx : ∀ j : Fin 2, ContDiffAt ℝ p (fun w : ℝ × Vec ℝ 2 => w.2 j) (t, ![Real.cos t, -Real.sin t]) := fun j =>
      (contDiff_apply ℝ ℝ j).contDiffAt.comp _ contDiffAt_snd
    fin_cases i
    · exact hx 1
    · exact (hx 0).neg

example := stm_commuting_partial (Er := Unit) (Fr := Unit) (C := Unit) .rungeKutta4 spring _ 0 1 (spring_along _)
  (fun t => !![Real.cos t, Real.sin t; -Real.sin t, Real.cos t])
  (by ext i j; fin_cases i <;> fin_cases j <;> simp [Matrix.one_apply])
  (fun t _ => Eventually.of_forall fun s => by
    rw [spring_gradient]
    refine (matrix_deriv (Real.hasDerivAt_cos s) (Real.hasDerivAt_sin s) (Real.hasDerivAt_sin s).neg (Real.hasDerivAt_cos s)).congr_deriv ?_
    ext i j
    fin_cases i <;> fin_cases j <;> simp [Matrix.mul_apply, Fin.sum_univ_two])
  1 one_pos (fun s _ t _ => by rw [spring_gradient, spring_gradient])

end Verif.Propagate
