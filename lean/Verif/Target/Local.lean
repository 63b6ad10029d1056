import Verif.Target.Linear
import Mathlib.Analysis.InnerProductSpace.PiL2
import Mathlib.Algebra.Order.Chebyshev
import Mathlib.Analysis.Calculus.MeanValue
import Mathlib.Analysis.Calculus.Deriv.Prod
import Mathlib.Analysis.Calculus.Deriv.Pow
import Mathlib.Tactic.Module
import Mathlib.Tactic.Linarith
import Mathlib.Tactic.Positivity
/-!
C223: the targeter on a problem whose objectives are smooth functions of the variables, near a solution.
-/
namespace Verif.Target
open Matrix
open Verif.Spacecraft (Craft)
open Verif.MathU (V3 nrm pseudoInverse)

variable {Fr E LF : Type} {nv no : Nat} {C : Cfg Fr E LF nv no}

/-! ### The norm of a vector -/

theorem nrm_eq_norm {n : Nat} (v : Fin n → ℝ) : nrm v = ‖WithLp.toLp 2 v‖ := by
  rw [nrm, EuclideanSpace.norm_eq]
  congr 1
  simp [dotProduct, sq]

theorem nrm_pos_or {n : Nat} (v : Fin n → ℝ) : 0 ≤ nrm v := Real.sqrt_nonneg _

theorem nrm_add_le {n : Nat} (v w : Fin n → ℝ) : nrm (v + w) ≤ nrm v + nrm w := by
  simp only [nrm_eq_norm, WithLp.toLp_add]
  exact norm_add_le _ _

theorem nrm_sub_le {n : Nat} (v w : Fin n → ℝ) : nrm (v - w) ≤ nrm v + nrm w := by
  simp only [nrm_eq_norm, WithLp.toLp_sub]
  exact norm_sub_le _ _

theorem nrm_smul {n : Nat} (a : ℝ) (v : Fin n → ℝ) : nrm (a • v) = |a| * nrm v := by
  simp only [nrm_eq_norm, WithLp.toLp_smul, norm_smul, Real.norm_eq_abs]

theorem nrm_eq_zero {n : Nat} {v : Fin n → ℝ} (h : nrm v = 0) : v = 0 := by
  rw [nrm_eq_norm, norm_eq_zero] at h
  exact congrArg WithLp.ofLp h

theorem nrm_single {n : Nat} (j : Fin n) (a : ℝ) : nrm (Pi.single j a) = |a| := by
  rw [nrm, single_dotProduct, Pi.single_eq_same, ← sq, Real.sqrt_sq_eq_abs]

theorem abs_le_nrm {n : Nat} (v : Fin n → ℝ) (i : Fin n) : |v i| ≤ nrm v := by
  rw [nrm, ← Real.sqrt_sq_eq_abs]
  refine Real.sqrt_le_sqrt ?_
  rw [dotProduct, sq]
  exact Finset.single_le_sum (f := fun i => v i * v i) (fun i _ => mul_self_nonneg _) (Finset.mem_univ i)

theorem nrm_mono {n : Nat} {v w : Fin n → ℝ} {a : ℝ} (ha : 0 ≤ a) (h : ∀ i, |v i| ≤ a * |w i|) : nrm v ≤ a * nrm w := by
  rw [nrm, nrm, ← Real.sqrt_sq ha, ← Real.sqrt_mul (sq_nonneg a)]
  refine Real.sqrt_le_sqrt ?_
  rw [dotProduct, dotProduct, Finset.mul_sum]
  refine Finset.sum_le_sum fun i _ => ?_
  have := mul_self_le_mul_self (abs_nonneg _) (h i)
  rw [abs_mul_abs_self] at this
  calc v i * v i ≤ a * |w i| * (a * |w i|) := this
    _ = a ^ 2 * (w i * w i) := by rw [← abs_mul_abs_self (w i)]; ring

theorem nrm_sum_le {n m : Nat} (f : Fin n → Fin m → ℝ) : nrm (∑ j, f j) ≤ ∑ j, nrm (f j) := by
  simp only [nrm_eq_norm, WithLp.toLp_sum]
  exact norm_sum_le _ _

/-- The inequality of Cauchy and Schwarz. -/
theorem sum_abs_mul_le {n : Nat} (v w : Fin n → ℝ) : ∑ j, |v j| * |w j| ≤ nrm v * nrm w := by
  rw [nrm, nrm, ← Real.sqrt_mul (by rw [dotProduct]; exact Finset.sum_nonneg fun i _ => mul_self_nonneg _)]
  refine Real.le_sqrt_of_sq_le ?_
  have := Finset.sum_mul_sq_le_sq_mul_sq Finset.univ (fun j => |v j|) fun j => |w j|
  simpa [dotProduct, sq] using this

/-! ### The pseudo inverse of a perturbed matrix -/

/-- The pseudo inverse of a matrix near one with a bounded right inverse exists, is a right inverse, and is
bounded. -/
theorem pinv_bound {J A : Matrix (Fin no) (Fin nv) ℝ} {B : Matrix (Fin nv) (Fin no) ℝ} {β ε : ℝ} (hle : no ≤ nv)
    (hAB : A * B = 1) (hβ : 0 ≤ β) (hB : ∀ e, nrm (B *ᵥ e) ≤ β * nrm e) (hε : 0 ≤ ε)
    (hJ : ∀ v, nrm (J *ᵥ v - A *ᵥ v) ≤ ε * nrm v) (hs : β * ε < 1) :
    ∃ P, pseudoInverse J = some P ∧ ∀ e, J *ᵥ (P *ᵥ e) = e ∧ nrm (P *ᵥ e) ≤ β / (1 - β * ε) * nrm e := by
  have hpos : 0 < 1 - β * ε := by linarith
  have hM : ∀ e, (1 - β * ε) * nrm e ≤ nrm ((J * B) *ᵥ e) := by
    intro e
    have h1 : e = (J * B) *ᵥ e - (J *ᵥ (B *ᵥ e) - A *ᵥ (B *ᵥ e)) := by
      rw [mulVec_mulVec, mulVec_mulVec, hAB, one_mulVec]; abel
    have h2 := nrm_sub_le ((J * B) *ᵥ e) (J *ᵥ (B *ᵥ e) - A *ᵥ (B *ᵥ e))
    rw [← h1] at h2
    have h3 := (hJ (B *ᵥ e)).trans (mul_le_mul_of_nonneg_left (hB e) hε)
    nlinarith [nrm_pos_or e]
  have hdet : IsUnit (J * B).det := by
    rw [isUnit_iff_ne_zero]
    intro h0
    obtain ⟨e, he, h⟩ := Matrix.exists_mulVec_eq_zero_iff.2 h0
    have := hM e
    rw [h] at this
    have h0 : nrm (0 : Fin no → ℝ) = 0 := by simp [nrm]
    rw [h0] at this
    exact he (nrm_eq_zero (le_antisymm (by by_contra hc; push Not at hc; nlinarith) (nrm_pos_or e)))
  have hsol : ∀ e, J *ᵥ (B *ᵥ ((J * B)⁻¹ *ᵥ e)) = e := fun e => by
    rw [mulVec_mulVec, mulVec_mulVec, mul_nonsing_inv _ hdet, one_mulVec]
  have hsolb : ∀ e, nrm (B *ᵥ ((J * B)⁻¹ *ᵥ e)) ≤ β / (1 - β * ε) * nrm e := by
    intro e
    have h1 := hM ((J * B)⁻¹ *ᵥ e)
    rw [mulVec_mulVec, mul_nonsing_inv _ hdet, one_mulVec] at h1
    calc nrm (B *ᵥ ((J * B)⁻¹ *ᵥ e)) ≤ β * nrm ((J * B)⁻¹ *ᵥ e) := hB _
      _ ≤ β * (nrm e / (1 - β * ε)) := mul_le_mul_of_nonneg_left ((le_div_iff₀ hpos).2 (by linarith)) hβ
      _ = _ := by ring
  have hinj : no = nv → ∀ x y, J *ᵥ x = J *ᵥ y → x = y := by
    intro hn x y hxy
    subst hn
    have h1 : J * (B * (J * B)⁻¹) = 1 := by rw [← Matrix.mul_assoc, mul_nonsing_inv _ hdet]
    have h2 := mul_eq_one_comm.1 h1
    have := congrArg (fun z => (B * (J * B)⁻¹) *ᵥ z) hxy
    simpa only [mulVec_mulVec, h2, one_mulVec] using this
  obtain ⟨P, hP⟩ : ∃ P, pseudoInverse J = some P := by
    rcases h : pseudoInverse J with _ | P
    · exfalso
      rw [MathU.pseudo_inverse_fails] at h
      split at h
      · obtain ⟨y, hy, h0⟩ := h
        apply hy
        have h1 : y ⬝ᵥ (J *ᵥ (B *ᵥ ((J * B)⁻¹ *ᵥ y))) = 0 := by
          rw [dotProduct_mulVec, ← mulVec_transpose, h0, zero_dotProduct]
        rw [hsol] at h1
        exact dotProduct_self_eq_zero.1 h1
      · obtain ⟨x, hx, h0⟩ := h
        exact hx (hinj (by omega) x 0 (by rw [h0, mulVec_zero]))
    · exact ⟨P, rfl⟩
  refine ⟨P, hP, fun e => ⟨right_inverse hle hP e, ?_⟩⟩
  rcases Nat.lt_or_eq_of_le hle with h | h
  · have h1 := (MathU.pseudo_inverse_wide J h P hP e).2 _ (hsol e)
    exact (Real.sqrt_le_sqrt h1).trans (hsolb e)
  · rw [hinj h (P *ᵥ e) _ ((right_inverse hle hP e).trans (hsol e).symm)]
    exact hsolb e

/-! ### The problem -/

/-- Specification: the change of position and velocity by the values `w` of the variables. -/
def shift (C : Cfg Fr E LF nv no) (w : Fin nv → ℝ) : Fin 6 → ℝ :=
  fun k => ∑ j, if (C.vars j).comp.vecIndex = some k.val then w j else 0

/-- Specification: from the state `x`, for values `w` of the variables of norm at most `ρ`, the value of the
objective `i` at the epoch `t` is `F w i`. -/
def Objectives (C : Cfg Fr E LF nv no) (x : Craft ℝ Fr) (t : Int) (ρ : ℝ) (F : (Fin nv → ℝ) → Fin no → ℝ) : Prop :=
  ∀ w, nrm w ≤ ρ → ∃ xf y bp, C.prop none none (x.add6 (shift C w)) t = some xf ∧ C.view (orbitOf xf) = some y ∧
    C.bp y = some bp ∧ ∀ i, ∃ g, C.value bp y (C.objs i).param = .ok (F w i, g)

/-- Specification: `F` has the derivative `A` with a remainder of second order, and `A` a bounded right
inverse, on the ball of radius `ρ`. -/
structure Smooth (F : (Fin nv → ℝ) → Fin no → ℝ) (A : (Fin nv → ℝ) → Matrix (Fin no) (Fin nv) ℝ) (ρ L β : ℝ) :
    Prop where
  remainder : ∀ v w, nrm v ≤ ρ → nrm w ≤ ρ → nrm (F v - F w - A w *ᵥ (v - w)) ≤ L / 2 * nrm (v - w) ^ 2
  regular : ∀ w, nrm w ≤ ρ → ∃ B : Matrix (Fin nv) (Fin no) ℝ, A w * B = 1 ∧ ∀ e, nrm (B *ᵥ e) ≤ β * nrm e
  curvature : 0 ≤ L
  bound : 0 ≤ β

/-- The remainder is of second order if the derivative is Lipschitz continuous. -/
theorem smooth_of_lipschitz {F : (Fin nv → ℝ) → Fin no → ℝ} {A : (Fin nv → ℝ) → Matrix (Fin no) (Fin nv) ℝ} {ρ L β : ℝ}
    (hd : ∀ w, nrm w ≤ ρ → ∀ d i, HasDerivAt (fun s : ℝ => F (w + s • d) i) ((A w *ᵥ d) i) 0)
    (hl : ∀ v w, nrm v ≤ ρ → nrm w ≤ ρ → ∀ d, nrm (A v *ᵥ d - A w *ᵥ d) ≤ L * nrm (v - w) * nrm d)
    (hr : ∀ w, nrm w ≤ ρ → ∃ B : Matrix (Fin nv) (Fin no) ℝ, A w * B = 1 ∧ ∀ e, nrm (B *ᵥ e) ≤ β * nrm e)
    (hL : 0 ≤ L) (hβ : 0 ≤ β) : Smooth F A ρ L β where
  remainder := by
    intro v w hv hw
    set d := v - w with hdd
    have hball : ∀ s ∈ Set.Icc (0 : ℝ) 1, nrm (w + s • d) ≤ ρ := by
      intro s hs
      have : w + s • d = (1 - s) • w + s • v := by rw [hdd]; module
      rw [this]
      refine (nrm_add_le _ _).trans ?_
      rw [nrm_smul, nrm_smul, abs_of_nonneg hs.1, abs_of_nonneg (by linarith [hs.2])]
      nlinarith [hs.1, hs.2]
    set φ : ℝ → EuclideanSpace ℝ (Fin no) := fun s => WithLp.toLp 2 (F (w + s • d) - F w - s • (A w *ᵥ d)) with hφ
    have hder : ∀ s ∈ Set.Icc (0 : ℝ) 1, HasDerivAt φ (WithLp.toLp 2 (A (w + s • d) *ᵥ d - A w *ᵥ d)) s := by
      intro s hs
      have hpi : HasDerivAt (fun s : ℝ => F (w + s • d) - F w - s • (A w *ᵥ d)) (A (w + s • d) *ᵥ d - A w *ᵥ d) s := by
        refine hasDerivAt_pi.2 fun i => ?_
        have h1 := hd (w + s • d) (hball s hs) d i
        have h2 : HasDerivAt (fun u : ℝ => F (w + u • d) i) ((A (w + s • d) *ᵥ d) i) s := by
          have h3 : HasDerivAt (fun u : ℝ => u - s) 1 s := (hasDerivAt_id s).sub_const s
          have h4 := HasDerivAt.comp s (h₂ := fun u : ℝ => F (w + s • d + u • d) i) (by simpa using h1) h3
          refine (h4.congr_deriv (mul_one _)).congr_of_eventuallyEq (Filter.Eventually.of_forall fun u => ?_)
          show F (w + u • d) i = F (w + s • d + (u - s) • d) i
          congr 1
          module
        have h5 := (h2.sub_const (F w i)).sub ((hasDerivAt_id s).mul_const ((A w *ᵥ d) i))
        exact h5.congr_deriv (by rw [one_mul, Pi.sub_apply])
      exact ((EuclideanSpace.equiv (Fin no) ℝ).symm : (Fin no → ℝ) →L[ℝ] EuclideanSpace ℝ (Fin no)).hasFDerivAt.comp_hasDerivAt s hpi
    have hB : ∀ s : ℝ, HasDerivAt (fun s : ℝ => L / 2 * nrm d ^ 2 * s ^ 2) (L * nrm d ^ 2 * s) s := by
      intro s
      exact (((hasDerivAt_pow 2 s).const_mul (L / 2 * nrm d ^ 2)).congr_deriv (by push_cast; ring))
    have := image_norm_le_of_norm_deriv_right_le_deriv_boundary (f := φ) (a := 0) (b := 1)
      (f' := fun s => WithLp.toLp 2 (A (w + s • d) *ᵥ d - A w *ᵥ d))
      (fun s hs => (hder s hs).continuousAt.continuousWithinAt)
      (fun s hs => (hder s ⟨hs.1, hs.2.le⟩).hasDerivWithinAt) (B := fun s => L / 2 * nrm d ^ 2 * s ^ 2) (by simp [hφ])
      hB (fun s hs => by
        rw [← nrm_eq_norm]
        refine (hl _ _ (hball s ⟨hs.1, hs.2.le⟩) hw d).trans (le_of_eq ?_)
        rw [add_sub_cancel_left, nrm_smul, abs_of_nonneg hs.1]
        ring) (Set.right_mem_Icc.2 zero_le_one)
    rw [hφ] at this
    simp only [one_smul, hdd, add_sub_cancel, one_pow, mul_one] at this
    rw [nrm_eq_norm]
    exact this
  regular := hr
  curvature := hL
  bound := hβ

/-- Specification: the errors for the values `w` of the variables. -/
def errs (C : Cfg Fr E LF nv no) (F : (Fin nv → ℝ) → Fin no → ℝ) (w : Fin nv → ℝ) : Fin no → ℝ :=
  fun i => (C.objs i).mult * ((C.objs i).desired - F w i) + (C.objs i).add

/-- Specification: the finite differences of `F`. -/
noncomputable def differences (C : Cfg Fr E LF nv no) (F : (Fin nv → ℝ) → Fin no → ℝ) (w : Fin nv → ℝ) :
    Matrix (Fin no) (Fin nv) ℝ :=
  of fun i j => (F (w + Pi.single j (C.vars j).pert) i - F w i) / (C.vars j).pert

theorem shift_add (v w : Fin nv → ℝ) : shift C (v + w) = shift C v + shift C w := by
  funext k
  simp only [shift, Pi.add_apply, ← Finset.sum_add_distrib]
  exact Finset.sum_congr rfl fun j _ => by split <;> simp

theorem shift_single (j : Fin nv) (p : ℝ) (k : Fin 6) :
    shift C (Pi.single j p) k = if (C.vars j).comp.vecIndex = some k.val then p else 0 := by
  rw [shift, Finset.sum_eq_single j]
  · rw [Pi.single_eq_same]
  · intro i _ hi
    rw [Pi.single_eq_of_ne hi, ite_self]
  · simp

/-- The finite differences are near the derivative. -/
theorem differences_near {F : (Fin nv → ℝ) → Fin no → ℝ} {A : (Fin nv → ℝ) → Matrix (Fin no) (Fin nv) ℝ}
    {ρ L β : ℝ} (hS : Smooth F A ρ L β) (hp : ∀ j, (C.vars j).pert ≠ 0) {w : Fin nv → ℝ} (hw : nrm w ≤ ρ)
    (hwp : ∀ j, nrm w + |(C.vars j).pert| ≤ ρ) (v : Fin nv → ℝ) :
    nrm (differences C F w *ᵥ v - A w *ᵥ v) ≤ L / 2 * nrm (fun j => (C.vars j).pert) * nrm v := by
  set r : Fin nv → Fin no → ℝ := fun j =>
    F (w + Pi.single j (C.vars j).pert) - F w - A w *ᵥ (w + Pi.single j (C.vars j).pert - w) with hr
  have hrb : ∀ j, nrm (r j) ≤ L / 2 * (C.vars j).pert ^ 2 := by
    intro j
    have h := hS.remainder (w + Pi.single j (C.vars j).pert) w
      ((nrm_add_le _ _).trans (by rw [nrm_single]; exact hwp j)) hw
    rw [add_sub_cancel_left, nrm_single, sq_abs] at h
    rw [hr]
    simp only [add_sub_cancel_left]
    exact h
  have hsum : differences C F w *ᵥ v - A w *ᵥ v = ∑ j, (v j / (C.vars j).pert) • r j := by
    funext i
    simp only [Pi.sub_apply, mulVec, dotProduct, differences, of_apply, Finset.sum_apply, Pi.smul_apply, smul_eq_mul,
      hr, add_sub_cancel_left, Pi.single_apply, mul_ite, mul_zero, Finset.sum_ite_eq', Finset.mem_univ, if_true]
    rw [← Finset.sum_sub_distrib]
    refine Finset.sum_congr rfl fun j _ => ?_
    have := hp j
    field_simp
  rw [hsum]
  refine (nrm_sum_le _).trans ?_
  calc ∑ j, nrm ((v j / (C.vars j).pert) • r j)
      ≤ ∑ j, L / 2 * (|(C.vars j).pert| * |v j|) := by
        refine Finset.sum_le_sum fun j _ => ?_
        rw [nrm_smul, abs_div]
        have hpj : 0 < |(C.vars j).pert| := abs_pos.2 (hp j)
        calc |v j| / |(C.vars j).pert| * nrm (r j) ≤ |v j| / |(C.vars j).pert| * (L / 2 * (C.vars j).pert ^ 2) :=
              mul_le_mul_of_nonneg_left (hrb j) (by positivity)
          _ = L / 2 * (|(C.vars j).pert| * |v j|) := by rw [← sq_abs (C.vars j).pert]; field_simp
    _ = L / 2 * ∑ j, |(C.vars j).pert| * |v j| := by rw [Finset.mul_sum]
    _ ≤ L / 2 * (nrm (fun j => (C.vars j).pert) * nrm v) :=
        mul_le_mul_of_nonneg_left (sum_abs_mul_le _ _) (by linarith [hS.curvature])
    _ = _ := by ring

/-- The evaluation of a smooth problem: the errors and the finite differences. -/
theorem evaluate_smooth {x : Craft ℝ Fr} {t : Int} {ρ : ℝ} {F : (Fin nv → ℝ) → Fin no → ℝ}
    (h : Objectives C x t ρ F) (hfin : ∀ j, (C.vars j).comp.isFinite = false) (hn : C.corrFrame = none)
    {w : Fin nv → ℝ} (hw : nrm w ≤ ρ) (hwp : ∀ j, nrm w + |(C.vars j).pert| ≤ ρ) (b : Burn) :
    ∃ ev, C.evaluate false (x.add6 (shift C w)) b t = .ok ev ∧
      (∀ i, ev.met i = decide (|errs C F w i| ≤ (C.objs i).tol)) ∧ ev.err = errs C F w ∧ ev.jac = differences C F w := by
  obtain ⟨xf, y, bp, h1, h2, h3, h4⟩ := h w hw
  choose g hg using h4
  have hjac : ∀ i j, C.jacEntry false (x.add6 (shift C w)) b t (F w i) (C.objs i) (C.vars j) =
      .ok (differences C F w i j) := by
    intro i j
    obtain ⟨c, hc⟩ := addIdx_total (c := 0) (hfin j) (C.vars j).pert
    have hcj : c = shift C (Pi.single j (C.vars j).pert) := by
      funext k
      rw [addIdx_ok hc, shift_single, Pi.zero_apply, zero_add]
    obtain ⟨xf', y', bp', k1, k2, k3, k4⟩ := h (w + Pi.single j (C.vars j).pert)
      ((nrm_add_le _ _).trans (by rw [nrm_single]; exact hwp j))
    obtain ⟨g', hg'⟩ := k4 i
    rw [shift_add, ← add6_add6, ← hcj] at k1
    have hper : C.perturb (x.add6 (shift C w)) b (C.vars j) = .ok ((x.add6 (shift C w)).add6 c, b, false) := by
      rw [Cfg.perturb, if_neg (by simp [hfin j]), hc]
      show Res.bind (unwrapO (C.applyCorr _ c)) _ = _
      rw [Cfg.applyCorr, hn]
      rfl
    have hflow : C.flow false b ((x.add6 (shift C w)).add6 c) t = some xf' := by
      rw [Cfg.flow, if_neg (by simp), k1]
    rw [Cfg.jacEntry, hper]
    show Res.bind (unwrapO (C.flow false b (if false = true then _ else (x.add6 (shift C w)).add6 c) t)) _ = _
    rw [if_neg (by simp), hflow]
    show Res.bind (unwrapO (C.view (orbitOf xf'))) _ = _
    rw [k2]
    show Res.bind (unwrapO (C.bp y')) _ = _
    rw [k3]
    show Res.bind (Res.unwrap (C.value bp' y' (C.objs i).param)) _ = _
    rw [hg']
    show Res.ok (if (C.vars j).comp = .thrustLevel then _ else if false = true then _ else _) = _
    rw [if_neg (not_thrustLevel (hfin j)), if_neg (by simp)]
    rfl
  refine ⟨⟨orbitOf xf, fun i => (C.objs i).met (F w i), fun i => (C.objs i).error (F w i), differences C F w⟩, ?_,
    fun i => rfl, rfl, rfl⟩
  have hflow : C.flow false b (x.add6 (shift C w)) t = some xf := by rw [Cfg.flow, if_neg (by simp), h1]
  rw [Cfg.evaluate, hflow]
  show Res.bind (orErr (C.view (orbitOf xf)) .astro) _ = _
  rw [h2]
  show Res.bind (orErr (C.bp y) .astro) _ = _
  rw [h3]
  show Res.bind (seqFin no _) _ = _
  rw [(seqFin_ok (g := fun i => (F w i, fun j => differences C F w i j))).2]
  · rfl
  · intro i
    rw [hg i]
    show Res.bind (seqFin nv _) _ = _
    rw [seqFin_ok.2 (hjac i)]
    rfl

/-! ### The iterations -/

/-- The errors after a correction `δ` which cancels the errors to first order in the Jacobian `J`. -/
theorem errs_step {F : (Fin nv → ℝ) → Fin no → ℝ} {A : (Fin nv → ℝ) → Matrix (Fin no) (Fin nv) ℝ} {ρ L β ε θ M κ : ℝ}
    {w : Fin nv → ℝ} {J : Matrix (Fin no) (Fin nv) ℝ} (hS : Smooth F A ρ L β) (hε : ∀ v, nrm (J *ᵥ v - A w *ᵥ v) ≤ ε * nrm v) (hε0 : 0 ≤ ε)
    (hθ : ∀ i, |1 - (C.objs i).mult| ≤ θ) (hM : ∀ i, |(C.objs i).mult| ≤ M) (hθ0 : 0 ≤ θ) (hM0 : 0 ≤ M)
    {δ : Fin nv → ℝ} (hδ : J *ᵥ δ = errs C F w) (hκ : nrm δ ≤ κ * nrm (errs C F w)) (hκ0 : 0 ≤ κ)
    (hw : nrm w ≤ ρ) (hwd : nrm (w + δ) ≤ ρ) :
    nrm (errs C F (w + δ)) ≤ (θ + M * κ * (ε + L / 2 * κ * nrm (errs C F w))) * nrm (errs C F w) := by
  set e := errs C F w with he
  set r := F (w + δ) - F w - A w *ᵥ (w + δ - w) with hr
  have hrb : nrm r ≤ L / 2 * nrm δ ^ 2 := by
    have := hS.remainder (w + δ) w hwd hw
    rwa [← hr, add_sub_cancel_left] at this
  have hnew : errs C F (w + δ) = (fun i => (1 - (C.objs i).mult) * e i) +
      fun i => (C.objs i).mult * ((J *ᵥ δ - A w *ᵥ δ) - r) i := by
    funext i
    have h1 : F (w + δ) i = F w i + (A w *ᵥ δ) i + r i := by
      rw [hr, add_sub_cancel_left]
      simp only [Pi.sub_apply]
      ring
    rw [Pi.add_apply, Pi.sub_apply, Pi.sub_apply, hδ, errs, h1, he, errs]
    ring
  have h1 : nrm (fun i => (1 - (C.objs i).mult) * e i) ≤ θ * nrm e :=
    nrm_mono hθ0 fun i => by rw [abs_mul]; exact mul_le_mul_of_nonneg_right (hθ i) (abs_nonneg _)
  have h2 : nrm (fun i => (C.objs i).mult * ((J *ᵥ δ - A w *ᵥ δ) - r) i) ≤
      M * nrm ((J *ᵥ δ - A w *ᵥ δ) - r) :=
    nrm_mono hM0 fun i => by rw [abs_mul]; exact mul_le_mul_of_nonneg_right (hM i) (abs_nonneg _)
  have h3 : nrm ((J *ᵥ δ - A w *ᵥ δ) - r) ≤ ε * nrm δ + L / 2 * nrm δ ^ 2 :=
    (nrm_sub_le _ _).trans (add_le_add (hε δ) hrb)
  have h4 : ε * nrm δ + L / 2 * nrm δ ^ 2 ≤ κ * (ε + L / 2 * κ * nrm e) * nrm e := by
    have hL : 0 ≤ L / 2 := by linarith [hS.curvature]
    have h5 := mul_le_mul_of_nonneg_left hκ hε0
    have h6 := mul_le_mul_of_nonneg_left (pow_le_pow_left₀ (nrm_pos_or δ) hκ 2) hL
    calc ε * nrm δ + L / 2 * nrm δ ^ 2 ≤ ε * (κ * nrm e) + L / 2 * (κ * nrm e) ^ 2 := add_le_add h5 h6
      _ = _ := by ring
  rw [hnew]
  calc _ ≤ θ * nrm e + M * (κ * (ε + L / 2 * κ * nrm e) * nrm e) :=
        (nrm_add_le _ _).trans (add_le_add h1 (h2.trans (mul_le_mul_of_nonneg_left (h3.trans h4) hM0)))
    _ = _ := by ring

/-- Specification: the setting of the local convergence. `ε` bounds the effect of the perturbations of the
finite differences, `κ` the correction for an error, `q` the contraction of the errors, `η` is the norm of the
first errors. -/
structure Near (C : Cfg Fr E LF nv no) (F : (Fin nv → ℝ) → Fin no → ℝ) (ρ L β θ M ε κ q η τ : ℝ) : Prop where
  factor : ∀ i, |1 - (C.objs i).mult| ≤ θ ∧ |(C.objs i).mult| ≤ M
  perturbation : L / 2 * nrm (fun j => (C.vars j).pert) ≤ ε
  well_posed : β * ε < 1
  gain : κ = β / (1 - β * ε)
  first : η = nrm (errs C F 0)
  contraction : θ + M * κ * (ε + L / 2 * κ * η) ≤ q
  contracts : q < 1
  room : ∀ j, κ * η / (1 - q) + |(C.vars j).pert| ≤ ρ
  limits : ∀ j, κ * η ≤ (C.vars j).maxStep ∧ (C.vars j).minValue ≤ -(κ * η) ∧ κ * η ≤ (C.vars j).maxValue
  tolerance : ∀ i, τ ≤ (C.objs i).tol
  visible : 1 / 10000000000 ≤ (1 - q) * τ

/-- C223. Near a regular solution of a smooth problem, the targeter succeeds, after at most the number of
corrections which bring the first error below the tolerance at the rate `q`. -/
theorem local_convergence (hpl : Plain C) {x0 start : Craft ℝ Fr} {t0 t : Int}
    (hs : C.prop none none x0 t0 = some start) {F : (Fin nv → ℝ) → Fin no → ℝ}
    {A : (Fin nv → ℝ) → Matrix (Fin no) (Fin nv) ℝ} {ρ L β θ M ε κ q η τ : ℝ}
    (hF : Objectives C start t ρ F) (hS : Smooth F A ρ L β) (hN : Near C F ρ L β θ M ε κ q η τ)
    {N : Nat} (hrate : q ^ N * η ≤ τ) (hit : N ≤ C.iterations) :
    ∃ s, C.tryAchieve x0 t0 t = .ok s ∧ s.iterations ≤ N ∧ s.corrected = start.add6 (shift C s.correction) ∧
      s.errors = errs C F s.correction ∧ (∀ i, |s.errors i| ≤ (C.objs i).tol) ∧
      nrm s.errors ≤ q ^ s.iterations * η ∧ nrm s.correction ≤ κ * η / (1 - q) := by
  have hno : 0 < no := Nat.pos_of_ne_zero hpl.some_objective
  have hθ0 : 0 ≤ θ := (abs_nonneg _).trans (hN.factor ⟨0, hno⟩).1
  have hM0 : 0 ≤ M := (abs_nonneg _).trans (hN.factor ⟨0, hno⟩).2
  have hε0 : 0 ≤ ε := le_trans (mul_nonneg (by linarith [hS.curvature]) (nrm_pos_or _)) hN.perturbation
  have hκ0 : 0 ≤ κ := by rw [hN.gain]; exact div_nonneg hS.bound (by linarith [hN.well_posed])
  have hη0 : 0 ≤ η := by rw [hN.first]; exact nrm_pos_or _
  have hL : 0 ≤ L / 2 := by linarith [hS.curvature]
  have hq0 : 0 ≤ q := le_trans (by positivity) hN.contraction
  have hq1 : 0 < 1 - q := by linarith [hN.contracts]
  have hτ : 0 < τ := by
    by_contra h
    have := hN.visible
    nlinarith
  have hnv : 0 < nv := lt_of_lt_of_le hno hpl.enough
  have hball : ∀ {w : Fin nv → ℝ}, nrm w ≤ κ * η / (1 - q) → nrm w ≤ ρ ∧ ∀ j, nrm w + |(C.vars j).pert| ≤ ρ := by
    intro w hw
    refine ⟨?_, fun j => by linarith [hN.room j]⟩
    linarith [hN.room ⟨0, hnv⟩, abs_nonneg (C.vars ⟨0, hnv⟩).pert]
  have hgeo : ∀ k, κ * η * ∑ i ∈ Finset.range k, q ^ i ≤ κ * η / (1 - q) := by
    intro k
    rw [div_eq_mul_one_div]
    refine mul_le_mul_of_nonneg_left ?_ (mul_nonneg hκ0 hη0)
    rw [le_div_iff₀ hq1, geom_sum_mul_neg]
    linarith [pow_nonneg hq0 k]
  have hcorr : ∀ {w : Fin nv → ℝ} {c : Fin 6 → ℝ}, C.stateCorr w = .ok c → c = shift C w := by
    intro w c hc
    funext k
    rw [stateCorr_ok hc, shift]
    refine Finset.sum_congr rfl fun j _ => ?_
    simp only [moves, hpl.state, true_and]
  have fin : ∀ (fuel k : Nat) (w : Fin nv → ℝ) (prev : Option ℝ) (b : Burn), k ≤ N →
      nrm w ≤ κ * η * ∑ i ∈ Finset.range k, q ^ i → nrm (errs C F w) ≤ q ^ k * η →
      (∀ i, |errs C F w i| ≤ (C.objs i).tol) →
      ∃ s, C.loop start t0 t false (fuel + 1) k prev b (start.add6 (shift C w)) w = .ok s ∧ s.iterations ≤ N ∧
        s.corrected = start.add6 (shift C s.correction) ∧ s.errors = errs C F s.correction ∧
        (∀ i, |s.errors i| ≤ (C.objs i).tol) ∧ nrm s.errors ≤ q ^ s.iterations * η ∧
        nrm s.correction ≤ κ * η / (1 - q) := by
    intro fuel k w prev b hkN hw he hall
    obtain ⟨hwρ, hwp⟩ := hball (hw.trans (hgeo _))
    obtain ⟨ev, hev, hmet, herr, -⟩ := evaluate_smooth hF hpl.state hpl.frame hwρ hwp b
    obtain ⟨c, hc⟩ := stateCorr_total C w
    refine ⟨⟨start.add6 c, withOrbit start ev.xf, w, ev.err, k⟩, ?_, hkN, by rw [hcorr hc], herr,
      by rw [herr]; exact hall, by rw [herr]; exact he, hw.trans (hgeo _)⟩
    rw [Cfg.loop, hev]
    show (if _ then _ else _) = _
    rw [if_pos (fun i => by rw [hmet, decide_eq_true_eq]; exact hall i), Cfg.finish]
    show Res.bind (if false = true then _ else C.stateCorr w) _ = _
    rw [if_neg (by simp), hc]
    show Res.bind (orErr (C.applyCorr start c) .astro) _ = _
    rw [Cfg.applyCorr, hpl.frame]
    rfl
  have key : ∀ (fuel k : Nat) (w : Fin nv → ℝ) (prev : Option ℝ) (b : Burn), N ≤ k + fuel → k ≤ N →
      nrm w ≤ κ * η * ∑ i ∈ Finset.range k, q ^ i → nrm (errs C F w) ≤ q ^ k * η →
      (∀ p, prev = some p → nrm (errs C F w) ≤ q * p) →
      ∃ s, C.loop start t0 t false (fuel + 1) k prev b (start.add6 (shift C w)) w = .ok s ∧ s.iterations ≤ N ∧
        s.corrected = start.add6 (shift C s.correction) ∧ s.errors = errs C F s.correction ∧
        (∀ i, |s.errors i| ≤ (C.objs i).tol) ∧ nrm s.errors ≤ q ^ s.iterations * η ∧
        nrm s.correction ≤ κ * η / (1 - q) := by
    intro fuel
    induction fuel with
    | zero =>
      intro k w prev b hk hkN hw he hprev
      have hkk : k = N := by omega
      subst hkk
      exact fin 0 k w prev b le_rfl hw he fun i => (abs_le_nrm _ i).trans (he.trans (hrate.trans (hN.tolerance i)))
    | succ fuel ih =>
      intro k w prev b hk hkN hw he hprev
      by_cases hall : ∀ i, |errs C F w i| ≤ (C.objs i).tol
      · exact fin _ k w prev b hkN hw he hall
      have hlt : k < N := by
        rcases Nat.lt_or_eq_of_le hkN with h | h
        · exact h
        · subst h
          exact absurd (fun i => (abs_le_nrm _ i).trans (he.trans (hrate.trans (hN.tolerance i)))) hall
      obtain ⟨hwρ, hwp⟩ := hball (hw.trans (hgeo _))
      obtain ⟨ev, hev, hmet, herr, hjac⟩ := evaluate_smooth hF hpl.state hpl.frame hwρ hwp b
      have hτe : τ < nrm (errs C F w) := by
        push Not at hall
        obtain ⟨i, hi⟩ := hall
        exact (hN.tolerance i).trans_lt (hi.trans_le (abs_le_nrm _ i))
      have hstall : stalled prev ev.err = false := by
        rcases prev with _ | p
        · rfl
        · have h1 := hprev p rfl
          have hp : 0 < p := by
            by_contra hc
            push Not at hc
            nlinarith
          have h2 : nrm (errs C F w) ≤ p := h1.trans (by nlinarith)
          have h3 : (1 - q) * τ < p - nrm (errs C F w) := by
            have : (1 - q) * τ < (1 - q) * p := mul_lt_mul_of_pos_left (hτe.trans_le h2) hq1
            linarith
          simp only [stalled, Option.elim_some, herr, decide_eq_false_iff_not, not_lt]
          rw [abs_sub_comm, abs_of_pos (by linarith [hN.visible])]
          linarith [hN.visible]
      obtain ⟨B, hAB, hB⟩ := hS.regular w hwρ
      have hnear : ∀ v, nrm (differences C F w *ᵥ v - A w *ᵥ v) ≤ ε * nrm v := fun v =>
        (differences_near hS hpl.pert hwρ hwp v).trans (mul_le_mul_of_nonneg_right hN.perturbation (nrm_pos_or v))
      obtain ⟨P, hP, hPe⟩ := pinv_bound hpl.enough hAB hS.bound hB hε0 hnear hN.well_posed
      rw [← hN.gain] at hPe
      obtain ⟨hδ, hδb⟩ := hPe (errs C F w)
      have heη : nrm (errs C F w) ≤ η := he.trans (mul_le_of_le_one_left hη0 (pow_le_one₀ hq0 hN.contracts.le))
      set δ := P *ᵥ errs C F w with hδdef
      have hδη : nrm δ ≤ κ * η := hδb.trans (mul_le_mul_of_nonneg_left heη hκ0)
      have hfree : (fun i => (C.vars i).limited (δ i)) = δ := by
        funext j
        have hj := (abs_le_nrm δ j).trans hδη
        have hj' := abs_le.1 hj
        obtain ⟨l1, l2, l3⟩ := hN.limits j
        rw [Variable.limited, if_neg (by simp [hpl.state j])]
        exact step_free _ (hj.trans l1) (by linarith) (by linarith)
      have hw' : nrm (w + δ) ≤ κ * η * ∑ i ∈ Finset.range (k + 1), q ^ i := by
        refine (nrm_add_le _ _).trans ?_
        rw [Finset.sum_range_succ, mul_add]
        refine add_le_add hw (hδb.trans ?_)
        calc κ * nrm (errs C F w) ≤ κ * (q ^ k * η) := mul_le_mul_of_nonneg_left he hκ0
          _ = κ * η * q ^ k := by ring
      have hstep : nrm (errs C F (w + δ)) ≤ q * nrm (errs C F w) := by
        refine (errs_step hS hnear hε0 (fun i => (hN.factor i).1) (fun i => (hN.factor i).2) hθ0 hM0 hδ hδb hκ0 hwρ
          (hball (hw'.trans (hgeo _))).1).trans (mul_le_mul_of_nonneg_right ?_ (nrm_pos_or _))
        refine le_trans ?_ hN.contraction
        have := mul_le_mul_of_nonneg_left heη (mul_nonneg hL hκ0)
        have := mul_le_mul_of_nonneg_left this (mul_nonneg hM0 hκ0)
        linarith
      obtain ⟨c, hc⟩ := stateCorr_total C fun i => (C.vars i).limited ((P *ᵥ ev.err) i)
      have hc' : c = shift C δ := by
        rw [hcorr hc, herr]
        exact congrArg _ hfree
      obtain ⟨s, h1, h2⟩ := ih (k + 1) (w + δ) (some (nrm (errs C F w))) b (by omega) (by omega) hw'
        (hstep.trans (by rw [pow_succ]; nlinarith)) (by rintro p hp; cases hp; exact hstep)
      refine ⟨s, ?_, h2⟩
      rw [← h1, Cfg.loop, hev]
      show (if _ then _ else _) = _
      rw [if_neg (fun h => hall fun i => by have := h i; rwa [hmet, decide_eq_true_eq] at this),
        if_neg (by rw [hstall]; simp), hjac, hP]
      show Res.bind (C.burnCorr t0 t b (P *ᵥ ev.err)) _ = _
      rw [burnCorr_none hpl.state]
      show Res.bind (C.stateCorr _) _ = _
      rw [hc]
      show Res.bind (orErr (C.applyCorr (start.add6 (shift C w)) c) .astro) _ = _
      rw [Cfg.applyCorr, hpl.frame]
      show C.loop start t0 t false (fuel + 1) (k + 1) (some (nrm ev.err)) b ((start.add6 (shift C w)).add6 c)
        (fun i => w i + (C.vars i).limited ((P *ᵥ ev.err) i)) = _
      rw [add6_add6, hc', ← shift_add, herr]
      congr 1
      funext i
      exact congrArg (w i + ·) (congrFun hfree i)
  rw [plain_loop hpl hs]
  have hz : shift C (0 : Fin nv → ℝ) = 0 := by
    funext k
    simp [shift]
  have := key C.iterations 0 0 none (Burn.initial t0 t) (by omega) (Nat.zero_le _) (by simp [nrm])
    (by rw [pow_zero, one_mul, hN.first]) (by rintro p hp; cases hp)
  rwa [hz, add6_zero] at this

/-- C223, the need for the condition `visible`: on an affine problem with the factor one half, whose errors are
halved by each correction, the targeter gives up after one correction if the first error is not above
2e-10, whatever the tolerance which remains to be met and the number of iterations. -/
theorem slow_convergence_refused (hpl : Plain C) {x0 start : Craft ℝ Fr} {t0 t : Int}
    (hs : C.prop none none x0 t0 = some start) {a : Fin no → ℝ} {G : Matrix (Fin no) (Fin 6) ℝ}
    {P : Matrix (Fin nv) (Fin no) ℝ} (hN : Newton C a G P) (h : Affine C start t a G)
    (hmult : ∀ i, (C.objs i).mult = 1 / 2) (hit : 1 ≤ C.iterations)
    (hm : ∃ i, 2 * (C.objs i).tol < |(C.objs i).error (a i)|) (htol : ∀ i, 0 ≤ (C.objs i).tol)
    (hsmall : nrm (fun i => (C.objs i).error (a i)) < 2 / 10000000000) :
    C.tryAchieve x0 t0 t = .err .ineffective := by
  rw [plain_loop hpl hs]
  obtain ⟨n, hn⟩ : ∃ n, C.iterations = n + 1 := ⟨C.iterations - 1, by omega⟩
  rw [hn]
  obtain ⟨x', a', total', h1, h2, h3⟩ := newton_step (start := start) (t0 := t0) hpl hN h (n + 1) 0 none (Burn.initial t0 t) 0
    (by obtain ⟨i, hi⟩ := hm; exact ⟨i, not_le.2 (by linarith [htol i])⟩) rfl
  have h4 : ∀ i, (C.objs i).error (a' i) = (1 / 2) * (C.objs i).error (a i) := fun i => by rw [h3, hmult]; ring
  rw [h1]
  obtain ⟨ev, hev, hmet, he, -⟩ := evaluate_affine h2 hpl.state hpl.frame hpl.pert (Burn.initial t0 t)
  have herr : nrm ev.err = 1 / 2 * nrm fun i => (C.objs i).error (a i) := by
    have : ev.err = (1 / 2 : ℝ) • fun i => (C.objs i).error (a i) := funext fun i => by
      rw [he, h4, Pi.smul_apply, smul_eq_mul]
    rw [this, nrm_smul, abs_of_pos (by norm_num)]
  rw [Cfg.loop, hev]
  show (if _ then _ else _) = _
  rw [if_neg, if_pos]
  · simp only [stalled, Option.elim_some, herr, decide_eq_true_eq]
    have := nrm_pos_or fun i => (C.objs i).error (a i)
    rw [abs_lt]
    constructor <;> linarith
  · intro hall
    obtain ⟨i, hi⟩ := hm
    have := hall i
    rw [hmet, decide_eq_true_eq, h4, abs_mul, abs_of_pos (by norm_num)] at this
    linarith

end Verif.Target
