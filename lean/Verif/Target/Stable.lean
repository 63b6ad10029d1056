import Verif.Rk.Stm
import Verif.Force.Model
import Mathlib.Analysis.SpecialFunctions.ExpDeriv
import Mathlib.Analysis.Calculus.Deriv.Pi
import Mathlib.Analysis.Calculus.Deriv.Prod
import Mathlib.Analysis.Calculus.MeanValue
import Mathlib.Analysis.Complex.RealDeriv
import Mathlib.Analysis.SpecialFunctions.Exp
import Mathlib.LinearAlgebra.Matrix.ToLinearEquiv
import Mathlib.LinearAlgebra.Matrix.NonsingularInverse
/-!
C233: the test of the eigenvalues (nyx-core/src/utils.rs, `are_eigenvalues_stable`) and the warning of the targeter with the
state transition matrix (nyx-core/src/md/opti/raphson_hyperdual.rs).
-/
namespace Verif.Stability
open Matrix Finset Filter Topology
open Verif.Spacecraft (Craft)

variable {n : Nat}

/-- `are_eigenvalues_stable`. utils.rs:113-118. -/
def stable (ev : Fin n → ℂ) : Prop := ∀ i, (ev i).re ≤ 0

/-- The warning "STM linearization assumption is wrong" from the eigenvalues of the transition matrix.
md/opti/raphson_hyperdual.rs:137-143. -/
def warns (ev : Fin n → ℂ) : Prop := ¬ stable ev

/-- `complex_eigenvalues` of nalgebra, which is not modelled: the vector has the eigenvalues and nothing else. -/
def IsSpectrum (ev : Fin n → ℂ) (A : Matrix (Fin n) (Fin n) ℝ) : Prop :=
  ∀ c : ℂ, (∃ i, ev i = c) ↔ ∃ v : Fin n → ℂ, v ≠ 0 ∧ A.map (fun r => (r : ℂ)) *ᵥ v = c • v

/-- All the motions of the linear system `x' = A x` stay bounded: what stability of the system means. -/
def Bounded (A : Matrix (Fin n) (Fin n) ℝ) : Prop :=
  ∀ x : ℝ → Fin n → ℝ, (∀ t, HasDerivAt x (A *ᵥ x t) t) → ∃ B : ℝ, ∀ t, 0 ≤ t → ∀ i, |x t i| ≤ B

theorem mode_deriv {A : Matrix (Fin n) (Fin n) ℝ} {c : ℂ} {v : Fin n → ℂ} (hv : A.map (fun r => (r : ℂ)) *ᵥ v = c • v)
    (t : ℝ) (i : Fin n) :
    HasDerivAt (fun s : ℝ => Complex.exp (c * s) * v i) (∑ j, (A i j : ℂ) * (Complex.exp (c * t) * v j)) t := by
  have h1 : HasDerivAt (fun s : ℝ => Complex.exp (c * s)) (Complex.exp (c * t) * (c * 1)) t := by
    have h2 : HasDerivAt (fun s : ℝ => c * (s : ℂ)) (c * 1) t := (Complex.ofRealCLM.hasDerivAt (x := t)).const_mul c
    exact h2.cexp
  have h3 := h1.mul_const (v i)
  have h4 := congrFun hv i
  simp only [mulVec, dotProduct, Matrix.map_apply, Pi.smul_apply, smul_eq_mul] at h4
  have h5 : ∑ j, (A i j : ℂ) * (Complex.exp (c * t) * v j) = Complex.exp (c * t) * (c * 1) * v i := by
    rw [mul_assoc, mul_one, ← h4, Finset.mul_sum]
    exact Finset.sum_congr rfl fun j _ => by ring
  rw [h5]
  exact h3

/-- **C233.** If the test says that the eigenvalues are not stable, the linear system has a motion which is not bounded. -/
theorem unstable_unbounded {A : Matrix (Fin n) (Fin n) ℝ} {ev : Fin n → ℂ} (he : IsSpectrum ev A) (h : ¬ stable ev) :
    ¬ Bounded A := by
  intro hb
  simp only [stable, not_forall, not_le] at h
  obtain ⟨i, hi⟩ := h
  obtain ⟨v, hv0, hv⟩ := (he (ev i)).1 ⟨i, rfl⟩
  obtain ⟨k, hk⟩ : ∃ k, v k ≠ 0 := by
    by_contra hc
    push Not at hc
    exact hv0 (funext hc)
  have hre : ∀ t : ℝ, HasDerivAt (fun (s : ℝ) j => (Complex.exp (ev i * s) * v j).re)
      (A *ᵥ fun j => (Complex.exp (ev i * t) * v j).re) t := by
    intro t
    rw [hasDerivAt_pi]
    intro j
    have := Complex.reCLM.hasFDerivAt.comp_hasDerivAt t (mode_deriv hv t j)
    refine this.congr_deriv ?_
    simp only [Complex.reCLM_apply, Complex.re_sum, Complex.re_ofReal_mul, mulVec, dotProduct]
  have him : ∀ t : ℝ, HasDerivAt (fun (s : ℝ) j => (Complex.exp (ev i * s) * v j).im)
      (A *ᵥ fun j => (Complex.exp (ev i * t) * v j).im) t := by
    intro t
    rw [hasDerivAt_pi]
    intro j
    have := Complex.imCLM.hasFDerivAt.comp_hasDerivAt t (mode_deriv hv t j)
    refine this.congr_deriv ?_
    simp only [Complex.imCLM_apply, Complex.im_sum, Complex.im_ofReal_mul, mulVec, dotProduct]
  obtain ⟨B1, h1⟩ := hb _ hre
  obtain ⟨B2, h2⟩ := hb _ him
  have hle : ∀ t : ℝ, 0 ≤ t → Real.exp ((ev i).re * t) ≤ (B1 + B2) / ‖v k‖ := by
    intro t ht
    have hvk : 0 < ‖v k‖ := norm_pos_iff.2 hk
    rw [le_div_iff₀ hvk]
    have e1 : ‖Complex.exp (ev i * t) * v k‖ = Real.exp ((ev i).re * t) * ‖v k‖ := by
      rw [norm_mul, Complex.norm_exp]
      simp
    rw [← e1]
    exact (Complex.norm_le_abs_re_add_abs_im _).trans (add_le_add (h1 t ht k) (h2 t ht k))
  have hlim : Tendsto (fun t : ℝ => Real.exp ((ev i).re * t)) atTop atTop :=
    Real.tendsto_exp_atTop.comp (tendsto_id.const_mul_atTop hi)
  obtain ⟨t, ht0, ht⟩ := ((hlim.eventually_gt_atTop ((B1 + B2) / ‖v k‖)).and (eventually_ge_atTop 0)).exists.imp
    fun t h => And.intro h.2 h.1
  exact absurd (hle t ht0) (not_le.2 ht)

/-- **C233.** With as many independent eigenvectors as components, the test says exactly whether the motions are bounded.
Missing: other matrices, for which the test is wrong (`stable_jordan_false`). -/
theorem stable_bounded_partial {A : Matrix (Fin n) (Fin n) ℝ} {ev : Fin n → ℂ} (he : IsSpectrum ev A)
    {P Q : Matrix (Fin n) (Fin n) ℂ} {d : Fin n → ℂ} (hPQ : P * Q = 1) (hA : A.map (fun r => (r : ℂ)) = P * diagonal d * Q) :
    stable ev ↔ Bounded A := by
  have hQP : Q * P = 1 := mul_eq_one_comm.1 hPQ
  refine ⟨fun hs x hx => ?_, fun hb => by_contra fun h => unstable_unbounded he h hb⟩
  have hd : ∀ j, (d j).re ≤ 0 := by
    intro j
    have : ∃ i, ev i = d j := by
      refine (he (d j)).2 ⟨P.col j, ?_, ?_⟩
      · intro h0
        have h1 : (Q * P) j j = 0 := by
          rw [Matrix.mul_apply]
          refine Finset.sum_eq_zero fun k _ => ?_
          have := congrFun h0 k
          simp only [Matrix.col_apply, Pi.zero_apply] at this
          rw [this, mul_zero]
        rw [hQP, Matrix.one_apply_eq] at h1
        exact one_ne_zero h1
      · have e1 : P.col j = P *ᵥ Pi.single j 1 := by rw [Matrix.mulVec_single_one]
        rw [hA, e1, Matrix.mulVec_mulVec, Matrix.mul_assoc, hQP, Matrix.mul_one, ← Matrix.mulVec_mulVec,
          Matrix.diagonal_mulVec_single, ← Matrix.mulVec_smul]
        congr 1
        ext k
        by_cases hk : k = j
        · subst hk; simp
        · simp [hk]
    obtain ⟨i, hi⟩ := this
    rw [← hi]
    exact hs i
  -- the coordinates along the eigenvectors
  obtain ⟨y, hy⟩ : ∃ y : ℝ → Fin n → ℂ, ∀ t, y t = Q *ᵥ fun j => (x t j : ℂ) := ⟨_, fun _ => rfl⟩
  have hx' : ∀ t j, HasDerivAt (fun s => ((x s j : ℝ) : ℂ)) ((A.map (fun r => (r : ℂ)) *ᵥ fun j => (x t j : ℂ)) j) t := by
    intro t j
    have := (hasDerivAt_pi.1 (hx t) j).ofReal_comp
    refine this.congr_deriv ?_
    simp only [mulVec, dotProduct, Matrix.map_apply, Complex.ofReal_sum, Complex.ofReal_mul]
  have hy' : ∀ t i, HasDerivAt (fun s => y s i) (d i * y t i) t := by
    intro t i
    have h1 : HasDerivAt (fun s => ∑ j, Q i j * (x s j : ℂ))
        (∑ j, Q i j * (A.map (fun r => (r : ℂ)) *ᵥ fun j => (x t j : ℂ)) j) t := by
      have := HasDerivAt.fun_sum (u := Finset.univ) fun j (_ : j ∈ Finset.univ) => (hx' t j).const_mul (Q i j)
      exact this
    have e1 : (fun s => y s i) = fun s => ∑ j, Q i j * (x s j : ℂ) := by
      funext s; rw [hy]; rfl
    rw [e1]
    refine h1.congr_deriv ?_
    have e2 : ∑ j, Q i j * (A.map (fun r => (r : ℂ)) *ᵥ fun j => (x t j : ℂ)) j =
        (Q *ᵥ (A.map (fun r => (r : ℂ)) *ᵥ fun j => (x t j : ℂ))) i := rfl
    rw [e2, hA, Matrix.mulVec_mulVec, ← Matrix.mul_assoc, ← Matrix.mul_assoc, hQP, Matrix.one_mul, ← Matrix.mulVec_mulVec, ← hy,
      Matrix.mulVec_diagonal]
  have hsol : ∀ t i, y t i = Complex.exp (d i * t) * y 0 i := by
    intro t i
    have hc : ∀ s : ℝ, HasDerivAt (fun s : ℝ => Complex.exp (-(d i) * s) * y s i) 0 s := by
      intro s
      have h2 : HasDerivAt (fun s : ℝ => -(d i) * (s : ℂ)) (-(d i) * 1) s := (Complex.ofRealCLM.hasDerivAt (x := s)).const_mul _
      have := h2.cexp.mul (hy' s i)
      refine this.congr_deriv ?_
      ring
    have := is_const_of_deriv_eq_zero (fun s => (hc s).differentiableAt) (fun s => (hc s).deriv) t 0
    simp only [Complex.ofReal_zero, mul_zero, Complex.exp_zero, one_mul] at this
    rw [← this, ← mul_assoc, ← Complex.exp_add, neg_mul, add_neg_cancel, Complex.exp_zero, one_mul]
  refine ⟨∑ i, ∑ j, ‖P i j‖ * ‖y 0 j‖, fun t ht i => ?_⟩
  have e1 : (x t i : ℂ) = ∑ j, P i j * y t j := by
    have h1 : P *ᵥ y t = fun j => (x t j : ℂ) := by rw [hy, Matrix.mulVec_mulVec, hPQ, Matrix.one_mulVec]
    exact (congrFun h1 i).symm
  have e2 : |x t i| = ‖(x t i : ℂ)‖ := by rw [Complex.norm_real, Real.norm_eq_abs]
  rw [e2, e1]
  have e3 : ‖∑ j, P i j * y t j‖ ≤ ∑ j, ‖P i j‖ * ‖y 0 j‖ := by
    refine (norm_sum_le _ _).trans (Finset.sum_le_sum fun j _ => ?_)
    rw [norm_mul]
    refine mul_le_mul_of_nonneg_left ?_ (norm_nonneg _)
    rw [hsol t j, norm_mul, Complex.norm_exp]
    have : (d j * (t : ℂ)).re = (d j).re * t := by simp
    rw [this]
    have h1 : Real.exp ((d j).re * t) ≤ 1 := Real.exp_le_one_iff.2 (mul_nonpos_of_nonpos_of_nonneg (hd j) ht)
    calc Real.exp ((d j).re * t) * ‖y 0 j‖ ≤ 1 * ‖y 0 j‖ := by gcongr
      _ = ‖y 0 j‖ := one_mul _
  exact e3.trans (Finset.single_le_sum (f := fun i => ∑ j, ‖P i j‖ * ‖y 0 j‖) (fun i _ => by positivity) (Finset.mem_univ i))

/-- The motion of a free particle: position and velocity. -/
def freeMotion : Matrix (Fin 2) (Fin 2) ℝ := !![0, 1; 0, 0]

theorem freeMotion_spectrum : IsSpectrum (fun _ => 0) freeMotion := by
  intro c
  constructor
  · rintro ⟨-, rfl⟩
    refine ⟨![1, 0], fun h => one_ne_zero (congrFun h 0), ?_⟩
    ext i
    fin_cases i <;> simp [freeMotion, mulVec, dotProduct, Fin.sum_univ_two]
  · rintro ⟨v, hv, h⟩
    refine ⟨0, ?_⟩
    by_contra hc
    have hc' : c ≠ 0 := fun h => hc h.symm
    have h0 := congrFun h 0
    have h1 := congrFun h 1
    simp [freeMotion, mulVec, dotProduct, Fin.sum_univ_two] at h0 h1
    have h2 : v 1 = 0 := by rcases h1 with h | h <;> [exact absurd h hc'; exact h]
    rw [h2] at h0
    have h3 : v 0 = 0 := by
      rcases mul_eq_zero.1 h0.symm with h | h <;> [exact absurd h hc'; exact h]
    exact hv (funext fun i => by fin_cases i <;> assumption)

/-- **C233, refuted.** The test says that the motion of a free particle is stable, but it is not bounded. -/
theorem stable_jordan_false : IsSpectrum (fun _ => 0) freeMotion ∧ stable (fun _ : Fin 2 => (0 : ℂ)) ∧ ¬ Bounded freeMotion := by
  refine ⟨freeMotion_spectrum, fun _ => le_rfl, fun hb => ?_⟩
  obtain ⟨B, hB⟩ := hb (fun t => ![t, 1]) fun t => by
    rw [hasDerivAt_pi]
    intro i
    fin_cases i
    · simpa [freeMotion, mulVec, dotProduct, Fin.sum_univ_two] using hasDerivAt_id' t
    · simpa [freeMotion, mulVec, dotProduct, Fin.sum_univ_two] using hasDerivAt_const t (1 : ℝ)
  have h1 := hB (|B| + 1) (by positivity) 0
  simp only [Matrix.cons_val_zero] at h1
  rw [abs_of_pos (by positivity)] at h1
  linarith [le_abs_self B]

/-! ### The warning -/

variable {Fr : Type}

theorem addForceGradients_rows {ms : List (Force.FModel Fr)} {s : Craft ℝ Fr} :
    ∀ {d : Fin 9 → ℝ} {g : Force.Grad9} {r : (Fin 9 → ℝ) × Force.Grad9}, Force.addForceGradients ms s (d, g) = some r →
      ∀ i : Fin 9, 6 ≤ i.val → ∀ j, r.2 i j = g i j := by
  induction ms with
  | nil =>
    intro d g r h i hi j
    simp only [Force.addForceGradients, Option.some.injEq] at h
    rw [← h]
  | cons m ms ih =>
    intro d g r h i hi j
    simp only [Force.addForceGradients] at h
    split at h
    · cases h
    · rw [ih h i hi j]
      have h1 : ¬ (3 ≤ i.val ∧ i.val < 6) := by omega
      have h2 : ¬ ((3 ≤ i.val ∧ i.val < 6) ∧ j.val < 3) := by omega
      simp only [dif_neg h1, dif_neg h2]

/-- The rows of the gradient of the reflectivity, of the drag and of the mass of propellant are zero. -/
theorem gradient_rows {alm : Force.Alm Fr} {D : Force.ScDyn Fr} {s : Craft ℝ Fr} {r : (Fin 9 → ℝ) × Force.Grad9}
    (h : Force.scEomStm alm D s = some r) (i : Fin 9) (hi : 6 ≤ i.val) (j : Fin 9) : r.2 i j = some 0 := by
  unfold Force.scEomStm at h
  split_ifs at h
  unfold Force.scDual at h
  split at h
  · cases h
  · split_ifs at h
    rw [addForceGradients_rows h i hi j]
    exact dif_neg (by omega)

/-- The equations of motion integrated by the propagator are those of the spacecraft dynamics, and no partial is NaN. -/
def FromForces (alm : Force.Alm Fr) (D : Force.ScDyn Fr) (dyn : Rk.Dyn ℝ 9) : Prop :=
  ∀ τ y k A, dyn.dual τ y = some (k, A) → ∃ (s : Craft ℝ Fr) (r : (Fin 9 → ℝ) × Force.Grad9),
    Force.scEomStm alm D s = some r ∧ k = r.1 ∧ ∀ i j, r.2 i j = some (A i j)

theorem steps_rows (t : Rk.Tab) (hs : 1 ≤ t.stages) (fixed : Bool) {alm : Force.Alm Fr} {D : Force.ScDyn Fr} (i : Fin 9)
    (hi : 6 ≤ i.val) :
    ∀ (l : List (Rk.Dyn ℝ 9 × ℚ)), (∀ p ∈ l, FromForces alm D p.1) → ∀ (s s' : Rk.Sc ℝ 9) (Φ : Rk.Mat ℝ 9), s.stm = some Φ →
      (∀ j, Φ i j = (1 : Rk.Mat ℝ 9) i j) → Rk.scSteps t fixed l s = .ok s' →
      ∃ Ψ, s'.stm = some Ψ ∧ ∀ j, Ψ i j = (1 : Rk.Mat ℝ 9) i j := by
  intro l
  induction l with
  | nil =>
    intro _ s s' Φ hΦ hrow h
    simp only [Rk.scSteps, Rk.Res.ok.injEq] at h
    subst h
    exact ⟨Φ, hΦ, hrow⟩
  | cons p l ih =>
    intro hl s s' Φ hΦ hrow h
    unfold Rk.scSteps at h
    obtain ⟨s1, h1, h2⟩ := Rk.Res.bind_eq_ok.1 h
    obtain ⟨K, A, a1, -, a3⟩ := Rk.stm_step t hs _ fixed s s1 Φ hΦ _ h1
    refine ih (fun q hq => hl q (List.mem_cons_of_mem _ hq)) s1 s' _ a3 (fun j => ?_) h2
    have hA : ∀ m < t.stages, ∀ j, A m i j = 0 := by
      intro m hm j
      obtain ⟨sc, r, e1, -, e3⟩ := hl p List.mem_cons_self _ _ _ _ (a1 m hm)
      have := gradient_rows e1 i hi j
      rw [e3 i j, Option.some.injEq] at this
      exact this
    have hrow' : ∀ M : Rk.Mat ℝ 9, (Φ * M) i j = M i j := by
      intro M
      rw [Matrix.mul_apply]
      simp only [hrow, Matrix.one_apply, ite_mul, one_mul, zero_mul, Finset.sum_ite_eq, Finset.mem_univ, if_true]
    rw [hrow', Matrix.add_apply, Matrix.smul_apply, Matrix.sum_apply]
    rw [Finset.sum_eq_zero, smul_zero, add_zero]
    intro m hm
    rw [Matrix.smul_apply, hA m (Finset.mem_range.1 hm) j, smul_zero]

theorem row_eigenvalue {m : Nat} {Φ : Matrix (Fin m) (Fin m) ℝ} (i : Fin m) (h : ∀ j, Φ i j = (1 : Matrix (Fin m) (Fin m) ℝ) i j) :
    ∃ v : Fin m → ℂ, v ≠ 0 ∧ Φ.map (fun r => (r : ℂ)) *ᵥ v = (1 : ℂ) • v := by
  have hdet : (Φ.map (fun r => (r : ℂ)) - 1).det = 0 := by
    refine Matrix.det_eq_zero_of_row_eq_zero i fun j => ?_
    rw [Matrix.sub_apply, Matrix.map_apply, h j, Matrix.one_apply, Matrix.one_apply]
    split_ifs <;> simp
  obtain ⟨v, hv, hz⟩ := Matrix.exists_mulVec_eq_zero_iff.2 hdet
  refine ⟨v, hv, ?_⟩
  rw [Matrix.sub_mulVec, Matrix.one_mulVec, sub_eq_zero] at hz
  rw [hz, one_smul]

/-- **C233, refuted.** Whatever the forces, the integrator and the steps, the transition matrix of a propagation from the identity
has the eigenvalue 1, so the targeter warns that the linearization is wrong in every iteration. -/
theorem dual_always_warns (t : Rk.Tab) (hs : 1 ≤ t.stages) (fixed : Bool) (alm : Force.Alm Fr) (D : Force.ScDyn Fr)
    (l : List (Rk.Dyn ℝ 9 × ℚ)) (hl : ∀ p ∈ l, FromForces alm D p.1) (x : Rk.Vec ℝ 9) (s' : Rk.Sc ℝ 9)
    (h : Rk.scSteps t fixed l ⟨x, some 1⟩ = .ok s') :
    ∃ Φ, s'.stm = some Φ ∧ ∀ ev, IsSpectrum ev Φ → warns ev := by
  obtain ⟨Φ, h1, h2⟩ := steps_rows t hs fixed 6 (by decide) l hl _ s' 1 rfl (fun _ => rfl) h
  refine ⟨Φ, h1, fun ev he hst => ?_⟩
  obtain ⟨i, hi⟩ := (he 1).2 (row_eigenvalue 6 h2)
  have := hst i
  rw [hi] at this
  norm_num at this

theorem two_body_gradient (alm : Force.Alm Fr) (mu : ℝ) (hmu : ∀ f, alm.mu f = some mu) (s : Craft ℝ Fr) :
    ∃ (k : Fin 9 → ℝ) (A : Rk.Mat ℝ 9), Force.scEomStm alm ⟨[], [], false⟩ s = some (k, fun i j => some (A i j)) := by
  unfold Force.scEomStm
  rw [if_neg (fun h => h.1 rfl)]
  unfold Force.scDual Force.orbDual
  rw [hmu]
  simp only [Force.addGradients, Force.addForceGradients, Bool.false_eq_true, if_false, Option.some.injEq, Prod.mk.injEq, exists_and_left,
    exists_eq_left']
  generalize (of fun i j => if h : i.val < 3 then _ else _ : Matrix (Fin 6) (Fin 6) ℝ) = g
  refine ⟨Matrix.of fun i j => if h : i.val < 6 ∧ j.val < 6 then g ⟨i, h.1⟩ ⟨j, h.2⟩ else 0, ?_⟩
  funext i j
  simp only [Matrix.of_apply]
  split_ifs with h
  · rfl
  · rfl

/-- A propagation around one body, from any state, by steps of one minute: the targeter warns. -/
example (x : Rk.Vec ℝ 9) (craft : Rk.Vec ℝ 9 → Craft ℝ Unit) : ∃ (dyn : Rk.Dyn ℝ 9) (s' : Rk.Sc ℝ 9) (Φ : Rk.Mat ℝ 9),
    Rk.scSteps Rk.rk4 true [(dyn, 60), (dyn, 60)] ⟨x, some 1⟩ = .ok s' ∧ s'.stm = some Φ ∧ ∀ ev, IsSpectrum ev Φ → warns ev := by
  let alm : Force.Alm Unit := ⟨fun _ => some 398600, fun _ => none, fun _ _ => false, fun _ _ => none, fun _ => none, fun _ _ _ => none, fun _ _ => none, fun _ _ _ => none,
    fun _ _ _ => none⟩
  choose k A hkA using two_body_gradient alm 398600 fun _ => rfl
  let dyn : Rk.Dyn ℝ 9 := ⟨fun _ y => some (k (craft y), A (craft y)), fun _ y => some (k (craft y))⟩
  have hdyn : FromForces alm ⟨[], [], false⟩ dyn := by
    intro τ y k' A' h
    simp only [dyn, Option.some.injEq, Prod.mk.injEq] at h
    exact ⟨craft y, _, hkA _, h.1.symm, fun i j => by rw [← h.2]⟩
  have htot : ∀ s : Rk.Sc ℝ 9, s.stm.isSome → ∃ s', Rk.scStep Rk.rk4 dyn true s 60 = .ok s' ∧ s'.stm.isSome := by
    intro s hs
    obtain ⟨Φ, e⟩ := Option.isSome_iff_exists.1 hs
    obtain ⟨r, hr⟩ := Rk.rkStep_total Rk.rk4 (by decide) (dyn.eom s.stm) (fun τ y => by rw [e]; exact ⟨_, rfl⟩) true s.toVec 60
    refine ⟨s.set r.1, ?_, by simp [Rk.Sc.set, e]⟩
    unfold Rk.scStep
    rw [hr]
    rfl
  obtain ⟨s1, h1, e1⟩ := htot ⟨x, some 1⟩ rfl
  obtain ⟨s2, h2, e2⟩ := htot s1 e1
  have hr : Rk.scSteps Rk.rk4 true [(dyn, 60), (dyn, 60)] ⟨x, some 1⟩ = .ok s2 := by
    simp only [Rk.scSteps, h1, h2, Rk.Res.bind]
  obtain ⟨Φ, hΦ, hw⟩ := dual_always_warns Rk.rk4 (by decide) true alm ⟨[], [], false⟩ _ (by
    intro p hp
    simp only [List.mem_cons, List.not_mem_nil, or_false, or_self] at hp
    rw [hp]
    exact hdyn) x s2 hr
  exact ⟨dyn, s2, Φ, hr, hΦ, hw⟩

/-- The harmonic oscillator. -/
example : ∃ ev, IsSpectrum ev (!![0, 1; -1, 0] : Matrix (Fin 2) (Fin 2) ℝ) ∧ stable ev ∧ Bounded !![0, 1; -1, 0] := by
  have he : IsSpectrum ![Complex.I, -Complex.I] (!![0, 1; -1, 0] : Matrix (Fin 2) (Fin 2) ℝ) := by
    intro c
    constructor
    · rintro ⟨i, rfl⟩
      refine ⟨![1, ![Complex.I, -Complex.I] i], fun h => one_ne_zero (congrFun h 0), ?_⟩
      fin_cases i <;> ext k <;> fin_cases k <;> simp [mulVec, dotProduct, Fin.sum_univ_two]
    · rintro ⟨v, hv, h⟩
      have h0 := congrFun h 0
      have h1 := congrFun h 1
      simp [mulVec, dotProduct, Fin.sum_univ_two] at h0 h1
      have hv0 : v 0 ≠ 0 := by
        intro hz
        rw [hz, mul_zero] at h0
        exact hv (funext fun i => by fin_cases i <;> assumption)
      have hc : (c - Complex.I) * (c + Complex.I) = 0 := by
        have : (c * c + 1) * v 0 = 0 := by rw [h0] at h1; linear_combination -h1
        have h2 := (mul_eq_zero.1 this).resolve_right hv0
        linear_combination h2 - Complex.I_mul_I
      rcases mul_eq_zero.1 hc with h | h
      · exact ⟨0, (sub_eq_zero.1 h).symm⟩
      · exact ⟨1, (eq_neg_of_add_eq_zero_left h).symm⟩
  have hs : stable ![Complex.I, -Complex.I] := by
    intro i
    fin_cases i <;> simp
  refine ⟨_, he, hs, (stable_bounded_partial (P := !![1, 1; Complex.I, -Complex.I]) (Q := !![1 / 2, -Complex.I / 2; 1 / 2, Complex.I / 2])
    (d := ![Complex.I, -Complex.I]) he ?_ ?_).1 hs⟩
  · ext i j
    fin_cases i <;> fin_cases j <;> simp [Matrix.mul_apply, Fin.sum_univ_two] <;> ring_nf <;> simp <;> norm_num
  · have hd : diagonal ![Complex.I, -Complex.I] = !![Complex.I, 0; 0, -Complex.I] := by
      ext i j; fin_cases i <;> fin_cases j <;> rfl
    rw [hd]
    ext i j
    fin_cases i <;> fin_cases j <;> simp [Matrix.mul_apply, Fin.sum_univ_two] <;> ring_nf <;> simp <;> norm_num

/-- The growth `x' = x`. -/
example : ¬ Bounded (!![1] : Matrix (Fin 1) (Fin 1) ℝ) := by
  refine unstable_unbounded (ev := fun _ => 1) (fun c => ⟨?_, ?_⟩) fun h => absurd (h 0) (by norm_num)
  · rintro ⟨-, rfl⟩
    exact ⟨fun _ => 1, fun h => one_ne_zero (congrFun h 0), by ext i; fin_cases i; simp [mulVec, dotProduct]⟩
  · rintro ⟨v, hv, h⟩
    refine ⟨0, ?_⟩
    have h0 := congrFun h 0
    have hv0 : v 0 ≠ 0 := fun hz => hv (funext fun i => by fin_cases i; exact hz)
    have h1 : v 0 = c * v 0 := by simpa [mulVec, dotProduct] using h0
    exact mul_right_cancel₀ hv0 (by rw [one_mul]; exact h1)

end Verif.Stability
