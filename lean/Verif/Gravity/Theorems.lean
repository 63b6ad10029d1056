import Mathlib.Analysis.Calculus.FDeriv.Symmetric
import Mathlib.Analysis.SpecialFunctions.Trigonometric.Basic
import Verif.Gravity.Partials

/-!
Theorems on the gravity field: C68, C69, C163 and C164.
-/
namespace Verif.Gravity
open Verif.MathU Matrix Polynomial
open Verif.Force (Dual Tracks lin linM linM_apply lin_apply lin_congr hdf M3 Alm Orb AModel Exact stack posPart_stack)
variable {Fr : Type}

/-- C68: a gravity field can be built from any storage. If the storage has the coefficients of its degree and order, whatever
these are, then at each position but the center the acceleration and its partials are computed without an access out of bounds
and without a number that is not finite. -/
theorem field_checked (d : Data Fr) : ∃ f, Field.new d = some f ∧
    ((∀ n m, 1 ≤ n → n ≤ d.degree → m ≤ n → m ≤ d.order → (d.cs n m).isSome) →
      ∀ mu radius q, radius ≠ 0 → q ≠ 0 → (accel f mu radius q).isSome ∧
        (accelD Dual.ofReal f mu radius (Dual.vars q) (Dual.norm3 (Dual.vars q))).isSome) := by
  obtain ⟨f, hf, -⟩ := new_eq d
  refine ⟨f, hf, fun hC mu radius q hR hq => ?_⟩
  have hH : d.Has (fun n m => ((d.cs n m).getD (0, 0)).1) (fun n m => ((d.cs n m).getD (0, 0)).2) := by
    intro n m h1 h2 h3 h4
    obtain ⟨x, hx⟩ := Option.isSome_iff_exists.mp (hC n m h1 h2 h3 h4)
    simp [hx]
  rw [accel_eq d f _ _ mu radius q hf hH hR (nrm_pos q hq).ne', accelD_eq Dual.ofReal d f _ _ mu radius _ _ hf hH hR]
  exact ⟨rfl, rfl⟩

/-- C69: the vectors of the recursion have the real and imaginary parts of the powers of `s + i t`, up to the order requested. -/
theorem powers_complex (k : ℕ) (s t : ℝ) : ∃ p, powers id k s t = some p ∧ p.1.length = k + 1 ∧ p.2.length = k + 1 ∧
    ∀ m, m ≤ k → p.1[m]? = some (((s : ℂ) + t * Complex.I) ^ m).re ∧ p.2[m]? = some (((s : ℂ) + t * Complex.I) ^ m).im := by
  obtain ⟨p, h1, h2, h3, h4⟩ := powers_eq id k s t
  refine ⟨p, h1, h2, h3, fun m hm => ?_⟩
  rw [pw_eq]
  obtain ⟨h5, h6⟩ := h4 m hm
  rw [h5, h6]
  simp

/-- The table of the code has the derivatives of the Legendre polynomials, normalized. -/
theorem table_legendre (d : Data Fr) (f : Field Fr) (u : ℝ) (hf : Field.new d = some f) :
    ∃ t, table id d.degree d.order f.b f.c u f.a = some t ∧ ∀ n m, m ≤ n → n ≤ d.degree + 1 → m ≤ d.order + 1 →
      t.get n m = some (Real.sqrt ((2 * n + 1) * (n - m).factorial / (n + m).factorial) * (derivative^[m] (legendre n)).eval u) := by
  obtain ⟨f', h1, hd, hb, hc, -, -, hs, hdg, hz⟩ := new_eq d
  obtain rfl : f' = f := Option.some.inj (h1.symm.trans hf)
  obtain ⟨t, ht, hget⟩ := table_eq id d.degree d.order u f'.a ⟨hs, fun n hn => hdg n (by omega), fun n m h _ => hz n m (by omega)⟩
  rw [hb, hc]
  refine ⟨t, ht, fun n m h3 h4 h5 => ?_⟩
  rw [hget n m h4 (by omega) h5, legA_eq]
  rfl

/-- C163: the acceleration in the frame of the field is the gradient of the potential. -/
theorem accel_gradient (d : Data Fr) (f : Field Fr) (C S : ℕ → ℕ → ℝ) (mu radius : ℝ) (q : V3) (hf : Field.new d = some f)
    (hC : d.Has C S) (hR : radius ≠ 0) (hq : q ≠ 0) :
    ∃ a, accel f mu radius q = some a ∧ HasFDerivAt (potential d.degree d.order C S mu radius) (lin a) q :=
  ⟨_, accel_eq d f C S mu radius q hf hC hR (nrm_pos q hq).ne', potential_tracks _ _ C S mu radius hR q hq⟩

/-- C163: the potential in spherical coordinates, with the latitude `φ` and the longitude `l`. -/
theorem potential_spherical (N M : ℕ) (C S : ℕ → ℕ → ℝ) (mu radius r φ l : ℝ) (hr : 0 < r) :
    potential N M C S mu radius ![r * (Real.cos φ * Real.cos l), r * (Real.cos φ * Real.sin l), r * Real.sin φ] =
      ∑ k ∈ Finset.range N, mu / r * (radius / r) ^ (k + 1) * ∑ m ∈ Finset.range (min (k + 1) M + 1),
        unit (k + 1) m * (Real.cos φ ^ m * (derivative^[m] (legendre (k + 1))).eval (Real.sin φ)) *
          (C (k + 1) m * Real.cos (m * l) + S (k + 1) m * Real.sin (m * l)) := by
  have hn : nrm ![r * (Real.cos φ * Real.cos l), r * (Real.cos φ * Real.sin l), r * Real.sin φ] = r := by
    have h1 := nrm_sq ![r * (Real.cos φ * Real.cos l), r * (Real.cos φ * Real.sin l), r * Real.sin φ]
    have h2 := nrm_nonneg ![r * (Real.cos φ * Real.cos l), r * (Real.cos φ * Real.sin l), r * Real.sin φ]
    rw [dot3] at h1
    simp only [Matrix.cons_val_zero, Matrix.cons_val_one, Matrix.cons_val] at h1
    have h3 : nrm ![r * (Real.cos φ * Real.cos l), r * (Real.cos φ * Real.sin l), r * Real.sin φ] ^ 2 = r ^ 2 := by
      have e1 := Real.sin_sq_add_cos_sq φ
      have e2 := Real.sin_sq_add_cos_sq l
      rw [pow_two, h1]
      linear_combination r ^ 2 * Real.cos φ ^ 2 * e2 + r ^ 2 * e1
    exact (pow_left_inj₀ h2 hr.le two_ne_zero).mp h3
  simp only [potential, surface, hn, Matrix.cons_val_zero, Matrix.cons_val_one, Matrix.cons_val]
  refine Finset.sum_congr rfl fun k _ => congrArg _ (Finset.sum_congr rfl fun m _ => ?_)
  have e0 : ((r * (Real.cos φ * Real.cos l) / r : ℝ) : ℂ) + (r * (Real.cos φ * Real.sin l) / r : ℝ) * Complex.I =
      (Real.cos φ : ℂ) * (Complex.cos l + Complex.sin l * Complex.I) := by
    rw [mul_div_cancel_left₀ _ hr.ne', mul_div_cancel_left₀ _ hr.ne']
    push_cast
    ring
  have e1 : (Complex.cos l + Complex.sin l * Complex.I) ^ m = (Real.cos (m * l) : ℝ) + (Real.sin (m * l) : ℝ) * Complex.I := by
    rw [Complex.cos_add_sin_mul_I_pow]
    push_cast
    rfl
  rw [e0, mul_pow, e1, mul_div_cancel_left₀ _ hr.ne', ← Complex.ofReal_pow]
  have e2 : (((C (k + 1) m : ℂ) - S (k + 1) m * Complex.I) * (((Real.cos φ ^ m : ℝ) : ℂ) *
      ((Real.cos (m * l) : ℝ) + (Real.sin (m * l) : ℝ) * Complex.I))).re =
      Real.cos φ ^ m * (C (k + 1) m * Real.cos (m * l) + S (k + 1) m * Real.sin (m * l)) := by
    rw [Complex.mul_re, Complex.re_ofReal_mul, Complex.im_ofReal_mul]
    simp only [Complex.sub_re, Complex.add_re, Complex.mul_re, Complex.ofReal_re, Complex.ofReal_im, Complex.I_re, Complex.I_im,
      Complex.sub_im, Complex.add_im, Complex.mul_im]
    ring
  rw [e2]
  ring

/-- C163: the equations of motion rotate the gradient of the potential at the position in the frame of the field into the
frame of the orbit. -/
theorem eom_gradient (alm : Alm Fr) (d : Data Fr) (f : Field Fr) (C S : ℕ → ℕ → ℝ) (mu radius : ℝ) (o st : Orb Fr) (D : M3)
    (hf : Field.new d = some f) (hC : d.Has C S) (hst : alm.transformTo o d.frame = some st) (hr : alm.radius d.frame = some radius)
    (hmu : alm.mu d.frame = some mu) (hD : alm.rotate d.frame o.frame o.epoch = some D) (hR : radius ≠ 0) (hq : st.pos ≠ 0) :
    ∃ a, eom alm f o = some (D *ᵥ a) ∧ HasFDerivAt (potential d.degree d.order C S mu radius) (lin a) st.pos := by
  obtain ⟨a, h1, h2⟩ := accel_gradient d f C S mu radius st.pos hf hC hR hq
  obtain ⟨f', h3, hd, -⟩ := new_eq d
  obtain rfl : f' = f := Option.some.inj (h3.symm.trans hf)
  refine ⟨a, ?_, h2⟩
  simp only [eom, hd, hst, hr, hmu, hD, Option.bind_some, h1, Option.map_some]

/-- Specification: around `o`, the frame of the field turns and moves the positions, and `rotate` undoes the turn. -/
def Rigid (alm : Alm Fr) (d : Data Fr) (o : Orb Fr) (D : M3) (c : V3) : Prop :=
  alm.rotate d.frame o.frame o.epoch = some D ∧
    ∀ x, ∃ st, alm.transformTo (o.at x) d.frame = some st ∧ st.pos = Dᵀ *ᵥ (Force.posPart x - c)

/-- C164: the partials of the gravity field are exact: the gradient returns the acceleration and the derivative of the acceleration
with respect to the position in the frame of the orbit. -/
theorem gravity_exact (alm : Alm Fr) (d : Data Fr) (f : Field Fr) (C S : ℕ → ℕ → ℝ) (mu radius : ℝ) (o : Orb Fr) (D : M3) (c : V3)
    (hf : Field.new d = some f) (hC : d.Has C S) (hr : alm.radius d.frame = some radius) (hmu : alm.mu d.frame = some mu)
    (hD : Rigid alm d o D c) (hR : radius ≠ 0) (hq : Dᵀ *ᵥ (o.pos - c) ≠ 0) : Exact (model alm f) o := by
  obtain ⟨f', h3, hd, -⟩ := new_eq d
  obtain rfl : f' = f := Option.some.inj (h3.symm.trans hf)
  obtain ⟨hrot, htr⟩ := hD
  let A : V3 → V3 := fun y => pureG id d.degree d.order C S mu radius y (nrm y)
  let T : V3 → V3 := fun p => Dᵀ *ᵥ (p - c)
  have hT : HasFDerivAt T (linM Dᵀ) o.pos := by
    have h1 := ((linM Dᵀ).hasFDerivAt (x := o.pos - c)).comp o.pos ((hasFDerivAt_id (𝕜 := ℝ) o.pos).sub_const c)
    have e : (linM Dᵀ ∘ fun p : V3 => id p - c) = T := by
      funext p
      simp only [Function.comp, linM_apply, T, id]
    rw [e] at h1
    exact h1
  have hA := Tracks.vector fun i => pure_tracks d.degree d.order C S mu radius hR (T o.pos) hq i
  have hcont : ∀ᶠ x in nhds (stack o.pos o.vel), T (Force.posPart x) ≠ 0 := by
    have hc : ContinuousAt (fun x => T (Force.posPart x)) (stack o.pos o.vel) :=
      ContinuousAt.comp (g := T) (by rw [posPart_stack]; exact hT.continuousAt) (Verif.Force.posPart_deriv _).continuousAt
    have : T (Force.posPart (stack o.pos o.vel)) ≠ 0 := by rw [posPart_stack]; exact hq
    exact hc.eventually_ne this
  refine ⟨fun p => D *ᵥ A (T p), ?_, D * (of fun i j => (pureG Dual.ofReal d.degree d.order C S mu radius (Dual.vars (T o.pos))
    (Dual.norm3 (Dual.vars (T o.pos))) i).eps j) * Dᵀ, ?_, ?_⟩
  · filter_upwards [hcont] with x hx
    obtain ⟨st, h1, h2⟩ := htr x
    have hst : st.pos = T (Force.posPart x) := h2
    show eom alm f' (o.at x) = _
    simp only [eom, hd, h1, hr, hmu, Option.bind_some, hst, accel_eq d f' C S mu radius _ hf hC hR (nrm_pos _ hx).ne']
    rw [show alm.rotate d.frame (o.at x).frame (o.at x).epoch = some D from hrot]
    rfl
  · obtain ⟨st, h1, h2⟩ := htr (stack o.pos o.vel)
    rw [Verif.Force.at_stack] at h1
    rw [posPart_stack] at h2
    have hst : st.pos = T o.pos := h2
    show gradient alm f' o = _
    simp only [gradient, hd, h1, hst, (nrm_pos _ hq).ne', if_false, hr, hmu, Option.bind_some,
      accelD_eq Dual.ofReal d f' C S mu radius _ _ hf hC hR, hrot, Option.map_some, T]
    rw [Option.some.injEq, Prod.mk.injEq]
    refine ⟨?_, rfl⟩
    rw [← hA.1]
  · have h1 := hA.2.comp o.pos hT
    have h2 := ((linM D).hasFDerivAt (x := A (T o.pos))).comp o.pos h1
    have e : (linM D ∘ ((fun y i => pureG id d.degree d.order C S mu radius y (nrm y) i) ∘ T)) = fun p => D *ᵥ A (T p) := by
      funext p
      simp only [Function.comp, linM_apply]
      rfl
    rw [e] at h2
    refine h2.congr_fderiv (ContinuousLinearMap.ext fun v => ?_)
    rw [ContinuousLinearMap.comp_apply, ContinuousLinearMap.comp_apply, linM_apply, linM_apply, linM_apply, linM_apply, mulVec_mulVec,
      mulVec_mulVec]

/-- The linear form as a linear map of its coefficients. -/
noncomputable def linL : V3 →L[ℝ] (V3 →L[ℝ] ℝ) :=
  ∑ j, (ContinuousLinearMap.proj j : V3 →L[ℝ] ℝ).smulRight (ContinuousLinearMap.proj j : V3 →L[ℝ] ℝ)

theorem linL_apply (e : V3) : linL e = lin e := by
  simp [linL, lin]

/-- C164: the matrix of the partials in the frame of the field is symmetric. -/
theorem partials_symmetric (d : Data Fr) (f : Field Fr) (C S : ℕ → ℕ → ℝ) (mu radius : ℝ) (q : V3) (a : Fin 3 → Dual 3)
    (hf : Field.new d = some f) (hC : d.Has C S) (hR : radius ≠ 0) (hq : q ≠ 0)
    (ha : accelD Dual.ofReal f mu radius (Dual.vars q) (Dual.norm3 (Dual.vars q)) = some a) (i j : Fin 3) : (a i).eps j = (a j).eps i := by
  rw [accelD_eq Dual.ofReal d f C S mu radius _ _ hf hC hR, Option.some.injEq] at ha
  obtain ⟨-, h1⟩ := Tracks.vector fun i => pure_tracks d.degree d.order C S mu radius hR q hq i
  rw [ha] at h1
  have hU : ∀ᶠ y in nhds q, HasFDerivAt (potential d.degree d.order C S mu radius)
      (linL (pureG id d.degree d.order C S mu radius y (nrm y))) y := by
    filter_upwards [isOpen_ne.mem_nhds hq] with y hy
    rw [linL_apply]
    exact potential_tracks _ _ C S mu radius hR y hy
  have h2 := (linL.hasFDerivAt (x := fun i => pureG id d.degree d.order C S mu radius q (nrm q) i)).comp q h1
  have h3 := second_derivative_symmetric_of_eventually hU h2 (Pi.single i 1) (Pi.single j 1)
  simp only [ContinuousLinearMap.comp_apply, linL_apply, lin_apply, linM_apply] at h3
  simp at h3
  exact h3.symm

example (r φ l : ℝ) (hr : 0 < r) := potential_spherical 3 2 (fun n m => if n = 2 ∧ m = 0 then -4841 / 10 ^ 7 else 0) 0 398600 6378 r φ l hr

example (d : Data Fr) (u : ℝ) := table_legendre d _ u (field_checked d).choose_spec.1

end Verif.Gravity
