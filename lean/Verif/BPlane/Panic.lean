import Verif.BPlane.Achieve
import Mathlib.Analysis.Calculus.Deriv.Prod
import Mathlib.Analysis.SpecialFunctions.Trigonometric.Deriv
/-!
C169: an orbit for which `try_achieve_b_plane` panics.
-/
namespace Verif.BPlane
open Verif.MathU Matrix
open Verif.Mc (Out orErr unwrap)
open Verif.Force (lin lin_apply)

/-- The component along `R` is that of the offset of the asymptote along the third axis of the frame, up to the size of
the projection. -/
theorem bR_third {mu : ℝ} {p v : V3} {pl : Plane} (hmu : 0 < mu) (hp : p ≠ 0) (h : Plane.new (some mu) p v = .ok (some pl))
    {S B : V3} {w : ℝ} (hA : Asymptote mu p v S B w) : pl.dcm 2 2 * pl.bR.re = B 2 := by
  obtain ⟨B', w', hA', -, hR, -, -⟩ := plane_asymptote mu p v pl hmu hp h
  obtain ⟨hS, hB, -⟩ := hA'.unique hA
  subst hB
  obtain ⟨h1, -, h3, -⟩ := dcm_rotation mu p v pl hmu hp h
  have h2 : pl.dcmᵀ * pl.dcm = 1 := mul_eq_one_comm.1 h1
  have e : (pl.dcmᵀ * pl.dcm) *ᵥ B' = B' := by rw [h2, one_mulVec]
  have e2 := congrFun e 2
  rw [← mulVec_mulVec, mulVec, dotProduct, Fin.sum_univ_three] at e2
  simp only [transpose_apply] at e2
  rw [h3, zero_mul, add_zero, show (pl.dcm *ᵥ B') 0 = pl.dcm 0 ⬝ᵥ B' from rfl, dotProduct_comm, hA'.perp, mul_zero, zero_add,
    show (pl.dcm *ᵥ B') 2 = pl.dcm 2 ⬝ᵥ B' from rfl, dotProduct_comm, ← hR] at e2
  exact e2

theorem bR_zero {mu : ℝ} {p v : V3} {pl : Plane} (hmu : 0 < mu) (hp : p ≠ 0) (h : Plane.new (some mu) p v = .ok (some pl))
    {S B : V3} {w : ℝ} (hA : Asymptote mu p v S B w) (hB : B 2 = 0) : pl.bR.re = 0 := by
  have h1 := bR_third hmu hp h hA
  rw [hB] at h1
  exact (mul_eq_zero.1 h1).resolve_left (dcm_rotation mu p v pl hmu hp h).2.2.2.ne

/-- The component along `R` of an orbit in the plane of the first two axes is zero. -/
theorem bR_flat {mu : ℝ} {p v : V3} {pl : Plane} (hmu : 0 < mu) (hp : p ≠ 0) (h : Plane.new (some mu) p v = .ok (some pl))
    (h1 : p 2 = 0) (h2 : v 2 = 0) : pl.bR.re = 0 := by
  obtain ⟨B, w, hA, -, -, -, -⟩ := plane_asymptote mu p v pl hmu hp h
  refine bR_zero hmu hp h hA ?_
  have m0 := congrFun hA.momentum 0
  have m1 := congrFun hA.momentum 1
  have hu := hA.unit
  have hb := hA.perp
  simp only [Pi.smul_apply, smul_eq_mul, cross0, cross1] at m0 m1
  rw [h1, h2] at m0 m1
  rw [dot3] at hu hb
  have hw := hA.speed.ne'
  have a0 : B 1 * pl.dcm 0 2 - B 2 * pl.dcm 0 1 = 0 := by
    have : w * (B 1 * pl.dcm 0 2 - B 2 * pl.dcm 0 1) = 0 := by linarith
    exact (mul_eq_zero.1 this).resolve_left hw
  have a1 : B 2 * pl.dcm 0 0 - B 0 * pl.dcm 0 2 = 0 := by
    have : w * (B 2 * pl.dcm 0 0 - B 0 * pl.dcm 0 2) = 0 := by linarith
    exact (mul_eq_zero.1 this).resolve_left hw
  linear_combination (-(B 2)) * hu + pl.dcm 0 2 * hb - pl.dcm 0 1 * a0 + pl.dcm 0 0 * a1

/-- Along a curve of velocities where the component along `R` is zero, its derivative is. -/
theorem jacobian_along {mu : ℝ} {p v : V3} {pl : Plane} (hmu : 0 < mu) (hp : p ≠ 0) (h : Plane.new (some mu) p v = .ok (some pl))
    {γ : ℝ → V3} {d : V3} (h0 : γ 0 = v) (hd : HasDerivAt γ d 0)
    (hz : ∀ t q, Plane.new (some mu) p (γ t) = .ok (some q) → q.bR.re = 0) : pl.jacobian 0 ⬝ᵥ d = 0 := by
  obtain ⟨T, R, h1, h2, -, -, -⟩ := jacobian_partials mu p v pl hmu hp h
  rw [← h0] at h1 h2
  have h3 := h2.comp_hasDerivAt (0 : ℝ) hd
  rw [lin_apply] at h3
  have h4 : R ∘ γ =ᶠ[nhds 0] fun _ => 0 := by
    filter_upwards [hd.continuousAt.eventually h1] with t ht
    obtain ⟨q, hq, -, hR⟩ := ht
    exact hR.symm.trans (hz t q hq)
  exact h3.unique ((hasDerivAt_const (0 : ℝ) (0 : ℝ)).congr_of_eventuallyEq h4)

/-- The hyperbola of `peri` before its periapsis, at a right angle from the direction of its incoming asymptote. -/
noncomputable def side : V3 := ![32 / 35, -24 / 35, 0]

/-- The velocity there, turned by an angle about the position. -/
noncomputable def sideV (t : ℝ) : V3 := ![-3 / 10 + 21 / 40 * Real.cos t, 9 / 40 + 7 / 10 * Real.cos t, 7 / 8 * Real.sin t]

theorem side_nrm : nrm side = 8 / 7 := by
  unfold nrm
  rw [dot3, show side 0 * side 0 + side 1 * side 1 + side 2 * side 2 = (8 / 7) ^ 2 by simp [side]; norm_num]
  exact Real.sqrt_sq (by norm_num)

theorem side_ne : side ≠ 0 := fun h => by simpa [side] using congrFun h 0

theorem side_asymptote (t : ℝ) : Asymptote (3 / 8) side (sideV t) ![3 / 5 * Real.cos t, 4 / 5 * Real.cos t, Real.sin t]
    ![8 / 5, -6 / 5, 0] (1 / 2) := by
  have hc := Real.sin_sq_add_cos_sq t
  refine ⟨?_, ?_, by norm_num, ?_, ?_, ?_⟩
  · rw [dot3]; simp; linear_combination hc
  · rw [dot3]; simp; ring
  · rw [side_nrm, dot3]; simp [sideV]; linear_combination (-49 / 128) * hc
  · refine ext3 ?_ ?_ ?_ <;> simp only [Pi.smul_apply, smul_eq_mul, cross0, cross1, cross2] <;> simp [side, sideV] <;> ring
  · rw [side_nrm]
    refine ext3 ?_ ?_ ?_ <;> simp only [Pi.add_apply, Pi.sub_apply, Pi.smul_apply, smul_eq_mul, cross0, cross1, cross2] <;>
      simp [side, sideV]
    · linear_combination (4 / 5) * hc
    · linear_combination (-3 / 5) * hc
    · ring

theorem side_plane : ∃ pl, Plane.new (some (3 / 8)) side (sideV 0) = .ok (some pl) := by
  cases h : Plane.new (some (3 / 8)) side (sideV 0) with
  | panic => exact absurd h (new_no_panic _ _ _)
  | err =>
    rw [new_err_iff _ _ _ (by norm_num) side_ne] at h
    rcases h with h | h
    · rw [side_nrm, dot3] at h
      simp [sideV] at h
      norm_num at h
    · have := congrFun h 2
      rw [cross2] at this
      simp [side, sideV] at this
      norm_num at this
  | ok o =>
    cases o with
    | some pl => exact ⟨pl, rfl⟩
    | none =>
      rw [new_nan_iff _ _ _ (by norm_num) side_ne] at h
      obtain ⟨-, S, B, w, hA, h0, -⟩ := h
      obtain ⟨rfl, -, -⟩ := hA.unique (side_asymptote 0)
      simp at h0

/-- There, the derivatives of the component along `R` are zero. -/
theorem side_row {pl : Plane} (h : Plane.new (some (3 / 8)) side (sideV 0) = .ok (some pl)) : pl.jacobian 0 = 0 := by
  have hmu : (0 : ℝ) < 3 / 8 := by norm_num
  have hx : pl.jacobian 0 ⬝ᵥ ![1, 0, 0] = 0 := by
    refine jacobian_along hmu side_ne h (γ := fun t => ![9 / 40 + t, 37 / 40, 0]) ?_ ?_ ?_
    · refine ext3 ?_ ?_ ?_ <;> simp [sideV] <;> norm_num
    · refine hasDerivAt_pi.2 fun i => ?_
      fin_cases i
      · simpa using (hasDerivAt_id (0 : ℝ)).const_add (9 / 40)
      · exact hasDerivAt_const _ _
      · exact hasDerivAt_const _ _
    · intro t q hq
      exact bR_flat hmu side_ne hq rfl rfl
  have hy : pl.jacobian 0 ⬝ᵥ ![0, 1, 0] = 0 := by
    refine jacobian_along hmu side_ne h (γ := fun t => ![9 / 40, 37 / 40 + t, 0]) ?_ ?_ ?_
    · refine ext3 ?_ ?_ ?_ <;> simp [sideV] <;> norm_num
    · refine hasDerivAt_pi.2 fun i => ?_
      fin_cases i
      · exact hasDerivAt_const _ _
      · simpa using (hasDerivAt_id (0 : ℝ)).const_add (37 / 40)
      · exact hasDerivAt_const _ _
    · intro t q hq
      exact bR_flat hmu side_ne hq rfl rfl
  have hz : pl.jacobian 0 ⬝ᵥ ![0, 0, 7 / 8] = 0 := by
    refine jacobian_along hmu side_ne h (γ := sideV) rfl ?_ ?_
    · refine hasDerivAt_pi.2 fun i => ?_
      fin_cases i
      · show HasDerivAt (fun t : ℝ => -3 / 10 + 21 / 40 * Real.cos t) 0 0
        simpa using ((Real.hasDerivAt_cos 0).const_mul (21 / 40)).const_add (-3 / 10)
      · show HasDerivAt (fun t : ℝ => 9 / 40 + 7 / 10 * Real.cos t) 0 0
        simpa using ((Real.hasDerivAt_cos 0).const_mul (7 / 10)).const_add (9 / 40)
      · show HasDerivAt (fun t : ℝ => 7 / 8 * Real.sin t) (7 / 8) 0
        simpa using (Real.hasDerivAt_sin 0).const_mul (7 / 8)
    · intro t q hq
      exact bR_zero hmu side_ne hq (side_asymptote t) rfl
  rw [dot3] at hx hy hz
  simp at hx hy hz
  exact ext3 hx hy hz

/-- C169: from this hyperbola, any target whose component along `R` is not zero within its tolerance makes
`try_achieve_b_plane` panic. -/
theorem achieve_panics (t : Target) (hl : ¬ t.ltofSet) (ht : t.tolR ≤ |t.bR|) :
    achieve (some (3 / 8)) side (sideV 0) t = .panic := by
  obtain ⟨pl, h⟩ := side_plane
  have hz : pl.bR.re = 0 := bR_flat (by norm_num) side_ne h rfl (by simp [sideV])
  unfold achieve
  rw [if_neg hl, loop2, h]
  simp only [Out.bind]
  rw [if_neg (fun hh => absurd hh.1 (by rw [hz, sub_zero]; exact not_lt.2 ht)), if_neg (by simp [notBelow])]
  have hd : tryInverse ((of ![pl.jacobian 0, pl.jacobian 1] : Matrix (Fin 2) (Fin 3) ℝ) *
      (of ![pl.jacobian 0, pl.jacobian 1] : Matrix (Fin 2) (Fin 3) ℝ)ᵀ) = none := by
    unfold tryInverse
    rw [if_pos]
    rw [det_fin_two]
    simp [side_row h, mul_apply]
  rw [hd]
  rfl

example : achieve (some (3 / 8)) side (sideV 0) (Target.fromBtBr 0 1) = .panic :=
  achieve_panics _ (by simp [Target.ltofSet, Target.fromBtBr]) (by simp [Target.fromBtBr]; norm_num)

example := achieve_panic (some (3 / 8)) side (sideV 0) (Target.fromBtBr 0 1) (by simp [Target.ltofSet, Target.fromBtBr])
  (achieve_panics _ (by simp [Target.ltofSet, Target.fromBtBr]) (by simp [Target.fromBtBr]; norm_num))

end Verif.BPlane
