import Verif.BPlane.Theorems
import Mathlib.LinearAlgebra.Matrix.Determinant.Basic

/-!
Theorems on the B-plane (C72, C168): what `BPlane::new` returns.
-/
namespace Verif.BPlane
open Verif.MathU Matrix
open Verif.Mc (Out orErr unwrap)
open Verif.Force (Dual M3 Tracks lin lin_apply)

theorem norm3_re {n : ℕ} (v : Fin 3 → Dual n) : (Dual.norm3 v).re = nrm fun i => (v i).re := by
  unfold nrm
  rw [dot3]
  show Real.sqrt ((v 0).re ^ 2 + (v 1).re ^ 2 + (v 2).re ^ 2) = _
  congr 1
  ring

theorem grad_ecc (mu : ℝ) (p v : V3) : (grad mu p v).ecc.re = eccF mu (Force.stack p v) := by
  unfold grad eccF
  simp only
  rw [norm3_re]
  congr 1
  funext i
  have hr : (Dual.norm3 ![Dual.vars (Force.stack p v) 0, Dual.vars (Force.stack p v) 1, Dual.vars (Force.stack p v) 2]).re = nrm (pos (Force.stack p v)) := by
    rw [norm3_re]
    congr 1
    funext i
    fin_cases i <;> rfl
  have hw : (Dual.norm3 ![Dual.vars (Force.stack p v) 3, Dual.vars (Force.stack p v) 4, Dual.vars (Force.stack p v) 5]).re = nrm (vel (Force.stack p v)) := by
    rw [norm3_re]
    congr 1
    funext i
    fin_cases i <;> rfl
  unfold eF
  rw [← hr, ← hw, dot3]
  fin_cases i <;> rfl

/-- The energy and the angular momentum of an orbit tell whether its eccentricity is beyond one. -/
theorem hyperbolic_iff (mu : ℝ) (x : Fin 6 → ℝ) (hmu : 0 < mu) (hp : pos x ≠ 0) :
    1 < eccF mu x ↔ 0 < vel x ⬝ᵥ vel x / 2 - mu / nrm (pos x) ∧ pos x ⨯₃ vel x ≠ 0 := by
  have e := ecc_energy mu x hmu.ne' hp
  have e4 : nrm (vel x) ^ 2 = vel x ⬝ᵥ vel x := by rw [← nrm_sq, sq]
  rw [e4] at e
  have hn : 0 ≤ eccF mu x := nrm_nonneg _
  have hr := nrm_pos _ hp
  constructor
  · intro h
    have hh := h_ne hmu.ne' hp h
    refine ⟨?_, hh⟩
    have h1 : 0 < eccF mu x ^ 2 - 1 := by nlinarith
    rw [e, div_pos_iff_of_pos_right (by positivity)] at h1
    have h2 := pos_of_mul_pos_left h1 (sq_nonneg _)
    have : 2 * mu / nrm (pos x) = 2 * (mu / nrm (pos x)) := by ring
    linarith
  · rintro ⟨h1, h2⟩
    have hh := nrm_pos _ h2
    have h3 : 0 < eccF mu x ^ 2 - 1 := by
      rw [e]
      have : 0 < vel x ⬝ᵥ vel x - 2 * mu / nrm (pos x) := by
        have : 2 * mu / nrm (pos x) = 2 * (mu / nrm (pos x)) := by ring
        linarith
      have : 0 < nrm (hF x) := hh
      positivity
    nlinarith

/-- C72: a B-plane is refused exactly for the orbits which are not hyperbolic. -/
theorem new_err_iff (mu : ℝ) (p v : V3) (hmu : 0 < mu) (hp : p ≠ 0) :
    Plane.new (some mu) p v = .err ↔ v ⬝ᵥ v / 2 - mu / nrm p ≤ 0 ∨ p ⨯₃ v = 0 := by
  have h := hyperbolic_iff mu (Force.stack p v) hmu (by rwa [pos_stack])
  rw [pos_stack, vel_stack] at h
  have hn : ¬ 1 < eccF mu (Force.stack p v) ↔ v ⬝ᵥ v / 2 - mu / nrm p ≤ 0 ∨ p ⨯₃ v = 0 := by
    rw [h, not_and_or, not_lt, not_not]
  rw [← hn]
  show fromDual (grad mu p v) = .err ↔ _
  rw [← grad_ecc]
  unfold fromDual
  by_cases hc : 1 < (grad mu p v).ecc.re
  · rw [if_pos hc]
    simp only
    constructor
    · intro h'
      split_ifs at h'
    · exact fun h' => absurd hc h'
  · rw [if_neg hc]
    exact ⟨fun _ => hc, fun _ => rfl⟩

/-- What `BPlane::new` returns. -/
theorem new_eq (mu : ℝ) (x : Fin 6 → ℝ) (hmu : 0 < mu) (hp : pos x ≠ 0) (he : 1 < eccF mu x) :
    (tF mu x = 0 → Plane.new (some mu) (pos x) (vel x) = .ok none) ∧ (tF mu x ≠ 0 → ∃ pl, Plane.new (some mu) (pos x) (vel x) = .ok (some pl) ∧
      Tracks x (fun y => bF mu y ⬝ᵥ tHatF mu y) pl.bT ∧ Tracks x (fun y => bF mu y ⬝ᵥ rHatF mu y) pl.bR ∧
      Tracks x (fun y => bF mu y ⬝ᵥ sHatF mu y / nrm (vel y)) pl.ltof ∧ pl.dcm = of ![sHatF mu x, tHatF mu x, rHatF mu x]) := by
  have hh := h_ne hmu.ne' hp he
  exact fromDual_eq (grad mu (pos x) (vel x)) (grad_tracks mu x hmu.ne' hp (vel_ne hh) hh he) hh he

theorem hyperbolic_of_ok {mu : ℝ} {x : Fin 6 → ℝ} {o : Option Plane} (h : Plane.new (some mu) (pos x) (vel x) = .ok o) : 1 < eccF mu x := by
  by_contra hc
  rw [← stack_pos_vel x, ← grad_ecc] at hc
  change fromDual (grad mu (pos x) (vel x)) = .ok o at h
  unfold fromDual at h
  rw [if_neg hc] at h
  exact absurd h (by simp)

/-- A plane that is returned is made of numbers where the asymptote is not along the axis. -/
theorem of_some {mu : ℝ} {x : Fin 6 → ℝ} {pl : Plane} (hmu : 0 < mu) (hp : pos x ≠ 0) (h : Plane.new (some mu) (pos x) (vel x) = .ok (some pl)) :
    1 < eccF mu x ∧ tF mu x ≠ 0 ∧
      Tracks x (fun y => bF mu y ⬝ᵥ tHatF mu y) pl.bT ∧ Tracks x (fun y => bF mu y ⬝ᵥ rHatF mu y) pl.bR ∧
      Tracks x (fun y => bF mu y ⬝ᵥ sHatF mu y / nrm (vel y)) pl.ltof ∧ pl.dcm = of ![sHatF mu x, tHatF mu x, rHatF mu x] := by
  have he := hyperbolic_of_ok h
  obtain ⟨h1, h2⟩ := new_eq mu x hmu hp he
  have ht : tF mu x ≠ 0 := by
    intro ht
    rw [h1 ht] at h
    exact absurd h (by simp)
  obtain ⟨pl', h3, h4⟩ := h2 ht
  rw [h] at h3
  simp only [Out.ok.injEq, Option.some.injEq] at h3
  subst h3
  exact ⟨he, ht, h4⟩

section
variable {mu : ℝ} {x : Fin 6 → ℝ}

/-- The vectors of the plane are orthonormal. -/
theorem str_unit (hh : hF x ≠ 0) (he : 1 < eccF mu x) (ht : tF mu x ≠ 0) :
    sHatF mu x ⬝ᵥ sHatF mu x = 1 ∧ tHatF mu x ⬝ᵥ tHatF mu x = 1 ∧ sHatF mu x ⬝ᵥ tHatF mu x = 0 ∧ tHatF mu x 2 = 0 := by
  have hn := (nrm_pos _ ht).ne'
  refine ⟨?_, ?_, ?_, ?_⟩
  · rw [(s_unit hh he).2]
    exact (s_unit hh he).1
  · have e : nrm (tF mu x) * nrm (tF mu x) = tF mu x ⬝ᵥ tF mu x := nrm_sq _
    rw [dot3] at e ⊢
    simp only [tHatF]
    field_simp
    linarith
  · rw [dot3]
    simp only [tHatF, tF, cross0, cross1, cross2]
    simp
    ring
  · simp only [tHatF, tF, cross2]
    simp

end

/-- C72: the matrix of the plane is a rotation, whose second axis is in the plane of the first two axes of the frame and whose third axis is towards the
negative ones of the third. -/
theorem dcm_rotation (mu : ℝ) (p v : V3) (pl : Plane) (hmu : 0 < mu) (hp : p ≠ 0) (h : Plane.new (some mu) p v = .ok (some pl)) :
    pl.dcm * pl.dcmᵀ = 1 ∧ pl.dcm.det = 1 ∧ pl.dcm 1 2 = 0 ∧ pl.dcm 2 2 < 0 := by
  rw [← pos_stack p v] at hp
  have h' : Plane.new (some mu) (pos (Force.stack p v)) (vel (Force.stack p v)) = .ok (some pl) := by rwa [pos_stack, vel_stack]
  obtain ⟨he, ht, -, -, -, hd⟩ := of_some hmu hp h'
  have hh := h_ne hmu.ne' hp he
  obtain ⟨s1, s2, s3, s4⟩ := str_unit hh he ht
  set x := Force.stack p v
  have hn := nrm_pos _ ht
  rw [hd]
  rw [dot3] at s1 s2 s3
  have g : rHatF mu x = sHatF mu x ⨯₃ tHatF mu x := rfl
  refine ⟨?_, ?_, s4, ?_⟩
  · ext i j
    rw [mul_apply, Fin.sum_univ_three]
    simp only [transpose_apply]
    fin_cases i <;> fin_cases j <;> simp [g, cross0, cross1, cross2]
    · linarith
    · linarith
    · ring
    · linarith
    · linarith
    · ring
    · ring
    · ring
    · linear_combination (tHatF mu x 0 ^ 2 + tHatF mu x 1 ^ 2 + tHatF mu x 2 ^ 2) * s1 + s2 -
        (sHatF mu x 0 * tHatF mu x 0 + sHatF mu x 1 * tHatF mu x 1 + sHatF mu x 2 * tHatF mu x 2) * s3
  · rw [det_fin_three]
    simp [g, cross0, cross1, cross2]
    linear_combination (tHatF mu x 0 ^ 2 + tHatF mu x 1 ^ 2 + tHatF mu x 2 ^ 2) * s1 + s2 -
        (sHatF mu x 0 * tHatF mu x 0 + sHatF mu x 1 * tHatF mu x 1 + sHatF mu x 2 * tHatF mu x 2) * s3
  · show rHatF mu x 2 < 0
    have e : nrm (tF mu x) * rHatF mu x 2 = -(tF mu x 0 ^ 2 + tF mu x 1 ^ 2) := by
      rw [g, cross2]
      simp only [tHatF]
      field_simp
      simp only [tF, cross0, cross1]
      simp
      ring
    have e2 : tF mu x 2 = 0 := by simp [tF, cross2]
    have e3 : nrm (tF mu x) * nrm (tF mu x) = tF mu x ⬝ᵥ tF mu x := nrm_sq _
    rw [dot3, e2] at e3
    by_contra hc
    rw [not_lt] at hc
    have := mul_nonneg hn.le hc
    nlinarith

/-- C72: the first axis of the plane is the direction of the incoming asymptote, the components are those of its offset from the center along the two other axes, and
the time of flight is zero. -/
theorem plane_asymptote (mu : ℝ) (p v : V3) (pl : Plane) (hmu : 0 < mu) (hp : p ≠ 0) (h : Plane.new (some mu) p v = .ok (some pl)) :
    ∃ B w, Asymptote mu p v (pl.dcm 0) B w ∧ pl.bT.re = B ⬝ᵥ pl.dcm 1 ∧ pl.bR.re = B ⬝ᵥ pl.dcm 2 ∧ pl.magnitude = nrm B ∧ pl.ltof.re = 0 := by
  have hrot := dcm_rotation mu p v pl hmu hp h
  have h' : Plane.new (some mu) (pos (Force.stack p v)) (vel (Force.stack p v)) = .ok (some pl) := by rwa [pos_stack, vel_stack]
  rw [← pos_stack p v] at hp
  obtain ⟨he, ht, hT, hR, hL, hd⟩ := of_some hmu hp h'
  have hh := h_ne hmu.ne' hp he
  obtain ⟨w, hw⟩ := asymptote_of hmu hp he
  have hb := b_dot_s hh he
  rw [pos_stack, vel_stack] at hw
  set x := Force.stack p v
  have d0 : pl.dcm 0 = sHatF mu x := by rw [hd]; rfl
  have d1 : pl.dcm 1 = tHatF mu x := by rw [hd]; rfl
  have d2 : pl.dcm 2 = rHatF mu x := by rw [hd]; rfl
  refine ⟨bF mu x, w, by rw [d0]; exact hw, by rw [d1]; exact hT.1, by rw [d2]; exact hR.1, ?_, ?_⟩
  · unfold Plane.magnitude nrm
    rw [hT.1, hR.1]
    congr 1
    obtain ⟨s1, s2, s3, s4⟩ := str_unit hh he ht
    -- the components along the three axes
    have horth : pl.dcmᵀ * pl.dcm = 1 := mul_eq_one_comm.mp hrot.1
    have e : (pl.dcm *ᵥ bF mu x) ⬝ᵥ (pl.dcm *ᵥ bF mu x) = bF mu x ⬝ᵥ bF mu x := by
      rw [dotProduct_mulVec, vecMul_mulVec, horth, vecMul_one]
    rw [← e, dot3]
    have m0 : (pl.dcm *ᵥ bF mu x) 0 = 0 := by
      show pl.dcm 0 ⬝ᵥ bF mu x = 0
      rw [d0, dotProduct_comm, hb]
    have m1 : (pl.dcm *ᵥ bF mu x) 1 = bF mu x ⬝ᵥ tHatF mu x := by
      show pl.dcm 1 ⬝ᵥ bF mu x = _
      rw [d1, dotProduct_comm]
    have m2 : (pl.dcm *ᵥ bF mu x) 2 = bF mu x ⬝ᵥ rHatF mu x := by
      show pl.dcm 2 ⬝ᵥ bF mu x = _
      rw [d2, dotProduct_comm]
    rw [m0, m1, m2]
    ring
  · rw [hL.1]
    simp only
    rw [hb, zero_div]

/-- C72: the angle in degrees, between -180 and 180, is that of the vector in the plane, from the axis T toward the axis R. -/
theorem plane_angle (pl : Plane) :
    pl.bT.re = pl.magnitude * Real.cos (pl.angleDeg * (Real.pi / 180)) ∧ pl.bR.re = pl.magnitude * Real.sin (pl.angleDeg * (Real.pi / 180)) ∧
      -180 ≤ pl.angleDeg ∧ pl.angleDeg ≤ 180 := by
  obtain ⟨h1, h2⟩ := atan2_polar pl.bR.re pl.bT.re
  obtain ⟨⟨k, hk⟩, h3, h4, -⟩ := between_pm_x_partial (atan2 pl.bR.re pl.bT.re * (180 / Real.pi)) 180 (by norm_num)
  have hm : pl.magnitude = Real.sqrt (pl.bT.re * pl.bT.re + pl.bR.re * pl.bR.re) := by
    unfold Plane.magnitude
    rw [sq, sq]
  have ha : pl.angleDeg * (Real.pi / 180) = atan2 pl.bR.re pl.bT.re + k * (2 * Real.pi) := by
    unfold Plane.angleDeg betweenPm180
    rw [hk]
    field_simp
  rw [hm, ha, Real.cos_add_int_mul_two_pi, Real.sin_add_int_mul_two_pi]
  exact ⟨h1.symm, h2.symm, h3, h4⟩

/-- C72: the components are not numbers exactly if the asymptote of an orbit that is not rectilinear is along the third axis of
the frame. -/
theorem new_nan_iff (mu : ℝ) (p v : V3) (hmu : 0 < mu) (hp : p ≠ 0) :
    Plane.new (some mu) p v = .ok none ↔ p ⨯₃ v ≠ 0 ∧ ∃ S B w, Asymptote mu p v S B w ∧ S 0 = 0 ∧ S 1 = 0 := by
  have hp' : pos (Force.stack p v) ≠ 0 := by rwa [pos_stack]
  have key : ∀ he : 1 < eccF mu (Force.stack p v), tF mu (Force.stack p v) = 0 ↔ sHatF mu (Force.stack p v) 0 = 0 ∧ sHatF mu (Force.stack p v) 1 = 0 := by
    intro he
    unfold tF
    constructor
    · intro h
      have e0 := congrFun h 0
      have e1 := congrFun h 1
      rw [cross0] at e0
      rw [cross1] at e1
      simp at e0 e1
      exact ⟨e1, e0⟩
    · rintro ⟨h0, h1⟩
      refine ext3 ?_ ?_ ?_
      · rw [cross0]; simp [h1]
      · rw [cross1]; simp [h0]
      · rw [cross2]; simp
  constructor
  · intro h
    have h' : Plane.new (some mu) (pos (Force.stack p v)) (vel (Force.stack p v)) = .ok none := by rwa [pos_stack, vel_stack]
    have he := hyperbolic_of_ok h'
    have ht : tF mu (Force.stack p v) = 0 := by
      by_contra hc
      obtain ⟨pl, h1, -⟩ := (new_eq mu _ hmu hp' he).2 hc
      rw [h'] at h1
      exact absurd h1 (by simp)
    obtain ⟨w, hw⟩ := asymptote_of hmu hp' he
    rw [pos_stack, vel_stack] at hw
    have hh := h_ne hmu.ne' hp' he
    unfold hF at hh
    rw [pos_stack, vel_stack] at hh
    exact ⟨hh, _, _, w, hw, (key he).mp ht⟩
  · rintro ⟨hh, S, B, w, hA, h0, h1⟩
    have he : 1 < eccF mu (Force.stack p v) := by
      rw [hyperbolic_iff mu _ hmu hp', pos_stack, vel_stack]
      have hw := hA.speed
      exact ⟨by rw [← hA.energy]; positivity, hh⟩
    obtain ⟨w', hw⟩ := asymptote_of hmu hp' he
    rw [pos_stack, vel_stack] at hw
    obtain ⟨rfl, -, -⟩ := hw.unique hA
    have := (new_eq mu _ hmu hp' he).1 ((key he).mpr ⟨h0, h1⟩)
    rwa [pos_stack, vel_stack] at this

/-- C168: the partials of the components are their derivatives with respect to the position and velocity; those of the time of flight are zero. The functions
`T` and `R` give the components of the planes of the orbits around. -/
theorem plane_partials (mu : ℝ) (p v : V3) (pl : Plane) (hmu : 0 < mu) (hp : p ≠ 0) (h : Plane.new (some mu) p v = .ok (some pl)) :
    ∃ T R : (Fin 6 → ℝ) → ℝ,
      (∀ᶠ y in nhds (Force.stack p v), ∃ q, Plane.new (some mu) ![y 0, y 1, y 2] ![y 3, y 4, y 5] = .ok (some q) ∧ q.bT.re = T y ∧ q.bR.re = R y) ∧
      HasFDerivAt T (lin pl.bT.eps) (Force.stack p v) ∧ HasFDerivAt R (lin pl.bR.eps) (Force.stack p v) ∧ pl.ltof.eps = 0 := by
  have h' : Plane.new (some mu) (pos (Force.stack p v)) (vel (Force.stack p v)) = .ok (some pl) := by rwa [pos_stack, vel_stack]
  rw [← pos_stack p v] at hp
  obtain ⟨he, ht, hT, hR, hL, hd⟩ := of_some hmu hp h'
  have hh := h_ne hmu.ne' hp he
  have hg := grad_tracks mu _ hmu.ne' hp (vel_ne hh) hh he
  set x := Force.stack p v
  -- the conditions hold around
  have n1 : ∀ᶠ y in nhds x, 1 < eccF mu y := hg.ecc.2.continuousAt.eventually (lt_mem_nhds he)
  have n2 : ∀ᶠ y in nhds x, pos y ≠ 0 := by
    have hc : ContinuousAt pos x := by
      refine continuousAt_pi.mpr fun i => ?_
      exact (pos_tracks x i).2.continuousAt
    exact hc.eventually_ne hp
  have n3 : ∀ᶠ y in nhds x, tF mu y ≠ 0 := by
    have hc : ContinuousAt (sHatF mu) x := by
      have a1 := hg.evec.divs hg.ecc (by linarith : eccF mu x ≠ 0)
      have a2 := hg.hvec.divs hg.hmag (nrm_pos _ hh).ne'
      have a3 := a2.cross a1
      have hf0 : 1 - (1 / eccF mu x) ^ 2 ≠ 0 := by
        have : (1 / eccF mu x) ^ 2 < 1 := by
          rw [div_pow, one_pow]
          exact (div_lt_one (by positivity)).mpr (by nlinarith)
        linarith
      have a4 : Tracks x (factF mu) _ := ((Tracks.ofReal 1).sub (((Tracks.ofReal 1).div hg.ecc (by linarith)).powi 2)).sqrt hf0
      have a5 : TracksV x (sF mu) _ := fun i => ((a1 i).div hg.ecc (by linarith)).add (a4.mul (a3 i))
      have hs0 : sF mu x ≠ 0 := by
        intro h
        have := (s_unit hh he).1
        rw [h] at this
        simp at this
      have a6 : TracksV x (sHatF mu) _ := a5.divs (Tracks.norm3 a5 hs0) (nrm_pos _ hs0).ne'
      exact continuousAt_pi.mpr fun i => (a6 i).2.continuousAt
    have hs : sHatF mu x 0 ≠ 0 ∨ sHatF mu x 1 ≠ 0 := by
      by_contra hc
      push Not at hc
      apply ht
      unfold tF
      refine ext3 ?_ ?_ ?_
      · rw [cross0]; simp [hc.2]
      · rw [cross1]; simp [hc.1]
      · rw [cross2]; simp
    rcases hs with hs | hs
    · filter_upwards [(continuousAt_pi.mp hc 0).eventually_ne hs] with y hy h0
      have := congrFun h0 1
      unfold tF at this
      rw [cross1] at this
      simp at this
      exact hy this
    · filter_upwards [(continuousAt_pi.mp hc 1).eventually_ne hs] with y hy h0
      have := congrFun h0 0
      unfold tF at this
      rw [cross0] at this
      simp at this
      exact hy this
  refine ⟨_, _, ?_, hT.2, hR.2, ?_⟩
  · filter_upwards [n1, n2, n3] with y y1 y2 y3
    obtain ⟨q, q1, q2, q3, -⟩ := (new_eq mu y hmu y2 y1).2 y3
    exact ⟨q, q1, q2.1, q3.1⟩
  · have hz : (fun y => bF mu y ⬝ᵥ sHatF mu y / nrm (vel y)) =ᶠ[nhds x] fun _ => 0 := by
      filter_upwards [n1, n2] with y y1 y2
      rw [b_dot_s (h_ne hmu.ne' y2 y1) y1, zero_div]
    have h0 := (hasFDerivAt_const (𝕜 := ℝ) (0 : ℝ) x).congr_of_eventuallyEq hz
    have e := hL.2.unique h0
    funext j
    have := congrArg (fun L => L (Pi.single j 1)) e
    simpa [lin_apply] using this

/-- C168: the jacobian has the derivatives with respect to the velocity as rows, those of the time of flight being zero, so that it is singular. -/
theorem jacobian_partials (mu : ℝ) (p v : V3) (pl : Plane) (hmu : 0 < mu) (hp : p ≠ 0) (h : Plane.new (some mu) p v = .ok (some pl)) :
    ∃ T R : V3 → ℝ,
      (∀ᶠ u in nhds v, ∃ q, Plane.new (some mu) p u = .ok (some q) ∧ q.bT.re = T u ∧ q.bR.re = R u) ∧
      HasFDerivAt R (lin (pl.jacobian 0)) v ∧ HasFDerivAt T (lin (pl.jacobian 1)) v ∧ pl.jacobian 2 = 0 ∧ pl.jacobian.det = 0 := by
  obtain ⟨T, R, h1, h2, h3, h4⟩ := plane_partials mu p v pl hmu hp h
  have hc : Continuous (Force.stack p) := by
    refine continuous_pi fun i => ?_
    fin_cases i
    · exact continuous_const
    · exact continuous_const
    · exact continuous_const
    · exact continuous_apply (0 : Fin 3)
    · exact continuous_apply (1 : Fin 3)
    · exact continuous_apply (2 : Fin 3)
  let P : Matrix (Fin 6) (Fin 3) ℝ := of ![0, 0, 0, ![1, 0, 0], ![0, 1, 0], ![0, 0, 1]]
  have hs : HasFDerivAt (Force.stack p) (Force.linM P) v := by
    refine hasFDerivAt_pi.mpr fun i => ?_
    have hz : ∀ c : ℝ, HasFDerivAt (fun _ : V3 => c) (lin (0 : V3)) v := by
      intro c
      have := hasFDerivAt_const (𝕜 := ℝ) c v
      rwa [show (0 : V3 →L[ℝ] ℝ) = lin 0 from Force.lin_congr fun w => by simp] at this
    have hj : ∀ (j : Fin 3) (e : V3), (∀ w : V3, e ⬝ᵥ w = w j) → HasFDerivAt (fun w : V3 => w j) (lin e) v := by
      intro j e he
      have := hasFDerivAt_apply (𝕜 := ℝ) j v
      rwa [show (ContinuousLinearMap.proj j : V3 →L[ℝ] ℝ) = lin e from Force.lin_congr fun w => by simp [he]] at this
    fin_cases i
    · exact hz _
    · exact hz _
    · exact hz _
    · exact hj 0 _ fun w => by simp [dot3, P]
    · exact hj 1 _ fun w => by simp [dot3, P]
    · exact hj 2 _ fun w => by simp [dot3, P]
  have comp : ∀ e : Fin 6 → ℝ, (lin e).comp (Force.linM P) = lin ![e 3, e 4, e 5] := by
    intro e
    refine Force.lin_congr fun w => ?_
    rw [ContinuousLinearMap.comp_apply, lin_apply, Force.linM_apply, dot3]
    simp [dotProduct, Fin.sum_univ_six, Fin.sum_univ_three, mulVec, P]
  have hl : pl.jacobian 2 = 0 := by
    funext j
    fin_cases j <;> simp [Plane.jacobian, h4]
  refine ⟨fun u => T (Force.stack p u), fun u => R (Force.stack p u), ?_, ?_, ?_, hl, det_eq_zero_of_row_eq_zero 2 fun j => congrFun hl j⟩
  · have := hc.continuousAt.eventually h1
    filter_upwards [this] with u hu
    have e1 : ![Force.stack p u 0, Force.stack p u 1, Force.stack p u 2] = p := pos_stack p u
    have e2 : ![Force.stack p u 3, Force.stack p u 4, Force.stack p u 5] = u := vel_stack p u
    rwa [e1, e2] at hu
  · have := h3.comp v hs
    rwa [comp] at this
  · have := h2.comp v hs
    rwa [comp] at this

/-- C168: `jacobian2` is the jacobian without the time of flight and without the column of the component that is kept. -/
theorem jacobian2_eq (pl : Plane) (k : Fin 3) :
    pl.jacobian2 (![.vx, .vy, .vz] k) = some (pl.jacobian.submatrix ![0, 1] k.succAbove) ∧ pl.jacobian2 .other = none := by
  refine ⟨?_, rfl⟩
  fin_cases k <;> simp only [Plane.jacobian2, Plane.jacobian] <;> refine congrArg some ?_ <;> ext i j <;> fin_cases i <;> fin_cases j <;> rfl

end Verif.BPlane
