import Verif.BPlane.Plane

/-!
Theorems on the targeting of the B-plane (C169), and examples for the theorems on the B-plane.
-/
namespace Verif.BPlane
open Verif.MathU Matrix
open Verif.Mc (Out orErr unwrap)
open Verif.Force (Dual M3 Tracks lin lin_apply)

/-- Specification: `w` is reached from the velocity `v` by at most `k` corrections, each of which is the smallest change of velocity that makes up for the errors in the
components to the first order. -/
inductive Corrected (plane : V3 → Out (Option Plane)) (t : Target) : ℕ → V3 → V3 → Prop
  | done (k : ℕ) (v : V3) : Corrected plane t k v v
  | step (k : ℕ) (v w d : V3) (b : Plane) (hb : plane v = .ok (some b))
      (hR : b.jacobian 0 ⬝ᵥ d = t.bR - b.bR.re) (hT : b.jacobian 1 ⬝ᵥ d = t.bT - b.bT.re)
      (hmin : ∀ d', b.jacobian 0 ⬝ᵥ d' = t.bR - b.bR.re → b.jacobian 1 ⬝ᵥ d' = t.bT - b.bT.re → d ⬝ᵥ d ≤ d' ⬝ᵥ d')
      (h : Corrected plane t k (v + d) w) : Corrected plane t (k + 1) v w

theorem loop2_ok (plane : V3 → Out (Option Plane)) (t : Target) (fuel : ℕ) (v total : V3) (prev : Option ℝ) (dv : V3) (b : Plane)
    (h : loop2 plane t fuel v total prev = .ok (dv, b)) :
    ∃ k, fuel = k + 1 ∧ Corrected plane t k v (v + (dv - total)) ∧ plane (v + (dv - total)) = .ok (some b) ∧ |t.bR - b.bR.re| < t.tolR ∧
      |t.bT - b.bT.re| < t.tolT := by
  induction fuel generalizing v total prev with
  | zero => exact absurd h (by simp [loop2])
  | succ k ih =>
    refine ⟨k, rfl, ?_⟩
    rw [loop2] at h
    cases hp : plane v with
    | err => rw [hp] at h; exact absurd h (by simp [Out.bind])
    | panic => rw [hp] at h; exact absurd h (by simp [Out.bind])
    | ok o =>
      rw [hp] at h
      cases o with
      | none => exact absurd h (by simp [Out.bind])
      | some q =>
        simp only [Out.bind] at h
        split_ifs at h with h1 h2
        · simp only [Out.ok.injEq, Prod.mk.injEq] at h
          obtain ⟨rfl, rfl⟩ := h
          rw [sub_self, add_zero]
          exact ⟨.done k v, hp, h1.1, h1.2⟩
        · set J : Matrix (Fin 2) (Fin 3) ℝ := of ![q.jacobian 0, q.jacobian 1]
          cases hi : tryInverse (J * Jᵀ) with
          | none => rw [hi] at h; exact absurd h (by simp [unwrap])
          | some inv =>
            rw [hi] at h
            simp only [unwrap] at h
            have hps : pseudoInverse J = some (Jᵀ * inv) := by
              unfold pseudoInverse
              rw [if_pos (by norm_num), hi]
              rfl
            obtain ⟨s1, s2⟩ := pseudo_inverse_wide J (by norm_num) _ hps ![t.bR - q.bR.re, t.bT - q.bT.re]
            obtain ⟨k', rfl, i1, i2, i3⟩ := ih _ _ _ h
            set d := (Jᵀ * inv) *ᵥ ![t.bR - q.bR.re, t.bT - q.bT.re]
            have e : v + d + (dv - (total + d)) = v + (dv - total) := by
              funext i
              simp only [Pi.add_apply, Pi.sub_apply]
              ring
            rw [e] at i1 i2
            refine ⟨.step k' v _ d q hp (congrFun s1 0) (congrFun s1 1) (fun d' h1 h2 => s2 d' ?_) i1, i2, i3⟩
            funext i
            fin_cases i
            · exact h1
            · exact h2

/-- C169: the correction that is returned leads to the plane that is returned, within the tolerances, by at most ten corrections of least norm. -/
theorem achieve_ok (mu : Option ℝ) (p v : V3) (t : Target) (dv : V3) (b : Plane) (hl : ¬ t.ltofSet) (h : achieve mu p v t = .ok (dv, b)) :
    Plane.new mu p (v + dv) = .ok (some b) ∧ |t.bR - b.bR.re| < t.tolR ∧ |t.bT - b.bT.re| < t.tolT ∧
      Corrected (Plane.new mu p) t 10 v (v + dv) := by
  unfold achieve at h
  rw [if_neg hl] at h
  obtain ⟨k, hk, h1, h2, h3, h4⟩ := loop2_ok _ _ _ _ _ _ _ _ h
  obtain rfl : k = 10 := by omega
  rw [sub_zero] at h1 h2
  exact ⟨h2, h3, h4, h1⟩

theorem loop2_panic (plane : V3 → Out (Option Plane)) (t : Target) (fuel : ℕ) (v total : V3) (prev : Option ℝ) (hpl : ∀ u, plane u ≠ .panic)
    (h : loop2 plane t fuel v total prev = .panic) :
    ∃ (u : V3) (q : Plane) (y : Fin 2 → ℝ), plane u = .ok (some q) ∧ y ≠ 0 ∧ y 0 • q.jacobian 0 + y 1 • q.jacobian 1 = 0 := by
  induction fuel generalizing v total prev with
  | zero => exact absurd h (by simp [loop2])
  | succ k ih =>
    rw [loop2] at h
    cases hp : plane v with
    | err => rw [hp] at h; exact absurd h (by simp [Out.bind])
    | panic => exact absurd hp (hpl v)
    | ok o =>
      rw [hp] at h
      cases o with
      | none => exact absurd h (by simp [Out.bind])
      | some q =>
        simp only [Out.bind] at h
        split_ifs at h with h1 h2
        set J : Matrix (Fin 2) (Fin 3) ℝ := of ![q.jacobian 0, q.jacobian 1] with hJ
        cases hi : tryInverse (J * Jᵀ) with
        | none =>
          have hps : pseudoInverse J = none := by
            unfold pseudoInverse
            rw [if_pos (by norm_num), hi]
            rfl
          rw [pseudo_inverse_fails, if_pos (by norm_num)] at hps
          obtain ⟨y, y0, y1⟩ := hps
          refine ⟨v, q, y, hp, y0, ?_⟩
          funext i
          have := congrFun y1 i
          simp only [mulVec, dotProduct, Fin.sum_univ_two, transpose_apply, Pi.zero_apply] at this
          simp only [Pi.add_apply, Pi.smul_apply, smul_eq_mul, Pi.zero_apply]
          rw [show J 0 i = q.jacobian 0 i from rfl, show J 1 i = q.jacobian 1 i from rfl] at this
          linarith
        | some inv =>
          rw [hi] at h
          exact ih _ _ _ h

theorem new_no_panic (mu : Option ℝ) (p u : V3) : Plane.new mu p u ≠ .panic := by
  cases mu with
  | none => simp [Plane.new, orErr, Out.bind]
  | some m =>
    show fromDual (grad m p u) ≠ .panic
    unfold fromDual
    by_cases hc : 1 < (grad m p u).ecc.re
    · rw [if_pos hc]
      simp only
      intro h
      split_ifs at h
    · rw [if_neg hc]
      simp

/-- C169: without a time of flight, there is no panic unless the derivatives of the two components at some velocity are dependent. -/
theorem achieve_panic (mu : Option ℝ) (p v : V3) (t : Target) (hl : ¬ t.ltofSet) (h : achieve mu p v t = .panic) :
    ∃ (u : V3) (q : Plane) (y : Fin 2 → ℝ), Plane.new mu p u = .ok (some q) ∧ y ≠ 0 ∧ y 0 • q.jacobian 0 + y 1 • q.jacobian 1 = 0 := by
  unfold achieve at h
  rw [if_neg hl] at h
  exact loop2_panic _ _ _ _ _ _ (new_no_panic mu p) h

theorem loop3_ok (mu : ℝ) (p : V3) (t : Target) (hmu : 0 < mu) (hp : p ≠ 0) (fuel : ℕ) (v total : V3) (prev : Option ℝ) (dv : V3) (b : Plane)
    (h : loop3 (Plane.new (some mu) p) t fuel v total prev = .ok (dv, b)) :
    Plane.new (some mu) p (v + (dv - total)) = .ok (some b) ∧ |t.bR - b.bR.re| < t.tolR ∧ |t.bT - b.bT.re| < t.tolT ∧ |t.ltof| < t.tolL ∧
      dv 2 = total 2 := by
  induction fuel generalizing v total prev with
  | zero => exact absurd h (by simp [loop3])
  | succ k ih =>
    rw [loop3] at h
    cases hn : Plane.new (some mu) p v with
    | err => rw [hn] at h; exact absurd h (by simp [Out.bind])
    | panic => rw [hn] at h; exact absurd h (by simp [Out.bind])
    | ok o =>
      rw [hn] at h
      cases o with
      | none => exact absurd h (by simp [Out.bind])
      | some q =>
        obtain ⟨-, -, -, -, -, -, hL⟩ := plane_asymptote mu p v q hmu hp hn
        obtain ⟨-, -, -, -, -, hj, -⟩ := jacobian_partials mu p v q hmu hp hn
        simp only [Out.bind] at h
        split_ifs at h with h1 h2
        · simp only [Out.ok.injEq, Prod.mk.injEq] at h
          obtain ⟨rfl, rfl⟩ := h
          rw [hL, sub_zero] at h1
          rw [sub_self, add_zero]
          exact ⟨hn, h1.1, h1.2.1, h1.2.2, rfl⟩
        · obtain ⟨i1, i2, i3, i4, i5⟩ := ih _ _ _ h
          set d := q.jacobian *ᵥ ![t.bR - q.bR.re, t.bT - q.bT.re, t.ltof - q.ltof.re]
          have e : v + d + (dv - (total + d)) = v + (dv - total) := by
            funext i
            simp only [Pi.add_apply, Pi.sub_apply]
            ring
          have hd : d 2 = 0 := by
            show q.jacobian 2 ⬝ᵥ _ = 0
            rw [hj, zero_dotProduct]
          rw [e] at i1
          refine ⟨i1, i2, i3, i4, ?_⟩
          rw [i5, Pi.add_apply, hd, add_zero]

/-- C169, partial: with a time of flight as well, a correction that is returned leads to the plane that is returned, with components within the tolerances. Missing: the
time of flight, see `ltof_ignored`, `ltof_refused` and `ltof_step_wrong`. The correction never changes the third component of the velocity. -/
theorem achieve_ltof_partial (mu : ℝ) (p v : V3) (t : Target) (dv : V3) (b : Plane) (hmu : 0 < mu) (hp : p ≠ 0) (hl : t.ltofSet)
    (h : achieve (some mu) p v t = .ok (dv, b)) :
    Plane.new (some mu) p (v + dv) = .ok (some b) ∧ |t.bR - b.bR.re| < t.tolR ∧ |t.bT - b.bT.re| < t.tolT ∧ dv 2 = 0 := by
  unfold achieve at h
  rw [if_pos hl] at h
  obtain ⟨h1, h2, h3, -, h5⟩ := loop3_ok mu p t hmu hp _ _ _ _ _ _ h
  rw [sub_zero] at h1
  exact ⟨h1, h2, h3, h5⟩

/-- C169, refuted: a time of flight beyond its tolerance is never achieved. -/
theorem ltof_refused (mu : ℝ) (p v : V3) (t : Target) (hmu : 0 < mu) (hp : p ≠ 0) (hl : t.ltofSet) (ht : t.tolL ≤ |t.ltof|) (r : V3 × Plane) :
    achieve (some mu) p v t ≠ .ok r := by
  intro h
  unfold achieve at h
  rw [if_pos hl] at h
  obtain ⟨-, -, -, h4, -⟩ := loop3_ok mu p t hmu hp _ _ _ _ r.1 r.2 h
  linarith

/-- C169, refuted: with `from_targets`, a time of flight of any number of seconds below six hours is taken as achieved by a plane with the two components, though the
documented tolerance is of one second. -/
theorem ltof_ignored (mu : ℝ) (p v : V3) (pl : Plane) (ltof : ℝ) (hmu : 0 < mu) (hp : p ≠ 0) (h : Plane.new (some mu) p v = .ok (some pl)) (h1 : 1 < ltof)
    (h2 : ltof < 6 * 3600) :
    achieve (some mu) p v (Target.fromTargets pl.bT.re pl.bR.re ltof) = .ok (0, pl) ∧ 1 < |ltof - pl.ltof.re| := by
  obtain ⟨-, -, -, -, -, -, hL⟩ := plane_asymptote mu p v pl hmu hp h
  have ha : |ltof| = ltof := abs_of_pos (by linarith)
  constructor
  · unfold achieve
    rw [if_pos (show (Target.fromTargets pl.bT.re pl.bR.re ltof).ltofSet by
      show 1 / 10000000000 < |ltof|
      rw [ha]
      linarith)]
    rw [loop3, h]
    simp only [Out.bind]
    rw [if_pos]
    show |pl.bR.re - pl.bR.re| < 1 / 1000000 ∧ |pl.bT.re - pl.bT.re| < 1 / 1000000 ∧ |ltof - pl.ltof.re| < 6 * 3600
    rw [hL, sub_self, sub_self, abs_zero, sub_zero, ha]
    exact ⟨by norm_num, by norm_num, h2⟩
  · rw [hL, sub_zero, ha]
    exact h1

/-- C169, refuted: no change of velocity makes up for an error in the time of flight to the first order, so that the step of the loop does not. -/
theorem ltof_step_wrong (mu : ℝ) (p v : V3) (pl : Plane) (t : Target) (hmu : 0 < mu) (hp : p ≠ 0) (h : Plane.new (some mu) p v = .ok (some pl)) (hl : t.ltofSet)
    (dv : V3) : pl.jacobian *ᵥ dv ≠ ![t.bR - pl.bR.re, t.bT - pl.bT.re, t.ltof - pl.ltof.re] := by
  obtain ⟨-, -, -, -, -, hj, -⟩ := jacobian_partials mu p v pl hmu hp h
  obtain ⟨-, -, -, -, -, -, hL⟩ := plane_asymptote mu p v pl hmu hp h
  intro e
  have e2 := congrFun e 2
  rw [show (pl.jacobian *ᵥ dv) 2 = pl.jacobian 2 ⬝ᵥ dv from rfl, hj, zero_dotProduct] at e2
  simp [hL] at e2
  unfold Target.ltofSet at hl
  rw [← e2, abs_zero] at hl
  norm_num at hl

/-! ### Instances -/

theorem nrm_one (a : V3) (h : a 0 * a 0 + a 1 * a 1 + a 2 * a 2 = 1) : nrm a = 1 := by
  unfold nrm
  rw [dot3, h, Real.sqrt_one]

/-- A hyperbola of eccentricity 5/3 at its periapsis. -/
def peri : V3 := ![1, 0, 0]
/-- The velocity there. -/
def periV : V3 := ![0, 1, 0]

theorem peri_asymptote : Asymptote (3 / 8) peri periV ![3 / 5, 4 / 5, 0] ![8 / 5, -6 / 5, 0] (1 / 2) := by
  have hn : nrm peri = 1 := nrm_one _ (by simp [peri])
  refine ⟨?_, ?_, by norm_num, ?_, ?_, ?_⟩
  · rw [dot3]; simp; norm_num
  · rw [dot3]; simp; norm_num
  · rw [hn, dot3]; simp [periV]; norm_num
  · refine ext3 ?_ ?_ ?_ <;> simp only [Pi.smul_apply, smul_eq_mul, cross0, cross1, cross2] <;> simp [peri, periV]
    norm_num
  · rw [hn]
    refine ext3 ?_ ?_ ?_ <;> simp only [Pi.add_apply, Pi.sub_apply, Pi.smul_apply, smul_eq_mul, cross0, cross1, cross2] <;> simp [peri, periV] <;> norm_num

theorem peri_ne : peri ≠ 0 := fun h => by simpa [peri] using congrFun h 0

theorem peri_plane : ∃ pl, Plane.new (some (3 / 8)) peri periV = .ok (some pl) := by
  have hn : nrm peri = 1 := nrm_one _ (by simp [peri])
  cases h : Plane.new (some (3 / 8)) peri periV with
  | panic => exact absurd h (new_no_panic _ _ _)
  | err =>
    rw [new_err_iff _ _ _ (by norm_num) peri_ne] at h
    rcases h with h | h
    · rw [hn, dot3] at h
      simp [periV] at h
      norm_num at h
    · have := congrFun h 2
      rw [cross2] at this
      simp [peri, periV] at this
  | ok o =>
    cases o with
    | some pl => exact ⟨pl, rfl⟩
    | none =>
      rw [new_nan_iff _ _ _ (by norm_num) peri_ne] at h
      obtain ⟨-, S, B, w, hA, h0, -⟩ := h
      obtain ⟨rfl, -, -⟩ := hA.unique peri_asymptote
      norm_num at h0

example : ∃ pl : Plane, pl.dcm * pl.dcmᵀ = 1 ∧ pl.jacobian.det = 0 := by
  obtain ⟨pl, h⟩ := peri_plane
  obtain ⟨-, -, -, -, -, -, h1⟩ := jacobian_partials (3 / 8) peri periV pl (by norm_num) peri_ne h
  exact ⟨pl, (dcm_rotation (3 / 8) peri periV pl (by norm_num) peri_ne h).1, h1⟩

/-- The magnitude is the offset of the asymptote, twice the radius at periapsis. -/
example : ∃ pl : Plane, pl.magnitude = 2 ∧ pl.dcm 0 = ![3 / 5, 4 / 5, 0] := by
  obtain ⟨pl, h⟩ := peri_plane
  obtain ⟨B, w, hA, -, -, hm, -⟩ := plane_asymptote (3 / 8) peri periV pl (by norm_num) peri_ne h
  obtain ⟨h1, rfl, -⟩ := hA.unique peri_asymptote
  refine ⟨pl, ?_, h1⟩
  rw [hm, nrm, dot3]
  simp
  rw [show (8 / 5 * (8 / 5) + -6 / 5 * (-6 / 5) : ℝ) = 2 ^ 2 by norm_num, Real.sqrt_sq (by norm_num)]

/-- A target of one hour is taken as achieved. -/
example : ∃ pl, achieve (some (3 / 8)) peri periV (Target.fromTargets pl.bT.re pl.bR.re 3600) = .ok (0, pl) := by
  obtain ⟨pl, h⟩ := peri_plane
  exact ⟨pl, (ltof_ignored (3 / 8) peri periV pl 3600 (by norm_num) peri_ne h (by norm_num) (by norm_num)).1⟩

example : Plane.new (some (3 / 8)) ![4 / 5, 0, 3 / 5] ![-(3 / 5), 0, 4 / 5] = .ok none := by
  have hn : nrm ![4 / 5, 0, 3 / 5] = 1 := nrm_one _ (by simp; norm_num)
  rw [new_nan_iff _ _ _ (by norm_num) (fun h => by simpa using congrFun h 0)]
  refine ⟨fun h => by have := congrFun h 1; rw [cross1] at this; simp at this; norm_num at this, ![0, 0, 1], ![2, 0, 0], 1 / 2, ⟨?_, ?_, by norm_num, ?_, ?_, ?_⟩, rfl, rfl⟩
  · rw [dot3]; simp
  · rw [dot3]; simp
  · rw [hn, dot3]; simp; norm_num
  · refine ext3 ?_ ?_ ?_ <;> simp only [Pi.smul_apply, smul_eq_mul, cross0, cross1, cross2] <;> simp <;> norm_num
  · rw [hn]
    refine ext3 ?_ ?_ ?_ <;> simp only [Pi.add_apply, Pi.sub_apply, Pi.smul_apply, smul_eq_mul, cross0, cross1, cross2] <;> simp <;> norm_num

example (r : V3 × Plane) := ltof_refused (3 / 8) peri periV (Target.fromTargets 0 0 86400) (by norm_num) peri_ne
  (by simp [Target.ltofSet, Target.fromTargets]; norm_num) (by simp [Target.fromTargets]; norm_num) r

example (dv : V3) : ∃ pl : Plane, pl.jacobian *ᵥ dv ≠ ![1 - pl.bR.re, 2 - pl.bT.re, 3600 - pl.ltof.re] := by
  obtain ⟨pl, h⟩ := peri_plane
  exact ⟨pl, ltof_step_wrong (3 / 8) peri periV pl (Target.fromTargets 2 1 3600) (by norm_num) peri_ne h
    (by simp [Target.ltofSet, Target.fromTargets]; norm_num) dv⟩

end Verif.BPlane
