import Verif.Gravity.Theorems

/-!
The gravity field of a J2 coefficient (C167), and examples for the theorems of the gravity field.
-/
namespace Verif.Gravity
open Verif.MathU Matrix Polynomial
open Verif.Force (Dual lin M3 Alm Orb)
variable {Fr : Type}

/-- Specification: the potential of the oblateness, with the coefficient J2 of the literature. -/
noncomputable def oblate (J2 mu radius : ℝ) (p : V3) : ℝ :=
  -(mu / nrm p * (radius / nrm p) ^ 2 * J2 * ((3 * (p 2 / nrm p) ^ 2 - 1) / 2))

theorem fromJ2_eq (j2 : ℝ) (fr : Fr) : ∃ d, Data.fromJ2 j2 fr = some d ∧ d.degree = 2 ∧ d.order = 0 ∧ d.frame = fr ∧
    d.Has (fun n m => if n = 2 ∧ m = 0 then j2 else 0) (fun _ _ => 0) := by
  refine ⟨⟨2, 0, ⟨3, fun a b => if a = 2 ∧ b = 0 then some j2 else some 0⟩, Mat.const 3 0, fr⟩, rfl, rfl, rfl, rfl, ?_⟩
  intro n m h1 h2 h3 h4
  simp only at h2 h4
  have hn : n < 3 := by omega
  have hm : m < 3 := by omega
  by_cases h : n = 2 ∧ m = 0 <;> simp [Data.cs, Mat.get, Mat.const, hn, hm, h]

theorem eval_two (u : ℝ) : (legendre 2).eval u = (3 * u ^ 2 - 1) / 2 := by
  have h := congrArg (eval u) (legendre_bonnet 0)
  have h1 := congrArg (eval u) (legendre_succ' 0)
  rw [legendre_zero] at h h1
  simp at h h1
  rw [h1] at h
  linarith

theorem potential_j2 (j2 mu radius : ℝ) (p : V3) :
    potential 2 0 (fun n m => if n = 2 ∧ m = 0 then j2 else 0) (fun _ _ => 0) mu radius p = oblate (-(Real.sqrt 5 * j2)) mu radius p := by
  simp only [potential, surface, Finset.sum_range_succ, Finset.sum_range_zero, Nat.min_zero, oblate]
  have e : unit 2 0 = Real.sqrt 5 := by
    unfold unit
    norm_num [Nat.factorial]
  simp [e, eval_two]
  ring

/-- C167, partial: the field of `from_j2` has the potential of the oblateness with the coefficient `-√5` times the argument, that is the
argument is the normalized coefficient of degree two, not J2. -/
theorem from_j2_partial (j2 mu radius : ℝ) (fr : Fr) (q : V3) (hR : radius ≠ 0) (hq : q ≠ 0) :
    ∃ d f a, Data.fromJ2 j2 fr = some d ∧ Field.new d = some f ∧ accel f mu radius q = some a ∧
      HasFDerivAt (oblate (-(Real.sqrt 5 * j2)) mu radius) (lin a) q := by
  obtain ⟨d, h1, hdeg, hord, -, hC⟩ := fromJ2_eq j2 fr
  obtain ⟨f, hf, -⟩ := new_eq d
  obtain ⟨a, h2, h3⟩ := accel_gradient d f _ _ mu radius q hf hC hR hq
  refine ⟨d, f, a, h1, hf, h2, ?_⟩
  rw [hdeg, hord] at h3
  refine h3.congr_of_eventuallyEq (Filter.Eventually.of_forall fun y => ?_)
  exact (potential_j2 j2 mu radius y).symm

/-- C167: the acceleration on the axis, which a program with the wrong sign or normalization would miss. -/
theorem from_j2_polar (j2 mu radius r : ℝ) (fr : Fr) (hR : radius ≠ 0) (hr : 0 < r) :
    ∃ d f a, Data.fromJ2 j2 fr = some d ∧ Field.new d = some f ∧ accel f mu radius ![0, 0, r] = some a ∧
      a = ![0, 0, -(3 * Real.sqrt 5 * j2 * mu * radius ^ 2 / r ^ 4)] := by
  have hn : nrm ![0, 0, r] = r := by
    unfold nrm
    rw [dot3]
    simp [hr.le]
  have hq : (![0, 0, r] : V3) ≠ 0 := fun h => hr.ne' (by simpa using congrFun h 2)
  obtain ⟨d, h1, hdeg, hord, -, hC⟩ := fromJ2_eq j2 fr
  obtain ⟨f, hf, -⟩ := new_eq d
  refine ⟨d, f, _, h1, hf, accel_eq d f _ _ mu radius _ hf hC hR (nrm_pos _ hq).ne', ?_⟩
  rw [hdeg, hord, hn]
  have e : unit 2 0 = Real.sqrt 5 := by
    unfold unit
    norm_num [Nat.factorial]
  have a1 : (assoc 2 1).eval (1 : ℝ) = 3 := by
    have := congrArg (eval (1 : ℝ)) (assoc_off 1)
    have h11 := congrArg (eval (1 : ℝ)) (assoc_diag 0)
    simp [assoc_zero, legendre_zero] at this h11
    rw [this, h11]
    norm_num
  have a2 : (assoc 3 1).eval (1 : ℝ) = 6 := by
    have h3 := congrArg (eval (1 : ℝ)) (assoc_up 2 0)
    simp [assoc_zero, eval_two, a1] at h3
    rw [h3]
    norm_num
  have hr0 := hr.ne'
  simp only [pureG, accS_eq, accK_eq, sums_eq, rhoK_eq, Finset.sum_range_succ, Finset.sum_range_zero, Nat.min_zero]
  simp [har, har1, har2, pw, e, hr0, a1, a2]
  field_simp
  ring

/-- C167, refuted: with the argument J2 itself, whatever it is, the acceleration on the axis is not the gradient of the potential of the oblateness. -/
theorem from_j2_not (J2 mu radius r : ℝ) (fr : Fr) (hJ : J2 ≠ 0) (hmu : mu ≠ 0) (hR : radius ≠ 0) (hr : 0 < r) :
    ∃ d f a, Data.fromJ2 J2 fr = some d ∧ Field.new d = some f ∧ accel f mu radius ![0, 0, r] = some a ∧
      ¬ HasFDerivAt (oblate J2 mu radius) (lin a) ![0, 0, r] := by
  have hq : (![0, 0, r] : V3) ≠ 0 := fun h => hr.ne' (by simpa using congrFun h 2)
  have hs : Real.sqrt 5 ≠ 0 := by positivity
  obtain ⟨d, f, a, h1, h2, h3, h4⟩ := from_j2_polar J2 mu radius r fr hR hr
  refine ⟨d, f, a, h1, h2, h3, fun h => ?_⟩
  obtain ⟨d', f', a', g1, g2, g3, g4⟩ := from_j2_partial (-(J2 / Real.sqrt 5)) mu radius fr _ hR hq
  obtain ⟨d'', f'', a'', k1, k2, k3, k4⟩ := from_j2_polar (-(J2 / Real.sqrt 5)) mu radius r fr hR hr
  obtain rfl : d' = d'' := Option.some.inj (g1.symm.trans k1)
  obtain rfl : f' = f'' := Option.some.inj (g2.symm.trans k2)
  obtain rfl : a' = a'' := Option.some.inj (g3.symm.trans k3)
  rw [show -(Real.sqrt 5 * -(J2 / Real.sqrt 5)) = J2 by field_simp] at g4
  have e := congrArg (fun L => L ![0, 0, 1]) (h.unique g4)
  simp only [Force.lin_apply] at e
  rw [h4, k4] at e
  simp [dotProduct, Fin.sum_univ_three] at e
  field_simp at e
  have h5 : 0 < Real.sqrt 5 := by positivity
  linarith

/-- The Earth with its oblateness. -/
def earthAlm : Alm ℕ where
  mu _ := some 398600
  radius _ := some 6378
  centered f b := f = 399 ∧ b = 399
  body _ _ := none
  info f := some f
  transform _ _ _ := none
  transformTo o f := some ⟨f, o.epoch, o.pos, o.vel⟩
  rotate _ _ _ := some 1
  occult _ _ _ := none

/-- An orbit on the axis. -/
def polar : Orb ℕ := ⟨399, 0, ![0, 0, 7000], ![7.5, 0, 0]⟩

theorem polar_pos : polar.pos ≠ 0 := fun h => by
  have := congrFun h 2
  simp [polar] at this

/-- The theorems apply to the Earth. -/
example : ∃ d f, Data.fromJ2 (-4841 / 10 ^ 7) 399 = some d ∧ Field.new d = some f ∧ Force.Exact (model earthAlm f) polar ∧
    ∃ a, eom earthAlm f polar = some a := by
  obtain ⟨d, h1, hdeg, hord, -, hC⟩ := fromJ2_eq (-4841 / 10 ^ 7) 399
  obtain ⟨f, hf, -⟩ := new_eq d
  obtain ⟨a, h2, -⟩ := eom_gradient earthAlm d f _ _ 398600 6378 polar ⟨d.frame, polar.epoch, polar.pos, polar.vel⟩ 1 hf hC rfl rfl rfl rfl (by norm_num) polar_pos
  exact ⟨d, f, h1, hf, gravity_exact earthAlm d f _ _ 398600 6378 polar 1 0 hf hC rfl rfl ⟨rfl, fun x => ⟨_, rfl, by simp [Orb.at, Force.posPart]⟩⟩
    (by norm_num) (by simpa using polar_pos), _, h2⟩

example := from_j2_not (-4841 / 10 ^ 7) 398600 6378 7000 399 (by norm_num) (by norm_num) (by norm_num) (by norm_num)

end Verif.Gravity
