import Verif.BPlane.Achieve
import Verif.Target.Model

/-! # The objectives made from a target on the B-plane -/

namespace Verif.BPlane

open Verif.MathU
open Verif.Target (Objective Param)

/-- `Objective::within_tolerance`. md/objective.rs:53-61. -/
noncomputable def within {E : Type} (p : Param E) (desired tol : ℝ) : Objective E := ⟨p, desired, tol, 1, 0⟩

/-- `BPlaneTarget::to_objectives_with_tolerance`. cosmic/bplane.rs:290-295. -/
noncomputable def Target.objectivesWithin (E : Type) (t : Target) (tol : ℝ) : List (Objective E) :=
  [within .bDotR t.bR tol, within .bDotT t.bT tol]

/-- `BPlaneTarget::to_objectives`. cosmic/bplane.rs:286-288. -/
noncomputable def Target.objectives (E : Type) (t : Target) : List (Objective E) := t.objectivesWithin E 1

/-- `BPlaneTarget::to_all_objectives_with_tolerance`. cosmic/bplane.rs:298-308. -/
noncomputable def Target.allObjectivesWithin (E : Type) (t : Target) (tol : ℝ) : List (Objective E) :=
  [within .bDotR t.bR tol, within .bDotT t.bT tol, within .bLtof t.ltof (t.tolL * 100000)]

/-- The value of a parameter of the B-plane which a plane has, as the targeters read it.
md/opti/raphson_finite_diff.rs:290-300; the other parameters do not come from the plane. -/
noncomputable def Plane.read {E : Type} (b : Plane) : Param E → Option ℝ
  | .bDotR => some b.bR.re
  | .bDotT => some b.bT.re
  | .bLtof => some b.ltof.re
  | _ => none

/-- The plane meets all the objectives of a list. md/objective.rs:69-75. -/
noncomputable def Plane.meets {E : Type} (b : Plane) (os : List (Objective E)) : Bool :=
  os.all fun o => (b.read o.param).elim false o.met

/-- The tolerance of B∙R and that of B∙T which `Display` writes before the unit `m`. cosmic/bplane.rs:312-321; the rounding to
a decimal is not modelled. -/
noncomputable def Target.shownMeters (t : Target) : ℝ × ℝ := (t.tolR * (1 / 1000), t.tolT * (1 / 1000))

/-! ## Specification -/

/-- The plane is where the target asks for it, to the tolerances of the target, in kilometers. -/
def OnTarget (t : Target) (b : Plane) : Prop := |b.bR.re - t.bR| ≤ t.tolR ∧ |b.bT.re - t.bT| ≤ t.tolT

/-- And the time of flight too, in seconds. -/
def OnTime (t : Target) (b : Plane) : Prop := |b.ltof.re - t.ltof| ≤ t.tolL

/-! ## Theorems -/

theorem within_met {E : Type} (p : Param E) (d tol x : ℝ) : (within p d tol).met x = true ↔ |x - d| ≤ tol := by
  simp [within, Objective.met, Objective.error, abs_sub_comm]

/-- C234: the objectives with a tolerance are met by exactly the planes whose two components are within that tolerance. -/
theorem objectives_within_iff (E : Type) (t : Target) (tol : ℝ) (b : Plane) :
    b.meets (t.objectivesWithin E tol) = true ↔ |b.bR.re - t.bR| ≤ tol ∧ |b.bT.re - t.bT| ≤ tol := by
  simp only [Plane.meets, Target.objectivesWithin, List.all_cons, List.all_nil, Bool.and_true, Bool.and_eq_true]
  exact and_congr (within_met _ _ _ _) (within_met _ _ _ _)

/-- C234: and with the time of flight, by those whose time of flight is within a hundred thousand times the tolerance of the target. -/
theorem all_objectives_iff (E : Type) (t : Target) (tol : ℝ) (b : Plane) :
    b.meets (t.allObjectivesWithin E tol) = true ↔
      |b.bR.re - t.bR| ≤ tol ∧ |b.bT.re - t.bT| ≤ tol ∧ |b.ltof.re - t.ltof| ≤ 100000 * t.tolL := by
  simp only [Plane.meets, Target.allObjectivesWithin, List.all_cons, List.all_nil, Bool.and_true, Bool.and_eq_true]
  exact and_congr (within_met _ _ _ _) (and_congr (within_met _ _ _ _) (by rw [mul_comm]; exact within_met _ _ _ _))

/-- C234, the part which holds: with a tolerance no greater than those of the target, a plane which meets the objectives is on the target.
Missing: the tolerances of the target itself, which no objective uses, and the time of flight. -/
theorem objectives_on_target_partial (E : Type) (t : Target) (tol : ℝ) (hR : tol ≤ t.tolR) (hT : tol ≤ t.tolT) (b : Plane)
    (h : b.meets (t.objectivesWithin E tol) = true) : OnTarget t b := by
  rw [objectives_within_iff] at h
  exact ⟨h.1.trans hR, h.2.trans hT⟩

/-- C234: the planes found by `try_achieve_b_plane` meet the objectives made with a tolerance at least those of the target. -/
theorem achieved_meets (E : Type) (mu : ℝ) (p v : V3) (t : Target) (dv : V3) (b : Plane) (tol : ℝ) (hmu : 0 < mu) (hp : p ≠ 0)
    (hR : t.tolR ≤ tol) (hT : t.tolT ≤ tol) (h : achieve (some mu) p v t = .ok (dv, b)) :
    b.meets (t.objectivesWithin E tol) = true := by
  rw [objectives_within_iff, abs_sub_comm, abs_sub_comm b.bT.re]
  by_cases hl : t.ltofSet
  · obtain ⟨-, h1, h2, -⟩ := achieve_ltof_partial mu p v t dv b hmu hp hl h
    exact ⟨h1.le.trans hR, h2.le.trans hT⟩
  · obtain ⟨-, h1, h2, -⟩ := achieve_ok (some mu) p v t dv b hl h
    exact ⟨h1.le.trans hR, h2.le.trans hT⟩

/-- C234, refuted: whatever the plane, the target one kilometer off in both components has objectives which it meets, though the tolerances
of that target are of a millimeter. -/
theorem objectives_loose (E : Type) (b : Plane) :
    b.meets ((Target.fromBtBr (b.bT.re + 1) (b.bR.re - 1)).objectives E) = true ∧ ¬ OnTarget (Target.fromBtBr (b.bT.re + 1) (b.bR.re - 1)) b := by
  constructor
  · rw [Target.objectives, objectives_within_iff]
    simp [Target.fromBtBr]
  · simp only [OnTarget, Target.fromBtBr]
    rintro ⟨h, -⟩
    rw [show b.bR.re - (b.bR.re - 1) = 1 by ring] at h
    norm_num at h

/-- C234, refuted: and with the time of flight, the target of `from_targets` at the components of the plane, with a time of flight 60 years (of
365 days) longer, has objectives which the plane meets, to any tolerance in kilometers. -/
theorem all_objectives_ignore_time (E : Type) (b : Plane) (tol : ℝ) (h : 0 ≤ tol) :
    b.meets ((Target.fromTargets b.bT.re b.bR.re (b.ltof.re + 60 * 365 * 86400)).allObjectivesWithin E tol) = true ∧
      ¬ OnTime (Target.fromTargets b.bT.re b.bR.re (b.ltof.re + 60 * 365 * 86400)) b := by
  constructor
  · rw [all_objectives_iff]
    simp only [Target.fromTargets, sub_self, abs_zero, h, true_and]
    rw [show b.ltof.re - (b.ltof.re + 60 * 365 * 86400) = -(60 * 365 * 86400 : ℝ) by ring, abs_neg, abs_of_pos (by norm_num)]
    norm_num
  · simp only [OnTime, Target.fromTargets]
    rw [show b.ltof.re - (b.ltof.re + 60 * 365 * 86400) = -(60 * 365 * 86400 : ℝ) by ring, abs_neg, abs_of_pos (by norm_num)]
    norm_num

/-- C234, refuted: the tolerances shown in meters are a millionth of the tolerances in meters. -/
theorem shown_tolerance_false (t : Target) :
    1000000 * t.shownMeters.1 = 1000 * t.tolR ∧ 1000000 * t.shownMeters.2 = 1000 * t.tolT ∧
      (0 < t.tolR → t.shownMeters.1 < 1000 * t.tolR) ∧ (0 < t.tolT → t.shownMeters.2 < 1000 * t.tolT) := by
  simp only [Target.shownMeters]
  exact ⟨by ring, by ring, fun h => by linarith, fun h => by linarith⟩

/-! ## The hypotheses are met -/

/-- The plane at periapsis of a hyperbola is achieved with the target of its own components, and meets the objectives to the millimeter, which
put it on the target. -/
example : ∃ pl : Plane, pl.meets ((Target.fromTargets pl.bT.re pl.bR.re 3600).objectivesWithin Unit (1 / 1000000)) = true ∧
    OnTarget (Target.fromTargets pl.bT.re pl.bR.re 3600) pl := by
  obtain ⟨pl, h⟩ := peri_plane
  have h1 := achieved_meets Unit (3 / 8) peri periV _ 0 pl (1 / 1000000) (by norm_num) peri_ne le_rfl le_rfl
    (ltof_ignored (3 / 8) peri periV pl 3600 (by norm_num) peri_ne h (by norm_num) (by norm_num)).1
  exact ⟨pl, h1, objectives_on_target_partial Unit _ _ le_rfl le_rfl pl h1⟩

/-- A plane which the code builds and the looser objectives. -/
example : ∃ pl, Plane.new (some (3 / 8)) peri periV = .ok (some pl) ∧
    pl.meets ((Target.fromBtBr (pl.bT.re + 1) (pl.bR.re - 1)).objectives Unit) = true := by
  obtain ⟨pl, h⟩ := peri_plane
  exact ⟨pl, h, (objectives_loose Unit pl).1⟩

example (b : Plane) := all_objectives_ignore_time Unit b (1 / 1000000) (by norm_num)

end Verif.BPlane
