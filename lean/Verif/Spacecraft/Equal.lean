import Verif.Spacecraft.Value
import Verif.Spacecraft.Burn
import Verif.MathU.Angles
/-!
C207 and C208: equality of spacecraft, angles of the thrust.
-/
namespace Verif.Spacecraft
open Matrix

variable {F Fr : Type} [Field F] [LinearOrder F] [IsStrictOrderedRing F]

/-! ### Model -/

/-- `PartialEq for Spacecraft`, cosmic/spacecraft.rs:362-369. `eqOrbit` is `Orbit::eq_within` with the tolerances of
1e-9 km and 1e-12 km/s (external), on frame, epoch, position and velocity. `Mass::abs` (external) is the absolute value of the three
masses, `total_mass_kg` their sum. -/
def craftEq [DecidableEq F] (eqOrbit : Fr × Int × V3 F × V3 F → Fr × Int × V3 F × V3 F → Bool) (a b : Craft F Fr) : Bool :=
  eqOrbit (a.frame, a.epoch, a.pos, a.vel) (b.frame, b.epoch, b.pos, b.vel) &&
    decide (|a.dry - b.dry| + |a.prop - b.prop| + |a.extra - b.extra| < 1 / 1000000) &&
    (decide (a.srpArea = b.srpArea) && decide (a.cr = b.cr)) &&
    (decide (a.dragArea = b.dragArea) && decide (a.cd = b.cd))

/-- `thrust_angles_deg`, cosmic/spacecraft.rs:331-344. `dcm` is `dcm_to_inertial` of the frame (external; `none` if it
fails). The first option is the error. -/
noncomputable def thrustAngles (dcm : Option (Matrix (Fin 3) (Fin 3) ℝ)) (s : Craft ℝ Fr) : Option (Option (ℝ × ℝ)) :=
  match s.dir with
  | none => some none
  | some d => dcm.map fun M =>
      some ((MathU.planeOfVec (Mᵀ *ᵥ d)).1 * (180 / Real.pi), (MathU.planeOfVec (Mᵀ *ᵥ d)).2 * (180 / Real.pi))

/-! ### C207 -/

/-- C207 (partial). If the comparison of orbits is reflexive and symmetric, so is that of spacecraft, and equal spacecraft
have masses within a milligram and the same surfaces and coefficients.
What is missing: transitivity and the rest of the spacecraft, see `equality_not_transitive` and
`equal_but_different`. -/
theorem equality_partial [DecidableEq F] (eqOrbit : Fr × Int × V3 F × V3 F → Fr × Int × V3 F × V3 F → Bool)
    (hr : ∀ o, eqOrbit o o = true) (hs : ∀ o p, eqOrbit o p = eqOrbit p o) (a b : Craft F Fr) :
    craftEq eqOrbit a a = true ∧ craftEq eqOrbit a b = craftEq eqOrbit b a ∧
    (craftEq eqOrbit a b = true → |a.mass - b.mass| < 1 / 1000000 ∧ |a.dry - b.dry| < 1 / 1000000 ∧
      |a.prop - b.prop| < 1 / 1000000 ∧ |a.extra - b.extra| < 1 / 1000000 ∧ a.srpArea = b.srpArea ∧ a.cr = b.cr ∧
      a.dragArea = b.dragArea ∧ a.cd = b.cd) := by
  refine ⟨?_, ?_, fun h => ?_⟩
  · simp [craftEq, hr]
  · unfold craftEq
    rw [hs, abs_sub_comm a.dry, abs_sub_comm a.prop, abs_sub_comm a.extra]
    simp only [eq_comm (a := a.srpArea), eq_comm (a := a.cr), eq_comm (a := a.dragArea), eq_comm (a := a.cd)]
  · simp only [craftEq, Bool.and_eq_true, decide_eq_true_eq] at h
    obtain ⟨⟨⟨_, h2⟩, h3, h4⟩, h5, h6⟩ := h
    have k1 := abs_nonneg (a.dry - b.dry)
    have k2 := abs_nonneg (a.prop - b.prop)
    have k3 := abs_nonneg (a.extra - b.extra)
    refine ⟨?_, by linarith, by linarith, by linarith, h3, h4, h5, h6⟩
    have e : a.mass - b.mass = (a.dry - b.dry) + (a.prop - b.prop) + (a.extra - b.extra) := by
      unfold Craft.mass; ring
    rw [e]
    exact lt_of_le_of_lt (abs_add_three _ _ _) h2

/-- C207, refuted: equality is not transitive. -/
theorem equality_not_transitive (eqOrbit : Fr × Int × V3 ℚ × V3 ℚ → Fr × Int × V3 ℚ × V3 ℚ → Bool)
    (hr : ∀ o, eqOrbit o o = true) (s : Craft ℚ Fr) :
    ∃ a b c : Craft ℚ Fr, craftEq eqOrbit a b = true ∧ craftEq eqOrbit b c = true ∧ craftEq eqOrbit a c = false := by
  refine ⟨s, { s with dry := s.dry + 7 / 10000000 }, { s with dry := s.dry + 14 / 10000000 }, ?_, ?_, ?_⟩
  · simp [craftEq, hr, abs_of_pos]; norm_num
  · simp [craftEq, hr]; norm_num [abs_of_pos]
  · simp [craftEq, hr, abs_of_pos]; norm_num

/-- C207, refuted: two spacecraft which are equal can have another thruster, mode and thrust direction. Under the same
dynamics, which burn where the mode is thrust, one is accelerated and loses propellant, the other not. -/
theorem equal_but_different :
    ∃ (a b : Craft ℚ Unit) (D : Dyn ℚ Unit) (dx dy : Vec90 ℚ), (∀ eqOrbit : Unit × Int × V3 ℚ × V3 ℚ → Unit × Int × V3 ℚ × V3 ℚ → Bool,
      (∀ o, eqOrbit o o = true) → craftEq eqOrbit a b = true) ∧
      D.eom a 0 a.toVector = some dx ∧ D.eom b 0 b.toVector = some dy ∧
      dx 8 < 0 ∧ dy 8 = 0 ∧ dx 3 ≠ dy 3 := by
  let a : Craft ℚ Unit :=
    ⟨(), 0, fun _ => 0, fun _ => 0, 100, 10, 0, 1, 1, 1, 2, some ⟨1, 300⟩, .thrust, none, none⟩
  let b : Craft ℚ Unit :=
    ⟨(), 0, fun _ => 0, fun _ => 0, 100, 10, 0, 1, 1, 1, 2, some ⟨1, 300⟩, .coast, none, none⟩
  let D : Dyn ℚ Unit := ⟨fun _ => some fun _ => 0,
    some ⟨fun _ => some fun i => if i = 0 then 1 else 0, fun s => some (if s.mode = .thrust then 1 else 0), id⟩, true,
    fun v => |v 0|, fun e _ => e⟩
  have ha : ∃ dx, D.eom a 0 a.toVector = some dx ∧ dx 8 < 0 ∧ dx 3 ≠ 0 := by
    have c : D.control ⟨fun _ => some fun i => if i = 0 then 1 else 0,
        fun s => some (if s.mode = .thrust then 1 else 0), id⟩ (a.set 0 a.toVector) =
        some (fun i => (if i = 0 then 1 else 0) * (1 * 1 * (1 / 1000)), -(1 * 1 / (300 * g0))) := by
      simp [Dyn.control, a, D, Craft.set, normErr]
    refine ⟨_, by unfold Dyn.eom; simp only [D] at c ⊢; rw [c], ?_, ?_⟩
    · norm_num [g0]
    · simp [Craft.mass, Craft.set, a, Craft.toVector]
      norm_num
  have hb : ∃ dy, D.eom b 0 b.toVector = some dy ∧ dy 8 = 0 ∧ dy 3 = 0 := by
    have c : D.control ⟨fun _ => some fun i => if i = 0 then 1 else 0,
        fun s => some (if s.mode = .thrust then 1 else 0), id⟩ (b.set 0 b.toVector) = some (fun _ => 0, 0) := by
      simp [Dyn.control, b, Craft.set]
    refine ⟨_, by unfold Dyn.eom; simp only [D] at c ⊢; rw [c], ?_, ?_⟩ <;> simp
  obtain ⟨dx, h1, h2, h3⟩ := ha
  obtain ⟨dy, h4, h5, h6⟩ := hb
  refine ⟨a, b, D, dx, dy, fun eqOrbit hr => ?_, h1, h4, h2, h5, by rw [h6]; exact h3⟩
  simp [craftEq, a, b, hr]

/-! ### C208 -/

theorem orthogonal_mulVec {M : Matrix (Fin 3) (Fin 3) ℝ} (hM : Mᵀ * M = 1) (v : Fin 3 → ℝ) : Mᵀ *ᵥ (M *ᵥ v) = v := by
  rw [Matrix.mulVec_mulVec, hM, Matrix.one_mulVec]

/-- C208. The angles of the thrust: none if there is no direction; otherwise the direction in the local frame is
`(cos i cos o, sin i cos o, sin o)` for the angles `i`, `o` in plane and out of plane which are returned in degrees, with
`i` in (-180, 180] and `o` in [-90, 90]. The in plane angle is measured from the first axis.
Missing: the convention of the guidance laws, which is the complement (`thrust_angles_complement`). -/
theorem thrust_angles_direction_partial (M : Matrix (Fin 3) (Fin 3) ℝ) (hM : M * Mᵀ = 1) (s : Craft ℝ Fr) :
    (s.dir = none → thrustAngles (some M) s = some none) ∧
    (∀ d, s.dir = some d → d ⬝ᵥ d = 1 → ∃ i o : ℝ, thrustAngles (some M) s = some (some (i, o)) ∧
      -180 < i ∧ i ≤ 180 ∧ -90 ≤ o ∧ o ≤ 90 ∧
      M *ᵥ ![Real.cos (i * (Real.pi / 180)) * Real.cos (o * (Real.pi / 180)),
        Real.sin (i * (Real.pi / 180)) * Real.cos (o * (Real.pi / 180)), Real.sin (o * (Real.pi / 180))] = d) := by
  have pp := Real.pi_pos
  refine ⟨fun h => by unfold thrustAngles; rw [h], fun d h hd => ?_⟩
  have hl : (Mᵀ *ᵥ d) ⬝ᵥ (Mᵀ *ᵥ d) = 1 := by
    rw [Matrix.dotProduct_mulVec, Matrix.vecMul_transpose, Matrix.mulVec_mulVec, hM, Matrix.one_mulVec, hd]
  have hrt := MathU.ra_dec_round_trip (Mᵀ *ᵥ d) hl
  have hb : ∀ x : ℝ, x * (180 / Real.pi) * (Real.pi / 180) = x := fun x => by field_simp
  refine ⟨_, _, by unfold thrustAngles; rw [h]; rfl, ?_, ?_, ?_, ?_, ?_⟩
  · have h1 : -Real.pi < (MathU.planeOfVec (Mᵀ *ᵥ d)).1 := Complex.neg_pi_lt_arg _
    have h2 : -180 = -Real.pi * (180 / Real.pi) := by field_simp
    rw [h2]
    exact mul_lt_mul_of_pos_right h1 (by positivity)
  · have h1 : (MathU.planeOfVec (Mᵀ *ᵥ d)).1 ≤ Real.pi := Complex.arg_le_pi _
    have h2 : (180 : ℝ) = Real.pi * (180 / Real.pi) := by field_simp
    calc _ ≤ Real.pi * (180 / Real.pi) := mul_le_mul_of_nonneg_right h1 (by positivity)
      _ = 180 := h2.symm
  · have h1 : -(Real.pi / 2) ≤ (MathU.planeOfVec (Mᵀ *ᵥ d)).2 := Real.neg_pi_div_two_le_arcsin _
    have h2 : -90 = -(Real.pi / 2) * (180 / Real.pi) := by field_simp; norm_num
    rw [h2]
    exact mul_le_mul_of_nonneg_right h1 (by positivity)
  · have h1 : (MathU.planeOfVec (Mᵀ *ᵥ d)).2 ≤ Real.pi / 2 := Real.arcsin_le_pi_div_two _
    have h2 : (90 : ℝ) = Real.pi / 2 * (180 / Real.pi) := by field_simp; norm_num
    calc _ ≤ Real.pi / 2 * (180 / Real.pi) := mul_le_mul_of_nonneg_right h1 (by positivity)
      _ = 90 := h2.symm
  · rw [hb, hb, mul_comm (Real.cos (MathU.planeOfVec _).1), mul_comm (Real.sin (MathU.planeOfVec _).1)]
    have e : ![Real.cos (MathU.planeOfVec (Mᵀ *ᵥ d)).2 * Real.cos (MathU.planeOfVec (Mᵀ *ᵥ d)).1,
        Real.cos (MathU.planeOfVec (Mᵀ *ᵥ d)).2 * Real.sin (MathU.planeOfVec (Mᵀ *ᵥ d)).1,
        Real.sin (MathU.planeOfVec (Mᵀ *ᵥ d)).2] = Mᵀ *ᵥ d := hrt
    rw [e, Matrix.mulVec_mulVec, hM, Matrix.one_mulVec]

/-- C208, refuted: the angles are not those from which the guidance laws build a direction. The direction built in the local
frame by `unit_vector_from_plane_angles` from the angles `α`, `β` comes back with the in plane angle `90° - α`. -/
theorem thrust_angles_complement (M : Matrix (Fin 3) (Fin 3) ℝ) (hM : Mᵀ * M = 1) (s : Craft ℝ Fr) (α β : ℝ)
    (h1 : -(Real.pi / 2) ≤ α) (h2 : α < Real.pi / 2 * 3) (h3 : -(Real.pi / 2) < β) (h4 : β < Real.pi / 2)
    (hd : s.dir = some (M *ᵥ MathU.vecOfPlane α β)) :
    thrustAngles (some M) s = some (some (90 - α * (180 / Real.pi), β * (180 / Real.pi))) := by
  have pp := Real.pi_pos
  unfold thrustAngles
  rw [hd]
  simp only [Option.map_some, Option.some.injEq, Prod.mk.injEq]
  rw [orthogonal_mulVec hM, MathU.plane_angles_partial α β h1 h2 h3 h4]
  refine ⟨?_, rfl⟩
  field_simp
  ring

example : ∃ (a b : Craft ℚ Unit), craftEq (fun _ _ => true) a b = true ∧ |a.mass - b.mass| < 1 / 1000000 := by
  refine ⟨exCraft, exCraft, (equality_partial (fun _ _ => true) (fun _ => rfl) (fun _ _ => rfl) exCraft exCraft).1, ?_⟩
  have h := equality_partial (fun _ _ => true) (fun _ => rfl) (fun _ _ => rfl) exCraft exCraft
  exact (h.2.2 h.1).1

example := equality_not_transitive (fun _ _ => true) (fun _ => rfl) exCraft

/-- A thrust along the velocity, in the frame of the velocity. -/
example : thrustAngles (some 1) (⟨(), 0, 0, 0, 1, 1, 0, 0, 0, 0, 0, none, .coast, some ![1, 0, 0], none⟩ : Craft ℝ Unit) =
    some (some (90 - Real.pi / 2 * (180 / Real.pi), 0 * (180 / Real.pi))) := by
  refine thrust_angles_complement 1 (by simp) _ (Real.pi / 2) 0 (by linarith [Real.pi_pos]) (by linarith [Real.pi_pos])
    (by linarith [Real.pi_pos]) (by linarith [Real.pi_pos]) ?_
  simp [MathU.vecOfPlane]

example : ∃ i o : ℝ, -180 < i ∧ i ≤ 180 ∧ -90 ≤ o ∧ o ≤ 90 ∧ thrustAngles (some 1)
    (⟨(), 0, 0, 0, 1, 1, 0, 0, 0, 0, 0, none, .coast, some ![1, 0, 0], none⟩ : Craft ℝ Unit) = some (some (i, o)) := by
  obtain ⟨i, o, h1, h2, h3, h4, h5, _⟩ := (thrust_angles_direction_partial 1 (by simp)
    (⟨(), 0, 0, 0, 1, 1, 0, 0, 0, 0, 0, none, .coast, some ![1, 0, 0], none⟩ : Craft ℝ Unit)).2 _ rfl (by simp)
  exact ⟨i, o, h2, h3, h4, h5, h1⟩

end Verif.Spacecraft
