import Verif.Force.Srp
import Mathlib.Analysis.SpecialFunctions.Exp
import Mathlib.Analysis.Complex.ExponentialBounds

/-!
Atmospheric drag (C71, C161).
-/
namespace Verif.Force
open Verif.MathU Matrix
open Verif.Spacecraft (Craft)
variable {Fr : Type}

/-- Specification of the drag for a velocity `v` with respect to the atmosphere, in km/s: against `v`,
of magnitude `½ ρ Cd A |v|²`, in kg km/s². -/
def IsDrag (rho cd area : ℝ) (v f : V3) : Prop :=
  nrm f = 1 / 2 * rho * cd * area * (1000 * nrm v) ^ 2 / 1000 ∧ f ⬝ᵥ v = -(nrm f * nrm v)

theorem dragForce_isDrag (rho cd area : ℝ) (v : V3) (h1 : 0 ≤ rho) (h2 : 0 ≤ cd) (h3 : 0 ≤ area) :
    IsDrag rho cd area v (dragForce rho cd area v) := by
  have hn := nrm_nonneg v
  have hm : nrm (dragForce rho cd area v) = 1 / 2 * rho * cd * area * (1000 * nrm v) ^ 2 / 1000 := by
    unfold dragForce
    rw [nrm_scale, abs_of_nonpos]
    · ring
    · have : 0 ≤ rho * cd * area * nrm v := by positivity
      nlinarith
  refine ⟨hm, ?_⟩
  rw [hm]
  unfold dragForce
  rw [smul_dotProduct, smul_eq_mul, ← nrm_sq]
  ring

/-- C71, partial: with a constant density, the drag is against the velocity in the frame of the drag, and of the expected
magnitude. Missing: the force is not rotated to the integration frame. -/
theorem drag_constant_partial (alm : Alm Fr) (p : Drag Fr) (s : Craft ℝ Fr) (rho : ℝ) (t : Orb Fr)
    (hd : p.density = .const rho) (ht : alm.transformTo (orbitOf s) p.frame = some t)
    (h1 : 0 ≤ rho) (h2 : 0 ≤ s.cd) (h3 : 0 ≤ s.dragArea) :
    ∃ f, p.eom alm s = some f ∧ IsDrag rho s.cd s.dragArea t.vel f := by
  refine ⟨dragForce rho s.cd s.dragArea t.vel, ?_, dragForce_isDrag rho _ _ _ h1 h2 h3⟩
  simp only [Drag.eom, ht, hd]

/-- C71: the other densities use the difference of the components of the velocity in both frames. -/
theorem drag_other_spec (alm : Alm Fr) (p : Drag Fr) (s : Craft ℝ Fr) (t u : Orb Fr) (radius : ℝ)
    (hd : ∀ rho, p.density ≠ .const rho) (ht : alm.transformTo (orbitOf s) p.frame = some t)
    (hr : alm.radius p.frame = some radius) (hu : alm.transformTo t s.frame = some u)
    (h1 : 0 ≤ p.density.rho (nrm t.pos) radius) (h2 : 0 ≤ s.cd) (h3 : 0 ≤ s.dragArea) :
    ∃ f, p.eom alm s = some f ∧ IsDrag (p.density.rho (nrm t.pos) radius) s.cd s.dragArea (u.vel - t.vel) f := by
  refine ⟨dragForce (p.density.rho (nrm t.pos) radius) s.cd s.dragArea (u.vel - t.vel), ?_,
    dragForce_isDrag _ _ _ _ h1 h2 h3⟩
  cases hp : p.density with
  | const rho => exact absurd hp (hd rho)
  | exponential a b c => simp only [Drag.eom, ht, hp, hr, hu]
  | std m => simp only [Drag.eom, ht, hp, hr, hu]

/-- C71, refuted: if the drag is computed in the integration frame, there is none for the
exponential and standard atmospheres, whatever the velocity. -/
theorem drag_same_frame (alm : Alm Fr) (p : Drag Fr) (s : Craft ℝ Fr) (f : V3) (hd : ∀ rho, p.density ≠ .const rho)
    (hid : ∀ o : Orb Fr, alm.transformTo o o.frame = some o) (hs : s.frame = p.frame)
    (hf : p.eom alm s = some f) : f = 0 := by
  have ht : alm.transformTo (orbitOf s) p.frame = some (orbitOf s) := by
    rw [← hs]; exact hid (orbitOf s)
  have hu : alm.transformTo (orbitOf s) s.frame = some (orbitOf s) := hid (orbitOf s)
  have key : ∀ rho, dragForce rho s.cd s.dragArea ((orbitOf s).vel - (orbitOf s).vel) = 0 := by
    intro rho
    unfold dragForce
    rw [sub_self, smul_zero]
  cases hp : p.density with
  | const rho => exact absurd hp (hd rho)
  | exponential a b c =>
    cases hr : alm.radius p.frame with
    | none => simp [Drag.eom, ht, hp, hr] at hf
    | some r =>
      simp only [Drag.eom, ht, hp, hr, hu, key, Option.some.injEq] at hf
      exact hf.symm
  | std m =>
    cases hr : alm.radius p.frame with
    | none => simp [Drag.eom, ht, hp, hr] at hf
    | some r =>
      simp only [Drag.eom, ht, hp, hr, hu, key, Option.some.injEq] at hf
      exact hf.symm

/-- Specification: the frame `f` turns, with respect to that of `o`, at the epoch where the axes coincide, so that the velocity in it is that with
respect to the atmosphere. -/
def Turns (alm : Alm Fr) (o : Orb Fr) (f : Fr) (wind : V3) : Prop :=
  ∃ t, alm.transformTo o f = some t ∧ t.pos = o.pos ∧ t.vel = o.vel - wind ∧ alm.transformTo t o.frame = some o

/-- C71, refuted: the drag of the exponential and standard atmospheres accelerates a spacecraft on a retrograde orbit: it is along the velocity
with respect to the atmosphere. `β` is the ratio of the speed of the atmosphere to that of the spacecraft. -/
theorem drag_accelerates (alm : Alm Fr) (p : Drag Fr) (s : Craft ℝ Fr) (β radius : ℝ) (hd : ∀ rho, p.density ≠ .const rho)
    (hβ : 0 < β) (hv : s.vel ≠ 0) (ht : Turns alm (orbitOf s) p.frame (-(β • s.vel)))
    (hr : alm.radius p.frame = some radius)
    (h1 : 0 < p.density.rho (nrm s.pos) radius) (h2 : 0 < s.cd) (h3 : 0 < s.dragArea) :
    ∃ f, p.eom alm s = some f ∧ 0 < f ⬝ᵥ (s.vel - -(β • s.vel)) := by
  obtain ⟨t, ht, hp, hvel, hu⟩ := ht
  have hpos : t.pos = s.pos := hp
  have hvv : t.vel = s.vel - -(β • s.vel) := hvel
  obtain ⟨f, hf, hm, hdot⟩ := drag_other_spec alm p s t (orbitOf s) radius hd ht hr hu (by rw [hpos]; exact h1.le) h2.le h3.le
  refine ⟨f, hf, ?_⟩
  have e : (orbitOf s).vel - t.vel = (-β) • s.vel := by
    rw [hvv]
    show s.vel - (s.vel - -(β • s.vel)) = _
    rw [neg_smul]
    abel
  rw [e] at hm hdot
  have hn := nrm_pos s.vel hv
  have hnf : 0 < nrm f := by
    rw [hm, nrm_scale, abs_neg, abs_of_pos hβ, hpos]
    positivity
  have e2 : s.vel - -(β • s.vel) = (1 + β) • s.vel := by
    rw [add_smul, one_smul]
    abel
  rw [e2, dotProduct_smul, smul_eq_mul]
  rw [dotProduct_smul, smul_eq_mul, nrm_scale, abs_neg, abs_of_pos hβ] at hdot
  have h4 : f ⬝ᵥ s.vel = nrm f * nrm s.vel := by
    have : β * (f ⬝ᵥ s.vel) = β * (nrm f * nrm s.vel) := by linarith
    exact mul_left_cancel₀ hβ.ne' this
  rw [h4]
  positivity

/-! ### Densities -/

/-- C161: every density is positive. -/
theorem density_pos (r radius : ℝ) (d : Density) (hc : ∀ rho, d = .const rho → 0 < rho)
    (he : ∀ a b c, d = .exponential a b c → 0 < a) : 0 < d.rho r radius := by
  cases d with
  | const rho => exact hc rho rfl
  | exponential a b c => exact mul_pos (he a b c rfl) (Real.exp_pos _)
  | std m =>
    simp only [Density.rho]
    split_ifs <;> exact Real.rpow_pos_of_pos (by norm_num) _

/-- C161, partial: the exponential density decays by a factor e each `refAlt`, in the unit of the distance, and is `rho0` at `r0` above the radius. Missing: the
unit: the parameters are documented to be in meters, and the distance is in kilometers. -/
theorem exponential_density_partial (r radius rho0 r0 refAlt : ℝ) (h : refAlt ≠ 0) :
    (Density.exponential rho0 r0 refAlt).rho (radius + r0) radius = rho0 ∧
      (Density.exponential rho0 r0 refAlt).rho (r + refAlt) radius =
        (Density.exponential rho0 r0 refAlt).rho r radius * Real.exp (-1) := by
  simp only [Density.rho]
  constructor
  · rw [show -(radius + r0 - (r0 + radius)) / refAlt = 0 by ring_nf]
    simp
  · rw [mul_assoc, ← Real.exp_add]
    congr 2
    field_simp
    ring

/-- C161, refuted: the exponential atmosphere of the Earth has its reference density, 3.614e-13 kg/m³, at an altitude of
700 km; the model gives more than a thousand times as much. -/
theorem earth_exp_wrong (radius : ℝ) : 1000 * 3.614e-13 < earthExp.rho (radius + 700) radius := by
  simp only [earthExp, Density.rho]
  have e : -(radius + 700 - (700000 + radius)) / 88667 = (699300 : ℝ) / 88667 := by ring
  rw [e]
  have h7 : (7 : ℝ) ≤ 699300 / 88667 := by norm_num
  have h1 : (2.7 : ℝ) ^ 7 ≤ Real.exp 7 := by
    have : Real.exp 7 = Real.exp 1 ^ 7 := by rw [← Real.exp_nat_mul]; norm_num
    rw [this]
    exact pow_le_pow_left₀ (by norm_num) (by linarith [Real.exp_one_gt_d9]) 7
  have h2 : Real.exp 7 ≤ Real.exp (699300 / 88667) := Real.exp_le_exp.mpr h7
  have h3 : (1000 : ℝ) < 2.7 ^ 7 := by norm_num
  have h4 : (1000 : ℝ) < Real.exp (699300 / 88667) := by linarith
  nlinarith

/-- C161: the standard atmosphere is the fit of the source below the limit, which is in meters, and the
exponential tail above. -/
theorem std_density (r radius maxAlt : ℝ) :
    (r - radius ≤ maxAlt / 1000 → Real.logb 10 ((Density.std maxAlt).rho r radius) =
      let s := (r - radius - 526.8) / 292.8563
      0.34047 * s ^ 6 - 0.5889 * s ^ 5 - 0.5269 * s ^ 4 + 1.0036 * s ^ 3 + 0.60713 * s ^ 2 - 2.3024 * s - 12.575) ∧
    (maxAlt / 1000 < r - radius → Real.logb 10 ((Density.std maxAlt).rho r radius) = -(7e-5 * (r - radius) + 14.464)) := by
  constructor
  · intro h
    simp only [Density.rho, not_lt.mpr h, if_false]
    rw [Real.logb_rpow (by norm_num) (by norm_num)]
    norm_num
  · intro h
    simp only [Density.rho, h, if_true]
    rw [Real.logb_rpow (by norm_num) (by norm_num)]
    ring

/-- C161: with drag among the force models no transition matrix is computed: an error, not a wrong matrix. -/
theorem drag_no_gradient (alm : Alm Fr) (p : Drag Fr) (s : Craft ℝ Fr) : (p.model alm).gradient s = none := rfl

/-! ### Examples -/

/-- An almanac with a frame 3000 that turns backwards under `satLeo`, at 0.5 km/s. -/
noncomputable def spinAlm : Alm Int where
  mu _ := some 398600
  radius _ := some 6378
  centered f b := f == b
  body _ b := some b
  info f := some f
  transform _ _ _ := none
  transformTo o f := if f = o.frame then some o
    else if f = 3000 then some ⟨3000, o.epoch, o.pos, o.vel + (1 / 15 : ℝ) • satLeo.vel⟩
    else some ⟨f, o.epoch, o.pos, o.vel - (1 / 15 : ℝ) • satLeo.vel⟩
  rotate _ _ _ := some 1
  occult _ _ _ := some 0

theorem satLeo_vel : satLeo.vel ≠ 0 := fun h => by
  have := congrFun h 1
  norm_num [satLeo] at this

theorem spin_turns : Turns spinAlm (orbitOf satLeo) 3000 (-((1 / 15 : ℝ) • satLeo.vel)) := by
  refine ⟨⟨3000, 0, satLeo.pos, satLeo.vel + (1 / 15 : ℝ) • satLeo.vel⟩, ?_, rfl, ?_, ?_⟩
  · simp [spinAlm, orbitOf, satLeo]
  · simp [orbitOf]
  · simp only [spinAlm, orbitOf, show satLeo.frame = 399 from rfl, show satLeo.epoch = 0 from rfl]
    rw [if_neg (by norm_num), if_neg (by norm_num)]
    congr 2
    abel

example := drag_accelerates spinAlm ⟨.std 1000000, 3000, false⟩ satLeo (1 / 15) 6378 (by simp) (by norm_num) satLeo_vel
  spin_turns rfl (density_pos _ _ _ (by simp) (by simp)) (by norm_num [satLeo]) (by norm_num [satLeo])

example := drag_constant_partial spinAlm ⟨.const 1e-12, 3000, false⟩ satLeo 1e-12 _ rfl
  (show spinAlm.transformTo (orbitOf satLeo) 3000 = some ⟨3000, 0, satLeo.pos, satLeo.vel + (1 / 15 : ℝ) • satLeo.vel⟩ by
    simp [spinAlm, orbitOf, satLeo])
  (by norm_num) (by norm_num [satLeo]) (by norm_num [satLeo])

/-- An almanac where every transformation leaves the state. -/
noncomputable def stillAlm : Alm Int := { spinAlm with transformTo := fun o f => some ⟨f, o.epoch, o.pos, o.vel⟩ }

example (f : V3) (h : (⟨.std 1000000, 399, false⟩ : Drag Int).eom stillAlm satLeo = some f) := drag_same_frame stillAlm ⟨.std 1000000, 399, false⟩ satLeo f (by simp) (fun _ => rfl) rfl h

example : ∃ f, (⟨.std 1000000, 399, false⟩ : Drag Int).eom stillAlm satLeo = some f := by
  simp [Drag.eom, stillAlm, spinAlm, orbitOf, satLeo]

end Verif.Force
