import Mathlib.Analysis.SpecialFunctions.Pow.Real
import Verif.Force.Dual
import Verif.Spacecraft.Model
import Verif.Guide.Model

/-!
Model of the equations of motion and of their gradients: nyx-core/src/dynamics/orbital.rs (two bodies,
point masses), solarpressure.rs, drag.rs, and the parts of spacecraft.rs that combine them.

Floating point numbers are reals; errors are `none`. The almanac (anise) is a parameter. A division by zero
gives NaN in the code and zero in the model: the theorems assume that the spacecraft is not at the center
of a body; the one NaN that a user can reach otherwise, the partial with respect to a zero
coefficient of reflectivity, is modelled as `none`.
-/
namespace Verif.Force
open Verif.MathU Matrix
open Verif.Spacecraft (Craft)

/-- Matrices of the partials of a vector of three components. -/
abbrev M3 := Matrix (Fin 3) (Fin 3) ℝ

/-- `Orbit` of anise. -/
structure Orb (Fr : Type) where
  frame : Fr
  epoch : Int
  pos : V3
  vel : V3

/-- The functions of the almanac that the dynamics call; errors are `none`. -/
structure Alm (Fr : Type) where
  /-- `Frame::mu_km3_s2` -/
  mu : Fr → Option ℝ
  /-- `Frame::mean_equatorial_radius_km` -/
  radius : Fr → Option ℝ
  /-- `Frame::ephem_origin_id_match` -/
  centered : Fr → Int → Bool
  /-- `frame_info(osc.frame.with_ephem(body))` -/
  body : Fr → Int → Option Fr
  /-- `frame_info` -/
  info : Fr → Option Fr
  /-- `transform(target, observer, epoch, correction)`; the correction is fixed -/
  transform : Fr → Fr → Int → Option (Orb Fr)
  /-- `transform_to(orbit, frame, None)` -/
  transformTo : Orb Fr → Fr → Option (Orb Fr)
  /-- `rotate(from, to, epoch)` -/
  rotate : Fr → Fr → Int → Option M3
  /-- percentage of the occultation of a light source by a body, seen from an orbit -/
  occult : Fr → Fr → Orb Fr → Option ℝ

variable {Fr : Type}

/-- `AccelModel`. dynamics/mod.rs:163-174. -/
structure AModel (Fr : Type) where
  eom : Orb Fr → Option V3
  gradient : Orb Fr → Option (V3 × M3)

/-- The loop over the acceleration models. dynamics/orbital.rs:102-107. -/
def addModels : List (AModel Fr) → Orb Fr → V3 → Option V3
  | [], _, a => some a
  | m :: ms, o, a =>
    match m.eom o with
    | none => none
    | some b => addModels ms o (a + b)

/-- Position and velocity in one vector. -/
def stack (p v : V3) : Fin 6 → ℝ := ![p 0, p 1, p 2, v 0, v 1, v 2]

/-- `OrbitalDynamics::eom`, without the 36 zeros of the transition matrix. dynamics/orbital.rs:80-114. -/
noncomputable def orbEom (alm : Alm Fr) (models : List (AModel Fr)) (o : Orb Fr) : Option (Fin 6 → ℝ) :=
  match alm.mu o.frame with
  | none => none
  | some mu =>
    match addModels models o ((-mu / nrm o.pos ^ 3) • o.pos) with
    | none => none
    | some a => some (stack o.vel a)

/-- The loop over the acceleration models with their partials. dynamics/orbital.rs:159-167. -/
def addGradients : List (AModel Fr) → Orb Fr → V3 × Matrix (Fin 3) (Fin 6) ℝ →
    Option (V3 × Matrix (Fin 3) (Fin 6) ℝ)
  | [], _, a => some a
  | m :: ms, o, (a, g) =>
    match m.gradient o with
    | none => none
    | some (b, h) => addGradients ms o (a + b, of fun i j => if hj : j.val < 3 then g i j + h i ⟨j, hj⟩ else g i j)

/-- The acceleration of the central body on hyperdual numbers. dynamics/orbital.rs:124-138. -/
noncomputable def bodyAccD (mu : ℝ) (state : Fin 6 → ℝ) : Fin 3 → Dual 6 :=
  let s := Dual.vars state
  let radius : Fin 3 → Dual 6 := ![s 0, s 1, s 2]
  fun i => radius i * (Dual.ofReal (-mu) / (Dual.norm3 radius).powi 3)

/-- `OrbitalDynamics::dual_eom`: derivative and gradient. dynamics/orbital.rs:116-172. -/
noncomputable def orbDual (alm : Alm Fr) (models : List (AModel Fr)) (o : Orb Fr) :
    Option ((Fin 6 → ℝ) × Matrix (Fin 6) (Fin 6) ℝ) :=
  match alm.mu o.frame with
  | none => none
  | some mu =>
    let s := Dual.vars (stack o.pos o.vel)
    let acc := bodyAccD mu (stack o.pos o.vel)
    match addGradients models o (fun i => (acc i).re, of fun i j => (acc i).eps j) with
    | none => none
    | some (a, g) =>
      some (stack ![(s 3).re, (s 4).re, (s 5).re] a,
        of fun i j => if h : i.val < 3 then (s ⟨i + 3, by omega⟩).eps j else g ⟨i - 3, by omega⟩ j)

/-! ### Point masses -/

/-- `PointMasses::eom`, from the sum so far. dynamics/orbital.rs:214-247. -/
noncomputable def pmEom (alm : Alm Fr) : List Int → Orb Fr → V3 → Option V3
  | [], _, d => some d
  | b :: bs, o, d =>
    if alm.centered o.frame b then pmEom alm bs o d
    else
      match alm.body o.frame b with
      | none => none
      | some f =>
        match alm.transform f o.frame o.epoch with
        | none => none
        | some st =>
          match alm.mu f with
          | none => none
          | some mu =>
            let rij := st.pos
            let rj := o.pos - rij
            pmEom alm bs o (d + (-mu) • ((1 / nrm rj ^ 3) • rj + (1 / nrm rij ^ 3) • rij))

/-- The acceleration due to a third body on hyperdual numbers, before the multiplication by its
gravitational parameter. dynamics/orbital.rs:255, 287-297. -/
noncomputable def thirdBodyD (pos rij : V3) : Fin 3 → Dual 3 :=
  let r := Dual.vars pos
  let ri := Dual.vars rij
  let ri3 := (Dual.norm3 ri).powi 3
  let rj : Fin 3 → Dual 3 := fun i => ⟨(r i - ri i).re, fun j => if j = i then 1 else (r i - ri i).eps j⟩
  let rj3 := (Dual.norm3 rj).powi 3
  fun i => rj i / rj3 + ri i / ri3

/-- `PointMasses::gradient`, from the sums so far. dynamics/orbital.rs:249-308. -/
noncomputable def pmGradient (alm : Alm Fr) : List Int → Orb Fr → V3 × M3 → Option (V3 × M3)
  | [], _, d => some d
  | b :: bs, o, (d, g) =>
    if alm.centered o.frame b then pmGradient alm bs o (d, g)
    else
      match alm.body o.frame b with
      | none => none
      | some f =>
        match alm.mu f with
        | none => none
        | some mu =>
          match alm.transform f o.frame o.epoch with
          | none => none
          | some st =>
            let acc : Fin 3 → Dual 3 := fun i => thirdBodyD o.pos st.pos i * Dual.ofReal (-mu)
            pmGradient alm bs o (d + (fun i => (acc i).re), g + of fun i j => (acc i).eps j)

/-- `PointMasses` as an acceleration model. dynamics/orbital.rs:213-309. -/
noncomputable def pointMasses (alm : Alm Fr) (bodies : List Int) : AModel Fr where
  eom o := pmEom alm bodies o 0
  gradient o := pmGradient alm bodies o (0, 0)

/-! ### Forces -/

/-- The orbit of a spacecraft. cosmic/spacecraft.rs:115-117. -/
def orbitOf (s : Craft ℝ Fr) : Orb Fr := ⟨s.frame, s.epoch, s.pos, s.vel⟩

/-- `ForceModel`: the partials with respect to the position, and the last row, with respect to the estimated
parameter, where `none` is NaN. dynamics/mod.rs:143-158. -/
structure FModel (Fr : Type) where
  index : Option (Fin 9)
  eom : Craft ℝ Fr → Option V3
  gradient : Craft ℝ Fr → Option (V3 × M3 × (Fin 3 → Option ℝ))

/-- `AU`. cosmic/mod.rs:183. -/
noncomputable def au : ℝ := 149597870.700

/-- `SPEED_OF_LIGHT_M_S`. cosmic/mod.rs:179, with the constant of anise. -/
noncomputable def lightSpeed : ℝ := 299792.458 * 1000

/-- `SolarPressure`. dynamics/solarpressure.rs:43-49. -/
structure Srp (Fr : Type) where
  phi : ℝ
  light : Fr
  bodies : List Fr
  estimate : Bool

/-- `SOLAR_FLUX_W_m2`. dynamics/solarpressure.rs:35. -/
def solarFlux : ℝ := 1367

/-- Keeps the loaded frames. dynamics/solarpressure.rs:77-86. -/
def loaded (alm : Alm Fr) (l : List Fr) : List Fr := l.filterMap alm.info

/-- `SolarPressure::default_flux_raw`, `new`. dynamics/solarpressure.rs:67-93, 125-127. -/
def Srp.new (alm : Alm Fr) (sun : Fr) (bodies : List Fr) : Option (Srp Fr) :=
  match alm.info sun with
  | none => none
  | some l => some ⟨solarFlux, l, loaded alm bodies, true⟩

/-- `SolarPressure::default_no_estimation`. dynamics/solarpressure.rs:104-111. -/
def Srp.noEstimation (alm : Alm Fr) (sun : Fr) (bodies : List Fr) : Option (Srp Fr) :=
  (Srp.new alm sun bodies).map fun s => ⟨s.phi, s.light, s.bodies, false⟩

/-- `SolarPressure::with_flux`. dynamics/solarpressure.rs:114-122. -/
def Srp.withFlux (alm : Alm Fr) (sun : Fr) (flux : ℝ) (bodies : List Fr) : Option (Srp Fr) :=
  (Srp.new alm sun bodies).map fun s => ⟨flux, s.light, s.bodies, s.estimate⟩

/-- The illumination factor, from the occultation of the shadow model, of which `factor()` is the
percentage over 100. dynamics/solarpressure.rs:148-157. -/
noncomputable def Srp.light01 (alm : Alm Fr) (p : Srp Fr) (o : Orb Fr) : Option ℝ :=
  (Guide.shadow (p.bodies.map fun b => alm.occult p.light b o)).map fun occ => |occ / 100 - 1|

/-- `SolarPressure::eom`. dynamics/solarpressure.rs:135-165. -/
noncomputable def Srp.eom (alm : Alm Fr) (p : Srp Fr) (s : Craft ℝ Fr) : Option V3 :=
  match alm.transformTo (orbitOf s) p.light with
  | none => none
  | some t =>
    match p.light01 alm (orbitOf s) with
    | none => none
    | some k =>
      let r := t.pos
      let rau := nrm r / au
      let flux := (k * p.phi / lightSpeed) * (1 / rau) ^ 2
      some ((1 / 1000 * s.cr * s.srpArea * flux) • ((1 / nrm r) • r))

/-- The force on hyperdual numbers. dynamics/solarpressure.rs:182-212. -/
noncomputable def srpD (k phi cr area : ℝ) (r : V3) : Fin 3 → Dual 3 :=
  let rd := Dual.vars r
  let u : Fin 3 → Dual 3 := fun i => rd i / Dual.norm3 rd
  let rau := Dual.norm3 rd / Dual.ofReal au
  let inv := Dual.ofReal 1 / rau
  let flux := Dual.ofReal (k * phi / lightSpeed) * inv.powi 2
  fun i => Dual.ofReal (1 / 1000 * cr * area) * flux * u i

/-- `SolarPressure::gradient`. dynamics/solarpressure.rs:167-232. -/
noncomputable def Srp.gradient (alm : Alm Fr) (p : Srp Fr) (s : Craft ℝ Fr) :
    Option (V3 × M3 × (Fin 3 → Option ℝ)) :=
  match alm.transformTo (orbitOf s) p.light with
  | none => none
  | some t =>
    match p.light01 alm (orbitOf s) with
    | none => none
    | some k =>
      let d := srpD k p.phi s.cr s.srpArea t.pos
      match p.eom alm s with
      | none => none
      | some f => some (fun i => (d i).re, of fun i j => (d i).eps j,
          fun j => if s.cr = 0 then none else some (f j / s.cr))

/-- `SolarPressure` as a force model. dynamics/solarpressure.rs:130-133. -/
noncomputable def Srp.model (alm : Alm Fr) (p : Srp Fr) : FModel Fr where
  index := if p.estimate then some 6 else none
  eom := p.eom alm
  gradient := p.gradient alm

/-- `AtmDensity`. dynamics/drag.rs:41-45. -/
inductive Density where
  | const (rho : ℝ)
  | exponential (rho0 r0 refAlt : ℝ)
  | std (maxAlt : ℝ)

/-- `Drag`; `ConstantDrag` (drag.rs:66-118) is the case of a constant density. dynamics/drag.rs:123-130. -/
structure Drag (Fr : Type) where
  density : Density
  frame : Fr
  estimate : Bool

/-- The density, in kg/m^3, at distance `r` of a body of radius `radius`. dynamics/drag.rs:210-219, 242-264. -/
noncomputable def Density.rho (r radius : ℝ) : Density → ℝ
  | .const rho => rho
  | .exponential rho0 r0 refAlt => rho0 * Real.exp (-(r - (r0 + radius)) / refAlt)
  | .std maxAlt =>
    let alt := r - radius
    if alt > maxAlt / 1000 then (10 : ℝ) ^ (-7e-5 * alt - 14.464)
    else
      let s := (alt - 526.8000) / 292.8563
      (10 : ℝ) ^ (0.34047 * s ^ 6 - 0.5889 * s ^ 5 - 0.5269 * s ^ 4 + 1.0036 * s ^ 3 + 0.60713 * s ^ 2
        - 2.3024 * s - 12.575)

/-- The force of the drag for a velocity. dynamics/drag.rs:100-106, 232-238. -/
noncomputable def dragForce (rho cd area : ℝ) (v : V3) : V3 :=
  (-0.5 * 1000 * rho * cd * area * nrm v) • v

/-- `Drag::eom`. dynamics/drag.rs:181-284. -/
noncomputable def Drag.eom (alm : Alm Fr) (p : Drag Fr) (s : Craft ℝ Fr) : Option V3 :=
  match alm.transformTo (orbitOf s) p.frame with
  | none => none
  | some t =>
    match p.density with
    | .const rho => some (dragForce rho s.cd s.dragArea t.vel)
    | d =>
      match alm.radius p.frame with
      | none => none
      | some radius =>
        match alm.transformTo t s.frame with
        | none => none
        | some u => some (dragForce (d.rho (nrm t.pos) radius) s.cd s.dragArea (u.vel - t.vel))

/-- `Drag` as a force model: the partials are undefined. dynamics/drag.rs:177-179, 286-294. -/
noncomputable def Drag.model (alm : Alm Fr) (p : Drag Fr) : FModel Fr where
  index := if p.estimate then some 7 else none
  eom := p.eom alm
  gradient _ := none

/-- `Drag::earth_exp`, without its frame. dynamics/drag.rs:134-140. -/
noncomputable def earthExp : Density := .exponential 3.614e-13 700000 88667

/-! ### Spacecraft -/

/-- Orbital dynamics and force models of `SpacecraftDynamics`. dynamics/spacecraft.rs:44-49. -/
structure ScDyn (Fr : Type) where
  accels : List (AModel Fr)
  forces : List (FModel Fr)
  /-- is there a guidance law -/
  guided : Bool

/-- The loop over the force models without the transition matrix. dynamics/spacecraft.rs:238-243. -/
noncomputable def addForces : List (FModel Fr) → Craft ℝ Fr → (Fin 9 → ℝ) → Option (Fin 9 → ℝ)
  | [], _, d => some d
  | m :: ms, s, d =>
    match m.eom s with
    | none => none
    | some f => addForces ms s fun i =>
        if h : 3 ≤ i.val ∧ i.val < 6 then d i + f ⟨i - 3, by omega⟩ / s.mass else d i

/-- The first nine components of the derivative without a transition matrix, before the control.
dynamics/spacecraft.rs:199-205, 225-245. -/
noncomputable def scEom (alm : Alm Fr) (D : ScDyn Fr) (s : Craft ℝ Fr) : Option (Fin 9 → ℝ) :=
  if D.forces ≠ [] ∧ ¬ 0 < s.mass then none
  else
    match orbEom alm D.accels (orbitOf s) with
    | none => none
    | some d => addForces D.forces s fun i => if h : i.val < 6 then d ⟨i, h⟩ else 0

/-- Addition of numbers that may be NaN. -/
def nadd (a b : Option ℝ) : Option ℝ := a.bind fun x => b.map fun y => x + y

/-- The gradient, where `none` is NaN. -/
abbrev Grad9 := Fin 9 → Fin 9 → Option ℝ

/-- The loop over the force models with their partials. dynamics/spacecraft.rs:343-360. -/
noncomputable def addForceGradients : List (FModel Fr) → Craft ℝ Fr → (Fin 9 → ℝ) × Grad9 →
    Option ((Fin 9 → ℝ) × Grad9)
  | [], _, d => some d
  | m :: ms, s, (d, g) =>
    match m.gradient s with
    | none => none
    | some (f, h, w) =>
      addForceGradients ms s
        (fun i => if hi : 3 ≤ i.val ∧ i.val < 6 then d i + f ⟨i - 3, by omega⟩ / s.mass else d i,
         fun i j =>
          let a := if hij : (3 ≤ i.val ∧ i.val < 6) ∧ j.val < 3 then
              nadd (g i j) (some (h ⟨i - 3, by omega⟩ ⟨j, hij.2⟩ / s.mass))
            else g i j
          if hi : 3 ≤ i.val ∧ i.val < 6 then
            if m.index = some j then nadd a ((w ⟨i - 3, by omega⟩).map (· / s.mass)) else a
          else a)

/-- `SpacecraftDynamics::dual_eom`. dynamics/spacecraft.rs:312-363. -/
noncomputable def scDual (alm : Alm Fr) (D : ScDyn Fr) (s : Craft ℝ Fr) : Option ((Fin 9 → ℝ) × Grad9) :=
  match orbDual alm D.accels (orbitOf s) with
  | none => none
  | some (d, g) =>
    if D.guided then none
    else addForceGradients D.forces s
      (fun i => if h : i.val < 6 then d ⟨i, h⟩ else 0,
       fun i j => if h : i.val < 6 ∧ j.val < 6 then some (g ⟨i, h.1⟩ ⟨j, h.2⟩) else some 0)

/-- The first nine components of the derivative when the context has a transition matrix, with the
gradient, before the control. dynamics/spacecraft.rs:199-224. -/
noncomputable def scEomStm (alm : Alm Fr) (D : ScDyn Fr) (s : Craft ℝ Fr) : Option ((Fin 9 → ℝ) × Grad9) :=
  if D.forces ≠ [] ∧ ¬ 0 < s.mass then none else scDual alm D s

end Verif.Force
