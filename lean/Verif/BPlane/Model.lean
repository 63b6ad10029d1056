import Verif.Force.Dual
import Verif.Force.Model
import Verif.Mc.Model
import Mathlib.LinearAlgebra.CrossProduct

/-!
# Model of the B-plane

nyx-core/src/cosmic/bplane.rs. The functions of `OrbitGrad` are those of the crate `anise`, which is not in the repository: they are
written here from the definitions of the orbital elements, with the numbers of `Verif.Force.Dual`. The frame and the epoch are dropped.
-/
namespace Verif.BPlane
open Verif.MathU Matrix
open Verif.Mc (Out orErr unwrap)
open Verif.Force (Dual M3)

/-- Cross product of vectors of hyperdual numbers. -/
noncomputable def dcross {n : ℕ} (a b : Fin 3 → Dual n) : Fin 3 → Dual n :=
  ![a 1 * b 2 - a 2 * b 1, a 2 * b 0 - a 0 * b 2, a 0 * b 1 - a 1 * b 0]

/-- Dot product of vectors of hyperdual numbers. -/
noncomputable def ddot {n : ℕ} (a b : Fin 3 → Dual n) : Dual n := a 0 * b 0 + a 1 * b 1 + a 2 * b 2

/-- `OrbitGrad` of anise: what cosmic/bplane.rs uses of it. -/
structure Grad where
  evec : Fin 3 → Dual 6
  ecc : Dual 6
  hvec : Fin 3 → Dual 6
  hmag : Dual 6
  semiMinor : Dual 6
  vmag : Dual 6

/-- `OrbitGrad::from(orbit)` and the functions `evec`, `ecc`, `hvec`, `hmag`, `semi_minor_axis_km` (for a hyperbola) and `vmag_km_s`, by the
definitions of the orbital elements. Used at cosmic/bplane.rs:58-69, 92, 128, 141. -/
noncomputable def grad (mu : ℝ) (p v : V3) : Grad :=
  let x := Dual.vars (Force.stack p v)
  let r : Fin 3 → Dual 6 := ![x 0, x 1, x 2]
  let w : Fin 3 → Dual 6 := ![x 3, x 4, x 5]
  let h := dcross r w
  let e : Fin 3 → Dual 6 := fun i => (((Dual.norm3 w).powi 2 - Dual.ofReal mu / Dual.norm3 r) * r i - ddot r w * w i) / Dual.ofReal mu
  let ecc := Dual.norm3 e
  ⟨e, ecc, h, Dual.norm3 h, (Dual.norm3 h).powi 2 / (Dual.ofReal mu * (ecc.powi 2 - Dual.ofReal 1).sqrt), Dual.norm3 w⟩

/-- `BPlane`. cosmic/bplane.rs:40-53. -/
structure Plane where
  bT : Dual 6
  bR : Dual 6
  ltof : Dual 6
  dcm : M3

/-- `BPlane::from_dual`. `ok none`: the components are not numbers, because of the division of the zero vector `t` by its norm.
cosmic/bplane.rs:57-136. -/
noncomputable def fromDual (g : Grad) : Out (Option Plane) :=
  if 1 < g.ecc.re then
    let one : Dual 6 := Dual.ofReal 1
    let zero : Dual 6 := Dual.ofReal 0
    let eHat : Fin 3 → Dual 6 := fun i => g.evec i / g.ecc
    let hHat : Fin 3 → Dual 6 := fun i => g.hvec i / g.hmag
    let nHat := dcross hHat eHat
    let fact := (one - (one / g.ecc).powi 2).sqrt
    let s : Fin 3 → Dual 6 := fun i => eHat i / g.ecc + fact * nHat i
    let sHat : Fin 3 → Dual 6 := fun i => s i / Dual.norm3 s
    let b : Fin 3 → Dual 6 := fun i => g.semiMinor * (fact * eHat i - (one / g.ecc) * nHat i)
    let t := dcross sHat ![zero, zero, one]
    let tHat : Fin 3 → Dual 6 := fun i => t i / Dual.norm3 t
    let rHat := dcross sHat tHat
    if (Dual.norm3 t).re = 0 then .ok none
    else .ok (some ⟨ddot b tHat, ddot b rHat, ddot b sHat / g.vmag,
      of ![fun i => (sHat i).re, fun i => (tHat i).re, fun i => (rHat i).re]⟩)
  else .err

/-- `BPlane::new`; `mu` is missing if the frame is not loaded. cosmic/bplane.rs:139-142. -/
noncomputable def Plane.new (mu : Option ℝ) (p v : V3) : Out (Option Plane) := (orErr mu).bind fun m => fromDual (grad m p v)

/-- `BPlane::jacobian`; the partials with respect to the velocity have the numbers 3 to 5. cosmic/bplane.rs:150-162. -/
def Plane.jacobian (b : Plane) : M3 :=
  !![b.bR.eps 3, b.bR.eps 4, b.bR.eps 5; b.bT.eps 3, b.bT.eps 4, b.bT.eps 5; b.ltof.eps 3, b.ltof.eps 4, b.ltof.eps 5]

/-- The parameters that may be given to `jacobian2`. -/
inductive Inv where
  | vx | vy | vz | other

/-- `BPlane::jacobian2`. cosmic/bplane.rs:165-188. -/
def Plane.jacobian2 (b : Plane) : Inv → Option (Matrix (Fin 2) (Fin 2) ℝ)
  | .vx => some !![b.bR.eps 4, b.bR.eps 5; b.bT.eps 4, b.bT.eps 5]
  | .vy => some !![b.bR.eps 3, b.bR.eps 5; b.bT.eps 3, b.bT.eps 5]
  | .vz => some !![b.bR.eps 3, b.bR.eps 4; b.bT.eps 3, b.bT.eps 4]
  | .other => none

/-- `BPlane::angle_deg`. cosmic/bplane.rs:212-214. -/
noncomputable def Plane.angleDeg (b : Plane) : ℝ := betweenPm180 (atan2 b.bR.re b.bT.re * (180 / Real.pi))

/-- `BPlane::magnitude_km`. cosmic/bplane.rs:217-219. -/
noncomputable def Plane.magnitude (b : Plane) : ℝ := Real.sqrt (b.bT.re ^ 2 + b.bR.re ^ 2)

/-- `BPlaneTarget`. cosmic/bplane.rs:237-251. -/
structure Target where
  bT : ℝ
  bR : ℝ
  ltof : ℝ
  tolT : ℝ
  tolR : ℝ
  tolL : ℝ

/-- `BPlaneTarget::from_targets`, with the time of flight in seconds. cosmic/bplane.rs:256-266. -/
noncomputable def Target.fromTargets (bT bR ltof : ℝ) : Target := ⟨bT, bR, ltof, 1 / 1000000, 1 / 1000000, 6 * 3600⟩

/-- `BPlaneTarget::from_bt_br`. cosmic/bplane.rs:270-280. -/
noncomputable def Target.fromBtBr (bT bR : ℝ) : Target := ⟨bT, bR, 0, 1 / 1000000, 1 / 1000000, 100 * 86400⟩

/-- `BPlaneTarget::ltof_target_set`. cosmic/bplane.rs:282-284. -/
noncomputable def Target.ltofSet (t : Target) : Prop := 1 / 10000000000 < |t.ltof|

/-- The error is not less than the previous one, which is infinite at first. cosmic/bplane.rs:360, 412. -/
def notBelow (err : ℝ) : Option ℝ → Prop
  | none => False
  | some prev => prev ≤ err

/-- The loop without a time of flight, of `fuel` turns: from the velocity `v` and the correction so far; `plane` is `BPlane::new` at the position.
A plane that is not made of numbers leads to a velocity that is not, and so to an orbit which is not hyperbolic. cosmic/bplane.rs:341-386. -/
noncomputable def loop2 (plane : V3 → Out (Option Plane)) (t : Target) : ℕ → V3 → V3 → Option ℝ → Out (V3 × Plane)
  | 0, _, _, _ => .err
  | fuel + 1, v, total, prev => (plane v).bind fun b? =>
    match b? with
    | none => .err
    | some b =>
      let er := t.bR - b.bR.re
      let et := t.bT - b.bT.re
      open Classical in
      if |er| < t.tolR ∧ |et| < t.tolT then .ok (total, b)
      else if notBelow (nrm ![er, et]) prev then .err
      else
        let jac : Matrix (Fin 2) (Fin 3) ℝ := of ![b.jacobian 0, b.jacobian 1]
        (unwrap (tryInverse (jac * jacᵀ))).bind fun inv =>
          let dv := (jacᵀ * inv) *ᵥ ![er, et]
          loop2 plane t fuel (v + dv) (total + dv) (some (nrm ![er, et]))

/-- The loop with a time of flight. cosmic/bplane.rs:387-434. -/
noncomputable def loop3 (plane : V3 → Out (Option Plane)) (t : Target) : ℕ → V3 → V3 → Option ℝ → Out (V3 × Plane)
  | 0, _, _, _ => .err
  | fuel + 1, v, total, prev => (plane v).bind fun b? =>
    match b? with
    | none => .err
    | some b =>
      let er := t.bR - b.bR.re
      let et := t.bT - b.bT.re
      let el := t.ltof - b.ltof.re
      open Classical in
      if |er| < t.tolR ∧ |et| < t.tolT ∧ |el| < t.tolL then .ok (total, b)
      else if notBelow (nrm ![er, et, el]) prev then .err
      else
        let dv := b.jacobian *ᵥ ![er, et, el]
        loop3 plane t fuel (v + dv) (total + dv) (some (nrm ![er, et, el]))

/-- `try_achieve_b_plane`. The attempts 0 to 10 build a plane. cosmic/bplane.rs:328-436. -/
noncomputable def achieve (mu : Option ℝ) (p v : V3) (t : Target) : Out (V3 × Plane) :=
  open Classical in
  if t.ltofSet then loop3 (Plane.new mu p) t 11 v 0 none else loop2 (Plane.new mu p) t 11 v 0 none

end Verif.BPlane
