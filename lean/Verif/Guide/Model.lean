import Mathlib.Analysis.SpecialFunctions.Pow.Real
import Verif.MathU.Model
import Verif.Spacecraft.Model
import Verif.Target.Model
import Verif.Mc.Model
/-!
Model of the closed loop guidance laws: nyx-core/src/dynamics/guidance/ruggiero.rs,
nyx-core/src/dynamics/guidance/kluever.rs, and of the shadow model nyx-core/src/cosmic/eclipse.rs.

Floating point numbers are reals. The orbital elements, the speed, the radius and the rotation from the
RCN frame (radial, along track, normal) are computed by anise: here they are fields of the spacecraft.
An orbit for which anise fails to compute one of the elements that a law reads is not modelled; a
parameter that `Spacecraft::value` cannot compute is `none`.
-/
namespace Verif.Guide
open Matrix
open Verif.MathU (V3 nrm atan2 vecOfPlane)
open Verif.Spacecraft (Mode)
open Verif.Target (Param Objective)
open Verif.Mc (Out)

/-- The `OrbitalElement`s that the laws tell apart. ruggiero.rs:84-90, kluever.rs:194-265. -/
inductive Elem where
  | sma | ecc | inc | raan | aop
  | equiH | equiK | equiP | equiQ | equiLambda
  | other (n : Nat)
deriving DecidableEq

/-- The spacecraft as the laws read it: angles in degrees, distances in km; `ea` is the
eccentric anomaly, `dcm` is `dcm_from_rcn_to_inertial`. -/
structure Sat where
  mode : Mode
  sma : ℝ
  ecc : ℝ
  inc : ℝ
  raan : ℝ
  aop : ℝ
  ta : ℝ
  ea : ℝ
  mu : ℝ
  vmag : ℝ
  rmag : ℝ
  semiParam : ℝ
  equiH : ℝ
  equiK : ℝ
  equiP : ℝ
  equiQ : ℝ
  equiLambda : ℝ
  /-- the value of any other parameter -/
  more : Option Nat → Option ℝ
  dcm : Matrix (Fin 3) (Fin 3) ℝ

/-- `to_radians`. -/
noncomputable def rad (x : ℝ) : ℝ := x * (Real.pi / 180)

/-- `Spacecraft::value` of the parameters. cosmic/spacecraft.rs:520-585. Of the parameters that are not
orbital elements only the fact that they are different is kept. -/
def Sat.value (s : Sat) : Param Elem → Option ℝ
  | .element .sma => some s.sma
  | .element .ecc => some s.ecc
  | .element .inc => some s.inc
  | .element .raan => some s.raan
  | .element .aop => some s.aop
  | .element .equiH => some s.equiH
  | .element .equiK => some s.equiK
  | .element .equiP => some s.equiP
  | .element .equiQ => some s.equiQ
  | .element .equiLambda => some s.equiLambda
  | .element (.other n) => s.more (some n)
  | _ => s.more none

/-! ### Achievement, common to both laws -/

/-- `achieved`: `none` is the error of a parameter without a value. ruggiero.rs:279-294,
kluever.rs:126-141. -/
noncomputable def achieved (s : Sat) : List (Objective Elem) → Option Bool
  | [] => some true
  | o :: os =>
    match s.value o.param with
    | none => none
    | some v => if o.met v then achieved s os else some false

/-! ### The shadow model -/

/-- The percentage of the occultation that `ShadowModel::compute` returns, from those of the shadow bodies;
`none` is an error of the almanac. cosmic/eclipse.rs:69-83. -/
noncomputable def shadowLoop : ℝ → List (Option ℝ) → Option ℝ
  | best, [] => some best
  | best, b :: bs =>
    match b with
    | none => none
    | some p => shadowLoop (if p > best then p else best) bs

/-- `ShadowModel::compute`. cosmic/eclipse.rs:69-83. -/
noncomputable def shadow (bodies : List (Option ℝ)) : Option ℝ := shadowLoop 0 bodies

/-! ### Ruggiero -/

/-- `ObjectiveEfficiency` and `ObjectiveWeight`. dynamics/guidance/mod.rs:96-105. -/
structure Goal where
  objective : Objective Elem
  /-- the efficiency threshold of Ruggiero, the weight of Kluever -/
  knob : ℝ

/-- `Ruggiero`. ruggiero.rs:39-46. -/
structure Ruggiero where
  objectives : List Goal
  maxEclipse : Option ℝ
  init : Sat

/-- The elements that Ruggiero controls. ruggiero.rs:84-90, 128-134. -/
def supported : Param Elem → Bool
  | .element .sma | .element .ecc | .element .inc | .element .raan | .element .aop => true
  | _ => false

/-- The loop of the constructors, over the pairs of an objective and a threshold. ruggiero.rs:84-103,
127-146. -/
def collect : List (Objective Elem × ℝ) → Option (List Goal)
  | [] => some []
  | (o, t) :: rest => if supported o.param then (collect rest).map (⟨o, t⟩ :: ·) else none

/-- `from_ηthresholds`; `none` is a configuration error. ruggiero.rs:61-109. -/
def Ruggiero.fromThresholds (os : List (Objective Elem)) (ts : List ℝ) (init : Sat) : Option Ruggiero :=
  if os.length > 5 ∨ os = [] then none
  else if os.length > ts.length then none
  else (collect (os.zip ts)).map fun g => ⟨g, none, init⟩

/-- `simple`. ruggiero.rs:54-56. -/
def Ruggiero.simple (os : List (Objective Elem)) (init : Sat) : Option Ruggiero :=
  Ruggiero.fromThresholds os (List.replicate 5 0) init

/-- `from_max_eclipse`. ruggiero.rs:113-152. -/
def Ruggiero.fromMaxEclipse (os : List (Objective Elem)) (init : Sat) (e : ℝ) : Option Ruggiero :=
  if os.length > 5 ∨ os = [] then none
  else (collect (os.map fun o => (o, 0))).map fun g => ⟨g, some e, init⟩

/-- `efficiency`; `none` is an invalid control. ruggiero.rs:160-213. -/
noncomputable def efficiency (p : Param Elem) (s : Sat) : Option ℝ :=
  match p with
  | .element .sma => some (s.vmag * Real.sqrt ((s.sma * (1 - s.ecc)) / (s.mu * (1 + s.ecc))))
  | .element .ecc =>
    some ((1 + 2 * s.ecc * Real.cos (rad s.ta) + Real.cos (rad s.ta) ^ 2) /
      (2 * (1 + s.ecc * Real.cos (rad s.ta))))
  | .element .inc =>
    some (|Real.cos (rad s.aop + rad s.ta)| *
        (Real.sqrt (1 - s.ecc ^ 2 * Real.sin (rad s.aop) ^ 2) - s.ecc * |Real.cos (rad s.aop)|) /
      (1 + s.ecc * Real.cos (rad s.ta)))
  | .element .raan =>
    some (|Real.sin (rad s.aop + rad s.ta)| *
        (Real.sqrt (1 - s.ecc ^ 2 * Real.cos (rad s.aop) ^ 2) - s.ecc * |Real.sin (rad s.aop)|) /
      (1 + s.ecc * Real.cos (rad s.ta)))
  | .element .aop => some 1
  | _ => none

/-- The weight from the initial and the current value, the efficiency and its threshold.
ruggiero.rs:225-237. -/
noncomputable def weigh (init osc target tol eff threshold : ℝ) : ℝ :=
  if |osc - target| < tol ∨ eff < threshold then 0
  else (target - osc) / |target - if |init - target| < tol then init + tol else init|

/-- `weighting`: the values and the efficiency are unwrapped. ruggiero.rs:216-238. -/
noncomputable def Ruggiero.weighting (r : Ruggiero) (o : Objective Elem) (s : Sat) (threshold : ℝ) : Out ℝ :=
  match r.init.value o.param, s.value o.param, efficiency o.param s with
  | some init, some osc, some eff => .ok (weigh init osc o.desired o.tol eff threshold)
  | _, _, _ => .panic

/-- `half_pi.copysign(x)`; a zero counts as positive. -/
noncomputable def halfPi (x : ℝ) : ℝ := if 0 ≤ x then Real.pi / 2 else -(Real.pi / 2)

/-- The optimal true anomaly of an in plane correction of the argument of periapsis. ruggiero.rs:363-370. -/
noncomputable def optiAlpha (e : ℝ) : ℝ :=
  let q := (1 - e ^ 2) / (2 * e ^ 3)
  let root := Real.sqrt (0.25 * ((1 - e ^ 2) / e ^ 3) ^ 2 + 1 / 27)
  Real.arccos ((q + root) ^ ((1 : ℝ) / 3) - (-q + root) ^ ((1 : ℝ) / 3) - 1 / e)

/-- The optimal true anomaly of an out of plane correction. ruggiero.rs:372. -/
noncomputable def optiBeta (e w : ℝ) : ℝ := Real.arccos (-e * Real.cos w) - w

/-- The direction, in the RCN frame, in which one element is increased; `none` is the unreachable branch.
ruggiero.rs:341-390. -/
noncomputable def steer (p : Param Elem) (s : Sat) : Option V3 :=
  match p with
  | .element .sma =>
    some (vecOfPlane (atan2 (s.ecc * Real.sin (rad s.ta)) (1 + s.ecc * Real.cos (rad s.ta))) 0)
  | .element .ecc =>
    some (vecOfPlane (atan2 (Real.sin (rad s.ta)) (Real.cos (rad s.ta) + Real.cos (rad s.ea))) 0)
  | .element .inc => some (vecOfPlane 0 (halfPi (Real.cos (rad s.ta + rad s.aop))))
  | .element .raan => some (vecOfPlane 0 (halfPi (Real.sin (rad s.ta + rad s.aop))))
  | .element .aop =>
    if |rad s.ta - optiAlpha s.ecc| < |rad s.ta - optiBeta s.ecc (rad s.aop)| then
      some (vecOfPlane (atan2 (-s.semiParam * Real.cos (rad s.ta))
        ((s.semiParam + s.rmag) * Real.sin (rad s.ta))) 0)
    else
      some (vecOfPlane 0 (halfPi (-Real.sin (rad s.ta + rad s.aop)) * Real.cos (rad s.inc)))
  | _ => none

/-- The loop over the objectives. ruggiero.rs:299-390. -/
noncomputable def Ruggiero.steering (r : Ruggiero) (s : Sat) : V3 → List Goal → Out V3
  | acc, [] => .ok acc
  | acc, g :: gs =>
    (r.weighting g.objective s g.knob).bind fun w =>
      if |w| ≤ 0 then r.steering s acc gs
      else
        match steer g.objective.param s with
        | none => .panic
        | some d => r.steering s (acc + w • d) gs

/-- `direction`. ruggiero.rs:296-409. -/
noncomputable def Ruggiero.direction (r : Ruggiero) (s : Sat) : Out V3 :=
  if s.mode = .thrust then
    (r.steering s 0 r.objectives).bind fun v =>
      .ok (s.dcm *ᵥ (if nrm v > 0 then (1 / nrm v) • v else v))
  else .ok 0

/-- `throttle`. ruggiero.rs:412-422. -/
noncomputable def Ruggiero.throttle (r : Ruggiero) (s : Sat) : Out ℝ :=
  if s.mode = .thrust then (r.direction s).bind fun v => if nrm v > 0 then .ok 1 else .ok 0
  else .ok 0

/-- The mode that `next` sets; `bodies` are the percentages of the Earth and of the Moon. The mode that is
set from the eclipse is overwritten. ruggiero.rs:425-453. -/
noncomputable def Ruggiero.next (r : Ruggiero) (s : Sat) (bodies : List (Option ℝ)) : Out Mode :=
  if s.mode = .inhibit then .ok .inhibit
  else
    match achieved s (r.objectives.map (·.objective)) with
    | none => .panic
    | some true => .ok .coast
    | some false =>
      match r.maxEclipse with
      | none => .ok .thrust
      | some _ =>
        match shadow bodies with
        | none => .panic
        | some _ => .ok .thrust

/-! ### Kluever -/

/-- `Kluever`. kluever.rs:38-44. -/
structure Kluever where
  objectives : List Goal
  maxEclipse : Option ℝ

/-- `new`. kluever.rs:48-61. -/
def Kluever.new (os : List (Objective Elem)) (ws : List ℝ) : Kluever :=
  ⟨(os.zip ws).map fun p => ⟨p.1, p.2⟩, none⟩

/-- `from_max_eclipse`. kluever.rs:64-81. -/
def Kluever.fromMaxEclipse (os : List (Objective Elem)) (ws : List ℝ) (e : ℝ) : Kluever :=
  ⟨(os.zip ws).map fun p => ⟨p.1, p.2⟩, some e⟩

/-- `f64::signum`; a zero counts as positive. -/
noncomputable def signum (x : ℝ) : ℝ := if 0 ≤ x then 1 else -1

/-- The true longitude. kluever.rs:176-177. -/
noncomputable def Sat.lon (s : Sat) : ℝ := rad s.ta + rad s.aop + rad s.raan

/-- What one objective adds to the sums (radial, along track, normal), for a weight of one; `none` is an
invalid control. kluever.rs:194-265. -/
noncomputable def pull (p : Param Elem) (s : Sat) : Option (ℝ × ℝ × ℝ) :=
  match p with
  | .element .sma => some (s.ecc * Real.sin (rad s.ta), 1 + s.ecc * Real.cos (rad s.ta), 0)
  | .element .ecc =>
    some (Real.sin (rad s.ta),
      Real.cos (rad s.ta) + (s.ecc + Real.cos (rad s.ta)) / (1 + s.ecc * Real.cos (rad s.ta)), 0)
  | .element .inc => some (0, 0, if Real.cos (rad s.ta + rad s.aop) ≥ 0 then 1 else -1)
  | .element .raan => some (0, 0, if Real.sin (rad s.ta + rad s.aop) ≥ 0 then 1 else -1)
  | .element .equiH =>
    some (Real.cos s.lon,
      Real.sin s.lon + (s.equiH + Real.sin s.lon) / (1 + s.equiH * Real.sin s.lon + s.equiK * Real.cos s.lon), 0)
  | .element .equiK =>
    some (-Real.sin s.lon,
      Real.cos s.lon + (s.equiK + Real.cos s.lon) / (1 + s.equiH * Real.sin s.lon + s.equiK * Real.cos s.lon), 0)
  | .element .equiP => some (0, 0, if Real.sin s.lon ≥ 0 then 1 else -1)
  | .element .equiQ => some (0, 0, if Real.cos s.lon ≥ 0 then 1 else -1)
  | .element .equiLambda => some (0, 1, 0)
  | _ => none

/-- The loop over the objectives. kluever.rs:180-266. -/
noncomputable def blend (s : Sat) : ℝ × ℝ × ℝ → List Goal → Option (ℝ × ℝ × ℝ)
  | acc, [] => some acc
  | acc, g :: gs =>
    if g.knob = 0 then blend s acc gs
    else
      match s.value g.objective.param with
      | none => none
      | some v =>
        if |g.objective.desired - v| < g.objective.tol then blend s acc gs
        else
          match pull g.objective.param s with
          | none => none
          | some d =>
            let w := g.knob * signum (g.objective.desired - v)
            blend s (acc.1 + w * d.1, acc.2.1 + w * d.2.1, acc.2.2 + w * d.2.2) gs

/-- `direction`. kluever.rs:143-287. -/
noncomputable def Kluever.direction (k : Kluever) (s : Sat) : Option V3 :=
  if s.mode ≠ .thrust then some 0
  else
    match blend s (0, 0, 0) k.objectives with
    | none => none
    | some c =>
      some (s.dcm *ᵥ vecOfPlane (atan2 c.1 c.2.1) (atan2 c.2.2 (Real.sqrt (c.1 ^ 2 + c.2.1 ^ 2))))

/-- `throttle`. kluever.rs:290-296. -/
noncomputable def Kluever.throttle (_k : Kluever) (s : Sat) : ℝ := if s.mode = .thrust then 1 else 0

/-- The mode that `next` sets. kluever.rs:299-329. -/
noncomputable def Kluever.next (k : Kluever) (s : Sat) (bodies : List (Option ℝ)) : Out Mode :=
  if s.mode = .inhibit then .ok .inhibit
  else
    match achieved s (k.objectives.map (·.objective)) with
    | none => .panic
    | some true => .ok .coast
    | some false =>
      match k.maxEclipse with
      | none => .ok .thrust
      | some e =>
        match shadow bodies with
        | none => .panic
        | some p => .ok (if p > e then .coast else .thrust)

end Verif.Guide
