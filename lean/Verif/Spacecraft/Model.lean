import Mathlib.Algebra.Order.Ring.Defs
import Mathlib.Algebra.Order.Field.Basic
import Mathlib.Data.Matrix.Basic
import Mathlib.Data.Matrix.Mul
import Mathlib.Data.Rat.Defs
import Mathlib.Algebra.Order.Field.Rat
import Mathlib.Tactic.NormNum
/-!
Model of the spacecraft state and of its dynamics with a guidance law:
nyx-core/src/cosmic/spacecraft.rs, nyx-core/src/dynamics/spacecraft.rs,
nyx-core/src/dynamics/guidance/{mod,mnvr,replay}.rs.

Floating point numbers are elements of an ordered field `F`. Epochs are integers (nanoseconds). `Fr` is
the type of frames.
-/
namespace Verif.Spacecraft
open Matrix

variable {F : Type} [Field F] [LinearOrder F] [IsStrictOrderedRing F] {Fr : Type}

/-- A vector of three components. -/
abbrev V3 (F : Type) : Type := Fin 3 → F

/-- `GuidanceMode`. cosmic/spacecraft.rs:49-60. -/
inductive Mode where
  | coast | thrust | inhibit
deriving DecidableEq

/-- `From<f64> for GuidanceMode`; `none` is not a number, for which both comparisons are false.
cosmic/spacecraft.rs:62-72. -/
def Mode.ofNum : Option F → Mode
  | none => .coast
  | some v => if v ≥ 1 then .thrust else if v < 0 then .inhibit else .coast

/-- `From<GuidanceMode> for f64`. cosmic/spacecraft.rs:74-82. -/
def Mode.toNum : Mode → F
  | .coast => 0
  | .thrust => 1
  | .inhibit => -1

/-- The discriminants, used by the DER encoding. cosmic/spacecraft.rs:51-60. -/
def Mode.tag : Mode → Nat
  | .coast => 0
  | .thrust => 1
  | .inhibit => 2

/-- `Thruster`. dynamics/guidance/mod.rs:49-55. -/
structure Thruster (F : Type) where
  thrust : F
  isp : F
deriving DecidableEq

/-- `Spacecraft`, with the fields of `orbit`, `mass`, `srp` and `drag` flattened.
cosmic/spacecraft.rs:112-143. -/
structure Craft (F Fr : Type) where
  frame : Fr
  epoch : Int
  pos : V3 F
  vel : V3 F
  dry : F
  prop : F
  extra : F
  srpArea : F
  cr : F
  dragArea : F
  cd : F
  thruster : Option (Thruster F)
  mode : Mode
  dir : Option (V3 F)
  stm : Option (Matrix (Fin 9) (Fin 9) F)

/-- `mass_kg` (`Mass::total_mass_kg` of anise). cosmic/spacecraft.rs:301-303. -/
def Craft.mass (s : Craft F Fr) : F := s.dry + s.prop + s.extra

/-- `f64::clamp(0.0, 2.0)`. -/
def clamp02 (x : F) : F := if x < 0 then 0 else if x > 2 then 2 else x

/-- The vector of 90 components, read by index. -/
abbrev Vec90 (F : Type) : Type := Nat → F

/-- `to_vector`: position, velocity, Cr, Cd, propellant, STM by columns; zero without an STM.
cosmic/spacecraft.rs:451-473. -/
def Craft.toVector (s : Craft F Fr) : Vec90 F := fun i =>
  if h : i < 3 then s.pos ⟨i, h⟩
  else if h : i < 6 then s.vel ⟨i - 3, by omega⟩
  else if i = 6 then s.cr
  else if i = 7 then s.cd
  else if i = 8 then s.prop
  else if h : i < 90 then
    match s.stm with
    | none => 0
    | some m => m ⟨(i - 9) % 9, by omega⟩ ⟨(i - 9) / 9, by omega⟩
  else 0

/-- `set`. cosmic/spacecraft.rs:477-497. -/
def Craft.set (s : Craft F Fr) (epoch : Int) (v : Vec90 F) : Craft F Fr :=
  { s with
    stm := s.stm.map fun _ => of fun i j => v (9 + 9 * j.val + i.val)
    epoch := epoch
    pos := fun i => v i.val
    vel := fun i => v (3 + i.val)
    cr := clamp02 (v 6)
    cd := v 7
    prop := v 8 }

/-- `Add<OVector<f64, Const<9>>>`. cosmic/spacecraft.rs:714-727. -/
def Craft.add (s : Craft F Fr) (d : Fin 9 → F) : Craft F Fr :=
  { s with
    pos := fun i => s.pos i + d ⟨i.val, by omega⟩
    vel := fun i => s.vel i + d ⟨3 + i.val, by omega⟩
    cr := clamp02 (s.cr + d 6)
    cd := s.cd + d 7
    prop := s.prop + d 8 }

/-- `Add<OVector<f64, Const<6>>>`. cosmic/spacecraft.rs:699-712. -/
def Craft.add6 (s : Craft F Fr) (d : Fin 6 → F) : Craft F Fr :=
  { s with
    pos := fun i => s.pos i + d ⟨i.val, by omega⟩
    vel := fun i => s.vel i + d ⟨3 + i.val, by omega⟩ }

/-- `enable_stm`, `with_stm`, `reset_stm`. cosmic/spacecraft.rs:296-298, 436-443. -/
def Craft.resetStm (s : Craft F Fr) : Craft F Fr := { s with stm := some 1 }

/-! ### DER encoding -/

/-- What the encoder writes; each is self delimited. -/
inductive Tok (F Fr : Type) where
  | orbit (frame : Fr) (epoch : Int) (pos vel : V3 F)
  | mass (dry prop extra : F)
  | srp (area cr : F)
  | drag (area cd : F)
  | mode (tag : Nat)
  | flag (b : Bool)
  | thruster (t : Thruster F)

/-- `Encode::encode`. cosmic/spacecraft.rs:770-784. -/
def Craft.encode (s : Craft F Fr) : List (Tok F Fr) :=
  [.orbit s.frame s.epoch s.pos s.vel, .mass s.dry s.prop s.extra, .srp s.srpArea s.cr,
    .drag s.dragArea s.cd, .mode s.mode.tag] ++
  match s.thruster with
  | some t => [.flag true, .thruster t]
  | none => [.flag false]

/-- Decoding of the enumerated mode. -/
def Mode.ofTag : Nat → Option Mode
  | 0 => some .coast
  | 1 => some .thrust
  | 2 => some .inhibit
  | _ => none

/-- The end of `decode`: the thruster if it is present. cosmic/spacecraft.rs:739-743. -/
def decodeThruster : List (Tok F Fr) → Option (Option (Thruster F) × List (Tok F Fr))
  | .flag true :: .thruster t :: rest => some (some t, rest)
  | .flag false :: rest => some (none, rest)
  | _ => none

/-- `Decode::decode`: the state and what is left. cosmic/spacecraft.rs:731-756. -/
def decode : List (Tok F Fr) → Option (Craft F Fr × List (Tok F Fr))
  | .orbit fr e p v :: .mass d pr x :: .srp sa cr :: .drag da cd :: .mode m :: rest =>
    match Mode.ofTag m, decodeThruster rest with
    | some mode, some (t, rest') => some (⟨fr, e, p, v, d, pr, x, sa, cr, da, cd, t, mode, none, none⟩, rest')
    | _, _ => none
  | _ => none

/-! ### Guidance -/

/-- `GuidanceLaw`: errors are `none`. dynamics/guidance/mod.rs:111-126. -/
structure Law (F Fr : Type) where
  direction : Craft F Fr → Option (V3 F)
  throttle : Craft F Fr → Option F
  next : Craft F Fr → Craft F Fr

/-- `SpacecraftDynamics`, with external functions: `base` is the derivative without the control (orbital
dynamics and force models, with or without the STM, dynamics/spacecraft.rs:196-247; it does not touch
the propellant), `norm` the norm of nalgebra, `addSec` the addition of seconds to an epoch,
`toUnit` the conversion to a `ThrustDirection`. dynamics/spacecraft.rs:40-48. -/
structure Dyn (F Fr : Type) where
  base : Craft F Fr → Option (Vec90 F)
  law : Option (Law F Fr)
  decrement : Bool
  norm : V3 F → F
  addSec : Int → F → Int

/-- `STD_GRAVITY`. cosmic/mod.rs:186. -/
def g0 : F := 9.80665

/-- `NORM_ERR`. dynamics/spacecraft.rs:38. -/
def normErr : F := 1 / 10000

/-- The thrust force and the rate of the propellant. dynamics/spacecraft.rs:252-301. The test `is_normal`
always holds for a norm close to one. -/
def Dyn.control (D : Dyn F Fr) (g : Law F Fr) (osc : Craft F Fr) : Option (V3 F × F) :=
  match osc.thruster with
  | none => none
  | some t =>
    match g.throttle osc with
    | none => none
    | some u =>
      if ¬ (0 ≤ u ∧ u ≤ 1) then none
      else if u > 0 then
        match g.direction osc with
        | none => none
        | some d =>
          if |D.norm d - 1| > normErr then none
          else some (fun i => d i * (u * t.thrust * (1 / 1000)),
            if D.decrement then -(u * t.thrust / (t.isp * g0)) else 0)
      else some (fun _ => 0, 0)

/-- `SpacecraftDynamics::eom`. dynamics/spacecraft.rs:191-309. -/
def Dyn.eom (D : Dyn F Fr) (ctx : Craft F Fr) (delta : F) (v : Vec90 F) : Option (Vec90 F) :=
  let osc := ctx.set (D.addSec ctx.epoch delta) v
  match D.base osc with
  | none => none
  | some dx =>
    match D.law with
    | none => some dx
    | some g =>
      match D.control g osc with
      | none => none
      | some (f, rate) => some fun i =>
          if h : 3 ≤ i ∧ i < 6 then dx i + f ⟨i - 3, by omega⟩ / osc.mass
          else if i = 8 then dx i + rate else dx i

/-- Outcome of `finally`. -/
inductive Fin' (F Fr : Type) where
  | ok (s : Craft F Fr)
  | fuelExhausted

/-- `ThrustDirection::from(Vector3)`: normalized, then read back. cosmic/spacecraft.rs:93-102. -/
def unit (norm : V3 F → F) (v : V3 F) : V3 F := fun i => v i / norm v

/-- The direction stored by `finally`. dynamics/spacecraft.rs:174-178. -/
def storedDir (norm : V3 F → F) (g : Law F Fr) (s : Craft F Fr) : Option (V3 F) :=
  match g.throttle s with
  | some u => if u > 0 then (g.direction s).map (unit norm) else none
  | none => none

/-- `SpacecraftDynamics::finally`. dynamics/spacecraft.rs:158-189. -/
def Dyn.finally (D : Dyn F Fr) (s : Craft F Fr) : Fin' F Fr :=
  if s.prop < 0 then .fuelExhausted
  else match D.law with
    | none => .ok { s with dir := none }
    | some g => .ok (g.next { s with dir := storedDir D.norm g s })

/-- `Maneuver`, with the function `vector` (a constant or a polynomial of the time, in the local frame) and
the rotation to the inertial frame (identity if it is that frame). dynamics/guidance/mnvr.rs:69-84. -/
structure Mnvr (F Fr : Type) where
  start : Int
  stop : Int
  level : F
  vector : Int → V3 F
  rotate : Craft F Fr → Option (V3 F → V3 F)

/-- `Maneuver::next`. dynamics/guidance/mnvr.rs:388-396. -/
def Mnvr.next (m : Mnvr F Fr) (s : Craft F Fr) : Craft F Fr :=
  { s with mode := if s.epoch ≥ m.start ∧ s.epoch ≤ m.stop then .thrust else .coast }

/-- `Maneuver::direction`. dynamics/guidance/mnvr.rs:363-375. -/
def Mnvr.direction (m : Mnvr F Fr) (s : Craft F Fr) : Option (V3 F) :=
  if s.mode = .thrust then (m.rotate s).map fun r => r (m.vector s.epoch) else some fun _ => 0

/-- `Maneuver::throttle`. dynamics/guidance/mnvr.rs:377-386. -/
def Mnvr.throttle (m : Mnvr F Fr) (s : Craft F Fr) : F := if s.mode = .thrust then m.level else 0

/-- A maneuver as a guidance law. -/
def Mnvr.law (m : Mnvr F Fr) : Law F Fr := ⟨m.direction, fun s => some (m.throttle s), m.next⟩

/-- `Maneuver::antichronological`: the microsecond is 1000 ns. dynamics/guidance/mnvr.rs:224-226. -/
def Mnvr.antichronological (m : Mnvr F Fr) : Bool :=
  decide (|m.stop - m.start| > 1000 ∧ m.stop - m.start < 1000)

/-- The binary search of `ThrustDirectionReplay`: for sorted epochs, the last sample at or before.
Modelled by its result on sorted samples. dynamics/guidance/replay.rs:52-59. -/
def lastAtOrBefore (profile : List (Craft F Fr)) (e : Int) : Option (Craft F Fr) :=
  (profile.filter fun s => decide (s.epoch ≤ e)).getLast?

/-- `command_at_or_before`. dynamics/guidance/replay.rs:42-75. -/
def commandAt (profile : List (Craft F Fr)) (e : Int) : Option (Craft F Fr) :=
  match profile.head?, profile.getLast? with
  | some f, some l =>
    if e < f.epoch ∨ e > l.epoch then none
    else
      match lastAtOrBefore profile e with
      | none => none
      | some c =>
        if c.dir.isSome ∨ c.mode ≠ .thrust then some c
        else if f.mode = .thrust then
          profile.find? fun s => decide (s.epoch ≥ e) && s.dir.isSome
        else some c
  | _, _ => none

/-- The direction commanded at an epoch. -/
def commandDir (profile : List (Craft F Fr)) (e : Int) : Option (V3 F) :=
  (commandAt profile e).bind fun c => c.dir

/-- `ThrustDirectionReplay` as a guidance law. dynamics/guidance/replay.rs:91-128. -/
def replay (norm : V3 F → F) (profile : List (Craft F Fr)) : Law F Fr where
  direction := fun s => some ((commandDir profile s.epoch).getD fun _ => 0)
  throttle := fun s => some (if (commandDir profile s.epoch).isSome then 1 else 0)
  next := fun s => { s with
    dir := (commandDir profile s.epoch).map (unit norm)
    mode := if (commandDir profile s.epoch).isSome then .thrust else .coast }

end Verif.Spacecraft
