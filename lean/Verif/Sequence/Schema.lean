import Mathlib.Data.List.Basic
import Mathlib.Data.Rat.Defs
import Mathlib.Tactic.Common
/-!
The Dhall schemas of the configurations: the types declared by the hand written `static_type` functions, and the values
that the derived `Serialize` gives.

`serde` and `serde_dhall` are outside the repository. What is modelled of them: a structure is a record with one field
per field of the structure, a tuple is a record with the fields `_1`, `_2`, …, an option is an optional value, a variant
of an enumeration is a value of a union, `u8` and `usize` are naturals, `i32` are integers, `f64` are doubles, epochs,
durations and paths are text. A map with text keys is a record or a list of entries with `mapKey` and `mapValue`, both
are considered. A `Vector3` is a list or a tuple, both are considered. Doubles are rationals. -/
namespace Verif.Schema

/-- The types of Dhall that are used, `serde_dhall::SimpleType`. -/
inductive Ty where
  | bool | natural | integer | double | text
  | optional (t : Ty)
  | list (t : Ty)
  | record (fs : List (String × Ty))
  | union (vs : List (String × Option Ty))

/-- The values of Dhall that are used. -/
inductive Val where
  | bool (b : Bool)
  | natural (n : Nat)
  | integer (n : Int)
  | double (x : Rat)
  | text (s : String)
  | optional (v : Option Val)
  | list (vs : List Val)
  | record (fs : List (String × Val))
  | union (name : String) (v : Option Val)

/-- When a value has a type: the typing rules of Dhall for values. The fields of a record are those of its type. -/
inductive HasType : Val → Ty → Prop
  | bool (b) : HasType (.bool b) .bool
  | natural (n) : HasType (.natural n) .natural
  | integer (n) : HasType (.integer n) .integer
  | double (x) : HasType (.double x) .double
  | text (s) : HasType (.text s) .text
  | none (t) : HasType (.optional none) (.optional t)
  | some {v t} : HasType v t → HasType (.optional (some v)) (.optional t)
  | list {vs t} : (∀ v ∈ vs, HasType v t) → HasType (.list vs) (.list t)
  | record {fs ts} : (∀ k, (fs.lookup k).isSome = (ts.lookup k).isSome) →
      (∀ k v t, fs.lookup k = some v → ts.lookup k = some t → HasType v t) → HasType (.record fs) (.record ts)
  | unit {name vs} : vs.lookup name = some none → HasType (.union name none) (.union vs)
  | variant {name vs v t} : vs.lookup name = some (some t) → HasType v t → HasType (.union name (some v)) (.union vs)

theorem mem_of_lookup {α : Type} {k : String} {a : α} : ∀ {l : List (String × α)}, l.lookup k = some a → (k, a) ∈ l
  | [], h => by cases h
  | (k', a') :: l, h => by
    rw [List.lookup_cons] at h
    by_cases e : k == k'
    · simp only [e] at h
      injection h with h
      rw [eq_of_beq e, h]
      exact List.mem_cons_self
    · simp only [e] at h
      exact List.mem_cons_of_mem _ (mem_of_lookup h)

/-- A record has the type, if each of its fields has the type of its name and all the names are there. -/
theorem HasType.fields {fs : List (String × Val)} {ts : List (String × Ty)}
    (h1 : ∀ p ∈ fs, ∃ t, ts.lookup p.1 = Option.some t ∧ HasType p.2 t) (h2 : ts.all (fun p => (fs.lookup p.1).isSome) = true) :
    HasType (.record fs) (.record ts) := by
  refine .record (fun k => ?_) (fun k v t hv ht => ?_)
  · by_cases hf : (fs.lookup k).isSome
    · obtain ⟨v, hv⟩ := Option.isSome_iff_exists.1 hf
      obtain ⟨t, ht, -⟩ := h1 _ (mem_of_lookup hv)
      rw [hf]
      simp only at ht
      rw [ht]
      rfl
    · by_cases ht : (ts.lookup k).isSome
      · obtain ⟨t, ht'⟩ := Option.isSome_iff_exists.1 ht
        exact absurd (List.all_eq_true.1 h2 _ (mem_of_lookup ht')) hf
      · simp only [Bool.not_eq_true] at hf ht
        rw [hf, ht]
  · obtain ⟨t', ht', h⟩ := h1 _ (mem_of_lookup hv)
    simp only at ht'
    rw [ht] at ht'
    injection ht' with ht'
    rw [ht']
    exact h

/-! ### The configurations -/

/-- `FrameUid` of ANISE. -/
structure Uid where
  ephemeris : Int
  orientation : Int
  deriving DecidableEq

/-- `Frame` of ANISE; the shape is an ellipsoid with three radii. -/
structure Frame where
  ephemeris : Int
  orientation : Int
  mu : Option Rat
  shape : Option (Rat × Rat × Rat)

/-- `GravityFieldConfig`, io/gravity.rs:42-54. -/
structure Gravity where
  degree : Nat
  order : Nat
  filepath : String
  gunzipped : Bool
  frame : Uid

/-- `Aberration` of ANISE. -/
structure Aberration where
  converged : Bool
  stellar : Bool
  transmit : Bool

/-- `PointMasses`, dynamics/orbital.rs:178-182. -/
structure Masses where
  objects : List Int
  correction : Option Aberration

/-- `TidalPerturber`, dynamics/solid_tides.rs:59-65. -/
structure Perturber where
  frame : Frame
  degree3 : Bool

/-- `SolidTides`, dynamics/solid_tides.rs:46-55. -/
structure Tides where
  frame : Frame
  k2 : Rat
  k3 : Rat
  perturbers : List Perturber

/-- `AccelModels`, dynamics/sequence/config.rs:157-161. -/
structure Accel where
  masses : Option Masses
  gravity : Option Gravity
  tides : Option Tides

/-- `AtmDensity`, dynamics/drag.rs:41-45. -/
inductive Density where
  | constant (rho : Rat)
  | exponential (rho0 r0 refAlt : Rat)
  | stdAtm (maxAlt : Rat)

/-- `Drag`, dynamics/drag.rs:123-130. -/
structure Drag where
  density : Density
  frame : Frame
  estimate : Bool

/-- `ShadowModel`, cosmic/eclipse.rs:35-38. -/
structure Shadow where
  light : Frame
  bodies : List Frame

/-- `SolarPressure`, dynamics/solarpressure.rs:43-49. -/
structure Srp where
  phi : Rat
  shadow : Shadow
  estimate : Bool

/-- `ForceModels`, dynamics/sequence/config.rs:166-169. -/
structure Force where
  srp : Option Srp
  drag : Option Drag

/-- `ErrorControl`, propagators/error_ctrl.rs:30-75, by the names of its variants. -/
inductive Control where
  | rssCartesianState | rssCartesianStep | rssState | rssStep | largestError | largestState | largestStep

/-- `IntegratorOptions`, propagators/options.rs:42-61. -/
structure Options where
  init : String
  min : String
  max : String
  tolerance : Rat
  attempts : Nat
  fixed : Bool
  control : Control
  frame : Option Frame

/-- `IntegratorMethod`, propagators/rk_methods/mod.rs:65-79, by the names of its variants. -/
inductive Method where
  | rungeKutta89 | dormandPrince78 | dormandPrince45 | rungeKutta4 | cashKarp45 | verner56

/-- `PropagatorConfig` and `Dynamics`, dynamics/sequence/config.rs:95-99, 138-142. -/
structure Prop' where
  accel : Accel
  force : Force
  method : Method
  options : Options

/-- `Thruster`, dynamics/guidance/mod.rs:51-56. -/
structure Thruster where
  thrust : Rat
  isp : Rat

/-- `LocalFrame` of ANISE. -/
inductive Local where
  | inertial | rcn | ric | vnc

/-- `CommonPolynomial`, polyfit/polynomial.rs:248-262. -/
inductive Poly where
  | constant (a : Rat)
  | linear (a b : Rat)
  | quadratic (a b c : Rat)

/-- `MnvrRepr`, dynamics/guidance/mnvr.rs:131-139. -/
inductive Repr' where
  | vector (x y z : Rat)
  | angles (azimuth elevation : Poly)

/-- `Maneuver`, dynamics/guidance/mnvr.rs:69-84. -/
structure Maneuver where
  start : String
  stop : String
  thrust : Rat
  repr : Repr'
  frame : Local

/-- `SteeringLaw`, dynamics/sequence/config.rs:180-194. The objectives are of an abstract type: `Objective` derives both
its values and its type. -/
inductive Law (O : Type) where
  | finiteBurn (m : Maneuver)
  | kluever (objectives : List (O × Rat)) (eclipse : Option Rat)
  | ruggiero (objectives : List (O × Rat)) (eclipse : Option Rat)

/-- `GuidanceConfig`, dynamics/sequence/config.rs:172-176. -/
structure Guidance (O : Type) where
  thruster : String
  disableMass : Bool
  law : Law O

/-- `Phase`, dynamics/sequence/config.rs:44-55. The events on entry are of an abstract type: `DiscreteEvent` derives both
its values and its type. -/
inductive Phase (O E : Type) where
  | terminate
  | activity (name propagator : String) (guidance : Option (Guidance O)) (entry : Option E) (disabled : Bool)

/-- `SpacecraftSequence`, dynamics/sequence/mod.rs:48-56, without the field that is skipped. -/
structure Plan (O E : Type) where
  seq : List (String × Phase O E)
  thrusters : List (String × Thruster)
  propagators : List (String × Prop')

/-! ### What is serialized -/

/-- How a map with text keys is written. -/
inductive MapEnc where
  | record | entries

/-- How a `Vector3` is written. -/
inductive VecEnc where
  | list | tuple

/-- An `Option` of serde, as in dynamics/sequence/config.rs:158-160. -/
def opt {α : Type} (f : α → Val) (x : Option α) : Val := .optional (x.map f)

/-- Derived in ANISE for the frame of io/gravity.rs:53. -/
def serUid (u : Uid) : Val := .record [("ephemeris_id", .integer u.ephemeris), ("orientation_id", .integer u.orientation)]

/-- Derived in ANISE for the frames of dynamics/solid_tides.rs:48 and others. -/
def serFrame (f : Frame) : Val := .record [("ephemeris_id", .integer f.ephemeris),
  ("orientation_id", .integer f.orientation), ("mu_km3_s2", opt .double f.mu),
  ("shape", opt (fun s => .record [("semi_major_equatorial_radius_km", .double s.1),
    ("semi_minor_equatorial_radius_km", .double s.2.1), ("polar_radius_km", .double s.2.2)]) f.shape)]

/-- Derived for io/gravity.rs:42-54. -/
def serGravity (g : Gravity) : Val := .record [("degree", .natural g.degree), ("order", .natural g.order),
  ("filepath", .text g.filepath), ("gunzipped", .bool g.gunzipped), ("frame", serUid g.frame)]

/-- Derived for dynamics/orbital.rs:178-182. -/
def serMasses (m : Masses) : Val := .record [("celestial_objects", .list (m.objects.map .integer)),
  ("correction", opt (fun a => .record [("converged", .bool a.converged), ("stellar", .bool a.stellar),
    ("transmit_mode", .bool a.transmit)]) m.correction)]

/-- Derived for dynamics/solid_tides.rs:46-65. -/
def serTides (t : Tides) : Val := .record [("frame", serFrame t.frame), ("k2", .double t.k2), ("k3", .double t.k3),
  ("perturbers", .list (t.perturbers.map fun p => .record [("frame", serFrame p.frame), ("compute_degree_3", .bool p.degree3)]))]

/-- Derived for dynamics/sequence/config.rs:157-161. -/
def serAccel (a : Accel) : Val := .record [("point_masses", opt serMasses a.masses),
  ("gravity_field", opt serGravity a.gravity), ("solid_tides", opt serTides a.tides)]

/-- Derived for dynamics/drag.rs:41-45. -/
def serDensity : Density → Val
  | .constant r => .union "Constant" (some (.double r))
  | .exponential a b c => .union "Exponential" (some (.record [("rho0", .double a), ("r0", .double b), ("ref_alt_m", .double c)]))
  | .stdAtm m => .union "StdAtm" (some (.record [("max_alt_m", .double m)]))

/-- Derived for dynamics/drag.rs:123-130. -/
def serDrag (d : Drag) : Val :=
  .record [("density", serDensity d.density), ("frame", serFrame d.frame), ("estimate", .bool d.estimate)]

/-- Derived for dynamics/solarpressure.rs:43-49 and cosmic/eclipse.rs:35-38. -/
def serSrp (s : Srp) : Val := .record [("phi", .double s.phi),
  ("shadow_model", .record [("light_source", serFrame s.shadow.light), ("shadow_bodies", .list (s.shadow.bodies.map serFrame))]),
  ("estimate", .bool s.estimate)]

/-- Derived for dynamics/sequence/config.rs:166-169. -/
def serForce (f : Force) : Val := .record [("solar_pressure", opt serSrp f.srp), ("drag", opt serDrag f.drag)]

/-- The names of the variants, propagators/error_ctrl.rs:30-75. -/
def Control.name : Control → String
  | .rssCartesianState => "RSSCartesianState" | .rssCartesianStep => "RSSCartesianStep" | .rssState => "RSSState"
  | .rssStep => "RSSStep" | .largestError => "LargestError" | .largestState => "LargestState" | .largestStep => "LargestStep"

/-- The names of the variants, propagators/rk_methods/mod.rs:65-79. -/
def Method.name : Method → String
  | .rungeKutta89 => "RungeKutta89" | .dormandPrince78 => "DormandPrince78" | .dormandPrince45 => "DormandPrince45"
  | .rungeKutta4 => "RungeKutta4" | .cashKarp45 => "CashKarp45" | .verner56 => "Verner56"

/-- Derived for propagators/options.rs:42-61. -/
def serOptions (o : Options) : Val := .record [("init_step", .text o.init), ("min_step", .text o.min),
  ("max_step", .text o.max), ("tolerance", .double o.tolerance), ("attempts", .natural o.attempts),
  ("fixed_step", .bool o.fixed), ("error_ctrl", .union o.control.name none), ("integration_frame", opt serFrame o.frame)]

/-- Derived for dynamics/sequence/config.rs:95-99, 138-142. -/
def serProp (p : Prop') : Val := .record [("dynamics", .record [("accel_models", serAccel p.accel), ("force_models", serForce p.force)]),
  ("method", .union p.method.name none), ("options", serOptions p.options)]

/-- Derived for dynamics/guidance/mod.rs:51-56. -/
def serThruster (t : Thruster) : Val := .record [("thrust_N", .double t.thrust), ("isp_s", .double t.isp)]

/-- The names of the variants of `LocalFrame` (ANISE), the frame of dynamics/guidance/mnvr.rs:83. -/
def Local.name : Local → String
  | .inertial => "Inertial" | .rcn => "RCN" | .ric => "RIC" | .vnc => "VNC"

/-- Derived for polyfit/polynomial.rs:248-262. -/
def serPoly : Poly → Val
  | .constant a => .union "Constant" (some (.record [("a", .double a)]))
  | .linear a b => .union "Linear" (some (.record [("a", .double a), ("b", .double b)]))
  | .quadratic a b c => .union "Quadratic" (some (.record [("a", .double a), ("b", .double b), ("c", .double c)]))

/-- A `Vector3` of nalgebra, dynamics/guidance/mnvr.rs:133. -/
def serVec (e : VecEnc) (x y z : Rat) : Val :=
  match e with
  | .list => .list [.double x, .double y, .double z]
  | .tuple => .record [("_1", .double x), ("_2", .double y), ("_3", .double z)]

/-- Derived for dynamics/guidance/mnvr.rs:131-139. -/
def serRepr (e : VecEnc) : Repr' → Val
  | .vector x y z => .union "Vector" (some (serVec e x y z))
  | .angles a b => .union "Angles" (some (.record [("azimuth", serPoly a), ("elevation", serPoly b)]))

/-- Derived for dynamics/guidance/mnvr.rs:69-84. -/
def serManeuver (e : VecEnc) (m : Maneuver) : Val := .record [("start", .text m.start), ("end", .text m.stop),
  ("thrust_prct", .double m.thrust), ("representation", serRepr e m.repr), ("frame", .union m.frame.name none)]

variable {O E : Type}

/-- Derived for dynamics/sequence/config.rs:180-194; `ObjectiveWeight` and `ObjectiveEfficiency`,
dynamics/guidance/mod.rs:97-107. -/
def serLaw (e : VecEnc) (so : O → Val) : Law O → Val
  | .finiteBurn m => .union "FiniteBurn" (some (serManeuver e m))
  | .kluever os x => .union "Kluever" (some (.record
    [("objectives", .list (os.map fun o => .record [("objective", so o.1), ("weight", .double o.2)])), ("max_eclipse_prct", opt .double x)]))
  | .ruggiero os x => .union "Ruggiero" (some (.record
    [("objectives", .list (os.map fun o => .record [("objective", so o.1), ("efficiency", .double o.2)])), ("max_eclipse_prct", opt .double x)]))

/-- Derived for dynamics/sequence/config.rs:172-176. -/
def serGuidance (e : VecEnc) (so : O → Val) (g : Guidance O) : Val := .record [("thruster_model", .text g.thruster),
  ("disable_prop_mass", .bool g.disableMass), ("law", serLaw e so g.law)]

/-- Derived for dynamics/sequence/config.rs:44-55. -/
def serPhase (e : VecEnc) (so : O → Val) (se : E → Val) : Phase O E → Val
  | .terminate => .union "Terminate" none
  | .activity n p g en d => .union "Activity" (some (.record [("name", .text n), ("propagator", .text p),
    ("guidance", opt (serGuidance e so) g), ("on_entry", opt se en), ("disabled", .bool d)]))

/-- A map with text keys, dynamics/sequence/mod.rs:51-52. -/
def serMap {α : Type} (enc : MapEnc) (f : α → Val) (m : List (String × α)) : Val :=
  match enc with
  | .record => .record (m.map fun p => (p.1, f p.2))
  | .entries => .list (m.map fun p => .record [("mapKey", .text p.1), ("mapValue", f p.2)])

/-- Derived for dynamics/sequence/mod.rs:48-56: the phases by `map_as_pairs` (332-340), the other maps as maps. -/
def serPlan (enc : MapEnc) (e : VecEnc) (so : O → Val) (se : E → Val) (p : Plan O E) : Val := .record
  [("seq", .list (p.seq.map fun x => .record [("_1", .text x.1), ("_2", serPhase e so se x.2)])),
   ("thruster_sets", serMap enc serThruster p.thrusters), ("propagators", serMap enc serProp p.propagators)]

/-! ### What is declared -/

/-- Derived in ANISE for `FrameUid`, dynamics/sequence/config.rs:206-207. -/
def tyUid : Ty := .record [("ephemeris_id", .integer), ("orientation_id", .integer)]

/-- Derived in ANISE for the frames of dynamics/solid_tides.rs:48 and others. -/
def tyFrame : Ty := .record [("ephemeris_id", .integer), ("orientation_id", .integer), ("mu_km3_s2", .optional .double),
  ("shape", .optional (.record [("semi_major_equatorial_radius_km", .double), ("semi_minor_equatorial_radius_km", .double),
    ("polar_radius_km", .double)]))]

/-- io/gravity.rs:519-530. -/
def tyGravity : Ty := .record [("filepath", .text), ("gunzipped", .bool), ("degree", .natural), ("order", .natural)]

/-- dynamics/orbital.rs:311-334. -/
def tyMasses : Ty := .record [("celestial_objects", .list .integer),
  ("correction", .optional (.record [("converged", .bool), ("stellar", .bool), ("transmit_mode", .bool)]))]

/-- Derived for dynamics/solid_tides.rs:46-65. -/
def tyTides : Ty := .record [("frame", tyFrame), ("k2", .double), ("k3", .double),
  ("perturbers", .list (.record [("frame", tyFrame), ("compute_degree_3", .bool)]))]

/-- dynamics/sequence/config.rs:196-221. -/
def tyAccel : Ty := .record [("point_masses", .optional tyMasses),
  ("gravity_field", .optional (.record [("_1", tyGravity), ("_2", tyUid)])), ("solid_tides", .optional tyTides)]

/-- Derived for dynamics/drag.rs:41-45, 123-130. -/
def tyDrag : Ty := .record [("density", .union [("Constant", some .double),
    ("Exponential", some (.record [("rho0", .double), ("r0", .double), ("ref_alt_m", .double)])),
    ("StdAtm", some (.record [("max_alt_m", .double)]))]), ("frame", tyFrame), ("estimate", .bool)]

/-- Derived for dynamics/solarpressure.rs:43-49 and cosmic/eclipse.rs:35-38. -/
def tySrp : Ty := .record [("phi", .double),
  ("shadow_model", .record [("light_source", tyFrame), ("shadow_bodies", .list tyFrame)]), ("estimate", .bool)]

/-- dynamics/sequence/config.rs:223-239. -/
def tyForce : Ty := .record [("solar_pressure", .optional tySrp), ("drag", .optional tyDrag)]

/-- Derived for propagators/error_ctrl.rs:30-75. -/
def tyControl : Ty := .union [("RSSCartesianState", none), ("RSSCartesianStep", none), ("RSSState", none),
  ("RSSStep", none), ("LargestError", none), ("LargestState", none), ("LargestStep", none)]

/-- Derived for propagators/rk_methods/mod.rs:65-79. -/
def tyMethod : Ty := .union [("RungeKutta89", none), ("DormandPrince78", none), ("DormandPrince45", none),
  ("RungeKutta4", none), ("CashKarp45", none), ("Verner56", none)]

/-- propagators/options.rs:188-214. -/
def tyOptions : Ty := .record [("init_step", .text), ("min_step", .text), ("max_step", .text), ("tolerance", .double),
  ("attempts", .natural), ("fixed_step", .bool), ("error_ctrl", tyControl), ("integration_frame", .optional tyFrame)]

/-- Derived for dynamics/sequence/config.rs:95-99, 138-142. -/
def tyProp : Ty := .record [("dynamics", .record [("accel_models", tyAccel), ("force_models", tyForce)]),
  ("method", tyMethod), ("options", tyOptions)]

/-- Derived for dynamics/guidance/mod.rs:51-56. -/
def tyThruster : Ty := .record [("thrust_N", .double), ("isp_s", .double)]

/-- Derived in ANISE for `LocalFrame`, dynamics/guidance/mnvr.rs:115-127. -/
def tyLocal : Ty := .union [("Inertial", none), ("RCN", none), ("RIC", none), ("VNC", none)]

/-- Derived for polyfit/polynomial.rs:248-262. -/
def tyPoly : Ty := .union [("Constant", some (.record [("a", .double)])), ("Linear", some (.record [("a", .double), ("b", .double)])),
  ("Quadratic", some (.record [("a", .double), ("b", .double), ("c", .double)]))]

/-- dynamics/guidance/mnvr.rs:155-179. -/
def tyRepr : Ty := .union [("Vector", some (.record [("_1", .double), ("_2", .double), ("_3", .double)])),
  ("Angles", some (.record [("azimuth", tyPoly), ("elevation", tyPoly)]))]

/-- dynamics/guidance/mnvr.rs:115-127. -/
def tyManeuver : Ty := .record [("start", .text), ("end", .text), ("thrust_prct", .double), ("representation", tyRepr),
  ("frame", tyLocal)]

/-- Derived for dynamics/sequence/config.rs:180-194. -/
def tyLaw (tO : Ty) : Ty := .union [("FiniteBurn", some tyManeuver),
  ("Kluever", some (.record [("objectives", .list (.record [("objective", tO), ("weight", .double)])), ("max_eclipse_prct", .optional .double)])),
  ("Ruggiero", some (.record [("objectives", .list (.record [("objective", tO), ("efficiency", .double)])), ("max_eclipse_prct", .optional .double)]))]

/-- Derived for dynamics/sequence/config.rs:172-176. -/
def tyGuidance (tO : Ty) : Ty := .record [("thruster_model", .text), ("disable_prop_mass", .bool), ("law", tyLaw tO)]

/-- dynamics/sequence/config.rs:57-91. -/
def tyPhase (tO te : Ty) : Ty := .union [("Terminate", none), ("Activity", some (.record [("name", .text),
  ("propagator", .text), ("guidance", .optional (tyGuidance tO)), ("on_entry", .optional te), ("disabled", .bool)]))]

/-- dynamics/sequence/mod.rs:291-328. -/
def tyPlan (tO te : Ty) : Ty := .record [("seq", .list (.record [("_1", .text), ("_2", tyPhase tO te)])),
  ("thruster_sets", .list (.record [("_1", .text), ("_2", tyThruster)])),
  ("propagators", .list (.record [("_1", .text), ("_2", tyProp)]))]

/-! ### The configurations whose schema is right -/

theorem HasType.opt {α : Type} {f : α → Val} {t : Ty} (h : ∀ a, HasType (f a) t) (x : Option α) :
    HasType (Schema.opt f x) (.optional t) := by
  cases x with
  | none => exact .none t
  | some a => exact .some (h a)

theorem HasType.listMap {α : Type} {f : α → Val} {t : Ty} (h : ∀ a, HasType (f a) t) (l : List α) :
    HasType (.list (l.map f)) (.list t) := by
  refine .list fun v hv => ?_
  obtain ⟨a, -, rfl⟩ := List.mem_map.1 hv
  exact h a

/-- Goals on the fields of a record: the typing of each field is left. -/
macro "fields" : tactic => `(tactic| (
  refine HasType.fields ?_ rfl
  simp only [List.forall_mem_cons, List.not_mem_nil, false_imp_iff, implies_true, and_true]
  repeat' refine And.intro ?_ ?_
  all_goals refine ⟨_, rfl, ?_⟩
  all_goals try (first | exact .double _ | exact .text _ | exact .bool _ | exact .natural _ | exact .integer _)))

theorem frame_schema (f : Frame) : HasType (serFrame f) tyFrame := by
  fields
  · exact .opt (fun x => .double x) _
  · exact .opt (fun s => by fields) _

theorem masses_schema (m : Masses) : HasType (serMasses m) tyMasses := by
  fields
  · exact .listMap (fun x => .integer x) _
  · exact .opt (fun s => by fields) _

theorem tides_schema (t : Tides) : HasType (serTides t) tyTides := by
  fields
  · exact frame_schema _
  · refine .listMap (fun p => ?_) _
    fields
    exact frame_schema _

theorem drag_schema (d : Drag) : HasType (serDrag d) tyDrag := by
  fields
  · cases d.density with
    | constant r => exact .variant rfl (.double _)
    | exponential a b c => exact .variant rfl (by fields)
    | stdAtm m => exact .variant rfl (by fields)
  · exact frame_schema _

theorem srp_schema (s : Srp) : HasType (serSrp s) tySrp := by
  fields
  fields
  · exact frame_schema _
  · exact .listMap frame_schema _

/-- The force models have their schema. -/
theorem force_schema (f : Force) : HasType (serForce f) tyForce := by
  fields
  · exact .opt srp_schema _
  · exact .opt drag_schema _

/-- The options of the integrator have their schema. -/
theorem options_schema (o : Options) : HasType (serOptions o) tyOptions := by
  fields
  · cases o.control <;> exact .unit rfl
  · exact .opt frame_schema _

theorem poly_schema (p : Poly) : HasType (serPoly p) tyPoly := by
  cases p <;> exact .variant rfl (by fields)

/-- What a record with a given type has in its fields. -/
theorem HasType.field {fs : List (String × Val)} {ts : List (String × Ty)} (h : HasType (.record fs) (.record ts))
    {k : String} {v : Val} {t : Ty} (hv : fs.lookup k = Option.some v) (ht : ts.lookup k = Option.some t) : HasType v t := by
  cases h with
  | record _ h => exact h k v t hv ht

theorem HasType.same {fs : List (String × Val)} {ts : List (String × Ty)} (h : HasType (.record fs) (.record ts))
    (k : String) : (fs.lookup k).isSome = (ts.lookup k).isSome := by
  cases h with
  | record h _ => exact h k

/-- A maneuver has its schema, unless it is a vector that is written as a list. -/
theorem maneuver_schema (e : VecEnc) (m : Maneuver) :
    HasType (serManeuver e m) tyManeuver ↔ (e = .list → ∃ a b, m.repr = .angles a b) := by
  constructor
  · rintro h rfl
    cases hr : m.repr with
    | angles a b => exact ⟨a, b, rfl⟩
    | vector x y z =>
      have := h.field (k := "representation") rfl rfl
      rw [hr] at this
      cases this with
      | variant h1 h2 => cases h1; cases h2
  · intro h
    fields
    · cases hr : m.repr with
      | angles a b =>
        refine .variant rfl ?_
        fields
        · exact poly_schema _
        · exact poly_schema _
      | vector x y z =>
        cases e with
        | list =>
          obtain ⟨a, b, h⟩ := h rfl
          rw [hr] at h
          cases h
        | tuple => exact .variant rfl (by fields)
    · cases m.frame <;> exact .unit rfl

/-- A phase has its schema, when the objectives and the events on entry have theirs and vectors are tuples. -/
theorem phase_schema {so : O → Val} {se : E → Val} {tO te : Ty} (ho : ∀ o, HasType (so o) tO)
    (he : ∀ x, HasType (se x) te) (p : Phase O E) : HasType (serPhase .tuple so se p) (tyPhase tO te) := by
  cases p with
  | terminate => exact .unit rfl
  | activity n p g en d =>
    refine .variant rfl ?_
    fields
    · refine .opt (fun g => ?_) _
      fields
      cases g.law with
      | finiteBurn m => exact .variant rfl ((maneuver_schema _ _).2 nofun)
      | kluever os x =>
        refine .variant rfl ?_
        fields
        · refine .listMap (fun o => ?_) _
          fields
          exact ho _
        · exact .opt (fun x => .double x) _
      | ruggiero os x =>
        refine .variant rfl ?_
        fields
        · refine .listMap (fun o => ?_) _
          fields
          exact ho _
        · exact .opt (fun x => .double x) _
    · exact .opt he _

/-! ### The configurations whose schema is wrong -/

/-- **The configuration of a gravity field never has its schema**: the frame is not declared. -/
theorem gravity_schema_false (g : Gravity) : ¬ HasType (serGravity g) tyGravity := by
  intro h
  exact absurd (h.same "frame") (by simp [List.lookup])

/-- **The acceleration models have their schema exactly without a gravity field.** -/
theorem accel_schema_partial (a : Accel) : HasType (serAccel a) tyAccel ↔ a.gravity = none := by
  constructor
  · intro h
    have := h.field (k := "gravity_field") rfl rfl
    cases hg : a.gravity with
    | none => rfl
    | some g =>
      rw [hg] at this
      cases this with
      | some h => exact absurd (h.same "_1") (by simp [List.lookup])
  · intro h
    fields
    · exact .opt masses_schema _
    · rw [h]
      exact .none _
    · exact .opt tides_schema _

/-- The configuration of a propagator has its schema exactly without a gravity field. -/
theorem prop_schema (p : Prop') : HasType (serProp p) tyProp ↔ p.accel.gravity = none := by
  rw [← accel_schema_partial]
  constructor
  · intro h
    exact (h.field (k := "dynamics") rfl rfl).field (k := "accel_models") rfl rfl
  · intro h
    fields
    · fields
      · exact h
      · exact force_schema _
    · cases p.method <;> exact .unit rfl
    · exact options_schema _

theorem map_schema {α : Type} (enc : MapEnc) (f : α → Val) (t : Ty) (m : List (String × α)) :
    HasType (serMap enc f m) (.list (.record [("_1", .text), ("_2", t)])) ↔ enc = .entries ∧ m = [] := by
  cases enc with
  | record => exact ⟨nofun, fun h => by cases h.1⟩
  | entries =>
    constructor
    · intro h
      refine ⟨rfl, ?_⟩
      cases m with
      | nil => rfl
      | cons p m =>
        cases h with
        | list h =>
          have := (h _ List.mem_cons_self).same "_1"
          exact absurd this (by simp [List.lookup])
    · rintro ⟨-, rfl⟩
      exact .list nofun

/-- **A sequence with a set of thrusters or a propagator never has its schema**, however maps and vectors are written. -/
theorem plan_schema_false (enc : MapEnc) (e : VecEnc) (so : O → Val) (se : E → Val) (tO te : Ty) (p : Plan O E)
    (h : p.thrusters ≠ [] ∨ p.propagators ≠ []) : ¬ HasType (serPlan enc e so se p) (tyPlan tO te) := by
  intro ht
  rcases h with h | h
  · exact h ((map_schema _ _ _ _).1 (ht.field (k := "thruster_sets") rfl rfl)).2
  · exact h ((map_schema _ _ _ _).1 (ht.field (k := "propagators") rfl rfl)).2

/-- A sequence that has an activity whose propagator is known, as the validation demands, never has its schema. -/
theorem activity_schema_false (enc : MapEnc) (e : VecEnc) (so : O → Val) (se : E → Val) (tO te : Ty) (p : Plan O E)
    {t n q g en d} (_ : (t, Phase.activity n q g en d) ∈ p.seq) {c : Prop'} (hq : p.propagators.lookup q = some c) :
    ¬ HasType (serPlan enc e so se p) (tyPlan tO te) := by
  refine plan_schema_false enc e so se tO te p (.inr fun h => ?_)
  rw [h] at hq
  cases hq

/-- When maps are lists of entries and vectors are tuples, a sequence has its schema exactly if it has neither. -/
theorem plan_schema_partial {so : O → Val} {se : E → Val} {tO te : Ty} (ho : ∀ o, HasType (so o) tO)
    (he : ∀ x, HasType (se x) te) (p : Plan O E) :
    HasType (serPlan .entries .tuple so se p) (tyPlan tO te) ↔ p.thrusters = [] ∧ p.propagators = [] := by
  constructor
  · intro h
    by_contra hn
    exact plan_schema_false _ _ _ _ _ _ p (by tauto) h
  · rintro ⟨h1, h2⟩
    fields
    · refine .listMap (fun x => ?_) _
      fields
      exact phase_schema ho he _
    · exact (map_schema _ _ _ _).2 ⟨rfl, h1⟩
    · exact (map_schema _ _ _ _).2 ⟨rfl, h2⟩

/-! ### Reading a document -/

/-- A field of a record, for `from_dhall` without annotation, dynamics/sequence/python.rs:24-28. -/
def fld (v : Val) (k : String) : Option Val :=
  match v with
  | .record fs => fs.lookup k
  | _ => none

/-- Values of the types `i32`, `usize`, `f64`, `bool` and `String`, for dynamics/sequence/python.rs:24-28. -/
def dInt : Val → Option Int | .integer n => some n | _ => none
def dNat : Val → Option Nat | .natural n => some n | _ => none
def dRat : Val → Option Rat | .double n => some n | _ => none
def dBool : Val → Option Bool | .bool n => some n | _ => none
def dText : Val → Option String | .text n => some n | _ => none

/-- A field that may be missing, as the derived `Deserialize` has it for an `Option`, for dynamics/sequence/config.rs:158-160. -/
def dOpt {α : Type} (f : Val → Option α) (v : Val) (k : String) : Option (Option α) :=
  match fld v k with
  | none => some none
  | some (.optional none) => some none
  | some (.optional (some x)) => (f x).map some
  | some _ => none

/-- A `Vec`, as in dynamics/orbital.rs:179. -/
def dList {α : Type} (f : Val → Option α) : Val → Option (List α)
  | .list vs => vs.mapM f
  | _ => none

/-- Derived in ANISE for the frame of io/gravity.rs:53. -/
def dUid (v : Val) : Option Uid := do
  return ⟨← dInt (← fld v "ephemeris_id"), ← dInt (← fld v "orientation_id")⟩

/-- Derived in ANISE for the frames of dynamics/solid_tides.rs:48 and others. -/
def dFrame (v : Val) : Option Frame := do
  return ⟨← dInt (← fld v "ephemeris_id"), ← dInt (← fld v "orientation_id"), ← dOpt dRat v "mu_km3_s2",
    ← dOpt (fun w => do return (← dRat (← fld w "semi_major_equatorial_radius_km"),
      ← dRat (← fld w "semi_minor_equatorial_radius_km"), ← dRat (← fld w "polar_radius_km"))) v "shape"⟩

/-- Derived for io/gravity.rs:42-54. -/
def dGravity (v : Val) : Option Gravity := do
  return ⟨← dNat (← fld v "degree"), ← dNat (← fld v "order"), ← dText (← fld v "filepath"), ← dBool (← fld v "gunzipped"),
    ← dUid (← fld v "frame")⟩

/-- Derived for dynamics/orbital.rs:178-182. -/
def dMasses (v : Val) : Option Masses := do
  return ⟨← dList dInt (← fld v "celestial_objects"), ← dOpt (fun w => do return ⟨← dBool (← fld w "converged"),
    ← dBool (← fld w "stellar"), ← dBool (← fld w "transmit_mode")⟩) v "correction"⟩

/-- Derived for dynamics/solid_tides.rs:46-65. -/
def dTides (v : Val) : Option Tides := do
  return ⟨← dFrame (← fld v "frame"), ← dRat (← fld v "k2"), ← dRat (← fld v "k3"),
    ← dList (fun w => do return ⟨← dFrame (← fld w "frame"), ← dBool (← fld w "compute_degree_3")⟩) (← fld v "perturbers")⟩

/-- Derived for dynamics/sequence/config.rs:157-161. -/
def dAccel (v : Val) : Option Accel := do
  return ⟨← dOpt dMasses v "point_masses", ← dOpt dGravity v "gravity_field", ← dOpt dTides v "solid_tides"⟩

/-- A map with text keys, from a record or from a list of entries; any other list is refused; for dynamics/sequence/mod.rs:51-52. -/
def dMap {α : Type} (f : Val → Option α) : Val → Option (List (String × α))
  | .record fs => fs.mapM fun p => (f p.2).map fun a => (p.1, a)
  | .list vs => vs.mapM fun w => do return (← dText (← fld w "mapKey"), ← f (← fld w "mapValue"))
  | _ => none

theorem dList_map {α β : Type} {d : Val → Option β} {f : α → Val} {g : α → β} (h : ∀ a, d (f a) = some (g a)) (l : List α) :
    dList d (.list (l.map f)) = some (l.map g) := by
  show List.mapM d (l.map f) = _
  induction l with
  | nil => rfl
  | cons a l ih =>
    rw [List.map_cons, List.mapM_cons, h, ih]
    rfl

theorem dOpt_opt {α : Type} {d : Val → Option α} {f : α → Val} (h : ∀ a, d (f a) = some a) {v : Val} {k : String} {x : Option α}
    (hv : fld v k = some (opt f x)) : dOpt d v k = some x := by
  unfold dOpt
  rw [hv]
  cases x with
  | none => rfl
  | some a =>
    show (d (f a)).map some = _
    rw [h]
    rfl

theorem dFrame_ser (f : Frame) : dFrame (serFrame f) = some f := by
  have h1 := dOpt_opt (d := dRat) (f := .double) (fun _ => rfl) (v := serFrame f) (k := "mu_km3_s2") rfl
  have h2 := dOpt_opt (d := fun w => do return (← dRat (← fld w "semi_major_equatorial_radius_km"),
      ← dRat (← fld w "semi_minor_equatorial_radius_km"), ← dRat (← fld w "polar_radius_km"))) (fun _ => rfl)
      (v := serFrame f) (k := "shape") rfl
  unfold dFrame
  rw [h1, h2]
  rfl

theorem dMasses_ser (m : Masses) : dMasses (serMasses m) = some m := by
  have h1 := dList_map (d := dInt) (f := .integer) (g := id) (fun _ => rfl) m.objects
  have h2 := dOpt_opt (d := fun w => do return (⟨← dBool (← fld w "converged"),
    ← dBool (← fld w "stellar"), ← dBool (← fld w "transmit_mode")⟩ : Aberration)) (fun _ => rfl)
      (v := serMasses m) (k := "correction") rfl
  rw [List.map_id] at h1
  unfold dMasses
  rw [h2, show fld (serMasses m) "celestial_objects" = some (.list (m.objects.map .integer)) from rfl]
  simp only [Option.bind_eq_bind, Option.bind_some, h1]
  rfl

theorem dTides_ser (t : Tides) : dTides (serTides t) = some t := by
  have h1 := dList_map (d := fun w => do return (⟨← dFrame (← fld w "frame"), ← dBool (← fld w "compute_degree_3")⟩ : Perturber))
    (f := fun p : Perturber => .record [("frame", serFrame p.frame), ("compute_degree_3", .bool p.degree3)]) (g := id)
    (fun p => by
      show (do return (⟨← dFrame (serFrame p.frame), ← dBool (.bool p.degree3)⟩ : Perturber)) = _
      rw [dFrame_ser]
      rfl) t.perturbers
  rw [List.map_id] at h1
  show (do return (⟨← dFrame (serFrame t.frame), ← dRat (.double t.k2), ← dRat (.double t.k3),
    ← dList (fun w => do return (⟨← dFrame (← fld w "frame"), ← dBool (← fld w "compute_degree_3")⟩ : Perturber))
      (.list (t.perturbers.map fun p : Perturber => .record [("frame", serFrame p.frame), ("compute_degree_3", .bool p.degree3)]))⟩ : Tides)) = _
  rw [dFrame_ser, h1]
  rfl

/-- **Without a schema, the acceleration models are read as they were written.** -/
theorem accel_roundtrip (a : Accel) : dAccel (serAccel a) = some a := by
  unfold dAccel
  rw [dOpt_opt dMasses_ser (v := serAccel a) (k := "point_masses") rfl,
    dOpt_opt (f := serGravity) (d := dGravity) (fun _ => rfl) (v := serAccel a) (k := "gravity_field") rfl,
    dOpt_opt dTides_ser (v := serAccel a) (k := "solid_tides") rfl]
  rfl

/-- **No document of the declared type that has a gravity field can be read.** -/
theorem declared_gravity_unreadable {v g : Val} (h : HasType v tyAccel) (hg : fld v "gravity_field" = some (.optional (some g))) :
    dAccel v = none := by
  have hd : dGravity g = none := by
    cases h with
    | record h1 h2 =>
      have := h2 "gravity_field" _ _ hg rfl
      cases this with
      | some h3 =>
        cases h3 with
        | @record fs ts h4 h5 =>
          have := h4 "degree"
          have hn : fs.lookup "degree" = none := by
            rw [← Option.not_isSome_iff_eq_none, this]
            exact Bool.false_ne_true
          unfold dGravity
          rw [show fld (.record fs) "degree" = fs.lookup "degree" from rfl, hn]
          rfl
  have ho : dOpt dGravity v "gravity_field" = none := by
    unfold dOpt
    rw [hg]
    show (dGravity g).map some = none
    rw [hd]
    rfl
  unfold dAccel
  rw [ho]
  cases dOpt dMasses v "point_masses" <;> rfl

/-- **No list of the declared type can be read as a map, unless it is empty.** -/
theorem declared_map_unreadable {α : Type} (f : Val → Option α) {t : Ty} {vs : List Val}
    (h : HasType (.list vs) (.list (.record [("_1", .text), ("_2", t)]))) (hn : vs ≠ []) : dMap f (.list vs) = none := by
  cases vs with
  | nil => exact absurd rfl hn
  | cons w vs =>
    cases h with
    | list h =>
      have hw := h w List.mem_cons_self
      have hk : fld w "mapKey" = none := by
        cases hw with
        | record h1 _ =>
          show List.lookup _ _ = none
          rw [← Option.not_isSome_iff_eq_none, h1]
          exact Bool.false_ne_true
      show List.mapM _ (w :: vs) = none
      rw [List.mapM_cons, hk]
      rfl

/-- A map that was written is read as it was, in both ways of writing it. -/
theorem map_roundtrip {α : Type} (enc : MapEnc) {d : Val → Option α} {f : α → Val} (h : ∀ a, d (f a) = some a)
    (m : List (String × α)) : dMap d (serMap enc f m) = some m := by
  cases enc with
  | record =>
    show List.mapM _ (m.map _) = _
    induction m with
    | nil => rfl
    | cons p m ih =>
      rw [List.map_cons, List.mapM_cons, ih, h]
      rfl
  | entries =>
    show List.mapM _ (m.map _) = _
    induction m with
    | nil => rfl
    | cons p m ih =>
      rw [List.map_cons, List.mapM_cons, ih]
      show (do let a ← (do return (p.1, ← d (f p.2)) : Option (String × α)); _) = _
      rw [h]
      rfl

/-- A gravity field of degree and order 21 with respect to the Earth. -/
def earthField : Gravity := ⟨21, 21, "JGM3.cof.gz", true, ⟨399, 3001⟩⟩

example : ¬ HasType (serAccel ⟨none, some earthField, none⟩) tyAccel := fun h =>
  absurd ((accel_schema_partial _).1 h) nofun

example : dAccel (.record [("point_masses", .optional none), ("solid_tides", .optional none), ("gravity_field", .optional (some (.record
    [("_1", .record [("filepath", .text "JGM3.cof.gz"), ("gunzipped", .bool true), ("degree", .natural 21), ("order", .natural 21)]),
     ("_2", .record [("ephemeris_id", .integer 399), ("orientation_id", .integer 3001)])])))]) = none := by
  refine declared_gravity_unreadable ?_ rfl
  fields
  · exact .none _
  · exact .none _
  · refine .some ?_
    fields
    · fields
    · fields

example (enc : MapEnc) := map_roundtrip enc (d := fun v => match v with | .natural n => some n | _ => none) (f := Val.natural)
  (fun _ => rfl) [("a", 1), ("b", 2)]

end Verif.Schema
