import Verif.Spacecraft.Model
import Verif.Tracking.Model
import Verif.Mc.Model
/-!
Model of the mission sequences: nyx-core/src/dynamics/sequence/{mod,config,discrete_event}.rs.

Floating point numbers are elements of an ordered field `F`; epochs are integers (nanoseconds). The
propagator (`until_epoch_with_traj`, modelled in `Verif.Propagate`), the translation between central bodies
and the loading of the gravity field are parameters, gathered in `World`. The logging and the measure of the
time spent are not modelled.
-/
namespace Verif.Sequence
open Verif.Spacecraft (Craft Thruster V3)
open Verif.Tracking (IMap)
open Verif.Mc (Out)

/-- A frame of anise: the identifiers of its center and of its orientation. `orient_origin_match` and
`ephem_origin_match` compare them. -/
structure Frame where
  ephem : Int
  orient : Int
deriving DecidableEq

/-- `ImpulsiveManeuver`; `L` is the type of `LocalFrame`. dynamics/guidance/mnvr.rs:38-42. -/
structure Impulse (F L : Type) where
  localFrame : L
  dv : V3 F

/-- `PhysicalProperties`: dry, propellant and extra mass; area and reflectivity; area and drag
coefficient. dynamics/sequence/discrete_event.rs:43-48. -/
structure PhysProps (F : Type) where
  mass : Option (F × F × F)
  srp : Option (F × F)
  drag : Option (F × F)

/-- `DiscreteEvent`. dynamics/sequence/discrete_event.rs:28-41. -/
inductive Event (F L : Type) where
  | staging (m : Option (Impulse F L)) (p : Option (PhysProps F))
  | docking (m : Option (Impulse F L)) (p : Option (PhysProps F))
  | frameSwap (f : Frame)

/-- `SteeringLaw`: `M` is the type of finite burns, `OW` and `OE` are the types of the lists of objectives of
Kluever and of Ruggiero. dynamics/sequence/config.rs:180-194. -/
inductive Steering (F M OW OE : Type) where
  | finiteBurn (m : M)
  | kluever (o : OW) (maxEclipse : Option F)
  | ruggiero (o : OE) (maxEclipse : Option F)

/-- `GuidanceConfig`. dynamics/sequence/config.rs:172-176. -/
structure GuidCfg (F M OW OE : Type) where
  thruster : String
  disablePropMass : Bool
  law : Steering F M OW OE

/-- `Phase::Activity`. dynamics/sequence/config.rs:43-55. -/
structure Activity (F L M OW OE : Type) where
  name : String
  propagator : String
  guidance : Option (GuidCfg F M OW OE)
  onEntry : Option (Event F L)
  disabled : Bool

/-- `Phase`. dynamics/sequence/config.rs:43-55. -/
inductive Phase (F L M OW OE : Type) where
  | terminate
  | activity (a : Activity F L M OW OE)

/-- The guidance law given to the dynamics: the maneuver, `Kluever`, or `Ruggiero` with its initial state.
dynamics/sequence/mod.rs:243-268. -/
inductive Law (F M OW OE : Type) where
  | burn (m : M)
  | kluever (o : OW) (maxEclipse : Option F)
  | ruggiero (o : OE) (maxEclipse : Option F) (init : Craft F Frame)

/-- `Propagator<SpacecraftDynamics>`: `base` is all of it but the two fields that the sequence
overwrites. propagators/propagator.rs:34-44, dynamics/spacecraft.rs:44-49. -/
structure Setup (F B M OW OE : Type) where
  base : B
  decrementMass : Bool
  law : Option (Law F M OW OE)

/-- `Traj`, name and states. md/trajectory/traj.rs:54-62. -/
structure Named (F : Type) where
  name : Option String
  states : List (Craft F Frame)

/-- What the sequence calls: `cfg.build`, `almanac.translate_to` (the new frame, position and velocity at the
same epoch), and `setup.with(state, almanac).until_epoch_with_traj(end)`. -/
structure World (F C B M OW OE : Type) where
  build : C → Option (Setup F B M OW OE)
  translate : Craft F Frame → Frame → Option (Frame × V3 F × V3 F)
  run : Setup F B M OW OE → Craft F Frame → Int → Out (Craft F Frame × List (Craft F Frame))

/-- `SpacecraftSequence`. The ordered map `seq` is the list of its entries by increasing epochs (see
`ScSeq.Wf`); `C` is the type of `PropagatorConfig`. dynamics/sequence/mod.rs:48-55. -/
structure ScSeq (F L C B M OW OE : Type) where
  seq : List (Int × Phase F L M OW OE)
  thrusterSets : IMap String (Thruster F)
  propagators : IMap String C
  propSetups : IMap String (Setup F B M OW OE)

variable {F L C B M OW OE : Type}

/-- The keys of an ordered map increase strictly. -/
def ScSeq.Wf (q : ScSeq F L C B M OW OE) : Prop := (q.seq.map Prod.fst).Pairwise (· < ·)

/-- The check of one phase: its propagator and its thruster are known.
dynamics/sequence/mod.rs:65-85. -/
def ScSeq.checkPhase (q : ScSeq F L C B M OW OE) : Phase F L M OW OE → Bool
  | .terminate => true
  | .activity a =>
    (Tracking.get q.propagators a.propagator).isSome &&
      match a.guidance with
      | none => true
      | some g => (Tracking.get q.thrusterSets g.thruster).isSome

/-- Whether the last phase is an activity. dynamics/sequence/mod.rs:60-62. -/
def ScSeq.endsInActivity (q : ScSeq F L C B M OW OE) : Bool :=
  match q.seq.getLast? with
  | some (_, .activity _) => true
  | _ => false

/-- `validate`: `true` is `Ok`. dynamics/sequence/mod.rs:58-88. -/
def ScSeq.validate (q : ScSeq F L C B M OW OE) : Bool :=
  !q.endsInActivity && q.seq.all (fun e => q.checkPhase e.2)

/-- One turn of the loop of `setup`; the boolean is false when the build failed (and `setup` returned), and
the result is `panic` when the configuration is missing. dynamics/sequence/mod.rs:95-114. -/
def setupPhase (w : World F C B M OW OE) (props : IMap String C)
    (ps : IMap String (Setup F B M OW OE)) : Phase F L M OW OE → Out (Bool × IMap String (Setup F B M OW OE))
  | .terminate => .ok (true, ps)
  | .activity a =>
    if !a.disabled && (Tracking.get ps a.propagator).isNone then
      match Tracking.get props a.propagator with
      | none => .panic
      | some cfg =>
        match w.build cfg with
        | none => .ok (false, ps)
        | some s => .ok (true, Tracking.insert ps a.propagator s)
    else .ok (true, ps)

/-- The loop of `setup`. dynamics/sequence/mod.rs:95-116. -/
def setupLoop (w : World F C B M OW OE) (props : IMap String C) :
    List (Int × Phase F L M OW OE) → IMap String (Setup F B M OW OE) →
      Out (Bool × IMap String (Setup F B M OW OE))
  | [], ps => .ok (true, ps)
  | e :: es, ps =>
    match setupPhase w props ps e.2 with
    | .ok (true, ps') => setupLoop w props es ps'
    | r => r

/-- `setup`: whether it succeeded, and the sequence after it. dynamics/sequence/mod.rs:91-117. -/
def ScSeq.setup (q : ScSeq F L C B M OW OE) (w : World F C B M OW OE) :
    Out (Bool × ScSeq F L C B M OW OE) :=
  if q.validate then
    match setupLoop w q.propagators q.seq q.propSetups with
    | .ok (b, ps) => .ok (b, ⟨q.seq, q.thrusterSets, q.propagators, ps⟩)
    | .err => .err
    | .panic => .panic
  else .ok (false, q)

variable [Field F]

/-- `with_orbit(state.orbit.with_dv_km_s(dv))`: the local frame of the maneuver is not read.
dynamics/sequence/mod.rs:183-187, 208-212. -/
def applyDv (m : Option (Impulse F L)) (s : Craft F Frame) : Craft F Frame :=
  match m with
  | none => s
  | some m => { s with vel := fun i => s.vel i + m.dv i }

/-- `state.mass.… -= …`. dynamics/sequence/mod.rs:189-193. -/
def decrMass (m : Option (F × F × F)) (s : Craft F Frame) : Craft F Frame :=
  match m with
  | none => s
  | some m => { s with dry := s.dry - m.1, prop := s.prop - m.2.1, extra := s.extra - m.2.2 }

/-- `state.srp.… -= …`. dynamics/sequence/mod.rs:194-197. -/
def decrSrp (m : Option (F × F)) (s : Craft F Frame) : Craft F Frame :=
  match m with
  | none => s
  | some m => { s with srpArea := s.srpArea - m.1, cr := s.cr - m.2 }

/-- `state.drag.… -= …`. dynamics/sequence/mod.rs:198-201. -/
def decrDrag (m : Option (F × F)) (s : Craft F Frame) : Craft F Frame :=
  match m with
  | none => s
  | some m => { s with dragArea := s.dragArea - m.1, cd := s.cd - m.2 }

/-- The decrement of the properties. dynamics/sequence/mod.rs:188-202. -/
def decr (p : Option (PhysProps F)) (s : Craft F Frame) : Craft F Frame :=
  match p with
  | none => s
  | some p => decrDrag p.drag (decrSrp p.srp (decrMass p.mass s))

/-- `state.mass.… += …`. dynamics/sequence/mod.rs:214-218. -/
def incrMass (m : Option (F × F × F)) (s : Craft F Frame) : Craft F Frame :=
  match m with
  | none => s
  | some m => { s with dry := s.dry + m.1, prop := s.prop + m.2.1, extra := s.extra + m.2.2 }

/-- `state.srp.… += …`. dynamics/sequence/mod.rs:219-222. -/
def incrSrp (m : Option (F × F)) (s : Craft F Frame) : Craft F Frame :=
  match m with
  | none => s
  | some m => { s with srpArea := s.srpArea + m.1, cr := s.cr + m.2 }

/-- `state.drag.… += …`. dynamics/sequence/mod.rs:223-226. -/
def incrDrag (m : Option (F × F)) (s : Craft F Frame) : Craft F Frame :=
  match m with
  | none => s
  | some m => { s with dragArea := s.dragArea + m.1, cd := s.cd + m.2 }

/-- The increment of the properties. dynamics/sequence/mod.rs:213-227. -/
def incr (p : Option (PhysProps F)) (s : Craft F Frame) : Craft F Frame :=
  match p with
  | none => s
  | some p => incrDrag p.drag (incrSrp p.srp (incrMass p.mass s))

/-- The discrete event on entry. dynamics/sequence/mod.rs:157-230. -/
def enter (w : World F C B M OW OE) (ev : Option (Event F L)) (s : Craft F Frame) :
    Out (Craft F Frame) :=
  match ev with
  | none => .ok s
  | some (.frameSwap f) =>
    if f.orient ≠ s.frame.orient ∨ f.ephem ≠ s.frame.ephem then
      match w.translate s f with
      | none => .err
      | some o => .ok { s with frame := o.1, pos := o.2.1, vel := o.2.2 }
    else .ok s
  | some (.staging m p) => .ok (decr p (applyDv m s))
  | some (.docking m p) => .ok (incr p (applyDv m s))

/-- The law built from its configuration. dynamics/sequence/mod.rs:243-268. -/
def Steering.toLaw (l : Steering F M OW OE) (s : Craft F Frame) : Law F M OW OE :=
  match l with
  | .finiteBurn m => .burn m
  | .kluever o e => .kluever o e
  | .ruggiero o e => .ruggiero o e s

/-- The propagator and the state of a phase: both index operations panic if the name is missing.
dynamics/sequence/mod.rs:238-278. -/
def ScSeq.arm (q : ScSeq F L C B M OW OE) (a : Activity F L M OW OE) (s : Craft F Frame) :
    Out (Setup F B M OW OE × Craft F Frame) :=
  match Tracking.get q.propSetups a.propagator with
  | none => .panic
  | some setup =>
    match a.guidance with
    | none => .ok (setup, s)
    | some g =>
      match Tracking.get q.thrusterSets g.thruster with
      | none => .panic
      | some th =>
        let s' := { s with thruster := some th }
        .ok (⟨setup.base, !g.disablePropMass, some (g.law.toLaw s')⟩, s')

/-- One enabled activity that ends at the epoch `stop` of the next phase (`none`: `expect` panics).
dynamics/sequence/mod.rs:156-282. -/
def ScSeq.phase (q : ScSeq F L C B M OW OE) (w : World F C B M OW OE)
    (a : Activity F L M OW OE) (stop : Option Int) (s : Craft F Frame) :
    Out (Craft F Frame × Named F) :=
  (enter w a.onEntry s).bind fun s1 =>
    match stop with
    | none => .panic
    | some t =>
      (q.arm a s1).bind fun x =>
        (w.run x.1 x.2 t).bind fun r => .ok (r.1, ⟨some a.name, r.2⟩)

/-- The loop of `propagate` over the remaining phases. dynamics/sequence/mod.rs:130-287. -/
def ScSeq.go (q : ScSeq F L C B M OW OE) (w : World F C B M OW OE) (until_ : Option String) :
    List (Int × Phase F L M OW OE) → Craft F Frame → List (Named F) → Out (List (Named F))
  | [], _, _ => .panic
  | (_, .terminate) :: _, _, trajs => .ok trajs
  | (_, .activity a) :: es, s, trajs =>
    if until_ = some a.name then .ok trajs
    else if a.disabled then q.go w until_ es s trajs
    else
      (q.phase w a (es.head?.map Prod.fst) s).bind fun r => q.go w until_ es r.1 (trajs ++ [r.2])

/-- `propagate`: `seq.range(state.epoch()..)`, then the loop. dynamics/sequence/mod.rs:121-288. -/
def ScSeq.propagate (q : ScSeq F L C B M OW OE) (w : World F C B M OW OE) (s : Craft F Frame)
    (until_ : Option String) : Out (List (Named F)) :=
  q.go w until_ (q.seq.filter (fun e => decide (s.epoch ≤ e.1))) s []

/-! ### The configuration of the propagators -/

/-- `Dynamics` and the rest of `PropagatorConfig`: `P`, `G`, `T`, `R`, `D` are the configurations of the point
masses, of the gravity field, of the tides, of the radiation pressure and of the drag, `I` is the
integrator with its options. dynamics/sequence/config.rs:96-99, 138-142, 157-169. -/
structure PropCfg (P G T R D I : Type) where
  pointMasses : Option P
  gravity : Option G
  tides : Option T
  srp : Option R
  drag : Option D
  integrator : I

/-- The acceleration models; `GD` is the type of the gravity fields once loaded. -/
inductive Accel (P GD T : Type) where
  | pointMasses (p : P)
  | gravity (g : GD)
  | tides (t : T)
deriving DecidableEq

/-- The force models. -/
inductive Force (R D : Type) where
  | srp (r : R)
  | drag (d : D)
deriving DecidableEq

/-- The propagator that is built, but for the two fields of `Setup`. -/
structure Built (P GD T R D I : Type) where
  accels : List (Accel P GD T)
  forces : List (Force R D)
  integrator : I

/-- `opt.map(push)`. -/
def pushOpt {X Y : Type} (l : List Y) (f : X → Y) : Option X → List Y
  | none => l
  | some x => l ++ [f x]

/-- `Dynamics::build` and `PropagatorConfig::build`; `load` is `GravityFieldData::from_config`.
dynamics/sequence/config.rs:102-133, 145-151; `SpacecraftDynamics::new` decrements the mass and has no law,
dynamics/spacecraft.rs:78-85. -/
def PropCfg.build {P G GD T R D I : Type} (load : G → Option GD) (c : PropCfg P G T R D I) :
    Option (Setup F (Built P GD T R D I) M OW OE) :=
  let a := pushOpt [] Accel.pointMasses c.pointMasses
  let done (a : List (Accel P GD T)) : Option (Setup F (Built P GD T R D I) M OW OE) :=
    some ⟨⟨pushOpt a Accel.tides c.tides, pushOpt (pushOpt [] Force.srp c.srp) Force.drag c.drag,
      c.integrator⟩, true, none⟩
  match c.gravity with
  | none => done a
  | some g =>
    match load g with
    | none => none
    | some gd => done (a ++ [.gravity gd])

/-! ### Serialization of the ordered map -/

/-- `BTreeMap::insert`. -/
def oinsert {V : Type} : List (Int × V) → Int → V → List (Int × V)
  | [], k, v => [(k, v)]
  | (k', v') :: l, k, v =>
    if k < k' then (k, v) :: (k', v') :: l
    else if k = k' then (k, v) :: l
    else (k', v') :: oinsert l k v

/-- `map_as_pairs`: the entries in order. dynamics/sequence/mod.rs:332-340. -/
def mapAsPairs {V : Type} (m : List (Int × V)) : List (Int × V) := m

/-- `pairs_as_map`: `collect` inserts the pairs in turn. dynamics/sequence/mod.rs:343-351. -/
def pairsAsMap {V : Type} (ps : List (Int × V)) : List (Int × V) :=
  ps.foldl (fun m p => oinsert m p.1 p.2) []

end Verif.Sequence
