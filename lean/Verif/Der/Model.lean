import Mathlib.Algebra.Order.Ring.Int
import Verif.Tracking.Model
import Verif.Spacecraft.Model
/-!
Model of the ASN.1 DER encodings that nyx writes by hand: nyx-core/src/od/simulator/{scheduler,trkconfig}.rs,
nyx-core/src/od/noise/{mod,gauss_markov,white}.rs, nyx-core/src/od/ground_station/mod.rs,
nyx-core/src/dynamics/guidance/mod.rs, nyx-core/src/cosmic/spacecraft.rs.

The primitive encodings (booleans, integers, reals, strings, enumerations, headers of sequences) are those of the
crate `der`: here they are parameters (`Prims`), as are the encodings of the structures of anise (the location of a
station, the orbit, the mass, the areas). A decoder reads from the front of a list of bytes and returns what is
left. The limit of `der` on the length of a document is not modelled. Durations are integers
(nanoseconds): their saturation is not modelled.
-/
namespace Verif.Der
open Verif.Tracking (IMap)
open Verif.Spacecraft (Mode Thruster)

/-- The traits `Encode` (`encode` and `encoded_len`) and `Decode` of the crate `der`. -/
structure Codec (Byte α : Type) where
  enc : α → List Byte
  len : α → Nat
  dec : List Byte → Option (α × List Byte)

variable {Byte : Type}

/-- `Encode::encode_to_vec` of `der`: the buffer has the announced length, and it is an error to write more or
fewer bytes. -/
def Codec.toDer {α : Type} (c : Codec Byte α) (a : α) : Option (List Byte) :=
  if c.len a = (c.enc a).length then some (c.enc a) else none

/-- `Decode::from_der` of `der`: bytes left over are an error. -/
def Codec.fromDer {α : Type} (c : Codec Byte α) (bs : List Byte) : Option α :=
  match c.dec bs with
  | some (a, []) => some a
  | _ => none

/-- The primitive encodings: `u8`, `u32` and `ENUMERATED` are natural numbers, `header` is the
tag of a sequence followed by its length. `F` is the type of floating point numbers. -/
structure Prims (Byte F : Type) where
  bool : Codec Byte Bool
  u8 : Codec Byte Nat
  u32 : Codec Byte Nat
  i128 : Codec Byte Int
  real : Codec Byte F
  text : Codec Byte String
  enumerated : Codec Byte Nat
  header : Codec Byte Nat

/-- `impl Encode for Option<T>` of `der`: nothing is written for `None`. -/
def optEnc {α : Type} (c : Codec Byte α) : Option α → List Byte
  | none => []
  | some a => c.enc a

/-- The length of `Option<T>`. -/
def optLen {α : Type} (c : Codec Byte α) : Option α → Nat
  | none => 0
  | some a => c.len a

/-- `if present { Some(decoder.decode()?) } else { None }`. -/
def optDec {α : Type} (c : Codec Byte α) (present : Bool) (bs : List Byte) : Option (Option α × List Byte) :=
  if present then (c.dec bs).map (fun x => (some x.1, x.2)) else some (none, bs)

variable {F : Type}

/-- The derived `Sequence` of `der`: a header, then the fields; decoding reads exactly the announced
length. -/
def nested {α : Type} (p : Prims Byte F) (c : Codec Byte α) : Codec Byte α where
  enc a := p.header.enc (c.len a) ++ c.enc a
  len a := p.header.len (c.len a) + c.len a
  dec bs := do
    let (n, bs) ← p.header.dec bs
    if bs.length < n then none
    else
      let a ← c.fromDer (bs.take n)
      pure (a, bs.drop n)

/-- The elements of a `SEQUENCE OF`: read until the bytes are exhausted. An element that reads nothing would
loop: the fuel is the number of bytes. -/
def decAll {α : Type} (c : Codec Byte α) : Nat → List Byte → Option (List α)
  | _, [] => some []
  | 0, _ => none
  | fuel + 1, b :: bs => do
    let (a, rest) ← c.dec (b :: bs)
    let l ← decAll c fuel rest
    pure (a :: l)

/-- `Vec<T>` of `der` as a `SEQUENCE OF`. -/
def seqOf {α : Type} (p : Prims Byte F) (c : Codec Byte α) : Codec Byte (List α) where
  enc l := p.header.enc ((l.map c.len).sum) ++ l.flatMap c.enc
  len l := p.header.len ((l.map c.len).sum) + (l.map c.len).sum
  dec bs := do
    let (n, bs) ← p.header.dec bs
    if bs.length < n then none
    else
      let l ← decAll c n (bs.take n)
      pure (l, bs.drop n)

/-! ### Scheduler and tracking configuration -/

/-- `Handoff`. od/simulator/scheduler.rs:34-45. -/
inductive Handoff where
  | eager | greedy | overlap
deriving DecidableEq

/-- The discriminants. od/simulator/scheduler.rs:40-44. -/
def Handoff.tag : Handoff → Nat
  | .eager => 0
  | .greedy => 1
  | .overlap => 2

/-- The derived `TryFrom<u8>`. od/simulator/scheduler.rs:34-45. -/
def Handoff.ofTag : Nat → Option Handoff
  | 0 => some .eager
  | 1 => some .greedy
  | 2 => some .overlap
  | _ => none

/-- The derived `Enumerated` of an enumeration with these discriminants. -/
def enumCodec {α : Type} (p : Prims Byte F) (tag : α → Nat) (ofTag : Nat → Option α) : Codec Byte α where
  enc a := p.enumerated.enc (tag a)
  len a := p.enumerated.len (tag a)
  dec bs := do
    let (n, bs) ← p.enumerated.dec bs
    let a ← ofTag n
    pure (a, bs)

/-- `Cadence`, durations in nanoseconds. od/simulator/scheduler.rs:84-101. -/
inductive Cadence where
  | continuous
  | intermittent (on off : Int)
deriving DecidableEq

/-- `Encode::encode` of `Cadence`. od/simulator/scheduler.rs:136-145. -/
def Cadence.enc (p : Prims Byte F) : Cadence → List Byte
  | .continuous => p.u8.enc 0
  | .intermittent on off => p.u8.enc 1 ++ (p.i128.enc on ++ p.i128.enc off)

/-- `encoded_len`. od/simulator/scheduler.rs:125-134. -/
def Cadence.len (p : Prims Byte F) : Cadence → Nat
  | .continuous => p.u8.len 0
  | .intermittent on off => p.u8.len 1 + p.i128.len on + p.i128.len off

/-- `Decode` of `Cadence`. od/simulator/scheduler.rs:103-122. -/
def Cadence.dec (p : Prims Byte F) (bs : List Byte) : Option (Cadence × List Byte) := do
  let (tag, bs) ← p.u8.dec bs
  if tag = 0 then pure (.continuous, bs)
  else if tag = 1 then
    let (on, bs) ← p.i128.dec bs
    let (off, bs) ← p.i128.dec bs
    pure (.intermittent on off, bs)
  else none

/-- The encoding of `Cadence`. -/
def cadenceCodec (p : Prims Byte F) : Codec Byte Cadence := ⟨Cadence.enc p, Cadence.len p, Cadence.dec p⟩

/-- `Scheduler`. od/simulator/scheduler.rs:63-81. -/
structure Scheduler where
  handoff : Handoff
  cadence : Cadence
  minSamples : Nat
  alignment : Option Int
deriving DecidableEq

/-- The encoding of `Handoff`. -/
def handoffCodec (p : Prims Byte F) : Codec Byte Handoff := enumCodec p Handoff.tag Handoff.ofTag

/-- `Encode::encode` of `Scheduler`. od/simulator/scheduler.rs:250-261. -/
def Scheduler.enc (p : Prims Byte F) (s : Scheduler) : List Byte :=
  (handoffCodec p).enc s.handoff ++ ((cadenceCodec p).enc s.cadence ++ (p.u32.enc s.minSamples ++
    match s.alignment with
    | some sa => p.bool.enc true ++ p.i128.enc sa
    | none => p.bool.enc false))

/-- `encoded_len`. od/simulator/scheduler.rs:238-248. -/
def Scheduler.len (p : Prims Byte F) (s : Scheduler) : Nat :=
  let len := (handoffCodec p).len s.handoff + (cadenceCodec p).len s.cadence + p.u32.len s.minSamples +
    p.bool.len s.alignment.isSome
  match s.alignment with
  | some sa => len + p.i128.len sa
  | none => len

/-- `Decode` of `Scheduler`. od/simulator/scheduler.rs:217-235. -/
def Scheduler.dec (p : Prims Byte F) (bs : List Byte) : Option (Scheduler × List Byte) := do
  let (handoff, bs) ← (handoffCodec p).dec bs
  let (cadence, bs) ← (cadenceCodec p).dec bs
  let (minSamples, bs) ← p.u32.dec bs
  let (b, bs) ← p.bool.dec bs
  let (sa, bs) ← optDec p.i128 b bs
  pure (⟨handoff, cadence, minSamples, sa⟩, bs)

/-- The encoding of `Scheduler`. -/
def schedulerCodec (p : Prims Byte F) : Codec Byte Scheduler :=
  ⟨Scheduler.enc p, Scheduler.len p, Scheduler.dec p⟩

/-- `TimeScale` of hifitime, with its conversions `as u8` and `From<u8>`. -/
structure TimeScales (T : Type) where
  toU8 : T → Nat
  ofU8 : Nat → T

/-- `Strand`: each epoch is its duration and its time scale. od/simulator/trkconfig.rs:263-268. -/
structure Strand (T : Type) where
  start : Int × T
  stop : Int × T

/-- `Encode::encode` of `Strand`. od/simulator/trkconfig.rs:307-313. -/
def Strand.enc {T : Type} (p : Prims Byte F) (ts : TimeScales T) (s : Strand T) : List Byte :=
  p.i128.enc s.start.1 ++ (p.u8.enc (ts.toU8 s.start.2) ++ (p.i128.enc s.stop.1 ++ p.u8.enc (ts.toU8 s.stop.2)))

/-- `encoded_len`: the length of the encoding of 1 is used for the time scales.
od/simulator/trkconfig.rs:300-305. -/
def Strand.len {T : Type} (p : Prims Byte F) (s : Strand T) : Nat :=
  (p.i128.len s.start.1 + p.u8.len 1) + (p.i128.len s.stop.1 + p.u8.len 1)

/-- `Decode` of `Strand`. od/simulator/trkconfig.rs:282-297. -/
def Strand.dec {T : Type} (p : Prims Byte F) (ts : TimeScales T) (bs : List Byte) :
    Option (Strand T × List Byte) := do
  let (startNs, bs) ← p.i128.dec bs
  let (startTs, bs) ← p.u8.dec bs
  let (endNs, bs) ← p.i128.dec bs
  let (endTs, bs) ← p.u8.dec bs
  pure (⟨(startNs, ts.ofU8 startTs), (endNs, ts.ofU8 endTs)⟩, bs)

/-- The encoding of `Strand`. -/
def strandCodec {T : Type} (p : Prims Byte F) (ts : TimeScales T) : Codec Byte (Strand T) :=
  ⟨Strand.enc p ts, Strand.len p, Strand.dec p ts⟩

/-- `TrkConfig`. od/simulator/trkconfig.rs:41-56. -/
structure TrkConfig (T : Type) where
  scheduler : Option Scheduler
  sampling : Int
  strands : Option (List (Strand T))

/-- A flag, then the value if there is one. -/
def flagged {α : Type} (p : Prims Byte F) (c : Codec Byte α) : Option α → List Byte
  | some a => p.bool.enc true ++ c.enc a
  | none => p.bool.enc false

/-- `Encode::encode` of `TrkConfig`. od/simulator/trkconfig.rs:94-110. -/
def TrkConfig.enc {T : Type} (p : Prims Byte F) (ts : TimeScales T) (c : TrkConfig T) : List Byte :=
  flagged p (schedulerCodec p) c.scheduler ++ (p.i128.enc c.sampling ++
    flagged p (seqOf p (strandCodec p ts)) c.strands)

/-- `encoded_len`. od/simulator/trkconfig.rs:81-92. -/
def TrkConfig.len {T : Type} (p : Prims Byte F) (ts : TimeScales T) (c : TrkConfig T) : Nat :=
  p.bool.len c.scheduler.isSome + optLen (schedulerCodec p) c.scheduler + p.i128.len c.sampling +
    p.bool.len c.strands.isSome + optLen (seqOf p (strandCodec p ts)) c.strands

/-- `Decode` of `TrkConfig`. od/simulator/trkconfig.rs:58-78. -/
def TrkConfig.dec {T : Type} (p : Prims Byte F) (ts : TimeScales T) (bs : List Byte) :
    Option (TrkConfig T × List Byte) := do
  let (b, bs) ← p.bool.dec bs
  let (scheduler, bs) ← optDec (schedulerCodec p) b bs
  let (sampling, bs) ← p.i128.dec bs
  let (b, bs) ← p.bool.dec bs
  let (strands, bs) ← optDec (seqOf p (strandCodec p ts)) b bs
  pure (⟨scheduler, sampling, strands⟩, bs)

/-- The encoding of `TrkConfig`. -/
def trkConfigCodec {T : Type} (p : Prims Byte F) (ts : TimeScales T) : Codec Byte (TrkConfig T) :=
  ⟨TrkConfig.enc p ts, TrkConfig.len p ts, TrkConfig.dec p ts⟩

/-! ### Noises -/

/-- `WhiteNoise`. od/noise/white.rs:35-42. -/
structure WhiteNoise (F : Type) where
  mean : F
  sigma : F

/-- The fields of the derived `Sequence` of `WhiteNoise`, in order. od/noise/white.rs:35-42. -/
def whiteFields (p : Prims Byte F) : Codec Byte (WhiteNoise F) where
  enc w := p.real.enc w.mean ++ p.real.enc w.sigma
  len w := p.real.len w.mean + p.real.len w.sigma
  dec bs := do
    let (mean, bs) ← p.real.dec bs
    let (sigma, bs) ← p.real.dec bs
    pure (⟨mean, sigma⟩, bs)

/-- The derived encoding of `WhiteNoise`. od/noise/white.rs:35. -/
def whiteCodec (p : Prims Byte F) : Codec Byte (WhiteNoise F) := nested p (whiteFields p)

/-- `GaussMarkov`. od/noise/gauss_markov.rs:52-64. -/
structure GaussMarkov (F : Type) where
  tau : Int
  processNoise : F
  constant : Option F
  prevEpoch : Option Int
  initSample : Option F

/-- `Encode::encode` of `GaussMarkov`. od/noise/gauss_markov.rs:192-201. -/
def GaussMarkov.enc (p : Prims Byte F) (g : GaussMarkov F) : List Byte :=
  p.i128.enc g.tau ++ (p.real.enc g.processNoise ++ flagged p p.real g.constant)

/-- `encoded_len`. od/noise/gauss_markov.rs:182-190. -/
def GaussMarkov.len (p : Prims Byte F) (g : GaussMarkov F) : Nat :=
  p.i128.len g.tau + p.real.len g.processNoise +
    match g.constant with
    | some c => p.bool.len true + p.real.len c
    | none => p.bool.len false

/-- `Decode` of `GaussMarkov`. od/noise/gauss_markov.rs:204-222. -/
def GaussMarkov.dec (p : Prims Byte F) (bs : List Byte) : Option (GaussMarkov F × List Byte) := do
  let (tau, bs) ← p.i128.dec bs
  let (processNoise, bs) ← p.real.dec bs
  let (b, bs) ← p.bool.dec bs
  let (constant, bs) ← optDec p.real b bs
  pure (⟨tau, processNoise, constant, none, none⟩, bs)

/-- The encoding of `GaussMarkov`. -/
def gaussMarkovCodec (p : Prims Byte F) : Codec Byte (GaussMarkov F) :=
  ⟨GaussMarkov.enc p, GaussMarkov.len p, GaussMarkov.dec p⟩

/-- `StochasticNoise`. od/noise/mod.rs:66-71. -/
structure StochasticNoise (F : Type) where
  whiteNoise : Option (WhiteNoise F)
  bias : Option (GaussMarkov F)

/-- `available_data`. od/noise/mod.rs:236-248. -/
def StochasticNoise.flags (n : StochasticNoise F) : Nat :=
  let bits := 0
  let bits := if n.whiteNoise.isSome then bits ||| (1 <<< 0) else bits
  if n.bias.isSome then bits ||| (1 <<< 1) else bits

/-- The encoding of `StochasticNoise`. od/noise/mod.rs:402-439. -/
def noiseCodec (p : Prims Byte F) : Codec Byte (StochasticNoise F) where
  enc n := p.u8.enc n.flags ++ (optEnc (whiteCodec p) n.whiteNoise ++ optEnc (gaussMarkovCodec p) n.bias)
  len n := p.u8.len n.flags + optLen (whiteCodec p) n.whiteNoise + optLen (gaussMarkovCodec p) n.bias
  dec bs := do
    let (flags, bs) ← p.u8.dec bs
    let (white, bs) ← optDec (whiteCodec p) (flags &&& (1 <<< 0) != 0) bs
    let (bias, bs) ← optDec (gaussMarkovCodec p) (flags &&& (1 <<< 1) != 0) bs
    pure (⟨white, bias⟩, bs)

/-! ### Ground station -/

/-- `MeasurementType`. od/msr/types.rs:36-57. -/
inductive MsrType where
  | range | doppler | azimuth | elevation | receiveFreq | transmitFreq | transmitFreqRate | x | y | z
deriving DecidableEq

/-- The discriminants. od/msr/types.rs:36-57. -/
def MsrType.tag : MsrType → Nat
  | .range => 0
  | .doppler => 1
  | .azimuth => 2
  | .elevation => 3
  | .receiveFreq => 4
  | .transmitFreq => 5
  | .transmitFreqRate => 9
  | .x => 6
  | .y => 7
  | .z => 8

/-- The derived `TryFrom<u8>`. od/msr/types.rs:34. -/
def MsrType.ofTag : Nat → Option MsrType
  | 0 => some .range
  | 1 => some .doppler
  | 2 => some .azimuth
  | 3 => some .elevation
  | 4 => some .receiveFreq
  | 5 => some .transmitFreq
  | 9 => some .transmitFreqRate
  | 6 => some .x
  | 7 => some .y
  | 8 => some .z
  | _ => none

/-- The derived encoding of `MeasurementType`. -/
def msrTypeCodec (p : Prims Byte F) : Codec Byte MsrType := enumCodec p MsrType.tag MsrType.ofTag

/-- `GroundStation`; `Loc` is the location of anise. The sets and maps keep the order of insertion.
od/ground_station/mod.rs:52-63. -/
structure Station (F Loc : Type) where
  name : String
  location : Loc
  types : List MsrType
  integrationTime : Option Int
  lightTime : Bool
  timestampNoise : Option (StochasticNoise F)
  noises : Option (IMap MsrType (StochasticNoise F))

/-- `available_data`. od/ground_station/mod.rs:229-242. -/
def Station.flags {Loc : Type} (s : Station F Loc) : Nat :=
  let bits := 0
  let bits := if s.integrationTime.isSome then bits ||| (1 <<< 0) else bits
  let bits := if s.timestampNoise.isSome then bits ||| (1 <<< 1) else bits
  if s.noises.isSome then bits ||| (1 <<< 2) else bits

/-- The fields of `MsrNoisePair`. od/ground_station/mod.rs:291-295. -/
def pairFields (p : Prims Byte F) : Codec Byte (MsrType × StochasticNoise F) where
  enc x := (msrTypeCodec p).enc x.1 ++ (noiseCodec p).enc x.2
  len x := (msrTypeCodec p).len x.1 + (noiseCodec p).len x.2
  dec bs := do
    let (t, bs) ← (msrTypeCodec p).dec bs
    let (n, bs) ← (noiseCodec p).dec bs
    pure ((t, n), bs)

/-- The derived encoding of `MsrNoisePair`. od/ground_station/mod.rs:291. -/
def pairCodec (p : Prims Byte F) : Codec Byte (MsrType × StochasticNoise F) := nested p (pairFields p)

/-- `IndexSet::from_iter`: a type already there is not inserted again. -/
def setOf (l : List MsrType) : List MsrType :=
  l.foldl (fun s t => if t ∈ s then s else s ++ [t]) []

/-- `map.insert` for each pair. od/ground_station/mod.rs:327-330. -/
def mapOf (l : List (MsrType × StochasticNoise F)) : IMap MsrType (StochasticNoise F) :=
  l.foldl (fun m x => Tracking.insert m x.1 x.2) []

/-- The encoding of `GroundStation`. od/ground_station/mod.rs:297-400. -/
def stationCodec {Loc : Type} (p : Prims Byte F) (loc : Codec Byte Loc) : Codec Byte (Station F Loc) where
  enc s := p.text.enc s.name ++ (loc.enc s.location ++ ((seqOf p (msrTypeCodec p)).enc s.types ++
    (p.bool.enc s.lightTime ++ (p.u8.enc s.flags ++ (optEnc p.i128 s.integrationTime ++
      (optEnc (noiseCodec p) s.timestampNoise ++ optEnc (seqOf p (pairCodec p)) s.noises))))))
  len s := p.text.len s.name + loc.len s.location + (seqOf p (msrTypeCodec p)).len s.types +
    p.bool.len s.lightTime + p.u8.len s.flags + optLen p.i128 s.integrationTime +
    optLen (noiseCodec p) s.timestampNoise + optLen (seqOf p (pairCodec p)) s.noises
  dec bs := do
    let (name, bs) ← p.text.dec bs
    let (location, bs) ← loc.dec bs
    let (types, bs) ← (seqOf p (msrTypeCodec p)).dec bs
    let (lightTime, bs) ← p.bool.dec bs
    let (flags, bs) ← p.u8.dec bs
    let (integrationTime, bs) ← optDec p.i128 (flags &&& (1 <<< 0) != 0) bs
    let (timestampNoise, bs) ← optDec (noiseCodec p) (flags &&& (1 <<< 1) != 0) bs
    let (noises, bs) ← optDec (seqOf p (pairCodec p)) (flags &&& (1 <<< 2) != 0) bs
    pure (⟨name, location, setOf types, integrationTime, lightTime, timestampNoise, noises.map mapOf⟩, bs)

/-! ### Spacecraft -/

/-- The encoding of `Thruster`. dynamics/guidance/mod.rs:76-94. -/
def thrusterCodec (p : Prims Byte F) : Codec Byte (Thruster F) where
  enc t := p.real.enc t.thrust ++ p.real.enc t.isp
  len t := p.real.len t.thrust + p.real.len t.isp
  dec bs := do
    let (thrust, bs) ← p.real.dec bs
    let (isp, bs) ← p.real.dec bs
    pure (⟨thrust, isp⟩, bs)

/-- `TryFrom<u8>` derived for `GuidanceMode`. cosmic/spacecraft.rs:49-60. -/
def modeOfTag : Nat → Option Mode
  | 0 => some .coast
  | 1 => some .thrust
  | 2 => some .inhibit
  | _ => none

/-- `Spacecraft` as it is encoded: the orbit, the mass, the solar pressure and the drag data are structures of
anise; `Dir` and `Stm` are the types of the thrust direction and of the state transition matrix.
cosmic/spacecraft.rs:112-143. -/
structure Sc (F Orb Mas Srp Drg Dir Stm : Type) where
  orbit : Orb
  mass : Mas
  srp : Srp
  drag : Drg
  thruster : Option (Thruster F)
  mode : Mode
  thrustDirection : Option Dir
  stm : Option Stm

/-- The encoding of `Spacecraft`. cosmic/spacecraft.rs:731-784. -/
def scCodec {Orb Mas Srp Drg Dir Stm : Type} (p : Prims Byte F) (orb : Codec Byte Orb) (mas : Codec Byte Mas)
    (srp : Codec Byte Srp) (drg : Codec Byte Drg) : Codec Byte (Sc F Orb Mas Srp Drg Dir Stm) where
  enc s := orb.enc s.orbit ++ (mas.enc s.mass ++ (srp.enc s.srp ++ (drg.enc s.drag ++
    ((enumCodec p Mode.tag modeOfTag).enc s.mode ++ flagged p (thrusterCodec p) s.thruster))))
  len s := orb.len s.orbit + mas.len s.mass + srp.len s.srp + drg.len s.drag +
    (enumCodec p Mode.tag modeOfTag).len s.mode + p.bool.len s.thruster.isSome +
    optLen (thrusterCodec p) s.thruster
  dec bs := do
    let (o, bs) ← orb.dec bs
    let (m, bs) ← mas.dec bs
    let (r, bs) ← srp.dec bs
    let (d, bs) ← drg.dec bs
    let (mode, bs) ← (enumCodec p Mode.tag modeOfTag).dec bs
    let (b, bs) ← p.bool.dec bs
    let (thruster, bs) ← optDec (thrusterCodec p) b bs
    pure (⟨o, m, r, d, thruster, mode, none, none⟩, bs)

end Verif.Der
