import Verif.Pq.TrajFile
import Verif.Device.Model
/-!
Orbit determination solutions in parquet files: nyx-core/src/od/process/solution/{export,import}.rs.
Numbers are reals with `none` for NaN. The name of the file, the file system, the devices, the log and the other metadata
of the file are not modelled.
-/
namespace Verif.Pq
open Verif.Mc (Out)
open Verif.Spacecraft (Craft Param Mode V3)
open Verif.Device (MsrType)

/-- A number; `none` is NaN. -/
abbrev Num : Type := Option ℝ

/-- `KfEstimate<Spacecraft>`. od/estimate/kfestimate.rs:35-53. -/
structure Est (Fr : Type) where
  nominal : Craft ℝ Fr
  deviation : Fin 9 → ℝ
  covar : Matrix (Fin 9) (Fin 9) ℝ
  covarBar : Matrix (Fin 9) (Fin 9) ℝ
  stm : Matrix (Fin 9) (Fin 9) ℝ
  predicted : Bool

/-- `state()`. od/estimate/mod.rs:54-56. -/
noncomputable def Est.state {Fr : Type} (e : Est Fr) : Craft ℝ Fr := e.nominal.add e.deviation

/-- `Residual`. od/estimate/residual.rs:28-58. -/
structure ORes (S : Type) (m : Nat) where
  epoch : Int
  prefit : Fin m → Num
  postfit : Fin m → Num
  whitened : Fin m → Num
  noise : Fin m → Num
  real : Fin m → Num
  computed : Fin m → Num
  ratio : Num
  rejected : Bool
  tracker : Option S
  types : List MsrType

/-- `ODSolution`, without the devices. od/process/solution/mod.rs:62-89. -/
structure OdSol (S Fr : Type) (m : Nat) where
  estimates : List (Est Fr)
  residuals : List (Option (ORes S m))
  gains : List (Option (Matrix (Fin 9) (Fin m) ℝ))
  ratios : List (Option (Fin 9 → ℝ))
  types : List MsrType

/-- The names of the columns (export.rs:115-342), all distinct. `whitenedT` is a name which only the reader uses. -/
inductive OCol where
  | epoch | par (p : XPar) | sigmaOf (p : XPar) | cov (i j : Fin 9) | sig (i : Fin 9) | ric (i : Fin 6)
  | prefit (t : MsrType) | whitened (j : Nat) | whitenedT (t : MsrType) | postfit (t : MsrType) | noise (t : MsrType)
  | real (t : MsrType) | computed (t : MsrType) | ratio | rejected | tracker
  | gainT (i : Fin 9) (t : MsrType) | gainJ (i : Fin 9) (j : Nat) | fsr (i : Fin 9)
deriving DecidableEq

/-- The metadata of the fields: the frame, the areas for the solar radiation pressure and for the drag. export.rs:122-157. -/
structure Meta (D : Type) where
  frame : D
  srpArea : ℝ
  dragArea : ℝ

variable {S Fr D : Type} {m : Nat}

/-- The vector at the index of the type, residual.rs:134-174; outside of the vector the code panics, which `misTyped` tells. -/
def at_ (types : List MsrType) (v : Fin m → Num) (t : MsrType) : Option Num :=
  if h : t ∈ types ∧ types.idxOf t < m then some (v ⟨types.idxOf t, h.2⟩) else none

/-- A residual with a type outside of its vectors. residual.rs:134-174. -/
def ORes.misTyped (types : List MsrType) (r : ORes S m) : Bool :=
  types.any fun t => decide (t ∈ r.types) && decide (m ≤ r.types.idxOf t)

/-- The orbital elements among the parameters; `elemNo` tells which of the others are. export.rs:174. -/
def isElement (elemNo : Nat → Bool) : XPar → Bool
  | .core (.pos _) => true
  | .core (.vel _) => true
  | .core _ => false
  | .other k => elemNo k

/-- The pairs of the upper triangle, row by row. export.rs:220-233, 400-408. -/
def upperPairs : List (Fin 9 × Fin 9) :=
  (List.finRange 9).flatMap fun i => ((List.finRange 9).filter fun j => decide (i ≤ j)).map fun j => (i, j)

/-- What the file is written with, beside `Writer`: which parameters are elements, `sigma_for`, and the matrix from the RIC
frame to the inertial one (both unwrapped). -/
structure OWriter (S Fr D : Type) extends Writer S Fr D where
  elemNo : Nat → Bool
  sigmaFor : XPar → Est Fr → Option ℝ
  ric : Craft ℝ Fr → Option (Matrix (Fin 6) (Fin 6) ℝ)
  undefined : S

/-- The position and velocity block of a covariance. export.rs:439-440. -/
def orbitBlock (c : Matrix (Fin 9) (Fin 9) ℝ) : Matrix (Fin 6) (Fin 6) ℝ :=
  fun i j => c (i.castLE (by omega)) (j.castLE (by omega))

/-- The covariance written as that in the RIC frame. export.rs:431-445. -/
noncomputable def ricCovar (dcm : Matrix (Fin 6) (Fin 6) ℝ) (c : Matrix (Fin 9) (Fin 9) ℝ) : Matrix (Fin 6) (Fin 6) ℝ :=
  dcm * orbitBlock c * dcm.transpose

/-- The square root: NaN below zero. -/
noncomputable def sqrtN (x : ℝ) : Num := haveI := Classical.dec (x < 0); if x < 0 then none else some (Real.sqrt x)

/-- The fields: those which the first estimate has, without the guidance mode. export.rs:159-168. -/
noncomputable def odFields (w : OWriter S Fr D) (e0 : Est Fr) (req : List XPar) : List XPar :=
  req.filter fun p => (w.toWriter.value e0.state p).isSome && !decide (p = .core .mode)

/-- The headers. export.rs:115-342. -/
noncomputable def odHeaders (w : OWriter S Fr D) (sol : OdSol S Fr m) (info : Meta D) (fields : List XPar) :
    List (Fld OCol (Option (Meta D))) :=
  [⟨.epoch, .utf8, false, none⟩]
  ++ fields.map (fun p => ⟨.par p, .float64, false, some info⟩)
  ++ (fields.filter (isElement w.elemNo)).map (fun p => ⟨.sigmaOf p, .float64, false, some info⟩)
  ++ upperPairs.map (fun q => ⟨.cov q.1 q.2, .float64, false, none⟩)
  ++ (List.finRange 9).map (fun i => ⟨.sig i, .float64, false, none⟩)
  ++ (List.finRange 6).map (fun i => ⟨.ric i, .float64, false, none⟩)
  ++ sol.types.map (fun t => ⟨.prefit t, .float64, true, none⟩)
  ++ (List.finRange m).map (fun j : Fin m => ⟨.whitened j.val, .float64, true, none⟩)
  ++ sol.types.map (fun t => ⟨.postfit t, .float64, true, none⟩)
  ++ sol.types.map (fun t => ⟨.noise t, .float64, true, none⟩)
  ++ sol.types.map (fun t => ⟨.real t, .float64, true, none⟩)
  ++ sol.types.map (fun t => ⟨.computed t, .float64, true, none⟩)
  ++ [⟨.ratio, .float64, true, none⟩, ⟨.rejected, .boolean, true, none⟩, ⟨.tracker, .utf8, true, none⟩]
  ++ (if sol.types.length = m then
        (List.finRange 9).flatMap fun i => sol.types.map fun t => ⟨.gainT i t, .float64, true, none⟩
      else (List.finRange 9).flatMap fun i => (List.finRange m).map fun j : Fin m => ⟨.gainJ i j.val, .float64, true, none⟩)
  ++ (List.finRange 9).map (fun i => ⟨.fsr i, .float64, true, none⟩)

/-- The records, given the estimates and residuals retained. The gains and the ratios are those of the whole solution.
export.rs:375-613. -/
noncomputable def odRecords (w : OWriter S Fr D) (sol : OdSol S Fr m) (fields : List XPar) (es : List (Est Fr))
    (rs : List (Option (ORes S m))) : List (Cells S Num) :=
  [.str (es.map fun e => some (w.fmt e.state.epoch))]
  ++ fields.map (fun p => .num (es.map fun e => some (w.toWriter.value e.state p)))
  ++ (fields.filter (isElement w.elemNo)).map (fun p => .num (es.map fun e => some (w.sigmaFor p e)))
  ++ upperPairs.map (fun q => .num (es.map fun e => some (some (e.covar q.1 q.2))))
  ++ (List.finRange 9).map (fun i => .num (es.map fun e => some (sqrtN (e.covar i i))))
  ++ (List.finRange 6).map (fun i => .num (es.map fun e => some ((w.ric e.state).bind fun d => sqrtN (ricCovar d e.covar i i))))
  ++ sol.types.map (fun t => .num (rs.map fun r => r.bind fun r => at_ r.types r.prefit t))
  ++ (List.finRange m).map (fun j => .num (rs.map fun r => r.map fun r => r.whitened j))
  ++ sol.types.map (fun t => .num (rs.map fun r => r.bind fun r => at_ r.types r.postfit t))
  ++ sol.types.map (fun t => .num (rs.map fun r => r.bind fun r => at_ r.types r.noise t))
  ++ sol.types.map (fun t => .num (rs.map fun r => r.bind fun r => at_ r.types r.real t))
  ++ sol.types.map (fun t => .num (rs.map fun r => r.bind fun r => at_ r.types r.computed t))
  ++ [.num (rs.map fun r => r.map fun r => r.ratio), .flag (rs.map fun r => r.map fun r => r.rejected),
      .str (rs.map fun r => r.map fun r => r.tracker.getD w.undefined)]
  ++ (List.finRange 9).flatMap (fun i => (List.finRange m).map fun j => .num (sol.gains.map fun g => g.map fun k => some (k i j)))
  ++ (List.finRange 9).map (fun i => .num (sol.ratios.map fun q => q.map fun v => some (v i)))

/-- The estimates with their residuals which are retained. export.rs:349-372. -/
noncomputable def odRetained (sol : OdSol S Fr m) (first last : Est Fr) (start stop step : Option Int) :
    List (Est Fr) × List (Option (ORes S m)) :=
  if start.isSome || stop.isSome || step.isSome then
    ((sol.estimates.zip sol.residuals).filter fun p =>
      decide (start.getD first.state.epoch ≤ p.1.state.epoch) && decide (p.1.state.epoch ≤ stop.getD last.state.epoch)).unzip
  else (sol.estimates, sol.residuals)

/-- `ODSolution::to_parquet`: the contents of the file. export.rs:60-668. -/
noncomputable def odToFile (w : OWriter S Fr D) (sol : OdSol S Fr m) (req : Option (List XPar)) (start stop step : Option Int) :
    Out (File OCol (Option (Meta D)) S Num) :=
  match sol.estimates.head?, sol.estimates.getLast? with
  | some e0, some eN =>
    if sol.estimates.length ≠ sol.residuals.length then .err
    else if sol.estimates.length ≠ sol.gains.length then .err
    else if sol.estimates.length ≠ sol.ratios.length then .err
    else
      let info : Meta D := ⟨w.ser e0.state.frame, e0.nominal.srpArea, e0.nominal.dragArea⟩
      let fields := odFields w e0 (req.getD exportParams)
      let r := odRetained sol e0 eN start stop step
      if r.1.any (fun e => fields.any fun p => (w.toWriter.value e.state p).isNone) then .err
      else if r.1.any (fun e => (fields.filter (isElement w.elemNo)).any fun p => (w.sigmaFor p e).isNone) then .panic
      else if r.1.any (fun e => (w.ric e.state).isNone) then .panic
      else if r.2.any (fun o => o.any fun r => r.misTyped sol.types) then .panic
      else Mc.orErr (tryNew (odHeaders w sol info fields) (odRecords w sol fields r.1 r.2))
  | _, _ => .err

/-! ### Reading -/

/-- The types which `MeasurementType::from_str` knows. od/msr/types.rs:172-189. -/
def fromStr : MsrType → Bool
  | .range | .doppler | .azimuth | .elevation | .x | .y | .z => true
  | _ => false

/-- The types found: by the names of the prefit residuals. import.rs:182-194. -/
def typesFound : List (Fld OCol (Option (Meta D))) → List MsrType
  | [] => []
  | f :: fs => match f.name with
    | .prefit t => if fromStr t then t :: typesFound fs else typesFound fs
    | _ => typesFound fs

/-- The metadata: the last of the fields which has some. The frame is read in `de`; an error if it cannot be. import.rs:113-136. -/
def scanMeta (de : D → Option Fr) : List (Fld OCol (Option (Meta D))) → Option (Fr × ℝ × ℝ) → Out (Option (Fr × ℝ × ℝ))
  | [], acc => .ok acc
  | f :: fs, acc => match f.name, f.info with
    | .epoch, _ => scanMeta de fs acc
    | _, none => scanMeta de fs acc
    | _, some i => (Mc.orErr (de i.frame)).bind fun fr => scanMeta de fs (some (fr, i.srpArea, i.dragArea))

/-- A column of numbers; an error if it is missing. -/
def needNum (f : File OCol (Option (Meta D)) S Num) (n : OCol) : Out (List (Option Num)) :=
  Mc.orErr ((column f n).bind Cells.asNum)

/-- A cell, if it is valid. -/
def cellAt {A : Type} (l : List (Option A)) (i : Nat) : Option A := (l[i]?).bind id

/-- A cell of a column which may be missing. import.rs:263-281, 383-401. -/
def optCell (f : File OCol (Option (Meta D)) S Num) (n : OCol) (i : Nat) : Option Num :=
  ((column f n).bind Cells.asNum).bind fun l => cellAt l i

/-- The loop over the types of a row: each with a valid cell takes the next place, missing cells are NaN. The types are in
the order of a hash map. import.rs:392-419. -/
def fillTypes (f : File OCol (Option (Meta D)) S Num) (i : Nat) : List MsrType → Nat → ORes S m → ORes S m
  | [], _, r => r
  | t :: ts, k, r =>
    if h : k < m then
      let c1 := optCell f (.prefit t) i
      let c2 := optCell f (.whitenedT t) i
      let c3 := optCell f (.postfit t) i
      let c4 := optCell f (.noise t) i
      let c5 := optCell f (.real t) i
      let c6 := optCell f (.computed t) i
      if c1.isSome || c2.isSome || c3.isSome || c4.isSome || c5.isSome || c6.isSome then
        fillTypes f i ts (k + 1)
          { r with
            prefit := Function.update r.prefit ⟨k, h⟩ (c1.getD none)
            whitened := Function.update r.whitened ⟨k, h⟩ (c2.getD none)
            postfit := Function.update r.postfit ⟨k, h⟩ (c3.getD none)
            noise := Function.update r.noise ⟨k, h⟩ (c4.getD none)
            real := Function.update r.real ⟨k, h⟩ (c5.getD none)
            computed := Function.update r.computed ⟨k, h⟩ (c6.getD none)
            types := r.types ++ [t] }
      else fillTypes f i ts k r
    else r

/-- The residual of a row: present if the marks of rejection, tracker and ratio are. import.rs:369-446. -/
noncomputable def readResid (f : File OCol (Option (Meta D)) S Num) (order : List MsrType) (epoch : Int) (i : Nat) :
    Option (ORes S m) :=
  match ((column f .rejected).bind Cells.asFlag).bind (cellAt · i), ((column f .tracker).bind Cells.asStr).bind (cellAt · i),
    optCell f .ratio i with
  | some rej, some trk, some ratio =>
    some (fillTypes f i order 0
      ⟨epoch, fun _ => some 0, fun _ => some 0, fun _ => some 0, fun _ => some 0, fun _ => some 0, fun _ => some 0, ratio, rej,
        some trk, []⟩)
  | _, _, _ => none

/-- The gain columns: those of each state item and type found, in order; none at all if one is missing. import.rs:284-317. -/
def gainCols (f : File OCol (Option (Meta D)) S Num) (found : List MsrType) : List (List (Option Num)) :=
  let names := (List.finRange 9).flatMap fun i => found.map fun t => OCol.gainT i t
  if names.all fun n => ((column f n).bind Cells.asNum).isSome then
    names.filterMap fun n => (column f n).bind Cells.asNum
  else []

/-- The cells of a gain in turn: `none` at the first null; past the end of the columns the code panics. import.rs:456-475. -/
def readGain (cols : List (List (Option Num))) (i : Nat) : List Nat → Out (Option (List Num))
  | [] => .ok (some [])
  | k :: ks => match cols[k]? with
    | none => .panic
    | some c => match cellAt c i with
      | none => .ok none
      | some x => (readGain cols i ks).bind fun l => .ok (l.map (x :: ·))

/-- The gain of a row, row by row of the matrix. import.rs:449-477. -/
def readGainRow (m : Nat) (cols : List (List (Option Num))) (i : Nat) : Out (Option (List Num)) :=
  if cols.isEmpty then .ok none else readGain cols i (List.range (9 * m))

/-- The filter-smoother ratio of a row: `none` if a cell is null. import.rs:482-500. -/
def readRatio (f : File OCol (Option (Meta D)) S Num) (i : Nat) : Option (List Num) :=
  (List.finRange 9).mapM fun k => optCell f (.fsr k) i

/-- One row which is read: an estimate of a state with numbers which may be NaN is represented by its cells. -/
structure ORow (S Fr : Type) (m : Nat) where
  epoch : Int
  frame : Fr
  srpArea : ℝ
  dragArea : ℝ
  /-- x, y, z, vx, vy, vz, Cr, Cd, dry mass, propellant mass -/
  state : Param → Num
  covar : Fin 9 → Fin 9 → Num
  resid : Option (ORes S m)
  gain : Option (List Num)
  ratio : Option (List Num)

/-- The parameters of the state which are needed. import.rs:223-237. -/
def odNeeded : List Param :=
  [.pos 0, .pos 1, .pos 2, .vel 0, .vel 1, .vel 2, .cr, .cd, .dryMass, .propMass]

/-- One row. The covariance is symmetric by construction: the cell of the upper triangle. The deviation is zero, the STM
the identity, `covar_bar` the covariance, the estimate not predicted, and the state has the extra mass, thruster, mode and thrust
direction of the default spacecraft: these do not depend on the file. import.rs:322-503. -/
noncomputable def odRow (parse : S → Option Int) (f : File OCol (Option (Meta D)) S Num) (order : List MsrType)
    (gains : List (List (Option Num))) (frame : Fr) (areas : ℝ × ℝ) (junkS : Nat → S) (junk : OCol → Nat → Num)
    (epochs : List (Option S)) (i : Nat) : Out (ORow S Fr m) :=
  (Mc.orErr (parse (valueAt junkS epochs i))).bind fun e =>
  (readGainRow m gains i).bind fun g =>
  .ok {
    epoch := e
    frame := frame
    srpArea := areas.1
    dragArea := areas.2
    state := fun p => ((column f (.par (.core p))).bind Cells.asNum).elim none fun l => valueAt (junk (.par (.core p))) l i
    covar := fun a b =>
      let n := OCol.cov (min a b) (max a b)
      ((column f n).bind Cells.asNum).elim none fun l => valueAt (junk n) l i
    resid := readResid f order e i
    gain := g
    ratio := readRatio f i }

/-- `ODSolution::from_parquet`: the rows, with the types found. `order` is the order of the hash map over these. A file
without rows has no batch, and its columns are not looked at. import.rs:77-541. -/
noncomputable def odFromFile (m : Nat) (parse : S → Option Int) (de : D → Option Fr) (order : List MsrType → List MsrType)
    (junkS : Nat → S) (junk : OCol → Nat → Num) (f : File OCol (Option (Meta D)) S Num) :
    Out (List (ORow S Fr m) × List MsrType) :=
  (scanMeta de (f.map (·.1)) none).bind fun mt =>
  if !hasField f .epoch then .err
  else (Mc.orErr mt).bind fun (frame, areas) =>
  let found := typesFound (f.map (·.1))
  if numRows f = 0 then .ok ([], found)
  else
    (Mc.orErr ((column f .epoch).bind Cells.asStr)).bind fun epochs =>
    if odNeeded.any (fun p => ((column f (.par (.core p))).bind Cells.asNum).isNone) then .err
    else if upperPairs.any (fun q => ((column f (.cov q.1 q.2)).bind Cells.asNum).isNone) then .err
    else
      (rows (odRow parse f (order found) (gainCols f found) frame areas junkS junk epochs) (List.range (numRows f))).bind fun l =>
      .ok (l, found)

end Verif.Pq
