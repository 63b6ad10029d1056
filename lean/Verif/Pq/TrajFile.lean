import Verif.Pq.Table
import Verif.Spacecraft.Value
import Verif.Spacecraft.State
import Verif.Traj.Theorems
/-!
Trajectories in parquet files: `Traj::to_parquet` (nyx-core/src/md/trajectory/traj.rs) and
`Traj<Spacecraft>::from_parquet` (nyx-core/src/md/trajectory/sc_traj.rs).
-/
namespace Verif.Pq
open Verif.Mc (Out)
open Verif.Spacecraft (Craft Param Mode V3 Thruster euclid)

/-- The parameters which may be requested: those of `Param`, and those computed by ANISE from the orbit and the thrust
direction (elements, thrust angles), by number. md/param.rs (`StateParameter`). -/
inductive XPar where
  | core (p : Param) | other (k : Nat)
deriving DecidableEq

/-- The names of the columns: "Epoch (UTC)" and those of the parameters (`Display`, md/param.rs:173-204), all distinct. -/
inductive TCol where
  | epoch | par (p : XPar)
deriving DecidableEq

variable {S Fr D : Type}

/-- What the file is written with: formatting an epoch, serializing a frame (assumed to succeed), the name of a mode,
and the parameters of ANISE. -/
structure Writer (S Fr D : Type) where
  fmt : Int → S
  ser : Fr → D
  modeName : Mode → S
  other : Nat → Craft ℝ Fr → Option ℝ

/-- `value`. cosmic/spacecraft.rs:520-578. -/
noncomputable def Writer.value (w : Writer S Fr D) (s : Craft ℝ Fr) : XPar → Option ℝ
  | .core p => s.value p
  | .other k => w.other k s

/-- `Spacecraft::export_params`. md/trajectory/interpolatable.rs:118-147. -/
def exportParams : List XPar :=
  [.core (.pos 0), .core (.pos 1), .core (.pos 2), .core (.vel 0), .core (.vel 1), .core (.vel 2), .other 0, .other 1,
   .other 2, .other 3, .other 4, .other 5, .other 6, .other 7, .core .dryMass, .core .propMass, .core .cr, .core .cd,
   .core .isp, .core .mode, .core .thrust, .core (.thrustDir 0), .core (.thrustDir 1), .core (.thrustDir 2), .other 8,
   .other 9]

/-- The fields retained: those which some state has. traj.rs:273-289. -/
noncomputable def keptFields (w : Writer S Fr D) (req : List XPar) (xs : List (Craft ℝ Fr)) : List XPar :=
  req.filter fun p => xs.any fun s => (w.value s p).isSome

/-- The field of a parameter, with the frame; nullable if some state does not have it. traj.rs:293,
md/param.rs:147-170. -/
noncomputable def fieldOf (w : Writer S Fr D) (frame : D) (xs : List (Craft ℝ Fr)) (p : XPar) : Fld TCol (Option D) :=
  ⟨.par p, if p = .core .mode then .utf8 else .float64, xs.any fun s => (w.value s p).isNone, some frame⟩

/-- The column of a parameter. traj.rs:308-329. -/
noncomputable def colOf (w : Writer S Fr D) (xs : List (Craft ℝ Fr)) (p : XPar) : Cells S ℝ :=
  if p = .core .mode then .str (xs.map fun s => (w.value s p).map fun v => w.modeName (Mode.ofNum (some v)))
  else .num (xs.map fun s => w.value s p)

/-- The states exported: all of them, or with a bound or a step those of `every_between` (`between`, modelled in
Verif/Traj). traj.rs:238-246. -/
def statesOut (between : Int → Int → Int → Out (List (Craft ℝ Fr))) (l : List (Craft ℝ Fr)) (start stop step : Option Int) :
    Out (List (Craft ℝ Fr)) :=
  if start.isSome || stop.isSome || step.isSome then
    (Mc.unwrap l.head?).bind fun first => (Mc.unwrap l.getLast?).bind fun last =>
    between (step.getD 60000000000) (start.getD first.epoch) (stop.getD last.epoch)
  else .ok l

/-- `Traj::to_parquet`: the contents of the file. `log` tells whether the messages of level info are enabled: their
arguments take the first of the exported states. The metadata of the file and the file system are not modelled.
traj.rs:227-363. -/
noncomputable def trajToFile (w : Writer S Fr D) (log : Bool) (between : Int → Int → Int → Out (List (Craft ℝ Fr)))
    (l : List (Craft ℝ Fr)) (req : Option (List XPar)) (start stop step : Option Int) : Out (File TCol (Option D) S ℝ) :=
  (statesOut between l start stop step).bind fun xs =>
  (Mc.unwrap l.head?).bind fun s0 =>
  let kept := keptFields w (req.getD exportParams) xs
  let hdrs := ⟨.epoch, .utf8, false, none⟩ :: kept.map (fieldOf w (w.ser s0.frame) xs)
  let record := .str (xs.map fun s => some (w.fmt s.epoch)) :: kept.map (colOf w xs)
  if log && xs.isEmpty then .panic
  else Mc.orErr (tryNew hdrs record)

/-! ### Reading -/

/-- A state which is read. Its thrust direction is apart, as it may be made of NaN: `none` if there is no direction,
`some none` if it is NaN. -/
structure Loaded (Fr : Type) where
  craft : Craft ℝ Fr
  dir : Option (Option (V3 ℝ))

/-- `ThrustDirection::from`: 0/0 is NaN. cosmic/spacecraft.rs:93-102. -/
noncomputable def dirFrom (v : V3 ℝ) : Option (V3 ℝ) :=
  haveI := Classical.dec (euclid v = 0)
  if euclid v = 0 then none else some (Spacecraft.unit euclid v)

/-- `set_value` of one component of the thrust direction. cosmic/spacecraft.rs:590-619. -/
noncomputable def setDir (i : Fin 3) (x : ℝ) : Option (Option (V3 ℝ)) → Option (Option (V3 ℝ))
  | none => some (dirFrom (Function.update (fun _ => 0) i x))
  | some none => some none
  | some (some v) => some (dirFrom (Function.update v i x))

/-- `set_value(..).unwrap()`. cosmic/spacecraft.rs:580-683, sc_traj.rs:422. -/
noncomputable def Loaded.set (st : Loaded Fr) (x : ℝ) : Param → Out (Loaded Fr)
  | .thrustDir i => .ok ⟨st.craft, setDir i x st.dir⟩
  | p => (Mc.unwrap (st.craft.setValue euclid x p)).bind fun c => .ok ⟨c, st.dir⟩

/-- The parameters which are looked for. sc_traj.rs:234-248. -/
def foundParams : List Param :=
  [.pos 0, .pos 1, .pos 2, .vel 0, .vel 1, .vel 2, .dryMass, .isp, .propMass, .thrust, .thrustDir 0, .thrustDir 1,
   .thrustDir 2]

/-- The frame: that of the last of the fields looked for which has one (but `prop_mass`); an error if it cannot be
parsed. sc_traj.rs:254-282. -/
def scanFrame (de : D → Option Fr) : List (Fld TCol (Option D)) → Option Fr → Out (Option Fr)
  | [], fr => .ok fr
  | f :: fs, fr =>
    match f.name, f.info with
    | .par (.core p), some d =>
      if p ∈ foundParams ∧ p ≠ .propMass then (Mc.orErr (de d)).bind fun fr' => scanFrame de fs (some fr')
      else scanFrame de fs fr
    | _, _ => scanFrame de fs fr

/-- One cell: set if the file has the column and the cell is not null. sc_traj.rs:375-387, 420-424. -/
noncomputable def applyCell (f : File TCol (Option D) S ℝ) (i : Nat) (st : Loaded Fr) (p : Param) : Out (Loaded Fr) :=
  if hasField f (.par (.core p)) then
    (Mc.unwrap ((column f (.par (.core p))).bind Cells.asNum)).bind fun col =>
    match col[i]? with
    | some (some x) => st.set x p
    | _ => .ok st
  else .ok st

/-- The cells in turn. sc_traj.rs:420-424. -/
noncomputable def applyCells (f : File TCol (Option D) S ℝ) (i : Nat) : List Param → Loaded Fr → Out (Loaded Fr)
  | [], st => .ok st
  | p :: ps, st => (applyCell f i st p).bind fun st' => applyCells f i ps st'

/-- The mode of a row: by its name, `Coast` if it is something else. sc_traj.rs:412-418. -/
def modeOf [DecidableEq S] (modeName : Mode → S) (x : S) : Mode :=
  if x = modeName .thrust then .thrust else if x = modeName .inhibit then .inhibit else .coast

/-- One row. `dflt` is `Spacecraft::default()`. sc_traj.rs:393-425. -/
noncomputable def trajRow [DecidableEq S] (parse : S → Option Int) (modeName : Mode → S) (dflt : Craft ℝ Fr) (frame : Fr)
    (junkS : Nat → S) (f : File TCol (Option D) S ℝ) (epochs : List (Option S)) (modes : Option (List (Option S))) (i : Nat) :
    Out (Loaded Fr) :=
  (Mc.orErr (parse (valueAt junkS epochs i))).bind fun e =>
  let hasThruster := hasField f (.par (.core .isp)) || hasField f (.par (.core .thrust))
  let c : Craft ℝ Fr :=
    { dflt with
      epoch := e, frame := frame, stm := none
      thruster := if hasThruster then some ⟨0, 0⟩ else dflt.thruster
      mode := match modes with
        | some ms => modeOf modeName (valueAt junkS ms i)
        | none => dflt.mode }
  applyCells f i foundParams ⟨c, none⟩

/-- `finalize` of the states read. sc_traj.rs:431. -/
def finalizeLoaded (l : List (Loaded Fr)) : List (Loaded Fr) :=
  (Traj.finalize (l.map fun s => (⟨s.craft.epoch, s⟩ : Traj.TS (Loaded Fr)))).map Traj.TS.x

/-- `Traj<Spacecraft>::from_parquet`. sc_traj.rs:212-434. -/
noncomputable def trajFromFile [DecidableEq S] (parse : S → Option Int) (de : D → Option Fr) (modeName : Mode → S)
    (dflt : Craft ℝ Fr) (junkS : Nat → S) (f : File TCol (Option D) S ℝ) : Out (List (Loaded Fr)) :=
  (scanFrame de (f.map (·.1)) none).bind fun fr =>
  if !hasField f .epoch then .err
  else (Mc.orErr fr).bind fun frame =>
  if !((foundParams.take 6).all fun p => hasField f (.par (.core p))) then .err
  else if !hasField f (.par (.core .propMass)) then .err
  else
    (Mc.unwrap ((column f .epoch).bind Cells.asStr)).bind fun epochs =>
    (if hasField f (.par (.core .mode)) then
      (Mc.unwrap ((column f (.par (.core .mode))).bind Cells.asStr)).bind fun ms => .ok (some ms) else .ok none).bind fun modes =>
    (rows (trajRow parse modeName dflt frame junkS f epochs modes) (List.range (numRows f))).bind fun l =>
    .ok (finalizeLoaded l)

/-! ### Lemmas on the file which is written -/

theorem valueAt_some' {A B : Type} (junk : Nat → B) (l : List A) (g : A → B) (i : Nat) (m : A) (h : l[i]? = some m) :
    valueAt junk (l.map fun m => some (g m)) i = g m := by
  unfold valueAt
  rw [List.getElem?_map, h]
  rfl


/-- The file which is written. -/
noncomputable def trajFile (w : Writer S Fr D) (frame : D) (req : List XPar) (xs : List (Craft ℝ Fr)) :
    File TCol (Option D) S ℝ :=
  (⟨.epoch, .utf8, false, none⟩, .str (xs.map fun s => some (w.fmt s.epoch))) ::
    (keptFields w req xs).map fun p => (fieldOf w frame xs p, colOf w xs p)

theorem traj_written (w : Writer S Fr D) (log : Bool) (between : Int → Int → Int → Out (List (Craft ℝ Fr)))
    (l : List (Craft ℝ Fr)) (s0 : Craft ℝ Fr) (hl : l.head? = some s0) (req : Option (List XPar)) (start stop step : Option Int)
    (xs : List (Craft ℝ Fr)) (hx : statesOut between l start stop step = .ok xs) (hne : xs ≠ [] ∨ log = false) :
    trajToFile w log between l req start stop step = .ok (trajFile w (w.ser s0.frame) (req.getD exportParams) xs) := by
  unfold trajToFile
  rw [hx]
  simp only [Mc.Out.bind, hl, Mc.unwrap]
  have : (log && xs.isEmpty) = false := by
    rcases hne with h | h
    · cases xs with
      | nil => exact absurd rfl h
      | cons => simp
    · simp [h]
  rw [this]
  simp only [Bool.false_eq_true, if_false]
  rw [tryNew_ok _ _ xs.length (by simp) (by simp)]
  · simp only [Mc.orErr, trajFile, List.zip_cons_cons, List.zip_map']
  · intro p hp
    simp only [List.zip_cons_cons, List.zip_map', List.mem_cons, List.mem_map] at hp
    rcases hp with rfl | ⟨q, _, rfl⟩
    · simp [fits, Cells.kind, Cells.length, Cells.hasNull]
    · by_cases hq : q = .core .mode
      · subst hq
        simp [fits, Cells.kind, Cells.length, Cells.hasNull, fieldOf, colOf, Writer.value, Craft.value]
      · simp only [fits, fieldOf, colOf, if_neg hq, Cells.kind, Cells.length, Cells.hasNull, List.length_map, decide_true,
          Bool.true_and, List.any_map, Function.comp_def, Bool.or_not_self]

theorem trajFile_names (w : Writer S Fr D) (frame : D) (req : List XPar) (xs : List (Craft ℝ Fr)) :
    ((trajFile w frame req xs).map fun p => p.1.name) = .epoch :: (keptFields w req xs).map TCol.par := by
  simp [trajFile, Function.comp_def, fieldOf]

theorem trajFile_has (w : Writer S Fr D) (frame : D) (req : List XPar) (xs : List (Craft ℝ Fr)) :
    hasField (trajFile w frame req xs) .epoch = true ∧
    ∀ p, hasField (trajFile w frame req xs) (.par p) = true ↔ p ∈ req ∧ ∃ s ∈ xs, (w.value s p).isSome := by
  refine ⟨by rw [hasField_iff, trajFile_names]; simp, fun p => ?_⟩
  rw [hasField_iff, trajFile_names]
  simp [keptFields]

theorem trajFile_column (w : Writer S Fr D) (frame : D) (req : List XPar) (hn : req.Nodup) (xs : List (Craft ℝ Fr)) :
    column (trajFile w frame req xs) .epoch = some (.str (xs.map fun s => some (w.fmt s.epoch))) ∧
    ∀ p, hasField (trajFile w frame req xs) (.par p) = true →
      column (trajFile w frame req xs) (.par p) = some (colOf w xs p) := by
  have hnd : ((trajFile w frame req xs).map fun p => p.1.name).Nodup := by
    rw [trajFile_names, List.nodup_cons]
    exact ⟨by simp, (hn.filter _).map fun a b h => by injection h⟩
  refine ⟨?_, fun p hp => ?_⟩
  · exact column_mem _ hnd (⟨.epoch, .utf8, false, none⟩, .str (xs.map fun s => some (w.fmt s.epoch))) (by simp [trajFile])
  · have := ((trajFile_has w frame req xs).2 p).mp hp
    refine column_mem _ hnd (fieldOf w frame xs p, colOf w xs p) ?_
    simp only [trajFile, List.mem_cons, List.mem_map]
    exact .inr ⟨p, by simpa [keptFields] using this, rfl⟩

open Classical in
theorem scanFrame_same (de : D → Option Fr) (d : D) (fr : Fr) (hd : de d = some fr) (fs : List (Fld TCol (Option D)))
    (hall : ∀ f ∈ fs, f.info = none ∨ f.info = some d) (acc : Option Fr) :
    scanFrame de fs acc = .ok (if (∃ f ∈ fs, f.info = some d ∧ ∃ p, f.name = .par (.core p) ∧ p ∈ foundParams ∧ p ≠ .propMass)
      then some fr else acc) := by
  induction fs generalizing acc with
  | nil => simp [scanFrame]
  | cons f fs ih =>
    have ih' := ih fun g hg => hall g (List.mem_cons_of_mem _ hg)
    unfold scanFrame
    obtain ⟨name, kind, nullable, info⟩ := f
    have hi := hall _ List.mem_cons_self
    simp only at hi
    rcases hi with rfl | rfl
    · have : ∀ acc, (match name, (none : Option D) with
        | .par (.core p), some d =>
          if p ∈ foundParams ∧ p ≠ .propMass then (Mc.orErr (de d)).bind fun fr' => scanFrame de fs (some fr')
          else scanFrame de fs acc
        | _, _ => scanFrame de fs acc) = scanFrame de fs acc := by
        intro acc
        split
        · rename_i h; simp at h
        · rfl
      simp only [this, ih', List.mem_cons, exists_eq_or_imp, reduceCtorEq, false_and, false_or]
    · cases name with
      | epoch => simp [ih']
      | par q =>
        cases q with
        | other k => simp [ih']
        | core p =>
          simp only
          by_cases hp : p ∈ foundParams ∧ p ≠ .propMass
          · rw [if_pos hp]
            simp only [hd, Mc.orErr, Mc.Out.bind, ih', ite_self]
            rw [if_pos ⟨_, List.mem_cons_self, rfl, p, rfl, hp⟩]
          · rw [if_neg hp, ih']
            apply congrArg
            apply if_congr _ rfl rfl
            simp only [List.mem_cons, exists_eq_or_imp, true_and, TCol.par.injEq, XPar.core.injEq]
            constructor
            · exact .inr
            · rintro (⟨q, rfl, hq⟩ | h)
              · exact absurd hq hp
              · exact h

/-- What a cell of a written file does: it sets the value if the state has one. -/
theorem applyCell_written (w : Writer S Fr D) (frame : D) (req : List XPar) (hn : req.Nodup) (xs : List (Craft ℝ Fr))
    (i : Nat) (s : Craft ℝ Fr) (hs : xs[i]? = some s) (p : Param) (hp : p ≠ .mode) (hr : .core p ∈ req) (st : Loaded Fr) :
    applyCell (trajFile w frame req xs) i st p = (match s.value p with
      | some x => st.set x p
      | none => .ok st) := by
  unfold applyCell
  by_cases hh : hasField (trajFile w frame req xs) (.par (.core p)) = true
  · rw [if_pos hh, (trajFile_column w frame req hn xs).2 _ hh]
    have : (XPar.core p) ≠ .core .mode := fun h => hp (by injection h)
    simp only [colOf, if_neg this, Option.bind_some, Cells.asNum, Mc.unwrap, Mc.Out.bind, List.getElem?_map, hs,
      Option.map_some]
    change (match some (s.value p) with
      | some (some x) => st.set x p
      | _ => .ok st) = _
    cases s.value p <;> rfl
  · rw [if_neg hh]
    have : s.value p = none := by
      by_contra h
      refine hh (((trajFile_has w frame req xs).2 _).mpr ⟨hr, s, List.mem_of_getElem? hs, ?_⟩)
      exact Option.isSome_iff_ne_none.mpr h
    rw [this]

/-- What is read for a state: `anyT` tells whether some state has a thruster. -/
noncomputable def loadedOf (dflt : Craft ℝ Fr) (frame : Fr) (anyT : Bool) (s : Craft ℝ Fr) : Loaded Fr :=
  ⟨{ frame := frame, epoch := s.epoch, pos := s.pos, vel := s.vel, dry := s.dry, prop := s.prop, extra := dflt.extra,
     srpArea := dflt.srpArea, cr := dflt.cr, dragArea := dflt.dragArea, cd := dflt.cd,
     thruster := match s.thruster with
       | some t => some t
       | none => if anyT then some ⟨0, 0⟩ else dflt.thruster
     mode := s.mode, dir := dflt.dir, stm := none },
   match s.dir with
   | some v => setDir 2 (v 2) (setDir 1 (v 1) (setDir 0 (v 0) none))
   | none => none⟩

theorem upd3 (p q : V3 ℝ) : Function.update (Function.update (Function.update p 0 (q 0)) 1 (q 1)) 2 (q 2) = q := by
  funext i
  fin_cases i <;> simp [Function.update]

theorem exportParams_nodup : exportParams.Nodup := by decide

theorem cells_written (w : Writer S Fr D) (fr : D) (xs : List (Craft ℝ Fr)) (i : Nat) (s : Craft ℝ Fr)
    (hs : xs[i]? = some s) (c : Craft ℝ Fr) (hc : s.thruster.isSome → c.thruster.isSome) :
    applyCells (trajFile w fr exportParams xs) i foundParams ⟨c, none⟩ =
      .ok ⟨{ frame := c.frame, epoch := c.epoch, pos := s.pos, vel := s.vel, dry := s.dry, prop := s.prop,
             extra := c.extra, srpArea := c.srpArea, cr := c.cr, dragArea := c.dragArea, cd := c.cd,
             thruster := match s.thruster with
               | some t => some t
               | none => c.thruster
             mode := c.mode, dir := c.dir, stm := c.stm },
           match s.dir with
           | some v => setDir 2 (v 2) (setDir 1 (v 1) (setDir 0 (v 0) none))
           | none => none⟩ := by
  have hcell := fun p hp hr st => applyCell_written w fr exportParams exportParams_nodup xs i s hs p hp hr st
  have h0 := hcell (.pos 0) (by simp) (by decide)
  have h1 := hcell (.pos 1) (by simp) (by decide)
  have h2 := hcell (.pos 2) (by simp) (by decide)
  have h3 := hcell (.vel 0) (by simp) (by decide)
  have h4 := hcell (.vel 1) (by simp) (by decide)
  have h5 := hcell (.vel 2) (by simp) (by decide)
  have h6 := hcell .dryMass (by simp) (by decide)
  have h7 := hcell .isp (by simp) (by decide)
  have h8 := hcell .propMass (by simp) (by decide)
  have h9 := hcell .thrust (by simp) (by decide)
  have h10 := hcell (.thrustDir 0) (by simp) (by decide)
  have h11 := hcell (.thrustDir 1) (by simp) (by decide)
  have h12 := hcell (.thrustDir 2) (by simp) (by decide)
  obtain ⟨cframe, cepoch, cpos, cvel, cdry, cprop, cextra, csrp, ccr, cdrag, ccd, cthr, cmode, cdir, cstm⟩ := c
  obtain ⟨sframe, sepoch, spos, svel, sdry, sprop, sextra, ssrp, scr, sdrag, scd, sthr, smode, sdir, sstm⟩ := s
  simp only at hc
  unfold foundParams
  cases sthr with
  | none =>
    cases sdir with
    | none =>
      simp only [applyCells, h0, h1, h2, h3, h4, h5, h6, h7, h8, h9, h10, h11, h12, Craft.value, Loaded.set, Craft.setValue,
        Mc.unwrap, Mc.Out.bind, Option.map_none, upd3]
    | some v =>
      simp only [applyCells, h0, h1, h2, h3, h4, h5, h6, h7, h8, h9, h10, h11, h12, Craft.value, Loaded.set, Craft.setValue,
        Mc.unwrap, Mc.Out.bind, Option.map_none, Option.map_some, upd3]
  | some t =>
    obtain ⟨ct, rfl⟩ := Option.isSome_iff_exists.mp (hc rfl)
    cases sdir with
    | none =>
      simp only [applyCells, h0, h1, h2, h3, h4, h5, h6, h7, h8, h9, h10, h11, h12, Craft.value, Loaded.set, Craft.setValue,
        Mc.unwrap, Mc.Out.bind, Option.map_none, Option.map_some, upd3]
    | some v =>
      simp only [applyCells, h0, h1, h2, h3, h4, h5, h6, h7, h8, h9, h10, h11, h12, Craft.value, Loaded.set, Craft.setValue,
        Mc.unwrap, Mc.Out.bind, Option.map_none, Option.map_some, upd3]

theorem trajRow_written [DecidableEq S] (w : Writer S Fr D) (hw : w.modeName.Injective) (parse : S → Option Int)
    (hp : ∀ e, parse (w.fmt e) = some e) (dflt : Craft ℝ Fr) (frame : Fr) (fr : D) (junkS : Nat → S) (xs : List (Craft ℝ Fr))
    (i : Nat) (s : Craft ℝ Fr) (hs : xs[i]? = some s) :
    trajRow parse w.modeName dflt frame junkS (trajFile w fr exportParams xs) (xs.map fun s => some (w.fmt s.epoch))
      (some (xs.map fun s => some (w.modeName s.mode))) i =
      .ok (loadedOf dflt frame (xs.any fun s => s.thruster.isSome) s) := by
  have hany : (hasField (trajFile w fr exportParams xs) (.par (.core .isp)) ||
      hasField (trajFile w fr exportParams xs) (.par (.core .thrust))) = xs.any fun s => s.thruster.isSome := by
    rw [Bool.eq_iff_iff, Bool.or_eq_true, (trajFile_has w fr exportParams xs).2, (trajFile_has w fr exportParams xs).2]
    simp [exportParams, Writer.value, Craft.value]
  unfold trajRow
  rw [valueAt_some' _ _ _ _ _ hs, hp, hany]
  have hm : modeOf w.modeName (w.modeName s.mode) = s.mode := by
    unfold modeOf
    simp only [hw.eq_iff]
    cases s.mode <;> simp
  simp only [Mc.orErr, Mc.Out.bind, valueAt_some' _ _ _ _ _ hs, hm]
  rw [cells_written w fr xs i s hs]
  · rfl
  · intro h
    have : (xs.any fun s => s.thruster.isSome) = true := List.any_eq_true.mpr ⟨s, List.mem_of_getElem? hs, h⟩
    simp [this]

/-- The default export is read row by row. -/
theorem traj_read [DecidableEq S] (w : Writer S Fr D) (hw : w.modeName.Injective) (parse : S → Option Int)
    (hp : ∀ e, parse (w.fmt e) = some e) (de : D → Option Fr) (frame : Fr) (hd : de (w.ser frame) = some frame)
    (dflt : Craft ℝ Fr) (junkS : Nat → S) (xs : List (Craft ℝ Fr)) (hne : xs ≠ []) :
    trajFromFile parse de w.modeName dflt junkS (trajFile w (w.ser frame) exportParams xs) =
      .ok (finalizeLoaded (xs.map (loadedOf dflt frame (xs.any fun s => s.thruster.isSome)))) := by
  obtain ⟨x0, hx0⟩ := List.exists_mem_of_ne_nil xs hne
  obtain ⟨he, hhas⟩ := trajFile_has w (w.ser frame) exportParams xs
  obtain ⟨hce, hcol⟩ := trajFile_column w (w.ser frame) exportParams exportParams_nodup xs
  have hfield : ∀ p, .core p ∈ exportParams → (x0.value p).isSome →
      hasField (trajFile w (w.ser frame) exportParams xs) (.par (.core p)) = true :=
    fun p h1 h2 => (hhas _).mpr ⟨h1, x0, hx0, h2⟩
  have hmode := hfield .mode (by decide) rfl
  have hscan : scanFrame de ((trajFile w (w.ser frame) exportParams xs).map (·.1)) none = .ok (some frame) := by
    rw [scanFrame_same de (w.ser frame) frame hd]
    · rw [if_pos]
      refine ⟨fieldOf w (w.ser frame) xs (.core (.pos 0)), ?_, rfl, .pos 0, rfl, by decide, by simp⟩
      simp only [trajFile, List.map_cons, List.map_map, List.mem_cons, List.mem_map]
      refine .inr ⟨.core (.pos 0), ?_, rfl⟩
      simp only [keptFields, List.mem_filter, List.any_eq_true]
      exact ⟨by decide, x0, hx0, rfl⟩
    · intro f hf
      simp only [trajFile, List.map_cons, List.map_map, List.mem_cons, List.mem_map] at hf
      rcases hf with rfl | ⟨p, _, rfl⟩
      · exact .inl rfl
      · exact .inr rfl
  have hsix : ((foundParams.take 6).all fun p => hasField (trajFile w (w.ser frame) exportParams xs) (.par (.core p))) = true := by
    rw [List.all_eq_true]
    intro p hp
    simp only [foundParams, List.take, List.mem_cons, List.not_mem_nil, or_false] at hp
    rcases hp with rfl | rfl | rfl | rfl | rfl | rfl <;> exact hfield _ (by decide) rfl
  have hmc : colOf w xs (.core .mode) = .str (xs.map fun s => some (w.modeName s.mode)) := by
    simp only [colOf, if_true, Writer.value, Craft.value, Option.map_some]
    congr 2
    funext s
    rw [(Spacecraft.mode_round_trip (F := ℝ) s.mode s.mode).1]
  have hrows : rows (trajRow parse w.modeName dflt frame junkS (trajFile w (w.ser frame) exportParams xs)
      (xs.map fun s => some (w.fmt s.epoch)) (some (xs.map fun s => some (w.modeName s.mode)))) (List.range xs.length) =
      .ok (xs.map (loadedOf dflt frame (xs.any fun s => s.thruster.isSome))) := by
    rw [rows_ok _ (fun i => loadedOf dflt frame (xs.any fun s => s.thruster.isSome) (xs.getD i x0))]
    · congr 1
      apply List.ext_getElem
      · simp
      · intro i h1 h2
        simp only [List.length_map, List.length_range] at h1
        simp [List.getD_eq_getElem?_getD, h1]
    · intro i hi
      have hi' : i < xs.length := List.mem_range.mp hi
      apply trajRow_written w hw parse hp
      rw [List.getD_eq_getElem?_getD, List.getElem?_eq_getElem hi']
      rfl
  have hnr : numRows (trajFile w (w.ser frame) exportParams xs) = xs.length := by
    simp [trajFile, numRows, Cells.length]
  unfold trajFromFile
  rw [hscan]
  simp only [Mc.Out.bind, he, Bool.not_true, Bool.false_eq_true, if_false, Mc.orErr, hsix, hfield .propMass (by decide) rfl,
    hce, Option.bind_some, Cells.asStr, Mc.unwrap, hmode, if_true, hcol _ hmode, hmc, hnr, hrows]

theorem finalizeLoaded_id (l : List (Loaded Fr)) (h : (l.map fun s => s.craft.epoch).Pairwise (· < ·)) :
    finalizeLoaded l = l := by
  unfold finalizeLoaded
  rw [Traj.finalize_idem_of_sorted]
  · simp [Function.comp_def]
  · rw [List.pairwise_map] at h
    exact List.pairwise_map.mpr h

/-! ### The thrust direction -/

theorem euclid_eq_zero (v : V3 ℝ) : euclid v = 0 ↔ v 0 = 0 ∧ v 1 = 0 ∧ v 2 = 0 := by
  have h := Spacecraft.euclid_sq v
  constructor
  · intro h0
    rw [h0, mul_zero] at h
    have h1 := mul_self_nonneg (v 0)
    have h2 := mul_self_nonneg (v 1)
    have h3 := mul_self_nonneg (v 2)
    exact ⟨mul_self_eq_zero.mp (by linarith), mul_self_eq_zero.mp (by linarith), mul_self_eq_zero.mp (by linarith)⟩
  · rintro ⟨h0, h1, h2⟩
    rw [h0, h1, h2] at h
    exact mul_self_eq_zero.mp (by linarith)

theorem dirFrom_some (v : V3 ℝ) (h : v 0 ≠ 0) : dirFrom v = some (Spacecraft.unit euclid v) := by
  unfold dirFrom
  rw [if_neg]
  rw [euclid_eq_zero]
  exact fun h' => h h'.1

theorem one_of_sq {n : ℝ} (h : 0 ≤ n) (h1 : n * n = 1) : n = 1 := by
  rcases mul_self_eq_one_iff.mp h1 with h2 | h2
  · exact h2
  · rw [h2] at h
    norm_num at h

/-- **C189.** A thrust direction without a component along x is read back as NaN. -/
theorem direction_nan (y z : ℝ) : setDir 2 z (setDir 1 y (setDir 0 0 none)) = some none := by
  have : dirFrom (Function.update (fun _ => 0) (0 : Fin 3) (0 : ℝ)) = none := by
    unfold dirFrom
    rw [if_pos]
    rw [euclid_eq_zero]
    simp [Function.update]
  simp only [setDir]
  rw [this]

/-- **C189.** A unit thrust direction is read back as it was written only if it is along x.
Missing: all the other directions (`direction_nan`). -/
theorem direction_kept_iff_partial (v : V3 ℝ) (hv : v 0 * v 0 + v 1 * v 1 + v 2 * v 2 = 1) :
    setDir 2 (v 2) (setDir 1 (v 1) (setDir 0 (v 0) none)) = some (some v) ↔ v 1 = 0 ∧ v 2 = 0 := by
  by_cases hx : v 0 = 0
  · rw [hx, direction_nan]
    constructor
    · intro h; simp at h
    · rintro ⟨h1, h2⟩
      rw [hx, h1, h2] at hv
      norm_num at hv
  set w0 : V3 ℝ := Function.update (fun _ => 0) 0 (v 0) with hw0
  have e00 : w0 0 = v 0 := by simp [hw0]
  have e01 : w0 1 = 0 := by simp [hw0]
  have e02 : w0 2 = 0 := by simp [hw0]
  have n0 := Spacecraft.euclid_sq w0
  have p0 : euclid w0 ≠ 0 := by rw [Ne, euclid_eq_zero]; exact fun h => hx (e00 ▸ h.1)
  rw [e00, e01, e02] at n0
  set w1 : V3 ℝ := Function.update (Spacecraft.unit euclid w0) 1 (v 1) with hw1
  have e10 : w1 0 = v 0 / euclid w0 := by simp [hw1, Spacecraft.unit, e00]
  have e11 : w1 1 = v 1 := by simp [hw1]
  have e12 : w1 2 = 0 := by simp [hw1, Spacecraft.unit, e02]
  have h10 : w1 0 ≠ 0 := by rw [e10]; exact div_ne_zero hx p0
  have n1 := Spacecraft.euclid_sq w1
  have p1 : euclid w1 ≠ 0 := by rw [Ne, euclid_eq_zero]; exact fun h => h10 h.1
  have a1 : w1 0 * w1 0 = 1 := by
    rw [e10]
    field_simp
    linarith [n0]
  rw [a1, e11, e12] at n1
  set w2 : V3 ℝ := Function.update (Spacecraft.unit euclid w1) 2 (v 2) with hw2
  have e20 : w2 0 = w1 0 / euclid w1 := by simp [hw2, Spacecraft.unit]
  have e21 : w2 1 = v 1 / euclid w1 := by simp [hw2, Spacecraft.unit, e11]
  have e22 : w2 2 = v 2 := by simp [hw2]
  have h20 : w2 0 ≠ 0 := by rw [e20]; exact div_ne_zero h10 p1
  have n2 := Spacecraft.euclid_sq w2
  have p2 : euclid w2 ≠ 0 := by rw [Ne, euclid_eq_zero]; exact fun h => h20 h.1
  have a2 : w2 0 * w2 0 + w2 1 * w2 1 = 1 := by
    rw [e20, e21]
    field_simp
    nlinarith [a1, n1]
  rw [a2, e22] at n2
  have hset : setDir 2 (v 2) (setDir 1 (v 1) (setDir 0 (v 0) none)) = some (some (Spacecraft.unit euclid w2)) := by
    simp only [setDir]
    rw [← hw0, dirFrom_some w0 (e00 ▸ hx)]
    simp only
    rw [← hw1, dirFrom_some w1 h10]
    simp only
    rw [← hw2, dirFrom_some w2 h20]
  rw [hset, Option.some.injEq, Option.some.injEq]
  have q0 := Spacecraft.euclid_nonneg w0
  have q1 := Spacecraft.euclid_nonneg w1
  have q2 := Spacecraft.euclid_nonneg w2
  constructor
  · intro h
    have hz : v 2 = 0 := by
      have h2 := congrFun h 2
      simp only [Spacecraft.unit, e22] at h2
      rw [div_eq_iff p2] at h2
      by_contra hne
      have : euclid w2 = 1 := mul_left_cancel₀ hne (by linarith)
      rw [this] at n2
      exact hne (mul_self_eq_zero.mp (by linarith))
    have hn2 : euclid w2 = 1 := by
      rw [hz] at n2
      exact one_of_sq q2 (by rw [n2]; ring)
    refine ⟨?_, hz⟩
    have h1 := congrFun h 1
    simp only [Spacecraft.unit, e21, hn2, div_one] at h1
    rw [div_eq_iff p1] at h1
    by_contra hne
    have : euclid w1 = 1 := mul_left_cancel₀ hne (by linarith)
    rw [this] at n1
    exact hne (mul_self_eq_zero.mp (by linarith))
  · rintro ⟨hy, hz⟩
    rw [hy] at n1
    rw [hz] at n2
    rw [hy, hz] at hv
    have hn2 : euclid w2 = 1 := one_of_sq q2 (by rw [n2]; ring)
    have hn1 : euclid w1 = 1 := one_of_sq q1 (by rw [n1]; ring)
    have hn0 : euclid w0 = 1 := one_of_sq q0 (by rw [n0]; linarith)
    funext i
    fin_cases i
    · show w2 0 / euclid w2 = v 0
      rw [hn2, e20, hn1, e10, hn0]
      norm_num
    · show w2 1 / euclid w2 = v 1
      rw [hn2, e21, hn1]
      norm_num
    · show w2 2 / euclid w2 = v 2
      rw [hn2, e22]
      norm_num

/-- **C188 (what is read back).** The default export of a trajectory with increasing epochs is read back with as many
states, in order. Each has its epoch, position, velocity, dry and propellant masses and mode; the frame of the first
state; the coefficients, the areas and the extra mass of the default spacecraft; no state transition matrix. A state
with a thruster has it; a state without one has a thruster of zero thrust if some other state has a thruster. A
state without a thrust direction has none; a direction without a component along x is NaN, and a unit direction is the
same only if it is along x.
Missing from C188: all the fields which come from elsewhere (`traj_roundtrip_false`). -/
theorem traj_read_back_partial [DecidableEq S] (w : Writer S Fr D) (hw : w.modeName.Injective) (parse : S → Option Int)
    (hp : ∀ e, parse (w.fmt e) = some e) (de : D → Option Fr) (hd : ∀ fr, de (w.ser fr) = some fr) (dflt : Craft ℝ Fr)
    (junkS : Nat → S) (log : Bool) (between : Int → Int → Int → Out (List (Craft ℝ Fr))) (l : List (Craft ℝ Fr))
    (s0 : Craft ℝ Fr) (hl : l.head? = some s0) (hs : (l.map fun s => s.epoch).Pairwise (· < ·)) :
    ∃ f b, trajToFile w log between l none none none none = .ok f ∧
      trajFromFile parse de w.modeName dflt junkS f = .ok b ∧ b.length = l.length ∧
      ∀ (i : Nat) s, l[i]? = some s → ∃ st, b[i]? = some st ∧
        st.craft.epoch = s.epoch ∧ st.craft.pos = s.pos ∧ st.craft.vel = s.vel ∧ st.craft.dry = s.dry ∧
        st.craft.prop = s.prop ∧ st.craft.mode = s.mode ∧ st.craft.frame = s0.frame ∧ st.craft.stm = none ∧
        st.craft.cr = dflt.cr ∧ st.craft.cd = dflt.cd ∧ st.craft.extra = dflt.extra ∧
        st.craft.srpArea = dflt.srpArea ∧ st.craft.dragArea = dflt.dragArea ∧
        (∀ t, s.thruster = some t → st.craft.thruster = some t) ∧
        (s.thruster = none → (∃ s' ∈ l, s'.thruster ≠ none) → st.craft.thruster = some ⟨0, 0⟩) ∧
        ((∀ s' ∈ l, s'.thruster = none) → st.craft.thruster = dflt.thruster) ∧
        (s.dir = none → st.dir = none) ∧
        (∀ v, s.dir = some v → v 0 = 0 → st.dir = some none) ∧
        (∀ v, s.dir = some v → v 0 * v 0 + v 1 * v 1 + v 2 * v 2 = 1 →
          (st.dir = some (some v) ↔ v 1 = 0 ∧ v 2 = 0)) := by
  have hne : l ≠ [] := by rintro rfl; simp at hl
  refine ⟨_, _, traj_written w log between l s0 hl none none none none l (by simp [statesOut]) (.inl hne),
    traj_read w hw parse hp de s0.frame (hd _) dflt junkS l hne, ?_, ?_⟩
  · rw [finalizeLoaded_id]
    · simp
    · rw [List.map_map]
      exact hs
  · intro i s hi
    rw [finalizeLoaded_id _ (by rw [List.map_map]; exact hs), List.getElem?_map, hi]
    refine ⟨_, rfl, rfl, rfl, rfl, rfl, rfl, rfl, rfl, rfl, rfl, rfl, rfl, rfl, rfl, ?_, ?_, ?_, ?_, ?_, ?_⟩
    · intro t ht
      simp [loadedOf, ht]
    · rintro ht ⟨s', hs', ht'⟩
      have : (l.any fun s => s.thruster.isSome) = true :=
        List.any_eq_true.mpr ⟨s', hs', Option.isSome_iff_ne_none.mpr ht'⟩
      simp [loadedOf, ht, this]
    · intro hall
      have : (l.any fun s => s.thruster.isSome) = false := by
        rw [List.any_eq_false]
        intro s' hs'
        simp [hall s' hs']
      simp [loadedOf, hall s (List.mem_of_getElem? hi), this]
    · intro h
      simp [loadedOf, h]
    · intro v h h0
      simp only [loadedOf, h, h0]
      exact direction_nan _ _
    · intro v h hv
      simp only [loadedOf, h]
      exact direction_kept_iff_partial v hv

/-- **C188 refuted.** A trajectory with a state whose coefficients, areas or extra mass are not those of the default
spacecraft, or whose frame is not that of the first state, is read back with other values of these. -/
theorem traj_roundtrip_false [DecidableEq S] (w : Writer S Fr D) (hw : w.modeName.Injective) (parse : S → Option Int)
    (hp : ∀ e, parse (w.fmt e) = some e) (de : D → Option Fr) (hd : ∀ fr, de (w.ser fr) = some fr) (dflt : Craft ℝ Fr)
    (junkS : Nat → S) (log : Bool) (between : Int → Int → Int → Out (List (Craft ℝ Fr))) (l : List (Craft ℝ Fr))
    (s0 : Craft ℝ Fr) (hl : l.head? = some s0) (hs : (l.map fun s => s.epoch).Pairwise (· < ·)) (s : Craft ℝ Fr) (hm : s ∈ l)
    (hdiff : s.cr ≠ dflt.cr ∨ s.cd ≠ dflt.cd ∨ s.extra ≠ dflt.extra ∨ s.srpArea ≠ dflt.srpArea ∨
      s.dragArea ≠ dflt.dragArea ∨ s.frame ≠ s0.frame) :
    ∃ f b, trajToFile w log between l none none none none = .ok f ∧
      trajFromFile parse de w.modeName dflt junkS f = .ok b ∧ b.map (fun st => st.craft) ≠ l := by
  obtain ⟨f, b, h1, h2, -, h3⟩ := traj_read_back_partial w hw parse hp de hd dflt junkS log between l s0 hl hs
  refine ⟨f, b, h1, h2, fun h => ?_⟩
  obtain ⟨i, hi, rfl⟩ := List.getElem_of_mem hm
  obtain ⟨st, hst, -, -, -, -, -, -, e1, -, e2, e3, e4, e5, e6, -⟩ := h3 i _ (List.getElem?_eq_getElem hi)
  have : st.craft = l[i] := by
    have h4 : (b.map fun st => st.craft)[i]? = some st.craft := by rw [List.getElem?_map, hst]; rfl
    rw [h, List.getElem?_eq_getElem hi, Option.some.injEq] at h4
    exact h4.symm
  rw [this] at e1 e2 e3 e4 e5 e6
  rcases hdiff with h | h | h | h | h | h
  · exact h e2
  · exact h e3
  · exact h e4
  · exact h e5
  · exact h e6
  · exact h e1

/-- **C188 refuted.** The empty trajectory is not refused: its export panics. -/
theorem empty_trajectory_panics (w : Writer S Fr D) (log : Bool) (between : Int → Int → Int → Out (List (Craft ℝ Fr)))
    (req : Option (List XPar)) (start stop step : Option Int) :
    trajToFile w log between [] req start stop step = .panic := by
  unfold trajToFile statesOut
  split <;> rfl

/-- A window without a state: the export panics if the messages are enabled, and otherwise it writes a file with the
epoch column only, which cannot be read. -/
theorem empty_window [DecidableEq S] (w : Writer S Fr D) (between : Int → Int → Int → Out (List (Craft ℝ Fr)))
    (l : List (Craft ℝ Fr)) (s0 : Craft ℝ Fr) (hl : l.head? = some s0) (req : Option (List XPar)) (start stop step : Option Int)
    (hx : statesOut between l start stop step = .ok []) (parse : S → Option Int) (de : D → Option Fr) (dflt : Craft ℝ Fr)
    (junkS : Nat → S) :
    trajToFile w true between l req start stop step = .panic ∧
    ∃ f, trajToFile w false between l req start stop step = .ok f ∧ f.length = 1 ∧ numRows f = 0 ∧
      trajFromFile parse de w.modeName dflt junkS f = .err := by
  constructor
  · unfold trajToFile
    rw [hx]
    simp [Mc.Out.bind, hl, Mc.unwrap]
  · refine ⟨_, traj_written w false between l s0 hl req start stop step [] hx (.inr rfl), ?_, ?_, ?_⟩
    · simp [trajFile, keptFields]
    · simp [trajFile, numRows, Cells.length]
    · have : trajFile w (w.ser s0.frame) (req.getD exportParams) [] =
          [(⟨.epoch, .utf8, false, none⟩, .str [])] := by
        simp [trajFile, keptFields]
      rw [this]
      simp [trajFromFile, scanFrame, Mc.Out.bind, hasField, Mc.orErr]

/-- **C190.** When the requested fields lack a component of the position or of the velocity or the propellant mass, the file is
written and it cannot be read. -/
theorem missing_field_unreadable [DecidableEq S] (w : Writer S Fr D) (log : Bool)
    (between : Int → Int → Int → Out (List (Craft ℝ Fr))) (l : List (Craft ℝ Fr)) (hne : l ≠ []) (req : List XPar) (p : Param)
    (hp : p = .propMass ∨ (∃ i, p = .pos i) ∨ ∃ i, p = .vel i) (hmiss : .core p ∉ req) (parse : S → Option Int)
    (de : D → Option Fr) (dflt : Craft ℝ Fr) (hd : ∀ fr, de (w.ser fr) = some fr)
    (junkS : Nat → S) :
    ∃ f, trajToFile w log between l (some req) none none none = .ok f ∧
      trajFromFile parse de w.modeName dflt junkS f = .err := by
  obtain ⟨s0, hl⟩ : ∃ s0, l.head? = some s0 := by
    cases l with
    | nil => exact absurd rfl hne
    | cons x l => exact ⟨x, rfl⟩
  refine ⟨_, traj_written w log between l s0 hl (some req) none none none l (by simp [statesOut]) (.inl hne), ?_⟩
  simp only [Option.getD_some]
  have hno : hasField (trajFile w (w.ser s0.frame) req l) (.par (.core p)) = false := by
    rw [← Bool.not_eq_true, (trajFile_has _ _ _ _).2]
    exact fun h => hmiss h.1
  unfold trajFromFile
  rw [scanFrame_same de (w.ser s0.frame) s0.frame (hd _)]
  · simp only [Mc.Out.bind, (trajFile_has _ _ _ _).1, Bool.not_true, Bool.false_eq_true, if_false]
    rcases Classical.em (∃ f ∈ (trajFile w (w.ser s0.frame) req l).map (·.1), f.info = some (w.ser s0.frame) ∧
        ∃ p, f.name = .par (.core p) ∧ p ∈ foundParams ∧ p ≠ .propMass) with hf | hf
    · rw [if_pos hf]
      simp only [Mc.orErr]
      rcases hp with rfl | hp
      · simp [hno]
      · rw [if_pos]
        rw [Bool.not_eq_true', ← Bool.not_eq_true, List.all_eq_true]
        intro h
        have hm : p ∈ foundParams.take 6 := by
          rcases hp with ⟨i, rfl⟩ | ⟨i, rfl⟩ <;> fin_cases i <;> decide
        rw [h p hm] at hno
        exact absurd hno (by simp)
    · rw [if_neg hf]
      rfl
  · intro f hf
    simp only [trajFile, List.map_cons, List.map_map, List.mem_cons, List.mem_map] at hf
    rcases hf with rfl | ⟨p, _, rfl⟩
    · exact .inl rfl
    · exact .inr rfl

/-! ### The hypotheses are met -/

/-- Strings as formatted epochs and names of modes. -/
def exWriter : Writer (Int ⊕ Mode) Unit Unit := ⟨.inl, id, .inr, fun _ _ => none⟩

/-- Parsing an epoch. -/
def exParse : Int ⊕ Mode → Option Int
  | .inl e => some e
  | .inr _ => none

/-- The default spacecraft. -/
noncomputable def exDflt : Craft ℝ Unit :=
  ⟨(), 0, fun _ => 0, fun _ => 0, 0, 0, 0, 0, 1.8, 0, 2.2, none, .coast, none, none⟩

/-- A state with a thruster and a direction along y. -/
noncomputable def exState (e : Int) (t : Option (Thruster ℝ)) : Craft ℝ Unit :=
  ⟨(), e, fun _ => 7000, fun _ => 1, 100, 10, 5, 1, 1.5, 1, 2, t, .thrust, some (fun i => if i = 1 then 1 else 0), none⟩

/-- A trajectory of two states, one of which has a thruster. -/
noncomputable def exTraj : List (Craft ℝ Unit) := [exState 0 (some ⟨1, 300⟩), exState 60 none]

theorem exTraj_increasing : (exTraj.map fun s => s.epoch).Pairwise (· < ·) := by simp [exTraj, exState]

noncomputable example := traj_read_back_partial exWriter (fun _ _ h => by injection h) exParse (fun _ => rfl) some (fun _ => rfl) exDflt
  (fun _ => .inl 0) true (fun _ _ _ => .ok []) exTraj _ rfl exTraj_increasing
noncomputable example := traj_roundtrip_false exWriter (fun _ _ h => by injection h) exParse (fun _ => rfl) some (fun _ => rfl)
  exDflt (fun _ => .inl 0) true (fun _ _ _ => .ok []) exTraj _ rfl exTraj_increasing (exState 60 none) (by simp [exTraj])
  (.inl (by simp only [exState, exDflt]; norm_num))
example : ¬ (setDir 2 0.6 (setDir 1 0 (setDir 0 0.8 none)) = some (some ![0.8, 0, 0.6])) := by
  have h := direction_kept_iff_partial ![0.8, 0, 0.6] (by simp; norm_num)
  simp only [Matrix.cons_val_zero, Matrix.cons_val_one, Matrix.cons_val] at h
  rw [h]
  norm_num
noncomputable example := empty_window exWriter (fun _ _ _ => .ok []) exTraj _ rfl none (some 100) (some 200) none rfl exParse some
  exDflt (fun _ => .inl 0)
noncomputable example := missing_field_unreadable exWriter true (fun _ _ _ => .ok []) exTraj (by simp [exTraj])
  [.core (.pos 0), .core .propMass] (.vel 1) (.inr (.inr ⟨1, rfl⟩)) (by decide) exParse some exDflt (fun _ => rfl) (fun _ => .inl 0)

/-- **C190, in part.** With the default fields, asked for or not, the file of a trajectory with increasing epochs can be read. Missing:
other lists of fields (`missing_field_unreadable`). -/
theorem default_fields_partial [DecidableEq S] (w : Writer S Fr D) (hw : w.modeName.Injective) (parse : S → Option Int)
    (hp : ∀ e, parse (w.fmt e) = some e) (de : D → Option Fr) (hd : ∀ fr, de (w.ser fr) = some fr) (dflt : Craft ℝ Fr)
    (junkS : Nat → S) (log : Bool) (between : Int → Int → Int → Out (List (Craft ℝ Fr))) (l : List (Craft ℝ Fr))
    (hne : l ≠ []) (hs : (l.map fun s => s.epoch).Pairwise (· < ·)) (req : Option (List XPar)) (hreq : req = none ∨ req = some exportParams) :
    ∃ f b, trajToFile w log between l req none none none = .ok f ∧ trajFromFile parse de w.modeName dflt junkS f = .ok b ∧
      b.map (fun st => (st.craft.epoch, st.craft.pos, st.craft.vel, st.craft.prop)) = l.map fun s => (s.epoch, s.pos, s.vel, s.prop) := by
  obtain ⟨s0, hl⟩ : ∃ s0, l.head? = some s0 := by
    cases l with
    | nil => exact absurd rfl hne
    | cons x l => exact ⟨x, rfl⟩
  obtain ⟨f, b, h1, h2, h3, h4⟩ := traj_read_back_partial w hw parse hp de hd dflt junkS log between l s0 hl hs
  refine ⟨f, b, ?_, h2, ?_⟩
  · rcases hreq with rfl | rfl
    · exact h1
    · rw [← h1, traj_written w log between l s0 hl _ none none none l (by simp [statesOut]) (.inl hne),
        traj_written w log between l s0 hl _ none none none l (by simp [statesOut]) (.inl hne)]
      rfl
  · apply List.ext_getElem?
    intro i
    rw [List.getElem?_map, List.getElem?_map]
    cases hi : l[i]? with
    | none =>
      have : b[i]? = none := by
        rw [List.getElem?_eq_none_iff] at hi ⊢
        omega
      rw [this]; rfl
    | some s =>
      obtain ⟨st, e0, e1, e2, e3, -, e5, -⟩ := h4 i s hi
      rw [e0]
      simp [e1, e2, e3, e5]

example := default_fields_partial exWriter (fun _ _ h => by injection h) exParse (fun _ => rfl) some (fun _ => rfl) exDflt (fun _ => .inl 0) true
  (fun _ _ _ => .ok []) exTraj (by simp [exTraj]) exTraj_increasing none (.inl rfl)

end Verif.Pq
