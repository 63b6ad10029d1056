import Verif.Pq.TrajFile
import Verif.Traj.Convert
/-!
The file of the difference of two trajectories: `Traj::ric_diff_to_parquet` (nyx-core/src/md/trajectory/traj.rs).
-/
namespace Verif.Pq
open Verif.Mc (Out)
open Verif.Spacecraft (Craft Param)
open Verif.Traj (allOk allOk_iff)

/-- The names of the columns: "Epoch (UTC)", "Delta X (RIC) (km)" … "Delta Vz (RIC) (km/s)", by number, and those of the
parameters, all distinct. -/
inductive RCol where
  | epoch | ric (i : Fin 6) | par (p : XPar)
deriving DecidableEq

variable {S Fr D : Type}

/-- The fields kept: not the guidance mode, and those that the first state has. traj.rs:466-473. -/
noncomputable def ricFields (w : Writer S Fr D) (req : List XPar) (first : Craft ℝ Fr) : List XPar :=
  req.filter fun p => decide (p ≠ .core .mode) && (w.value first p).isSome

/-- The difference of a parameter between two states, an error if one does not have it. traj.rs:545-559. -/
noncomputable def valueDiff (w : Writer S Fr D) (p : XPar) (q : Craft ℝ Fr × Craft ℝ Fr) : Option ℝ :=
  (w.value q.2 p).bind fun a => (w.value q.1 p).bind fun b => some (a - b)

/-- `Traj::ric_diff_to_parquet`: the contents of the file. `between1` and `between2` are `every_between` of the two
trajectories, `ric s o` is `s.ric_difference(&o)` (ANISE), and `smooth` is the median filter on a component, with half of
its window (modelled in Verif/Traj). traj.rs:411-591. -/
noncomputable def ricToFile (w : Writer S Fr D) (between1 between2 : Int → Int → Int → Out (List (Craft ℝ Fr)))
    (ric : Craft ℝ Fr → Craft ℝ Fr → Option (Fin 6 → ℝ)) (smooth : Nat → List ℝ → List ℝ) (l1 l2 : List (Craft ℝ Fr))
    (req : Option (List XPar)) (step : Option Int) : Out (File RCol (Option D) S ℝ) :=
  (Mc.unwrap l1.head?).bind fun f1 =>
  (Mc.unwrap l2.head?).bind fun f2 =>
  (Mc.unwrap l1.getLast?).bind fun e1 =>
  (Mc.unwrap l2.getLast?).bind fun e2 =>
  let fields := ricFields w (req.getD exportParams) f1
  let start := if f1.epoch > f2.epoch then f1.epoch else f2.epoch
  let stop := if e1.epoch > e2.epoch then e2.epoch else e1.epoch
  (between1 (step.getD 60000000000) start stop).bind fun xs =>
  (between2 (step.getD 60000000000) start stop).bind fun ys =>
  (Mc.orErr (allOk (fun q => ric q.2 q.1) (ys.zip xs))).bind fun diffs =>
  let half := if ys.length > 5 then 2 else 0
  (Mc.orErr (allOk (fun p => allOk (valueDiff w p) (ys.zip xs)) fields)).bind fun cols =>
  let hdrs := ⟨.epoch, .utf8, false, none⟩ :: ((List.finRange 6).map fun i => ⟨.ric i, .float64, false, none⟩) ++
    fields.map fun p => ⟨.par p, .float64, false, some (w.ser f1.frame)⟩
  let record := .str (xs.map fun s => some (w.fmt s.epoch)) ::
    ((List.finRange 6).map fun i => .num ((smooth half (diffs.map fun d => d i)).map some)) ++
    cols.map fun c => .num (c.map some)
  Mc.orErr (tryNew hdrs record)

theorem ricFields_nodup (w : Writer S Fr D) {req : List XPar} (h : req.Nodup) (f : Craft ℝ Fr) : (ricFields w req f).Nodup :=
  h.filter _

/-- **The file of the difference.** For two trajectories that are not empty, whose states at the epochs from the later of
the two starts to the earlier of the two ends are `xs` and `ys`, as many of one as of the other, and of which every
requested parameter that the first state has can be computed, the file holds the epochs, the filtered differences in the
RIC frame, and the differences of the parameters, of the first trajectory minus the second. -/
theorem ric_file_partial (w : Writer S Fr D) {between1 between2 : Int → Int → Int → Out (List (Craft ℝ Fr))}
    {ric : Craft ℝ Fr → Craft ℝ Fr → Option (Fin 6 → ℝ)} {smooth : Nat → List ℝ → List ℝ}
    (hsm : ∀ h l, (smooth h l).length = l.length) {l1 l2 : List (Craft ℝ Fr)} {f1 f2 e1 e2 : Craft ℝ Fr}
    (hf1 : l1.head? = some f1) (hf2 : l2.head? = some f2) (he1 : l1.getLast? = some e1) (he2 : l2.getLast? = some e2)
    {req : Option (List XPar)} (hreq : (req.getD exportParams).Nodup) {step : Option Int} {xs ys : List (Craft ℝ Fr)}
    (hx : between1 (step.getD 60000000000) (max f1.epoch f2.epoch) (min e1.epoch e2.epoch) = .ok xs)
    (hy : between2 (step.getD 60000000000) (max f1.epoch f2.epoch) (min e1.epoch e2.epoch) = .ok ys)
    (hlen : xs.length = ys.length) {d : Craft ℝ Fr → Craft ℝ Fr → Fin 6 → ℝ}
    (hric : ∀ q ∈ ys.zip xs, ric q.2 q.1 = some (d q.2 q.1)) {v : XPar → Craft ℝ Fr → ℝ}
    (hval : ∀ p ∈ req.getD exportParams, p ≠ .core .mode → (w.value f1 p).isSome →
      (∀ s ∈ xs, w.value s p = some (v p s)) ∧ ∀ s ∈ ys, w.value s p = some (v p s)) :
    ∃ f, ricToFile w between1 between2 ric smooth l1 l2 req step = .ok f ∧
      column f .epoch = some (.str (xs.map fun s => some (w.fmt s.epoch))) ∧
      (∀ i, column f (.ric i) = some (.num ((smooth (if ys.length > 5 then 2 else 0)
        ((xs.zip ys).map fun q => d q.1 q.2 i)).map some))) ∧
      ∀ p, (p ∈ req.getD exportParams ∧ p ≠ .core .mode ∧ (w.value f1 p).isSome →
          column f (.par p) = some (.num ((xs.zip ys).map fun q => some (v p q.1 - v p q.2)))) ∧
        (¬(p ∈ req.getD exportParams ∧ p ≠ .core .mode ∧ (w.value f1 p).isSome) → hasField f (.par p) = false) := by
  have hstart : (if f1.epoch > f2.epoch then f1.epoch else f2.epoch) = max f1.epoch f2.epoch := by split_ifs <;> omega
  have hstop : (if e1.epoch > e2.epoch then e2.epoch else e1.epoch) = min e1.epoch e2.epoch := by split_ifs <;> omega
  have hzip : ∀ {B : Type} (g : Craft ℝ Fr × Craft ℝ Fr → B), (ys.zip xs).map g = (xs.zip ys).map fun q => g (q.2, q.1) := by
    intro B g
    rw [← List.zip_swap, List.map_map]
    rfl
  have hd : allOk (fun q => ric q.2 q.1) (ys.zip xs) = some ((ys.zip xs).map fun q => d q.2 q.1) := by
    rw [allOk_iff, List.map_map]
    exact List.map_congr_left fun q hq => hric q hq
  have hmem : ∀ p, p ∈ ricFields w (req.getD exportParams) f1 ↔
      (p ∈ req.getD exportParams ∧ p ≠ .core .mode ∧ (w.value f1 p).isSome) := by
    intro p; simp [ricFields]
  have hc : allOk (fun p => allOk (valueDiff w p) (ys.zip xs)) (ricFields w (req.getD exportParams) f1) =
      some ((ricFields w (req.getD exportParams) f1).map fun p => (ys.zip xs).map fun q => v p q.2 - v p q.1) := by
    rw [allOk_iff, List.map_map]
    refine List.map_congr_left fun p hp => ?_
    have hp' := (hmem p).1 hp
    obtain ⟨h1, h2⟩ := hval p hp'.1 hp'.2.1 hp'.2.2
    simp only [Function.comp_def]
    rw [allOk_iff, List.map_map]
    refine List.map_congr_left fun q hq => ?_
    have hq' := List.of_mem_zip (show (q.1, q.2) ∈ ys.zip xs from hq)
    rw [valueDiff, h1 q.2 hq'.2, h2 q.1 hq'.1]
    rfl
  let fld : RCol → Fld RCol (Option D) := fun n => match n with
    | .epoch => ⟨.epoch, .utf8, false, none⟩
    | .ric i => ⟨.ric i, .float64, false, none⟩
    | .par p => ⟨.par p, .float64, false, some (w.ser f1.frame)⟩
  let col : RCol → Cells S ℝ := fun n => match n with
    | .epoch => .str (xs.map fun s => some (w.fmt s.epoch))
    | .ric i => .num ((smooth (if ys.length > 5 then 2 else 0) (((ys.zip xs).map fun q => d q.2 q.1).map fun d => d i)).map some)
    | .par p => .num (((ys.zip xs).map fun q => v p q.2 - v p q.1).map some)
  let names : List RCol := .epoch :: (List.finRange 6).map RCol.ric ++ (ricFields w (req.getD exportParams) f1).map RCol.par
  have hnd : names.Nodup := by
    simp only [names]
    rw [List.cons_append, List.nodup_cons, List.nodup_append]
    refine ⟨by simp, ?_, ?_, ?_⟩
    · exact (List.nodup_finRange 6).map fun a b h => by injection h
    · exact (ricFields_nodup w hreq f1).map fun a b h => by injection h
    · intro a ha b hb hab
      simp only [List.mem_map] at ha hb
      obtain ⟨i, -, rfl⟩ := ha
      obtain ⟨p, -, rfl⟩ := hb
      cases hab
  have hfile : ricToFile w between1 between2 ric smooth l1 l2 req step = .ok (names.map fun n => (fld n, col n)) := by
    simp only [ricToFile, hf1, hf2, he1, he2, Mc.unwrap, Mc.Out.bind, hstart, hstop, hx, hy, hd, hc, Mc.orErr]
    have h1 : (⟨.epoch, .utf8, false, none⟩ :: ((List.finRange 6).map fun i => (⟨.ric i, .float64, false, none⟩ : Fld RCol (Option D))) ++
        (ricFields w (req.getD exportParams) f1).map fun p => ⟨.par p, .float64, false, some (w.ser f1.frame)⟩) = names.map fld := by
      simp [names, fld, Function.comp_def]
    have h2 : (.str (xs.map fun s => some (w.fmt s.epoch)) :: ((List.finRange 6).map fun i =>
        (.num ((smooth (if ys.length > 5 then 2 else 0) (((ys.zip xs).map fun q => d q.2 q.1).map fun d => d i)).map some) : Cells S ℝ)) ++
        ((ricFields w (req.getD exportParams) f1).map fun p => (ys.zip xs).map fun q => v p q.2 - v p q.1).map
          fun c => .num (c.map some)) = names.map col := by
      simp [names, col, Function.comp_def]
    rw [h1, h2, tryNew_ok _ _ xs.length (by simp) (by simp [names, col, Cells.length])]
    · simp only [List.zip_map']
    · intro p hp
      rw [List.zip_map', List.mem_map] at hp
      obtain ⟨n, -, rfl⟩ := hp
      cases n with
      | epoch => simp [fits, fld, col, Cells.kind, Cells.length, Cells.hasNull]
      | ric i => simp [fits, fld, col, Cells.kind, Cells.length, Cells.hasNull, hsm, hlen]
      | par p => simp [fits, fld, col, Cells.kind, Cells.length, Cells.hasNull, hlen]
  have hcol : ∀ n ∈ names, column (names.map fun n => (fld n, col n)) n = some (col n) := by
    intro n hn
    have h0 : (fld n).name = n := by cases n <;> rfl
    have := column_mem (names.map fun n => (fld n, col n)) (by
      rw [List.map_map]
      have : ((fun p : Fld RCol (Option D) × Cells S ℝ => p.1.name) ∘ fun n => (fld n, col n)) = id := by
        funext n; cases n <;> rfl
      rw [this, List.map_id]; exact hnd) (fld n, col n) (List.mem_map_of_mem hn)
    rwa [h0] at this
  refine ⟨_, hfile, hcol _ (by simp [names]), fun i => ?_, fun p => ⟨fun hp => ?_, fun hp => ?_⟩⟩
  · rw [hcol _ (by simp [names])]
    simp only [col, List.map_map, hzip, Function.comp_def]
  · rw [hcol _ (by simp [names, hmem, hp])]
    simp only [col, List.map_map, hzip, Function.comp_def]
  · rw [← Bool.not_eq_true, hasField_iff, List.map_map]
    intro h
    rw [List.mem_map] at h
    obtain ⟨n, hn, hn'⟩ := h
    have h0 : (fld n).name = n := by cases n <;> rfl
    simp only [Function.comp_def, h0] at hn'
    subst hn'
    simp only [names, List.cons_append, List.mem_cons, List.mem_append, List.mem_map, reduceCtorEq, false_or, and_false,
      exists_false, RCol.par.injEq, exists_eq_right, hmem] at hn
    exact hp hn

/-- An empty trajectory panics. -/
theorem ric_empty_panics (w : Writer S Fr D) (between1 between2 : Int → Int → Int → Out (List (Craft ℝ Fr)))
    (ric : Craft ℝ Fr → Craft ℝ Fr → Option (Fin 6 → ℝ)) (smooth : Nat → List ℝ → List ℝ) (l1 l2 : List (Craft ℝ Fr))
    (req : Option (List XPar)) (step : Option Int) (h : l1 = [] ∨ l2 = []) :
    ricToFile w between1 between2 ric smooth l1 l2 req step = .panic := by
  rcases h with rfl | rfl
  · rfl
  · cases l1 <;> rfl

/-- **A parameter that only some states have.** If the first state has a requested parameter, other than the mode, and
some other compared state does not, nothing is written. -/
theorem ric_missing_fails (w : Writer S Fr D) {between1 between2 : Int → Int → Int → Out (List (Craft ℝ Fr))}
    {ric : Craft ℝ Fr → Craft ℝ Fr → Option (Fin 6 → ℝ)} {smooth : Nat → List ℝ → List ℝ}
    {l1 l2 : List (Craft ℝ Fr)} {f1 f2 e1 e2 : Craft ℝ Fr}
    (hf1 : l1.head? = some f1) (hf2 : l2.head? = some f2) (he1 : l1.getLast? = some e1) (he2 : l2.getLast? = some e2)
    {req : Option (List XPar)} {step : Option Int} {xs ys : List (Craft ℝ Fr)}
    (hx : between1 (step.getD 60000000000) (max f1.epoch f2.epoch) (min e1.epoch e2.epoch) = .ok xs)
    (hy : between2 (step.getD 60000000000) (max f1.epoch f2.epoch) (min e1.epoch e2.epoch) = .ok ys)
    {p : XPar} (hp : p ∈ req.getD exportParams) (hm : p ≠ .core .mode) (hv : (w.value f1 p).isSome)
    {q : Craft ℝ Fr × Craft ℝ Fr} (hq : q ∈ xs.zip ys) (hn : w.value q.1 p = none ∨ w.value q.2 p = none) :
    ricToFile w between1 between2 ric smooth l1 l2 req step = .err := by
  have hstart : (if f1.epoch > f2.epoch then f1.epoch else f2.epoch) = max f1.epoch f2.epoch := by split_ifs <;> omega
  have hstop : (if e1.epoch > e2.epoch then e2.epoch else e1.epoch) = min e1.epoch e2.epoch := by split_ifs <;> omega
  have hq' : (q.2, q.1) ∈ ys.zip xs := by
    rw [← List.zip_swap, List.mem_map]
    exact ⟨q, hq, rfl⟩
  simp only [ricToFile, hf1, hf2, he1, he2, Mc.unwrap, Mc.Out.bind, hstart, hstop, hx, hy]
  cases allOk (fun q => ric q.2 q.1) (ys.zip xs) with
  | none => rfl
  | some ds =>
    simp only [Mc.orErr]
    cases hc : allOk (fun p => allOk (valueDiff w p) (ys.zip xs)) (ricFields w (req.getD exportParams) f1) with
    | none => rfl
    | some cs =>
      exfalso
      rw [allOk_iff] at hc
      have h1 : allOk (valueDiff w p) (ys.zip xs) ∈ cs.map some := by
        rw [← hc]
        exact List.mem_map_of_mem (f := fun p => allOk (valueDiff w p) (ys.zip xs)) (by simp [ricFields, hp, hm, hv])
      rw [List.mem_map] at h1
      obtain ⟨c, -, h1⟩ := h1
      have h2 := (allOk_iff _ _ _).1 h1.symm
      have h3 : valueDiff w p (q.2, q.1) ∈ c.map some := by
        rw [← h2]; exact List.mem_map_of_mem hq'
      rw [List.mem_map] at h3
      obtain ⟨x, -, h3⟩ := h3
      rcases hn with hn | hn
      · simp [valueDiff, hn] at h3
      · cases ha : w.value q.1 p <;> simp [valueDiff, hn, ha] at h3

/-- **The other trajectory stops early.** If fewer states of the second trajectory could be computed than of the first,
nothing is written. -/
theorem ric_shorter_fails (w : Writer S Fr D) {between1 between2 : Int → Int → Int → Out (List (Craft ℝ Fr))}
    {ric : Craft ℝ Fr → Craft ℝ Fr → Option (Fin 6 → ℝ)} {smooth : Nat → List ℝ → List ℝ}
    (hsm : ∀ h l, (smooth h l).length = l.length)
    {l1 l2 : List (Craft ℝ Fr)} {f1 f2 e1 e2 : Craft ℝ Fr}
    (hf1 : l1.head? = some f1) (hf2 : l2.head? = some f2) (he1 : l1.getLast? = some e1) (he2 : l2.getLast? = some e2)
    {req : Option (List XPar)} {step : Option Int} {xs ys : List (Craft ℝ Fr)}
    (hx : between1 (step.getD 60000000000) (max f1.epoch f2.epoch) (min e1.epoch e2.epoch) = .ok xs)
    (hy : between2 (step.getD 60000000000) (max f1.epoch f2.epoch) (min e1.epoch e2.epoch) = .ok ys)
    (hlt : ys.length < xs.length) :
    ricToFile w between1 between2 ric smooth l1 l2 req step = .err := by
  have hstart : (if f1.epoch > f2.epoch then f1.epoch else f2.epoch) = max f1.epoch f2.epoch := by split_ifs <;> omega
  have hstop : (if e1.epoch > e2.epoch then e2.epoch else e1.epoch) = min e1.epoch e2.epoch := by split_ifs <;> omega
  simp only [ricToFile, hf1, hf2, he1, he2, Mc.unwrap, Mc.Out.bind, hstart, hstop, hx, hy]
  cases hd : allOk (fun q => ric q.2 q.1) (ys.zip xs) with
  | none => rfl
  | some ds =>
    simp only [Mc.orErr]
    cases allOk (fun p => allOk (valueDiff w p) (ys.zip xs)) (ricFields w (req.getD exportParams) f1) with
    | none => rfl
    | some cs =>
      have hl : ds.length = ys.length := by
        have := congrArg List.length ((allOk_iff _ _ _).1 hd)
        simp only [List.length_map, List.length_zip] at this
        omega
      simp only
      rw [tryNew_ragged _ _ (.str (xs.map fun s => some (w.fmt s.epoch)))
        (.num ((smooth (if ys.length > 5 then 2 else 0) (ds.map fun d => d 0)).map some)) (by simp)
        (by
          rw [List.cons_append, List.mem_cons, List.mem_append]
          exact .inr (.inl (List.mem_map.2 ⟨0, List.mem_finRange _, rfl⟩)))
        (by simp only [Cells.length, List.length_map, hsm]; omega)]

/-! ### The hypotheses are met -/

/-- Differences component by component. -/
noncomputable def exRic (a b : Craft ℝ Unit) : Fin 6 → ℝ := fun i => a.pos 0 - b.pos 0 + (i : ℕ)

noncomputable example := ric_file_partial exWriter (between1 := fun _ _ _ => .ok [exState 60 (some ⟨1, 300⟩)])
  (between2 := fun _ _ _ => .ok [exState 60 (some ⟨2, 200⟩)]) (ric := fun a b => some (exRic a b)) (smooth := fun _ l => l)
  (fun _ _ => rfl) (l1 := exTraj) (l2 := [exState 60 (some ⟨2, 200⟩), exState 120 none]) rfl rfl rfl rfl
  (req := some [.core .thrust, .core .mode, .core (.pos 0)]) (by decide) (step := none) rfl rfl rfl (d := exRic)
  (fun _ _ => rfl) (v := fun p s => (exWriter.value s p).getD 0) (by
    intro p hp hm _
    simp only [Option.getD_some, List.mem_cons, List.not_mem_nil, or_false] at hp
    rcases hp with rfl | rfl | rfl
    · simp [exWriter, Writer.value, Craft.value, exState]
    · exact absurd rfl hm
    · simp [exWriter, Writer.value, Craft.value, exState])

noncomputable example := ric_missing_fails exWriter (between1 := fun _ _ _ => .ok exTraj)
  (between2 := fun _ _ _ => .ok exTraj) (ric := fun a b => some (exRic a b)) (smooth := fun _ l => l)
  (l1 := exTraj) (l2 := exTraj) rfl rfl rfl rfl (req := none) (step := none) rfl rfl (p := .core .thrust)
  (by decide) (by decide) rfl (q := (exState 60 none, exState 60 none)) (by simp [exTraj]) (.inl rfl)

noncomputable example := ric_shorter_fails exWriter (between1 := fun _ _ _ => .ok exTraj)
  (between2 := fun _ _ _ => .ok [exState 0 none]) (ric := fun a b => some (exRic a b)) (smooth := fun _ l => l)
  (fun _ _ => rfl) (l1 := exTraj) (l2 := exTraj) rfl rfl rfl rfl (req := none) (step := none) rfl rfl (by decide)

noncomputable example := ric_empty_panics exWriter (between1 := fun _ _ _ => .ok exTraj)
  (between2 := fun _ _ _ => .ok exTraj) (ric := fun a b => some (exRic a b)) (smooth := fun _ l => l)
  (l1 := []) (l2 := exTraj) (h := .inl rfl)

end Verif.Pq
