import Verif.Process.Lemmas
/-!
C35: what the solution of `process_arc` contains, and that the process ends.
-/
namespace Verif.Process
open Verif.Kalman Matrix

variable {T K F Ω : Type} [DecidableEq K] {s a m : Nat}

/-! ### Specification vocabulary -/

/-- The estimate of an entry of the solution. -/
def Entry.est : Entry T K Ω s m → Est Ω s
  | .time e => e
  | .msr e _ _ _ _ => e

/-- The epoch of an entry of the solution. -/
def Entry.epoch (x : Entry T K Ω s m) : Int := x.est.nominal.epoch

/-- Time updates on the way from time `t` to a measurement at `goal`: strictly increasing epochs, at most
`maxStep` apart, all of them at least `prec` before the goal. The last index is the epoch of the last one
(or `t`). -/
inductive Ticks (maxStep prec goal : Int) : Int → List (Entry T K Ω s m) → Int → Prop
  | nil (t : Int) : Ticks maxStep prec goal t [] t
  | cons (t : Int) (e : Est Ω s) (L : List (Entry T K Ω s m)) (t' : Int) :
      t < e.nominal.epoch → e.nominal.epoch ≤ t + maxStep → e.nominal.epoch + prec ≤ goal →
      Ticks maxStep prec goal e.nominal.epoch L t' →
      Ticks maxStep prec goal t (.time e :: L) t'

/-- A device that sees the spacecraft whenever it is asked. -/
def Dev.AlwaysSees (dev : Dev T K Ω s m) : Prop := ∀ t traj, dev.measure t traj ≠ .ok none

/-- The measurement updates of one measurement: at its epoch, of its tracker, and for some of the groups
`W` of measurement types, in order. -/
def MsrEntries (z : Meas T K) (W : List (List K)) (body : List (Entry T K Ω s m)) : Prop :=
  ∃ tys : List (List K), tys.Sublist W ∧
    List.Forall₂ (fun x ty => ∃ e r g, x = .msr e r g z.tracker ty ∧ e.nominal.epoch = z.epoch ∧
      r.epoch = z.epoch) body tys

/-- What the solution contains for one measurement. -/
def Visit (prec : Int) (devices : T → Option (Dev T K Ω s m)) (z : Meas T K)
    (body : List (Entry T K Ω s m)) : Prop :=
  (z.rejected = true ∧ ∃ e, body = [.time e] ∧ |e.nominal.epoch - z.epoch| < prec) ∨
  (z.rejected = false ∧ devices z.tracker = none ∧ body = []) ∨
  (z.rejected = false ∧ ∃ dev, devices z.tracker = some dev ∧ ∃ W : List (List K),
    W.flatten = dev.types ∧ (∀ w ∈ W, w ≠ [] ∧ w.length ≤ m) ∧
    MsrEntries z (W.filter fun w => w.any fun ty => (look z.data ty).isSome) body ∧
    (dev.AlwaysSees →
      body.length = (W.filter fun w => w.any fun ty => (look z.data ty).isSome).length))

/-- The solution of an arc: for each measurement in order, the time updates from the epoch of the
previous measurement, then its own entries. -/
inductive Solves (maxStep prec : Int) (devices : T → Option (Dev T K Ω s m)) :
    Int → List (Meas T K) → List (Entry T K Ω s m) → Prop
  | nil (t : Int) : Solves maxStep prec devices t [] []
  | cons (t : Int) (z : Meas T K) (zs : List (Meas T K)) (ticks body rest : List (Entry T K Ω s m))
      (t' : Int) : Ticks maxStep prec z.epoch t ticks t' → z.epoch ≤ t' + maxStep + prec →
      Visit prec devices z body → Solves maxStep prec devices z.epoch zs rest →
      Solves maxStep prec devices t (z :: zs) (ticks ++ body ++ rest)

/-! ### Windows -/

theorem window_flatten (dim : Nat) (types : List K) (n : Nat) :
    ((List.range n).map (window dim types)).flatten = types.take (n * dim) := by
  induction n with
  | zero => simp
  | succ n ih =>
    rw [List.range_succ, List.map_append, List.flatten_append, ih]
    simp only [List.map_cons, List.map_nil, List.flatten_cons, List.flatten_nil, List.append_nil,
      window]
    rw [Nat.succ_mul, List.take_add]

/-- The windows partition the types of the device, in groups of at most the dimension. -/
theorem windows_partition (dim : Nat) (hdim : 0 < dim) (types : List K) :
    (windows dim types).flatten = types ∧ ∀ w ∈ windows dim types, w ≠ [] ∧ w.length ≤ dim := by
  have hnil : ∀ (l : List (List K)), (∀ i (hi : i < l.length), l[i] = [] → ∀ j (hj : j < l.length), i ≤ j → l[j] = []) →
      (l.takeWhile fun w => !w.isEmpty).flatten = l.flatten := by
    intro l
    induction l with
    | nil => simp
    | cons x l ih =>
      intro h
      by_cases hx : x = []
      · subst hx
        have h0 : ∀ y ∈ l, y = [] := by
          intro y hy
          obtain ⟨j, hj, rfl⟩ := List.getElem_of_mem hy
          have := h 0 (by simp) rfl (j + 1) (by simpa using hj) (by omega)
          simpa using this
        simp [List.takeWhile_cons]
        exact h0
      · have : (!x.isEmpty) = true := by simp [hx]
        rw [List.takeWhile_cons, if_pos this, List.flatten_cons, List.flatten_cons, ih]
        intro i hi h1 j hj hij
        have := h (i + 1) (by simpa using hi) (by simpa using h1) (j + 1) (by simpa using hj) (by omega)
        simpa using this
  constructor
  · unfold windows
    rw [hnil, window_flatten, List.take_of_length_le]
    · have := Nat.lt_div_mul_add (a := types.length) hdim
      rw [Nat.succ_mul]; omega
    · intro i hi h1 j hj hij
      simp only [List.getElem_map, List.getElem_range, window] at h1 ⊢
      rw [List.take_eq_nil_iff] at h1 ⊢
      rcases h1 with h1 | h1
      · omega
      · right
        rw [List.drop_eq_nil_iff] at h1 ⊢
        exact le_trans h1 (Nat.mul_le_mul_right _ hij)
  · intro w hw
    unfold windows at hw
    have h1 := List.all_eq_true.1 (List.all_takeWhile (l := (List.range (types.length / dim + 1)).map (window dim types)) (p := fun w => !w.isEmpty)) w hw
    obtain ⟨i, _, rfl⟩ := List.mem_map.1 ((List.takeWhile_sublist _).subset hw)
    refine ⟨by simpa using h1, ?_⟩
    unfold window
    exact List.length_take_le _ _

example : windows 2 [1, 2, 3] = [[1, 2], [3]] := by decide
example : windows 2 [1, 2, 3, 4] = [[1, 2], [3, 4]] := by decide

/-! ### The trace -/

theorem oneWindow_sol {cfg : Cfg T K F Ω s a m}
    {arc : PArc T K} {z : Meas T K} {dev : Dev T K Ω s m} {types : List K}
    {st st' : PSt T K F Ω s a m} (hat : st.inst.state.epoch = z.epoch)
    (h : oneWindow cfg arc z dev types st = .ok st') :
    (st'.sol = st.sol ∧ (z.anyAvailable types = false ∨ dev.measure st.epoch st.traj = .ok none)) ∨
    (z.anyAvailable types = true ∧ ∃ e r g, st'.sol = st.sol ++ [.msr e r g z.tracker types] ∧
      e.nominal.epoch = z.epoch ∧ r.epoch = z.epoch) := by
  rcases oneWindow_ok h with ⟨rfl, h1⟩ | ⟨_, _, _, _, _, kf', e, r, g, hav, _, _, _, _, _, hu, rfl⟩
  · exact Or.inl ⟨rfl, h1⟩
  · refine Or.inr ⟨hav, e, r, g, rfl, ?_, ?_⟩
    · rw [(msrUpdate_nominal hu).1, hat]
    · obtain ⟨_, _, _, _, _, _, h1, _⟩ := measurementUpdate_ok hu
      rw [h1, hat]

theorem allWindows_sol {cfg : Cfg T K F Ω s a m} (hplus : ∀ x d, (cfg.plus x d).epoch = x.epoch)
    {arc : PArc T K} {z : Meas T K} {dev : Dev T K Ω s m} (ws : List (List K)) :
    ∀ {st st' : PSt T K F Ω s a m}, st.inst.state.epoch = z.epoch →
    allWindows cfg arc z dev ws st = .ok st' →
    ∃ body, st'.sol = st.sol ++ body ∧
      MsrEntries z (ws.filter fun w => w.any fun ty => (look z.data ty).isSome) body ∧
      (dev.AlwaysSees → body.length = (ws.filter fun w => w.any fun ty => (look z.data ty).isSome).length) := by
  induction ws with
  | nil =>
    intro st st' _ h
    cases h
    exact ⟨[], by simp, ⟨[], by simp, .nil⟩, fun _ => rfl⟩
  | cons w ws ih =>
    intro st st' hat h
    obtain ⟨st1, h1, h2⟩ := Res.bind_eq_ok.1 h
    have hat1 : st1.inst.state.epoch = z.epoch := by rw [(oneWindow_epoch hplus h1).1, hat]
    obtain ⟨body, hb1, ⟨tys, hs, hf⟩, hb3⟩ := ih hat1 h2
    rcases oneWindow_sol hat h1 with ⟨hs1, hno⟩ | ⟨hav, e, r, g, hs1, he, hr⟩
    · refine ⟨body, by rw [hb1, hs1], ⟨tys, ?_, hf⟩, ?_⟩
      · refine hs.trans (List.Sublist.filter _ (List.sublist_cons_self _ _))
      · intro hsee
        rcases hno with hno | hno
        · rw [List.filter_cons_of_neg]
          · exact hb3 hsee
          · unfold Meas.anyAvailable at hno; simp only [hno]; simp
        · exact absurd hno (hsee _ _)
    · have hav' : (w.any fun ty => (look z.data ty).isSome) = true := hav
      refine ⟨.msr e r g z.tracker w :: body, by rw [hb1, hs1]; simp, ⟨w :: tys, ?_, ?_⟩, ?_⟩
      · rw [List.filter_cons_of_pos (p := fun w : List K => w.any fun ty => (look z.data ty).isSome) hav']
        exact hs.cons_cons _
      · exact .cons ⟨e, r, g, rfl, he, hr⟩ hf
      · intro hsee
        rw [List.filter_cons_of_pos (p := fun w : List K => w.any fun ty => (look z.data ty).isSome) hav', List.length_cons, List.length_cons, hb3 hsee]

theorem atMeasurement_sol {cfg : Cfg T K F Ω s a m} (hm : 0 < m)
    (hplus : ∀ x d, (cfg.plus x d).epoch = x.epoch)
    {arc : PArc T K} {z : Meas T K} {st st' : PSt T K F Ω s a m}
    (hc : |st.inst.state.epoch - z.epoch| < cfg.precision)
    (h : atMeasurement cfg arc z st = .ok st') :
    ∃ body, st'.sol = st.sol ++ body ∧ Visit cfg.precision cfg.devices z body := by
  unfold atMeasurement at h
  simp only at h
  split at h
  · rename_i hr
    obtain ⟨kf', e, ht, rfl⟩ := timeUp_ok h
    refine ⟨[.time e], rfl, Or.inl ⟨hr, e, rfl, ?_⟩⟩
    rw [(timeUpdate_nominal ht).1]
    exact hc
  · rename_i hr
    have hr : z.rejected = false := by simpa using hr
    split at h
    · rename_i hd
      cases h
      exact ⟨[], by simp, Or.inr (Or.inl ⟨hr, hd, rfl⟩)⟩
    · rename_i dev hd
      obtain ⟨body, h1, h2, h3⟩ := allWindows_sol hplus _ (by rfl) h
      obtain ⟨hw1, hw2⟩ := windows_partition m hm dev.types
      exact ⟨body, h1, Or.inr (Or.inr ⟨hr, dev, hd, _, hw1, hw2, h2, h3⟩)⟩

theorem advanceTo_sol {cfg : Cfg T K F Ω s a m} (hm : 0 < m)
    (hplus : ∀ x d, (cfg.plus x d).epoch = x.epoch)
    {arc : PArc T K} {z : Meas T K} {lo : Int} (hlo : 0 < lo) (hadv : Arrives cfg.adv lo)
    (hmax : 0 < cfg.maxStep) (hprec : 0 < cfg.precision) (n : Nat) :
    ∀ {st st' : PSt T K F Ω s a m}, lo ≤ st.inst.step →
      |st.inst.state.epoch - st.epoch| < cfg.precision →
      advanceTo cfg arc z n st = some (.ok st') →
      ∃ ticks body t', st'.sol = st.sol ++ (ticks ++ body) ∧
        Ticks cfg.maxStep cfg.precision z.epoch st.inst.state.epoch ticks t' ∧
        z.epoch ≤ t' + cfg.maxStep + cfg.precision ∧ Visit cfg.precision cfg.devices z body := by
  induction n with
  | zero => intro st st' _ _ h; simp [advanceTo] at h
  | succ n ih =>
    intro st st' hs hoff h
    rw [advanceTo] at h
    cases ha : cfg.adv st.inst (nextStep cfg z st) with
    | err => rw [ha] at h; simp at h
    | panic => rw [ha] at h; simp at h
    | ok pr =>
      obtain ⟨p, states⟩ := pr
      rw [ha] at h
      simp only at h
      have hst := hadv.step _ _ _ _ ha hs
      have he := hadv.epoch _ _ _ _ ha
      have hns : nextStep cfg z st ≤ cfg.maxStep := by unfold nextStep; omega
      split at h
      · rename_i hc
        simp only [Option.some.injEq] at h
        obtain ⟨body, h1, h2⟩ := atMeasurement_sol hm hplus (by exact hc) h
        refine ⟨[], body, _, by rw [h1]; rfl, .nil _, ?_, h2⟩
        rw [abs_lt] at hc
        omega
      · rename_i hc
        split at h
        · rename_i st2 ht
          obtain ⟨kf', e, htu, rfl⟩ := timeUp_ok ht
          obtain ⟨ticks, body, t', h1, h2, h3, h4⟩ := ih (by exact hst)
            (by simpa [resetStm] using hprec) h
          have hen : e.nominal.epoch = p.state.epoch := by rw [(timeUpdate_nominal htu).1]
          refine ⟨.time e :: ticks, body, t', by rw [h1]; simp, ?_, h3, h4⟩
          have hstep : nextStep cfg z st ≠ z.epoch - st.epoch := by
            intro h0
            apply hc
            rw [he, h0]
            rw [show st.inst.state.epoch + (z.epoch - st.epoch) - z.epoch =
                st.inst.state.epoch - st.epoch by ring]
            exact hoff
          have hlt : nextStep cfg z st < z.epoch - st.epoch ∧ 0 < nextStep cfg z st := by
            unfold nextStep at hstep ⊢; omega
          rw [abs_lt] at hoff hc
          refine .cons _ _ _ _ (by rw [hen, he]; omega) (by rw [hen, he]; omega) ?_ ?_
          · rw [hen]; omega
          · rw [hen]; exact h2
        · simp at h
        · simp at h

theorem processAll_sol {cfg : Cfg T K F Ω s a m} (hm : 0 < m)
    (hplus : ∀ x d, (cfg.plus x d).epoch = x.epoch)
    {arc : PArc T K} {lo : Int} (hlo : 0 < lo) (hadv : Arrives cfg.adv lo)
    (hmax : 0 < cfg.maxStep) (hprec : 0 < cfg.precision) (n : Nat) (zs : List (Meas T K)) :
    ∀ {st st' : PSt T K F Ω s a m}, lo ≤ st.inst.step →
      |st.inst.state.epoch - st.epoch| < cfg.precision →
      processAll cfg arc n zs st = some (.ok st') →
      ∃ L, st'.sol = st.sol ++ L ∧
        Solves cfg.maxStep cfg.precision cfg.devices st.inst.state.epoch zs L := by
  induction zs with
  | nil =>
    intro st st' _ _ h
    simp only [processAll, Option.some.injEq, Res.ok.injEq] at h
    subst h
    exact ⟨[], by simp, .nil _⟩
  | cons z zs ih =>
    intro st st' hs hoff h
    rw [processAll] at h
    split at h
    · cases h
    · rename_i st1 ha
      obtain ⟨ticks, body, t', h1, h2, h3, h4⟩ := advanceTo_sol hm hplus hlo hadv hmax hprec n hs hoff ha
      obtain ⟨k1, k2, k3⟩ := advanceTo_after hplus hadv n hs ha
      obtain ⟨L, h5, h6⟩ := ih k2 (by rw [k1]; exact k3) h
      refine ⟨ticks ++ body ++ L, by rw [h5, h1]; simp, ?_⟩
      rw [k1] at h6
      exact .cons _ _ _ _ _ _ _ h2 h3 h4 h6
    · rename_i hne _
      simp only [Option.some.injEq] at h
      exact absurd h (hne _)

theorem start_step (cfg : Cfg T K F Ω s a m) (e0 : Est Ω s) {lo : Int}
    (h1 : cfg.fixed = true → lo ≤ cfg.propStep) (h2 : cfg.fixed = false → lo ≤ cfg.maxStep) :
    lo ≤ (start cfg e0).inst.step := by
  show lo ≤ if cfg.fixed then cfg.propStep else cfg.maxStep
  cases hf : cfg.fixed
  · simpa using h2 hf
  · simpa using h1 hf

/-- **C35.** A solution returned by `process_arc` is: for each measurement in the order of the arc, time
updates at strictly increasing epochs with gaps of at most the maximum step, all before the measurement,
then the entries of the measurement (`Visit`): one time update if it was rejected by the user, none if its tracker
is unknown, and otherwise measurement updates at exactly its epoch for groups of at most `m`
measurement types, each type of the device being in exactly one group; all groups for which the
measurement has data if the device sees the spacecraft.
The propagator is any that arrives and leaves steps of at least `lo`. -/
theorem process_trace (cfg : Cfg T K F Ω s a m) (hm : 0 < m)
    (hplus : ∀ x d, (cfg.plus x d).epoch = x.epoch) {lo : Int} (hlo : 0 < lo)
    (hadv : Arrives cfg.adv lo) (hf : cfg.fixed = true → lo ≤ cfg.propStep)
    (hv : cfg.fixed = false → lo ≤ cfg.maxStep) (hprec : 0 < cfg.precision)
    (fuel : Nat) (e0 : Est Ω s) (arc : PArc T K) (sol : List (Entry T K Ω s m))
    (h : processArc cfg fuel e0 arc = some (.ok sol)) :
    Solves cfg.maxStep cfg.precision cfg.devices e0.nominal.epoch arc.measurements sol := by
  unfold processArc at h
  split at h
  · simp at h
  · rename_i hc
    split at h
    · cases h
    · rename_i st hst
      simp only [Option.some.injEq, Res.ok.injEq] at h
      subst h
      obtain ⟨L, h1, h2⟩ := processAll_sol hm hplus hlo hadv (by omega) hprec fuel _
        (start_step cfg e0 hf hv) (by simpa [start] using hprec) hst
      rw [h1]
      simpa [start] using h2
    · cases h
    · cases h

/-- **C35 (termination).** For any arc, sorted or not, the process ends: a solution, an error of the
propagator, the filter or a device, or a panic of one of them. -/
theorem process_terminates (cfg : Cfg T K F Ω s a m)
    (hplus : ∀ x d, (cfg.plus x d).epoch = x.epoch) {lo : Int} (hlo : 0 < lo)
    (hadv : Arrives cfg.adv lo) (hf : cfg.fixed = true → lo ≤ cfg.propStep)
    (hv : cfg.fixed = false → lo ≤ cfg.maxStep) (hprec : 0 < cfg.precision)
    (e0 : Est Ω s) (arc : PArc T K) :
    ∃ fuel r, processArc cfg fuel e0 arc = some r := by
  by_cases hc : arc.measurements.length < 2 ∨ cfg.maxStep ≤ 0
  · exact ⟨0, .err, by unfold processArc; rw [if_pos hc]⟩
  have hmax : 0 < cfg.maxStep := by omega
  have key : ∀ (zs : List (Meas T K)) (st : PSt T K F Ω s a m), lo ≤ st.inst.step →
      |st.inst.state.epoch - st.epoch| < cfg.precision →
      ∃ fuel r, processAll cfg arc fuel zs st = some r := by
    intro zs
    induction zs with
    | nil => intro st _ _; exact ⟨0, _, rfl⟩
    | cons z zs ih =>
      intro st hs hoff
      have hpos : 0 < min lo cfg.maxStep := by omega
      let n : Nat := (z.epoch - st.inst.state.epoch).toNat + 1
      have hn : z.epoch - st.inst.state.epoch ≤ ((n : Int) - 1) * min lo cfg.maxStep := by
        have h1 : z.epoch - st.inst.state.epoch ≤ ((z.epoch - st.inst.state.epoch).toNat : Int) :=
          Int.self_le_toNat _
        have h2 : ((z.epoch - st.inst.state.epoch).toNat : Int) ≤
            ((z.epoch - st.inst.state.epoch).toNat : Int) * min lo cfg.maxStep :=
          le_mul_of_one_le_right (by omega) (by omega)
        simp only [n]
        push_cast
        rw [add_sub_cancel_right]
        simp only [Int.toNat_eq_max] at h1 h2 ⊢
        omega
      obtain ⟨r, hr⟩ := advanceTo_terminates cfg arc z hlo hadv hmax hprec n st hs hoff
        (Or.inr ⟨by omega, hn⟩)
      cases r with
      | err => exact ⟨n + 1, .err, by rw [processAll, hr]⟩
      | panic => exact ⟨n + 1, .panic, by rw [processAll, hr]⟩
      | ok st1 =>
        obtain ⟨k1, k2, k3⟩ := advanceTo_after hplus hadv (n + 1) hs hr
        obtain ⟨f2, r, h2⟩ := ih st1 k2 (by rw [k1]; exact k3)
        refine ⟨n + 1 + f2, r, ?_⟩
        rw [processAll, advanceTo_mono cfg arc z (n + 1) st _ f2 hr]
        simp only
        rw [show n + 1 + f2 = f2 + (n + 1) by omega]
        exact processAll_mono cfg arc f2 (n + 1) zs st1 r h2
  obtain ⟨fuel, r, h⟩ := key arc.measurements (start cfg e0) (start_step cfg e0 hf hv)
    (by simpa [start] using hprec)
  refine ⟨fuel, ?_⟩
  unfold processArc
  rw [if_neg hc, h]
  cases r <;> exact ⟨_, rfl⟩

/-- A one dimensional process for the examples: the propagator moves the epoch, there is one device
"1" of types 0 and 1. -/
def exDev : Dev Nat Nat Unit 1 1 where
  types := [0, 1]
  hTilde _ _ _ := .ok 1
  covar _ _ := .ok 1
  bias _ _ := .ok 0
  measure _ _ := .ok (some [(0, 0), (1, 0)])

/-- Epochs in nanoseconds: steps of 10, precision 2. -/
def exCfg : Cfg Nat Nat Unit Unit 1 3 1 where
  maxStep := 10
  precision := 2
  sigmaReject := none
  variant := .deviationTracking
  noises := []
  fixed := false
  propStep := 5
  devices t := if t = 1 then some exDev else none
  adv p d := .ok (⟨⟨p.state.orbit, p.state.epoch + d, p.state.stm⟩, p.step⟩, [])
  plus x _ := x
  chol _ _ := some 1
  dcm _ _ := none

def exArc : PArc Nat Nat where
  measurements := [⟨1, 25, [(0, some 1), (1, some 2)], false⟩, ⟨1, 25, [(0, some 1)], true⟩,
    ⟨7, 30, [], false⟩, ⟨1, 41, [(1, some 3)], false⟩]
  moduli := none
  forceReject := false

def exEst : Est Unit 1 := ⟨⟨(), 0, none⟩, 0, 1, 1, 1, false⟩

theorem exCfg_arrives : Arrives exCfg.adv 10 where
  epoch p d p' l h := by
    simp only [exCfg, Res.ok.injEq, Prod.mk.injEq] at h
    rw [← h.1]
  step p d p' l h hs := by
    simp only [exCfg, Res.ok.injEq, Prod.mk.injEq] at h
    rw [← h.1]; exact hs

theorem exCfg_runs : ∃ sol, processArc exCfg 10 exEst exArc = some (.ok sol) ∧
    sol.map Entry.epoch = [10, 20, 25, 25, 25, 41] := ⟨_, rfl, rfl⟩

/-- The hypotheses of `process_trace` and `process_terminates` are met. -/
example : ∃ sol, Solves 10 2 exCfg.devices 0 exArc.measurements sol ∧
    sol.map Entry.epoch = [10, 20, 25, 25, 25, 41] := by
  obtain ⟨sol, h, h2⟩ := exCfg_runs
  exact ⟨sol, process_trace exCfg (by decide) (fun _ _ => rfl) (lo := 10) (by decide) exCfg_arrives
    (fun h => by cases h) (fun _ => le_refl _) (by decide) 10 exEst exArc sol h, h2⟩

example : processArc exCfg 10 exEst exArc ≠ none := by
  obtain ⟨sol, h, -⟩ := exCfg_runs
  simp [h]

end Verif.Process
