import Verif.Process.Theorems
import Verif.Process.Trace
/-!
Where the residuals of a solution come from, and what happens to values that are not finite.
-/
namespace Verif.Process
open Verif.Kalman Matrix

variable {T K F Ω : Type} [DecidableEq K] {s a m : Nat}

/-- A residual of types `types` comes from measurement `z` of the arc: the row of a type is the
difference of the measured value, up to an integer number of moduli, and of what the device computes for
a trajectory at an epoch within the precision, less its bias. -/
def From (cfg : Cfg T K F Ω s a m) (arc : PArc T K) (z : Meas T K) (tracker : T) (types : List K)
    (r : Resid m) : Prop :=
  tracker = z.tracker ∧ z.rejected = false ∧
  ∃ dev t l comp b, cfg.devices z.tracker = some dev ∧ |t - z.epoch| < cfg.precision ∧
    dev.measure t l = .ok (some comp) ∧ dev.bias types t = .ok b ∧
    (∃ ty ∈ types, (look z.data ty).isSome) ∧ r.prefit = r.realObs - r.computedObs ∧
    ∀ (i : Fin m) (ty : K), types[i.val]? = some ty →
      look z.data ty ≠ some none ∧
      (∀ v, look z.data ty = some (some v) →
        (arc.moduli = none → r.realObs i = v) ∧
        (∀ ms, arc.moduli = some ms → look ms ty = none → r.realObs i = v) ∧
        ∀ ms md, arc.moduli = some ms → look ms ty = some md → ∃ k : Int, r.realObs i = v + k * md) ∧
      ∀ c, look comp ty = some c → r.computedObs i = c - b i

/-- When a residual is flagged as rejected. -/
def Flag (cfg : Cfg T K F Ω s a m) (arc : PArc T K) (r : Resid m) : Prop :=
  (arc.forceReject = true → (r.rejected = true ↔ 0 < r.ratio)) ∧
  (arc.forceReject = false → (r.rejected = true ↔ ∃ n, cfg.sigmaReject = some n ∧ n < r.ratio))

theorem oneWindow_from {cfg : Cfg T K F Ω s a m} {arc : PArc T K} {z : Meas T K}
    {dev : Dev T K Ω s m} {types : List K} {st st' : PSt T K F Ω s a m}
    (hd : cfg.devices z.tracker = some dev) (hz : z.rejected = false)
    (he : |st.epoch - z.epoch| < cfg.precision)
    (h : oneWindow cfg arc z dev types st = .ok st') :
    st'.epoch = st.epoch ∧ ∃ body, st'.sol = st.sol ++ body ∧
      ∀ x ∈ body, ∃ e r g tr tys, x = .msr e r g tr tys ∧ From cfg arc z tr tys r ∧ Flag cfg arc r := by
  rcases oneWindow_ok h with ⟨rfl, _⟩ | ⟨real, H, R, comp, b, kf', e, r, g, hav, hobs, _, _, hm, hb, hu, rfl⟩
  · exact ⟨rfl, [], by simp, by simp⟩
  · obtain ⟨_, _, _, _, _, _, _, h2, h3, h4, _, _, h5, _⟩ := measurementUpdate_ok hu
    refine ⟨rfl, _, rfl, fun x hx => ?_⟩
    rw [List.mem_singleton] at hx
    refine ⟨e, r, g, z.tracker, types, hx, ⟨rfl, hz, dev, st.epoch, st.traj, comp, b, hd, he, hm, hb, ?_, ?_, ?_⟩, ?_⟩
    · unfold Meas.anyAvailable at hav
      simpa using hav
    · rw [h2, h3, h4]
    · intro i ty hi
      have hmem : ty ∈ types := List.mem_of_getElem? hi
      have hfin : look z.data ty ≠ some none := by
        intro hn
        unfold observation at hobs
        split at hobs
        · rename_i hall
          have := List.all_eq_true.1 hall ty hmem
          rw [hn] at this
          simp at this
        · cases hobs
      refine ⟨hfin, fun v hv => ?_, fun c hc => ?_⟩
      · have hr : real i = v := by
          unfold observation at hobs
          split at hobs
          · cases hobs
            simp only [hi, hv]
          · cases hobs
        obtain ⟨k1, k2⟩ := resolve_integer arc.moduli types (obsOf m comp types - b) real i
        have h3 : r.realObs i = resolve arc.moduli types (obsOf m comp types - b) real i := by rw [h3]
        rw [h3]
        refine ⟨fun h0 => ?_, fun ms h0 h1 => ?_, fun ms md h0 h1 => ?_⟩
        · rw [k2 (Or.inl h0), hr]
        · rw [k2 (Or.inr ⟨ms, ty, h0, hi, h1⟩), hr]
        · obtain ⟨k, hk⟩ := k1 ms ty md h0 hi h1
          exact ⟨k, by rw [hk, hr]⟩
      · rw [h4]
        simp only [Pi.sub_apply, obsOf, hi, hc, Option.getD_some]
    · refine ⟨fun h0 => ?_, fun h0 => ?_⟩
      · rw [h5]; simp [threshold, h0]
      · rw [h5]; simp [threshold, h0]

theorem allWindows_from {cfg : Cfg T K F Ω s a m} {arc : PArc T K} {z : Meas T K}
    {dev : Dev T K Ω s m} (hd : cfg.devices z.tracker = some dev) (hz : z.rejected = false)
    (ws : List (List K)) : ∀ {st st' : PSt T K F Ω s a m}, |st.epoch - z.epoch| < cfg.precision →
    allWindows cfg arc z dev ws st = .ok st' →
    ∃ body, st'.sol = st.sol ++ body ∧
      ∀ x ∈ body, ∃ e r g tr tys, x = .msr e r g tr tys ∧ From cfg arc z tr tys r ∧ Flag cfg arc r := by
  induction ws with
  | nil => intro st st' _ h; cases h; exact ⟨[], by simp, by simp⟩
  | cons w ws ih =>
    intro st st' he h
    obtain ⟨st1, h1, h2⟩ := Res.bind_eq_ok.1 h
    obtain ⟨k0, b1, k1, k2⟩ := oneWindow_from hd hz he h1
    obtain ⟨b2, k3, k4⟩ := ih (by rw [k0]; exact he) h2
    refine ⟨b1 ++ b2, by rw [k3, k1, List.append_assoc], fun x hx => ?_⟩
    rcases List.mem_append.1 hx with hx | hx
    · exact k2 x hx
    · exact k4 x hx

/-- What an entry of the solution is. -/
def Origin (cfg : Cfg T K F Ω s a m) (arc : PArc T K) (zs : List (Meas T K)) :
    Entry T K Ω s m → Prop
  | .time _ => True
  | .msr _ r _ tr tys => (∃ z ∈ zs, From cfg arc z tr tys r) ∧ Flag cfg arc r

theorem advanceTo_from {cfg : Cfg T K F Ω s a m} {arc : PArc T K} {z : Meas T K} (n : Nat) :
    ∀ {st st' : PSt T K F Ω s a m}, advanceTo cfg arc z n st = some (.ok st') →
    ∃ L, st'.sol = st.sol ++ L ∧ ∀ x ∈ L, Origin cfg arc [z] x := by
  induction n with
  | zero => intro st st' h; simp [advanceTo] at h
  | succ n ih =>
    intro st st' h
    rw [advanceTo] at h
    cases ha : cfg.adv st.inst (nextStep cfg z st) with
    | err => rw [ha] at h; simp at h
    | panic => rw [ha] at h; simp at h
    | ok pr =>
      obtain ⟨p, states⟩ := pr
      rw [ha] at h
      simp only at h
      split at h
      · rename_i hc
        simp only [Option.some.injEq] at h
        unfold atMeasurement at h
        simp only at h
        split at h
        · obtain ⟨kf', e, _, rfl⟩ := timeUp_ok h
          exact ⟨[.time e], rfl, by simp [Origin]⟩
        · rename_i hz
          split at h
          · cases h; exact ⟨[], by simp, by simp⟩
          · rename_i dev hd
            obtain ⟨body, h1, h2⟩ := allWindows_from hd (by simpa using hz) _ (by exact hc) h
            refine ⟨body, h1, fun x hx => ?_⟩
            obtain ⟨e, r, g, tr, tys, rfl, h3, h4⟩ := h2 x hx
            exact ⟨⟨z, by simp, h3⟩, h4⟩
      · split at h
        · rename_i st2 ht
          obtain ⟨kf', e, htu, rfl⟩ := timeUp_ok ht
          obtain ⟨L, h1, h2⟩ := ih h
          refine ⟨.time e :: L, by rw [h1]; simp, fun x hx => ?_⟩
          rcases List.mem_cons.1 hx with rfl | hx
          · trivial
          · exact h2 x hx
        · simp at h
        · simp at h

theorem Origin.mono {cfg : Cfg T K F Ω s a m} {arc : PArc T K} {zs zs' : List (Meas T K)}
    (hs : ∀ z ∈ zs, z ∈ zs') {x : Entry T K Ω s m} (h : Origin cfg arc zs x) :
    Origin cfg arc zs' x := by
  cases x with
  | time e => trivial
  | msr e r g tr tys =>
    obtain ⟨⟨z, h1, h2⟩, h3⟩ := h
    exact ⟨⟨z, hs z h1, h2⟩, h3⟩

theorem processAll_from {cfg : Cfg T K F Ω s a m} {arc : PArc T K} (n : Nat) (zs : List (Meas T K)) :
    ∀ {st st' : PSt T K F Ω s a m}, processAll cfg arc n zs st = some (.ok st') →
    ∃ L, st'.sol = st.sol ++ L ∧ ∀ x ∈ L, Origin cfg arc zs x := by
  induction zs with
  | nil =>
    intro st st' h
    simp only [processAll, Option.some.injEq, Res.ok.injEq] at h
    subst h
    exact ⟨[], by simp, by simp⟩
  | cons z zs ih =>
    intro st st' h
    rw [processAll] at h
    split at h
    · cases h
    · rename_i st1 ha
      obtain ⟨L1, h1, h2⟩ := advanceTo_from n ha
      obtain ⟨L2, h3, h4⟩ := ih h
      refine ⟨L1 ++ L2, by rw [h3, h1, List.append_assoc], fun x hx => ?_⟩
      rcases List.mem_append.1 hx with hx | hx
      · exact (h2 x hx).mono (by simp)
      · exact (h4 x hx).mono (fun z hz => List.mem_cons_of_mem _ hz)
    · rename_i hne _
      simp only [Option.some.injEq] at h
      exact absurd h (hne _)

/-- **C35, C32.** Every residual of a solution comes from a measurement of the arc that is not marked as
rejected, seen by its own tracker within the precision of its epoch: its real observation is the measured
value up to an integer number of moduli, its computed observation is the one of the device less its bias.
It is flagged as rejected exactly when its ratio exceeds the threshold, which is zero in force reject
mode. -/
theorem solution_residuals (cfg : Cfg T K F Ω s a m) (fuel : Nat) (e0 : Est Ω s) (arc : PArc T K)
    (sol : List (Entry T K Ω s m)) (h : processArc cfg fuel e0 arc = some (.ok sol)) :
    ∀ e r g tr tys, Entry.msr e r g tr tys ∈ sol →
      (∃ z ∈ arc.measurements, From cfg arc z tr tys r) ∧ Flag cfg arc r := by
  obtain ⟨st, h1, rfl⟩ : ∃ st, processAll cfg arc fuel arc.measurements (start cfg e0) = some (.ok st) ∧
      st.sol = sol := by
    unfold processArc at h
    split at h
    · cases h
    · split at h
      · cases h
      · rename_i st hst
        simp only [Option.some.injEq, Res.ok.injEq] at h
        exact ⟨st, hst, h⟩
      · cases h
      · cases h
  obtain ⟨L, h2, h3⟩ := processAll_from fuel _ h1
  intro e r g tr tys hx
  rw [h2] at hx
  exact h3 _ (by simpa [start] using hx)

theorem allWindows_finite {cfg : Cfg T K F Ω s a m} {arc : PArc T K} {z : Meas T K}
    {dev : Dev T K Ω s m} {ty : K} (hnf : look z.data ty = some none) (ws : List (List K)) :
    ∀ (st : PSt T K F Ω s a m), (∃ w ∈ ws, ty ∈ w) →
    ∀ st', allWindows cfg arc z dev ws st ≠ .ok st' := by
  induction ws with
  | nil => intro st h; simp at h
  | cons w ws ih =>
    rintro st ⟨w', hw, hty⟩ st' h
    obtain ⟨st1, h1, h2⟩ := Res.bind_eq_ok.1 h
    rcases List.mem_cons.1 hw with rfl | hw
    · have hav : z.anyAvailable w' = true := by
        unfold Meas.anyAvailable
        exact List.any_eq_true.2 ⟨ty, hty, by rw [hnf]; rfl⟩
      unfold oneWindow at h1
      rw [if_pos hav] at h1
      have : observation m z.data w' = none := by
        unfold observation
        rw [if_neg]
        intro hall
        have := List.all_eq_true.1 hall ty hty
        rw [hnf] at this
        simp at this
      rw [this] at h1
      cases h1
    · exact ih st1 ⟨w', hw, hty⟩ st' h2

/-- **C35 (values that are not finite).** If the arc has a measurement, not marked as rejected, with a NaN
or infinite value for a type processed by its tracker, the process returns no solution. -/
theorem nonfinite_no_solution (cfg : Cfg T K F Ω s a m) (hm : 0 < m) (fuel : Nat) (e0 : Est Ω s)
    (arc : PArc T K) (z : Meas T K) (hz : z ∈ arc.measurements) (hr : z.rejected = false)
    (dev : Dev T K Ω s m) (hd : cfg.devices z.tracker = some dev) (ty : K) (hty : ty ∈ dev.types)
    (hnf : look z.data ty = some none) (sol : List (Entry T K Ω s m)) :
    processArc cfg fuel e0 arc ≠ some (.ok sol) := by
  have hadv : ∀ n st st', advanceTo cfg arc z n st ≠ some (.ok st') := by
    intro n
    induction n with
    | zero => intro st st' h; simp [advanceTo] at h
    | succ n ih =>
      intro st st' h
      rw [advanceTo] at h
      cases ha : cfg.adv st.inst (nextStep cfg z st) with
      | err => rw [ha] at h; simp at h
      | panic => rw [ha] at h; simp at h
      | ok pr =>
        obtain ⟨p, states⟩ := pr
        rw [ha] at h
        simp only at h
        split at h
        · simp only [Option.some.injEq] at h
          unfold atMeasurement at h
          simp only [hr, hd] at h
          refine allWindows_finite hnf _ _ ?_ _ h
          have := (windows_partition m hm dev.types).1
          rw [← this, List.mem_flatten] at hty
          exact hty
        · split at h
          · exact ih _ _ h
          · simp at h
          · simp at h
  have hall : ∀ zs, z ∈ zs → ∀ st st', processAll cfg arc fuel zs st ≠ some (.ok st') := by
    intro zs
    induction zs with
    | nil => intro h; simp at h
    | cons y zs ih =>
      intro hmem st st' h
      rw [processAll] at h
      split at h
      · cases h
      · rename_i st1 ha
        rcases List.mem_cons.1 hmem with rfl | hmem
        · exact hadv _ _ _ ha
        · exact ih hmem _ _ h
      · rename_i hne _
        simp only [Option.some.injEq] at h
        exact hne _ h
  intro h
  unfold processArc at h
  split at h
  · cases h
  · split at h
    · cases h
    · rename_i st hst
      exact hall _ hz _ _ hst
    · cases h
    · cases h

/-- The example arc with a NaN in its last measurement. -/
def nanArc : PArc Nat Nat where
  measurements := [⟨1, 25, [(0, some 1), (1, some 2)], false⟩, ⟨1, 41, [(1, none)], false⟩]
  moduli := none
  forceReject := false

/-- The hypotheses of `nonfinite_no_solution` are met; the result is an error. -/
example : processArc exCfg 10 exEst nanArc = some .err ∧
    ∀ sol, processArc exCfg 10 exEst nanArc ≠ some (.ok sol) :=
  ⟨rfl, fun sol => nonfinite_no_solution exCfg (by decide) 10 exEst nanArc ⟨1, 41, [(1, none)], false⟩
    (by simp [nanArc]) rfl exDev rfl 1 (by simp [exDev]) rfl sol⟩

/-- The hypotheses of `solution_residuals` are met. -/
example : ∃ sol, processArc exCfg 10 exEst exArc = some (.ok sol) ∧
    (∃ e r g tys, Entry.msr e r g 1 tys ∈ sol) ∧
    ∀ e r g tr tys, Entry.msr e r g tr tys ∈ sol →
      (∃ z ∈ exArc.measurements, From exCfg exArc z tr tys r) ∧ Flag exCfg exArc r := by
  have h : ∃ sol, processArc exCfg 10 exEst exArc = some (.ok sol) ∧
      ∃ e r g tys, Entry.msr e r g 1 tys ∈ sol :=
    ⟨_, rfl, _, _, _, _, List.mem_cons_of_mem _ (List.mem_cons_of_mem _ (List.mem_cons_self ..))⟩
  obtain ⟨sol, h1, h2⟩ := h
  exact ⟨sol, h1, h2, solution_residuals _ _ _ _ _ h1⟩

end Verif.Process
