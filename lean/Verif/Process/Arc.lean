import Verif.Kalman.Arc
import Verif.Process.Chain
import Verif.Process.Resume
/-!
C248: the solution of `process_arc` and the least squares problem of the whole arc.
-/
namespace Verif.ProcessArc
open Matrix Verif.Kalman Verif.Process Verif.KalmanArc

variable {T K F Ω : Type} [DecidableEq K] {s a m : Nat}

/-! ### Specification -/

/-- What an entry of the solution says of the data: a time update only moves the estimate from its transition matrix; a measurement
update adds the observation and the computed observation which its residual reports, with the sensitivity and the noise which the device of
its tracker gives at the nominal state of the estimate. -/
def Made (cfg : Cfg T K F Ω s a m) (arc : PArc T K) : Entry T K Ω s m → Op Ω s → Prop
  | .time e, o => o = .time e.nominal
  | .msr e r _ tr types, o => ∃ (dev : Dev T K Ω s m) (z : Meas T K) (H : Matrix (Fin m) (Fin s) ℝ) (R : Matrix (Fin m) (Fin m) ℝ) (t : Int),
      cfg.devices tr = some dev ∧ z.tracker = tr ∧ dev.hTilde z types e.nominal = .ok H ∧ dev.covar types t = .ok R ∧
      o = .msr e.nominal m ⟨r.realObs, r.computedObs, R, H⟩ (threshold cfg arc)

/-! ### Lemmas -/

theorem run_snoc {chol : Chol} {dcm : F → Ω → Option (Matrix (Fin 3) (Fin 3) ℝ)} (o : Op Ω s) : ∀ (ops : List (Op Ω s))
    {kf kf' : KF F Ω s a}, kf.run chol dcm ops = .ok kf' → kf.run chol dcm (ops ++ [o]) = kf'.run chol dcm [o] := by
  intro ops
  induction ops with
  | nil => intro kf kf' h; cases h; rfl
  | cons p rest ih =>
    intro kf kf' h
    cases p with
    | time x =>
      rw [KF.run] at h
      obtain ⟨r, h1, h2⟩ := Res.bind_eq_ok.1 h
      rw [List.cons_append, KF.run, h1, Res.bind_ok, ih h2]
    | msr x m z t =>
      rw [KF.run] at h
      obtain ⟨r, h1, h2⟩ := Res.bind_eq_ok.1 h
      rw [List.cons_append, KF.run, h1, Res.bind_ok, ih h2]

theorem forall₂_snoc {α β : Type} {R : α → β → Prop} {l : List α} {l' : List β} {x : α} {y : β} (h : List.Forall₂ R l l') (hxy : R x y) :
    List.Forall₂ R (l ++ [x]) (l' ++ [y]) := by
  induction h with
  | nil => exact .cons hxy .nil
  | cons h1 _ ih => exact .cons h1 ih

/-- The solution of the process is a run of its filter. -/
theorem process_run (cfg : Cfg T K F Ω s a m) (fuel : Nat) (e0 : Est Ω s) (arc : PArc T K) (sol : List (Entry T K Ω s m))
    (h : processArc cfg fuel e0 arc = some (.ok sol)) :
    ∃ ops kf', (start cfg e0).kf.run cfg.chol cfg.dcm ops = .ok kf' ∧ List.Forall₂ (Made cfg arc) sol ops ∧ kf'.prev = lastEst e0 sol := by
  obtain ⟨st, hst, rfl⟩ := processArc_ok h
  have key := processAll_invariant
    (fun st : PSt T K F Ω s a m => ∃ ops, (start cfg e0).kf.run cfg.chol cfg.dcm ops = .ok st.kf ∧
      List.Forall₂ (Made cfg arc) st.sol ops ∧ st.kf.prev = lastEst e0 st.sol)
    (cfg := cfg) (arc := arc) ?_ fuel arc.measurements ?_ hst
  · obtain ⟨ops, h1, h2, h3⟩ := key
    exact ⟨ops, st.kf, h1, h2, h3⟩
  · rintro st st' ⟨ops, h1, h2, h3⟩ hact
    have htime : ∀ (x : Nominal Ω s) (st st' : PSt T K F Ω s a m), (start cfg e0).kf.run cfg.chol cfg.dcm ops = .ok st.kf →
        List.Forall₂ (Made cfg arc) st.sol ops → timeUp cfg x st = .ok st' →
        ∃ ops, (start cfg e0).kf.run cfg.chol cfg.dcm ops = .ok st'.kf ∧
          List.Forall₂ (Made cfg arc) st'.sol ops ∧ st'.kf.prev = lastEst e0 st'.sol := by
      intro x st st' h1 h2 ht
      obtain ⟨kf', e, hu, rfl⟩ := timeUp_ok ht
      obtain ⟨k1, k2⟩ := timeUpdate_nominal hu
      refine ⟨ops ++ [.time x], ?_, forall₂_snoc h2 (by rw [Made, k1]), ?_⟩
      · rw [run_snoc _ _ h1, KF.run, hu]; rfl
      · show kf'.prev = lastEst e0 (st.sol ++ [.time e])
        rw [lastEst_snoc]; exact k2
    cases hact with
    | adv z p states h => exact ⟨ops, h1, h2, h3⟩
    | tick _ h => exact htime _ _ _ h1 h2 h
    | reject _ z hc h => exact htime _ _ _ (by exact h1) (by exact h2) h
    | arrive z hc => exact ⟨ops, h1, h2, h3⟩
    | window _ z dev types hd h =>
      rcases oneWindow_ok h with ⟨rfl, _⟩ | ⟨real, H, R, comp, b, kf', e, r, g, _, _, hH, hR, _, _, hu, rfl⟩
      · exact ⟨ops, h1, h2, h3⟩
      · obtain ⟨k1, k2⟩ := msrUpdate_nominal hu
        obtain ⟨_, _, _, _, _, _, _, _, hro, hco, _⟩ := measurementUpdate_ok hu
        simp only at hro hco
        refine ⟨ops ++ [.msr st.inst.state m ⟨resolve arc.moduli types (obsOf m comp types - b) real, obsOf m comp types - b, R, H⟩
          (threshold cfg arc)], ?_, forall₂_snoc h2 ⟨dev, z, H, R, st.epoch, hd, rfl, by rw [k1]; exact hH, hR, by rw [k1, hro, hco]⟩, ?_⟩
        · show _ = Res.ok kf'
          rw [run_snoc _ _ h1, KF.run, hu]; rfl
        · show kf'.prev = lastEst e0 (st.sol ++ [.msr e r g z.tracker types])
          rw [lastEst_snoc]; exact k2
  · exact ⟨[], rfl, .nil, rfl⟩

/-- The operations of a solution can be used. -/
theorem made_usable {cfg : Cfg T K F Ω s a m} {arc : PArc T K} (hs : cfg.sigmaReject = none) (hf : arc.forceReject = false)
    (hR : ∀ t dev types e R, cfg.devices t = some dev → dev.covar types e = .ok R → R.PosDef) {sol : List (Entry T K Ω s m)}
    {ops : List (Op Ω s)} (h : List.Forall₂ (Made cfg arc) sol ops) (hx : ∀ x ∈ sol, IsUnit (x.est.nominal.stm.getD 1).det) :
    ∀ o ∈ ops, Usable o := by
  induction h with
  | nil => intro o ho; cases ho
  | @cons x o sol ops h1 _ ih =>
    intro p hp
    rcases List.mem_cons.1 hp with rfl | hp
    · have hx1 := hx x (by simp)
      cases x with
      | time e => rw [show p = .time e.nominal from h1]; exact hx1
      | msr e r g tr types =>
        obtain ⟨dev, z, H, R, t, hd, _, _, hR', rfl⟩ := h1
        exact ⟨hx1, hR _ _ _ _ _ hd hR', by simp [threshold, hf, hs]⟩
    · exact ih (fun y hy => hx y (by simp [hy])) p hp

/-! ### C248 -/

/-- The least squares cost of an initial deviation `v` of the arc: its distance to the deviation of the initial estimate, weighted with the
initial covariance, plus the residuals of all the measurements of the solution. -/
noncomputable def arcTotal (e0 : Est Ω s) (ops : List (Op Ω s)) (v : Fin s → ℝ) : ℝ := sq e0.covar⁻¹ (v - e0.dev) + arcCost ops v

/-- **C248.** Without process noise and without rejection, with deviation tracking, the deviation of the last estimate of `process_arc`
is the flow of the only initial deviation that minimises the cost of the initial estimate and of all the measurements of the solution, and
its covariance is what the initial covariance and these measurements leave. -/
theorem process_is_least_squares (cfg : Cfg T K F Ω s a m) (hc : CholSpec cfg.chol) (hv : cfg.variant = .deviationTracking)
    (hn : cfg.noises = []) (hs : cfg.sigmaReject = none)
    (hR : ∀ t dev types e R, cfg.devices t = some dev → dev.covar types e = .ok R → R.PosDef)
    (fuel : Nat) (e0 : Est Ω s) (hP : e0.covar.PosDef) (arc : PArc T K) (hf : arc.forceReject = false) (sol : List (Entry T K Ω s m))
    (hx : ∀ x ∈ sol, IsUnit (x.est.nominal.stm.getD 1).det) (h : processArc cfg fuel e0 arc = some (.ok sol)) :
    ∃ ops, List.Forall₂ (Made cfg arc) sol ops ∧
      (∃ v0, flow ops v0 = (lastEst e0 sol).dev ∧
        ∀ v, arcTotal e0 ops v0 ≤ arcTotal e0 ops v ∧ (arcTotal e0 ops v = arcTotal e0 ops v0 → v = v0)) ∧
      ∀ u, sq (lastEst e0 sol).covar⁻¹ (flow ops u) = sq e0.covar⁻¹ u + arcInfo ops u := by
  obtain ⟨ops, kf', h1, h2, h3⟩ := process_run cfg fuel e0 arc sol h
  have ho := made_usable hs hf hR h2 hx
  have hn' : (start cfg e0).kf.noises = [] := by simp [start, KF.initNoises, hn]
  refine ⟨ops, h2, ?_, fun u => ?_⟩
  · rw [← h3]
    exact run_is_least_squares hc ops (start cfg e0).kf kf' hv hn' hP ho h1
  · rw [← h3]
    exact run_information hc ops (start cfg e0).kf kf' hv hn' hP ho h1 u

/-- **C248.** If moreover the measurements are those of an initial deviation `w` and determine it, a wrong initial estimate is forgotten:
the error left is bounded by that of the initial estimate over what the data say. -/
theorem process_forgets (cfg : Cfg T K F Ω s a m) (hc : CholSpec cfg.chol) (hv : cfg.variant = .deviationTracking)
    (hn : cfg.noises = []) (hs : cfg.sigmaReject = none)
    (hR : ∀ t dev types e R, cfg.devices t = some dev → dev.covar types e = .ok R → R.PosDef)
    (fuel : Nat) (e0 : Est Ω s) (hP : e0.covar.PosDef) (arc : PArc T K) (hf : arc.forceReject = false) (sol : List (Entry T K Ω s m))
    (hx : ∀ x ∈ sol, IsUnit (x.est.nominal.stm.getD 1).det) (h : processArc cfg fuel e0 arc = some (.ok sol)) :
    ∃ ops, List.Forall₂ (Made cfg arc) sol ops ∧ ∀ w μ, KalmanArc.ExactData ops w → 0 < μ → (∀ u, μ * (u ⬝ᵥ u) ≤ arcInfo ops u) →
      ∃ v0, flow ops v0 = (lastEst e0 sol).dev ∧ (w - v0) ⬝ᵥ (w - v0) ≤ sq e0.covar⁻¹ (w - e0.dev) / μ := by
  obtain ⟨ops, kf', h1, h2, h3⟩ := process_run cfg fuel e0 arc sol h
  have hn' : (start cfg e0).kf.noises = [] := by simp [start, KF.initNoises, hn]
  refine ⟨ops, h2, fun w μ hw hμ hi => ?_⟩
  rw [← h3]
  exact guess_forgotten hc ops (start cfg e0).kf kf' hv hn' hP (made_usable hs hf hR h2 hx) h1 w hw μ hμ hi

/-! ### The hypotheses are met -/

/-- A run of the example with deviation tracking: one measurement. -/
theorem exTrack_run : ∃ e r g, processArc exTrack 5 exNavEst (exCutArc [⟨7, 0, [], false⟩, ⟨1, 5, [(0, some 2)], false⟩]) =
    some (.ok [.msr e r g 1 [0]]) ∧ e.nominal = ⟨0, 5, some 1⟩ := by
  obtain ⟨k, e, r, g, hw, hnom, hn⟩ := exTrack_window
  refine ⟨e, r, g, ?_, hnom⟩
  have h1 : ∀ zs, advanceTo exTrack (exCutArc zs) ⟨7, 0, [], false⟩ 5 (start exTrack exNavEst) =
      some (.ok ⟨⟨⟨0, 0, some 1⟩, 10⟩, 0, ⟨exNavEst, [], .deviationTracking, 0⟩, [⟨0, 0, some 1⟩], []⟩) := fun zs => rfl
  have h2 : ∀ zs, advanceTo exTrack (exCutArc zs) ⟨1, 5, [(0, some 2)], false⟩ 5
      ⟨⟨⟨0, 0, some 1⟩, 10⟩, 0, ⟨exNavEst, [], .deviationTracking, 0⟩, [⟨0, 0, some 1⟩], []⟩ =
      some (.ok ⟨⟨⟨0, 5, some 1⟩, 10⟩, 5, k, [⟨0, 5, some 1⟩], [.msr e r g 1 [0]]⟩) := by
    intro zs
    have h : advanceTo exTrack (exCutArc zs) ⟨1, 5, [(0, some 2)], false⟩ 5
      ⟨⟨⟨0, 0, some 1⟩, 10⟩, 0, ⟨exNavEst, [], .deviationTracking, 0⟩, [⟨0, 0, some 1⟩], []⟩ =
      some (allWindows exTrack (exCutArc []) ⟨1, 5, [(0, some 2)], false⟩ exNavDev [[0], [1]]
        ⟨⟨⟨0, 5, some 1⟩, 10⟩, 5, ⟨exNavEst, [], .deviationTracking, 0⟩, [⟨0, 5, some 1⟩], []⟩) := rfl
    rw [h, allWindows, hw, Res.bind_ok, allWindows]
    rfl
  unfold processArc
  rw [if_neg (by simp [exCutArc, exTrack, exNav])]
  simp only [show ∀ zs, (exCutArc zs).measurements = zs from fun _ => rfl]
  rw [processAll, h1]
  simp only
  rw [processAll, h2]
  rfl

/-- The hypotheses of C248 are met by this run. -/
example : ∃ e r g ops, processArc exTrack 5 exNavEst (exCutArc [⟨7, 0, [], false⟩, ⟨1, 5, [(0, some 2)], false⟩]) =
      some (.ok [.msr e r g 1 [0]]) ∧ List.Forall₂ (Made exTrack (exCutArc [⟨7, 0, [], false⟩, ⟨1, 5, [(0, some 2)], false⟩])) [.msr e r g 1 [0]] ops ∧
    ∃ v0, flow ops v0 = e.dev ∧ ∀ v, arcTotal exNavEst ops v0 ≤ arcTotal exNavEst ops v := by
  obtain ⟨e, r, g, hrun, hnom⟩ := exTrack_run
  obtain ⟨ops, h1, ⟨v0, h2, h3⟩, -⟩ := process_is_least_squares exTrack someChol_spec rfl rfl rfl (by
      intro t dev types ep R hd hR
      simp only [exTrack, exNav] at hd
      split at hd
      · cases hd
        cases hR
        exact PosDef.one
      · cases hd) 5 exNavEst (posDef_diagonal_iff.2 fun _ => one_pos) _ rfl _ (by
      intro x hx
      rw [List.mem_singleton.1 hx]
      simp [Entry.est, hnom]) hrun
  exact ⟨e, r, g, ops, hrun, h1, v0, h2, fun v => (h3 v).1⟩

end Verif.ProcessArc
