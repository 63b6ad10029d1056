import Verif.Process.Predict
/-!
The covariances and deviations of consecutive estimates of a solution; `predict_for`; requests that are
refused.
-/
namespace Verif.Process
open Verif.Kalman Matrix

set_option linter.unusedSectionVars false

variable {T K F Ω : Type} [DecidableEq K] {s a m : Nat}

/-- The filter changes nothing at this entry: a time update or a rejected measurement. -/
def Entry.predicts : Entry T K Ω s m → Bool
  | .time _ => true
  | .msr _ r _ _ _ => r.rejected

/-- Covariances of consecutive estimates, starting from `e`: each predicted covariance is the previous
covariance mapped by the transition matrix of the entry; where no measurement is used, the covariance is
the predicted one, and the deviation is the previous one mapped, or zero for a filter that updates the
reference. -/
def CovChain (v : Variant) : Est Ω s → List (Entry T K Ω s m) → Prop
  | _, [] => True
  | e, x :: l =>
    x.est.covarBar = x.est.stm * e.covar * x.est.stmᵀ ∧
    (x.predicts = true → x.est.covar = x.est.covarBar ∧
      (v = .deviationTracking → x.est.dev = x.est.stm *ᵥ e.dev) ∧
      (v = .referenceUpdate → x.est.dev = 0)) ∧
    CovChain v x.est l

/-- The last estimate of a list of entries, or the given one. -/
def lastEst (e : Est Ω s) (l : List (Entry T K Ω s m)) : Est Ω s := (l.getLast?.map Entry.est).getD e

theorem lastEst_snoc (e : Est Ω s) (l : List (Entry T K Ω s m)) (x : Entry T K Ω s m) :
    lastEst e (l ++ [x]) = x.est := by simp [lastEst]

theorem covChain_snoc (v : Variant) (x : Entry T K Ω s m) (l : List (Entry T K Ω s m)) :
    ∀ e, CovChain v e l →
      x.est.covarBar = x.est.stm * (lastEst e l).covar * x.est.stmᵀ →
      (x.predicts = true → x.est.covar = x.est.covarBar ∧
        (v = .deviationTracking → x.est.dev = x.est.stm *ᵥ (lastEst e l).dev) ∧
        (v = .referenceUpdate → x.est.dev = 0)) →
      CovChain v e (l ++ [x]) := by
  induction l with
  | nil => intro e _ h1 h2; exact ⟨h1, h2, trivial⟩
  | cons y l ih =>
    intro e h h1 h2
    have hl : lastEst e (y :: l) = lastEst y.est l := by
      unfold lastEst
      cases l with
      | nil => rfl
      | cons z l =>
        rw [List.getLast?_cons_cons, List.getLast?_eq_some_getLast (List.cons_ne_nil z l)]
        rfl
    rw [hl] at h1 h2
    exact ⟨h.1, h.2.1, ih _ h.2.2 h1 h2⟩

theorem predict_no_noise {kf : KF F Ω s a} {dcm : F → Ω → Option (Matrix (Fin 3) (Fin 3) ℝ)}
    {x : Nominal Ω s} {stm : Matrix (Fin s) (Fin s) ℝ} {pu : Matrix (Fin s) (Fin s) ℝ × Nat}
    (hn : kf.noises = []) (h : kf.predict dcm x stm = .ok pu) :
    pu.1 = stm * kf.prev.covar * stmᵀ := by
  unfold KF.predict at h
  rw [hn] at h
  simp only [List.zipIdx_nil, List.reverse_nil, sncLoop, Res.bind_ok] at h
  cases h
  rfl

theorem timeUpdate_cov {kf kf' : KF F Ω s a} {dcm : F → Ω → Option (Matrix (Fin 3) (Fin 3) ℝ)}
    {x : Nominal Ω s} {e : Est Ω s} (hn : kf.noises = []) (h : kf.timeUpdate dcm x = .ok (kf', e)) :
    e.covarBar = e.stm * kf.prev.covar * e.stmᵀ ∧ e.covar = e.covarBar ∧
    (kf.variant = .deviationTracking → e.dev = e.stm *ᵥ kf.prev.dev) ∧
    (kf.variant = .referenceUpdate → e.dev = 0) ∧
    kf'.noises = [] ∧ kf'.variant = kf.variant ∧ kf'.prev = e := by
  obtain ⟨stm, pu, _, h2, h3, h4⟩ := timeUpdate_ok h
  have hp := predict_no_noise hn h2
  refine ⟨?_, ?_, ?_, ?_, ?_, ?_, ?_⟩
  · rw [h4]; exact hp
  · rw [h4]
  · intro hv; rw [h4]; simp [hv]
  · intro hv; rw [h4]; simp [hv]
  · rw [h3]; simp [KF.store, hn]
  · rw [h3]; rfl
  · rw [h3]; rfl

theorem msrUpdate_cov {kf kf' : KF F Ω s a} {chol : Chol}
    {dcm : F → Ω → Option (Matrix (Fin 3) (Fin 3) ℝ)} {x : Nominal Ω s} {z : MsrIn s m}
    {t : Option ℝ} {e : Est Ω s} {r : Resid m} {g : Option (Matrix (Fin s) (Fin m) ℝ)}
    (hn : kf.noises = []) (h : kf.measurementUpdate chol dcm x z t = .ok (kf', e, r, g)) :
    e.covarBar = e.stm * kf.prev.covar * e.stmᵀ ∧
    (r.rejected = true → e.covar = e.covarBar ∧
      (kf.variant = .deviationTracking → e.dev = e.stm *ᵥ kf.prev.dev) ∧
      (kf.variant = .referenceUpdate → e.dev = 0)) ∧
    kf'.noises = [] ∧ kf'.variant = kf.variant ∧ kf'.prev = e := by
  obtain ⟨stm, pu, L, h1, h2, _, _, _, _, _, _, _, _, hc⟩ := measurementUpdate_ok h
  rcases hc with ⟨hr, _, _, h3⟩ | ⟨hr, K, _, _, h4, _, h5⟩
  · obtain ⟨k1, k2, k3, k4, k5, k6, k7⟩ := timeUpdate_cov hn h3
    exact ⟨k1, fun _ => ⟨k2, k3, k4⟩, k5, k6, k7⟩
  · have hp := predict_no_noise hn h2
    refine ⟨?_, ?_, ?_, ?_, ?_⟩
    · rw [h4]; exact hp
    · intro h0; rw [hr] at h0; cases h0
    · rw [h5]; simp [KF.store, hn]
    · rw [h5]; rfl
    · rw [h5]; rfl

/-- **C98.** Without process noise, each estimate of a solution of `process_arc` continues the previous
one (the first continues the initial estimate): its predicted covariance is the previous covariance mapped
by its transition matrix, and where no measurement is used the covariance and the deviation are only
mapped. -/
theorem solution_covariance_chain (cfg : Cfg T K F Ω s a m) (fuel : Nat) (e0 : Est Ω s)
    (arc : PArc T K) (sol : List (Entry T K Ω s m)) (hn : cfg.noises = [])
    (h : processArc cfg fuel e0 arc = some (.ok sol)) : CovChain cfg.variant e0 sol := by
  obtain ⟨st, hst, rfl⟩ := processArc_ok h
  have key := processAll_invariant
    (fun st : PSt T K F Ω s a m => st.kf.noises = [] ∧ st.kf.variant = cfg.variant ∧
      st.kf.prev = lastEst e0 st.sol ∧ CovChain cfg.variant e0 st.sol)
    (cfg := cfg) (arc := arc) ?_ fuel arc.measurements ?_ hst
  · exact key.2.2.2
  · rintro st st' ⟨h1, h2, h3, h4⟩ hact
    have htime : ∀ (x : Nominal Ω s) (st st' : PSt T K F Ω s a m), st.kf.noises = [] →
        st.kf.variant = cfg.variant → st.kf.prev = lastEst e0 st.sol →
        CovChain cfg.variant e0 st.sol → timeUp cfg x st = .ok st' →
        st'.kf.noises = [] ∧ st'.kf.variant = cfg.variant ∧ st'.kf.prev = lastEst e0 st'.sol ∧
          CovChain cfg.variant e0 st'.sol := by
      intro x st st' h1 h2 h3 h4 ht
      obtain ⟨kf', e, hu, rfl⟩ := timeUp_ok ht
      obtain ⟨k1, k2, k3, k4, k5, k6, k7⟩ := timeUpdate_cov h1 hu
      refine ⟨k5, by rw [← h2]; exact k6, ?_, ?_⟩
      · show kf'.prev = lastEst e0 (st.sol ++ [.time e])
        rw [lastEst_snoc]; exact k7
      · refine covChain_snoc _ _ _ _ h4 ?_ (fun _ => ⟨k2, ?_, ?_⟩)
        · rw [← h3]; exact k1
        · rw [← h3, ← h2]; exact k3
        · rw [← h2]; exact k4
    cases hact with
    | adv z p states h => exact ⟨h1, h2, h3, h4⟩
    | tick _ h => exact htime _ _ _ h1 h2 h3 h4 h
    | reject _ z hc h => exact htime _ _ _ (by exact h1) (by exact h2) (by exact h3) (by exact h4) h
    | arrive z hc => exact ⟨h1, h2, h3, h4⟩
    | window _ z dev types hd h =>
      rcases oneWindow_ok h with ⟨rfl, _⟩ | ⟨_, H, R, _, _, kf', e, r, g, _, _, _, hcov, _, _, hu, rfl⟩
      · exact ⟨h1, h2, h3, h4⟩
      · obtain ⟨k1, k2, k5, k6, k7⟩ := msrUpdate_cov h1 hu
        refine ⟨k5, by rw [← h2]; exact k6, ?_, ?_⟩
        · show kf'.prev = lastEst e0 (st.sol ++ [.msr e r g z.tracker types])
          rw [lastEst_snoc]; exact k7
        · refine covChain_snoc _ _ _ _ h4 ?_ (fun hp => ?_)
          · rw [← h3]; exact k1
          · rw [← h3, ← h2]; exact k2 hp
  · exact ⟨by simp [start, KF.initNoises, hn], rfl, rfl, trivial⟩

/-- **C98 for predictions.** -/
theorem predict_covariance_chain (cfg : Cfg T K F Ω s a m) (fuel : Nat) (e0 : Est Ω s) (end_ : Int)
    (sol : List (Entry T K Ω s m)) (hn : cfg.noises = [])
    (h : predictUntil cfg fuel e0 end_ = some (.ok sol)) :
    ∃ L, sol = .time e0 :: L ∧ CovChain cfg.variant e0 L ∧ ∀ x ∈ L, x.predicts = true := by
  have key : ∀ (n : Nat) (p : PInst Ω s) (kf : KF F Ω s a) (sol res : List (Entry T K Ω s m)),
      kf.noises = [] → kf.variant = cfg.variant → predictLoop cfg end_ n p kf sol = some (.ok res) →
      ∃ L, res = sol ++ L ∧ CovChain cfg.variant kf.prev L ∧ ∀ x ∈ L, x.predicts = true := by
    intro n
    induction n with
    | zero => intro p kf sol res _ _ h; simp [predictLoop] at h
    | succ n ih =>
      intro p kf sol res h1 h2 h
      rw [predictLoop] at h
      cases ha : cfg.adv p cfg.maxStep with
      | err => rw [ha] at h; simp at h
      | panic => rw [ha] at h; simp at h
      | ok pr =>
        obtain ⟨p', states⟩ := pr
        rw [ha] at h
        simp only at h
        cases hu : kf.timeUpdate cfg.dcm p'.state with
        | err => rw [hu] at h; simp at h
        | panic => rw [hu] at h; simp at h
        | ok r =>
          obtain ⟨kf', e⟩ := r
          rw [hu] at h
          simp only at h
          obtain ⟨k1, k2, k3, k4, k5, k6, k7⟩ := timeUpdate_cov h1 hu
          rw [h2] at k3 k4 k6
          split at h
          · simp only [Option.some.injEq, Res.ok.injEq] at h
            exact ⟨[.time e], h.symm, ⟨k1, fun _ => ⟨k2, k3, k4⟩, trivial⟩, by simp [Entry.predicts]⟩
          · obtain ⟨L, h3, h4, h5⟩ := ih _ _ _ _ k5 k6 h
            rw [k7] at h4
            exact ⟨.time e :: L, by rw [h3]; simp, ⟨k1, fun _ => ⟨k2, k3, k4⟩, h4⟩,
              by simpa [Entry.predicts] using h5⟩
  obtain ⟨L, h1, h2, h3⟩ := key fuel _ _ _ _ hn rfl h
  exact ⟨L, h1, h2, h3⟩

/-- The hypotheses of the two theorems on covariances are met: six entries of the example arc, and three
predictions. -/
example : (∃ sol, processArc exCfg 10 exEst exArc = some (.ok sol) ∧ sol.length = 6 ∧
      CovChain .deviationTracking exEst sol) ∧
    ∃ sol L, predictUntil exFlow 10 exEst 25 = some (.ok sol) ∧ sol = .time exEst :: L ∧
      L.length = 3 ∧ CovChain .deviationTracking exEst L := by
  constructor
  · obtain ⟨sol, h, h2⟩ := exCfg_runs
    exact ⟨sol, h, by simpa using congrArg List.length h2,
      solution_covariance_chain exCfg 10 exEst exArc sol rfl h⟩
  · have h : ∃ sol, predictUntil exFlow 10 exEst 25 = some (.ok sol) ∧ sol.length = 4 := ⟨_, rfl, rfl⟩
    obtain ⟨sol, h, hl⟩ := h
    obtain ⟨L, h1, h2, _⟩ := predict_covariance_chain exFlow 10 exEst 25 sol rfl h
    exact ⟨sol, L, h, h1, by rw [h1] at hl; simpa using hl, h2⟩

/-- **C36 (`predict_for`, partial).** For a positive step and duration, the last estimate is at least the
duration after the initial one, by less than one step more. -/
theorem predict_for_partial (cfg : Cfg T K F Ω s a m) {lo : Int} (hadv : Arrives cfg.adv lo)
    (fuel : Nat) (e0 : Est Ω s) (d : Int) (sol : List (Entry T K Ω s m)) (hmax : 0 < cfg.maxStep)
    (hd : 0 < d) (h : predictFor cfg fuel e0 d = some (.ok sol)) :
    ∃ x, sol.getLast? = some x ∧ d ≤ x.epoch - e0.nominal.epoch ∧
      x.epoch - e0.nominal.epoch < d + cfg.maxStep ∧
      (x.epoch - e0.nominal.epoch = d ↔ cfg.maxStep ∣ d) := by
  obtain ⟨x, h1, h2, h3, h4⟩ := predict_end_partial cfg hadv fuel e0 (e0.nominal.epoch + d) sol hmax
    (by omega) h
  refine ⟨x, h1, by omega, by omega, ?_⟩
  rw [show e0.nominal.epoch + d - e0.nominal.epoch = d by ring] at h4
  rw [← h4]
  constructor <;> intro h <;> omega

example : ∃ sol x, predictFor exCfg 10 { exEst with nominal := ⟨(), 7, none⟩ } 25 = some (.ok sol) ∧
    sol.getLast? = some x ∧ 25 ≤ x.epoch - 7 ∧ x.epoch - 7 < 25 + 10 := by
  have h : ∃ sol, predictFor exCfg 10 { exEst with nominal := ⟨(), 7, none⟩ } 25 = some (.ok sol) :=
    ⟨_, rfl⟩
  obtain ⟨sol, h⟩ := h
  obtain ⟨x, h1, h2, h3, _⟩ := predict_for_partial exCfg exCfg_arrives 10 _ 25 sol (by decide)
    (by decide) h
  exact ⟨sol, x, h, h1, h2, h3⟩

/-- **C35 (refused requests).** Fewer than two measurements, or a step that is not positive, are errors,
whatever else is given; and a solution is only returned for at least two measurements. -/
theorem process_refuses (cfg : Cfg T K F Ω s a m) (fuel : Nat) (e0 : Est Ω s) (arc : PArc T K) :
    ((arc.measurements.length < 2 ∨ cfg.maxStep ≤ 0) → processArc cfg fuel e0 arc = some .err) ∧
    ∀ sol, processArc cfg fuel e0 arc = some (.ok sol) →
      2 ≤ arc.measurements.length ∧ 0 < cfg.maxStep := by
  constructor
  · intro h
    unfold processArc
    rw [if_pos h]
  · intro sol h
    by_contra hc
    have : arc.measurements.length < 2 ∨ cfg.maxStep ≤ 0 := by omega
    unfold processArc at h
    rw [if_pos this] at h
    cases h

example : processArc exCfg 10 exEst { exArc with measurements := [⟨1, 25, [(0, some 1)], false⟩] } =
    some .err := (process_refuses _ _ _ _).1 (Or.inl (by decide))

end Verif.Process
