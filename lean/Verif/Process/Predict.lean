import Verif.Process.Theorems
/-!
C36: `predict_until` and `predict_for`; the propagator of Verif.Propagate meets what is assumed of the
propagator here; configurations for which the process never ends.
-/
namespace Verif.Process
open Verif.Kalman Matrix

variable {T K F Ω : Type} [DecidableEq K] {s a m : Nat}

theorem predictLoop_grid (cfg : Cfg T K F Ω s a m) (end_ : Int) {lo : Int}
    (hadv : Arrives cfg.adv lo) (n : Nat) :
    ∀ (p : PInst Ω s) (kf : KF F Ω s a) (sol res : List (Entry T K Ω s m)),
      predictLoop cfg end_ n p kf sol = some (.ok res) →
      ∃ (k : Nat) (L : List (Est Ω s)), res = sol ++ L.map Entry.time ∧
        L.map (fun e => e.nominal.epoch) =
          (List.range (k + 1)).map (fun (j : Nat) => p.state.epoch + ((j : Int) + 1) * cfg.maxStep) ∧
        end_ ≤ p.state.epoch + ((k : Int) + 1) * cfg.maxStep ∧
        ∀ j : Nat, j < k → p.state.epoch + ((j : Int) + 1) * cfg.maxStep < end_ := by
  induction n with
  | zero => intro p kf sol res h; simp [predictLoop] at h
  | succ n ih =>
    intro p kf sol res h
    rw [predictLoop] at h
    cases ha : cfg.adv p cfg.maxStep with
    | err => rw [ha] at h; simp at h
    | panic => rw [ha] at h; simp at h
    | ok pr =>
      obtain ⟨p', states⟩ := pr
      rw [ha] at h
      simp only at h
      have he := hadv.epoch _ _ _ _ ha
      cases hu : kf.timeUpdate cfg.dcm p'.state with
      | err => rw [hu] at h; simp at h
      | panic => rw [hu] at h; simp at h
      | ok r =>
        obtain ⟨kf', e⟩ := r
        rw [hu] at h
        simp only at h
        have hn := (timeUpdate_nominal hu).1
        split at h
        · rename_i hc
          simp only [Option.some.injEq, Res.ok.injEq] at h
          refine ⟨0, [e], by rw [← h]; rfl, ?_, ?_, by omega⟩
          · simp [hn, he]
          · rw [he] at hc; push_cast; omega
        · rename_i hc
          obtain ⟨k, L, h1, h2, h3, h4⟩ := ih _ _ _ _ h
          have hr : (resetStm p').state.epoch = p.state.epoch + cfg.maxStep := he
          refine ⟨k + 1, e :: L, by rw [h1]; simp, ?_, ?_, ?_⟩
          · rw [List.range_succ_eq_map]
            simp only [List.map_cons, List.map_map, h2, hn, he, hr]
            congr 1
            · push_cast; ring
            · apply List.map_congr_left
              intro j _
              simp only [Function.comp]
              push_cast; ring
          · rw [hr] at h3; push_cast; linarith
          · intro j hj
            cases j with
            | zero => push_cast; rw [he] at hc; omega
            | succ j =>
              have := h4 j (by omega)
              rw [hr] at this
              push_cast; linarith

/-- **C36 (grid).** The solution of `predict_until` starts with the initial estimate and has, with `n ≥ 1`
steps, one time update at each `start + j * maxStep` for `j = 1, …, n`; the last one is the first at or
after the end epoch. -/
theorem predict_grid (cfg : Cfg T K F Ω s a m) {lo : Int} (hadv : Arrives cfg.adv lo) (fuel : Nat)
    (e0 : Est Ω s) (end_ : Int) (sol : List (Entry T K Ω s m))
    (h : predictUntil cfg fuel e0 end_ = some (.ok sol)) :
    ∃ (n : Nat) (L : List (Est Ω s)), 1 ≤ n ∧ sol = .time e0 :: L.map Entry.time ∧
      sol.map Entry.epoch =
        (List.range (n + 1)).map (fun (j : Nat) => e0.nominal.epoch + (j : Int) * cfg.maxStep) ∧
      end_ ≤ e0.nominal.epoch + n * cfg.maxStep ∧
      ∀ j : Nat, 1 ≤ j → j < n → e0.nominal.epoch + j * cfg.maxStep < end_ := by
  obtain ⟨k, L, h1, h2, h3, h4⟩ := predictLoop_grid cfg end_ hadv fuel _ _ _ _ h
  refine ⟨k + 1, L, by omega, by rw [h1]; rfl, ?_, by push_cast; exact h3, ?_⟩
  · rw [h1, List.range_succ_eq_map]
    simp only [List.map_append, List.map_cons, List.map_nil, List.map_map, List.cons_append,
      List.nil_append]
    refine congrArg₂ List.cons ?_ ?_
    · show e0.nominal.epoch = _
      push_cast; ring
    · have h2' : L.map ((Entry.epoch : Entry T K Ω s m → Int) ∘ Entry.time) = _ := h2
      rw [h2']
      apply List.map_congr_left
      intro j _
      simp only [Function.comp]
      push_cast; ring
  · intro j hj1 hj2
    have := h4 (j - 1) (by omega)
    have hj : ((j - 1 : Nat) : Int) + 1 = j := by omega
    rw [hj] at this
    exact this

/-- **C36 (partial: where the prediction stops).** For a positive step and an end after the start, the
last estimate is at or after the end by less than one step; it is at the end exactly when the interval is
a multiple of the step. Missing: always exactly at the end, which is false. -/
theorem predict_end_partial (cfg : Cfg T K F Ω s a m) {lo : Int} (hadv : Arrives cfg.adv lo)
    (fuel : Nat) (e0 : Est Ω s) (end_ : Int) (sol : List (Entry T K Ω s m)) (hmax : 0 < cfg.maxStep)
    (hend : e0.nominal.epoch < end_) (h : predictUntil cfg fuel e0 end_ = some (.ok sol)) :
    ∃ x, sol.getLast? = some x ∧ end_ ≤ x.epoch ∧ x.epoch < end_ + cfg.maxStep ∧
      (x.epoch = end_ ↔ cfg.maxStep ∣ end_ - e0.nominal.epoch) := by
  obtain ⟨n, L, hn, hsol, hg, h1, h2⟩ := predict_grid cfg hadv fuel e0 end_ sol h
  have hne : sol ≠ [] := by rw [hsol]; simp
  refine ⟨sol.getLast hne, List.getLast?_eq_some_getLast hne, ?_⟩
  have hlast : (sol.getLast hne).epoch = e0.nominal.epoch + n * cfg.maxStep := by
    have hl := congrArg List.getLast? hg
    rw [List.getLast?_map, List.getLast?_eq_some_getLast hne, List.range_succ, List.map_append] at hl
    simpa using hl
  have hup : e0.nominal.epoch + n * cfg.maxStep < end_ + cfg.maxStep := by
    rcases Nat.lt_or_ge 1 n with hn1 | hn1
    · have := h2 (n - 1) (by omega) (by omega)
      rw [show ((n - 1 : Nat) : Int) = (n : Int) - 1 by omega] at this
      linarith
    · have : n = 1 := by omega
      subst this
      push_cast; omega
  rw [hlast]
  refine ⟨h1, hup, ?_⟩
  constructor
  · intro he
    exact ⟨n, by rw [← he]; ring⟩
  · rintro ⟨c, hc⟩
    have h3 : cfg.maxStep * c ≤ n * cfg.maxStep := by omega
    have h4 : n * cfg.maxStep < cfg.maxStep * (c + 1) := by
      rw [mul_add]; omega
    have h5 : c ≤ n := by
      rw [mul_comm (n : Int)] at h3
      exact le_of_mul_le_mul_left h3 hmax
    have h6 : (n : Int) < c + 1 := by
      rw [mul_comm (n : Int)] at h4
      exact lt_of_mul_lt_mul_left h4 (by omega)
    have : (n : Int) = c := by omega
    rw [this, mul_comm c]; omega

theorem exPredict : ∃ sol, predictUntil exCfg 10 exEst 25 = some (.ok sol) ∧
    sol.map Entry.epoch = [0, 10, 20, 30] := ⟨_, rfl, rfl⟩

example : ∃ sol x, predictUntil exCfg 10 exEst 25 = some (.ok sol) ∧ sol.getLast? = some x ∧
    25 ≤ x.epoch ∧ x.epoch < 25 + 10 := by
  obtain ⟨sol, h, _⟩ := exPredict
  obtain ⟨x, h1, h2, h3, _⟩ := predict_end_partial exCfg exCfg_arrives 10 exEst 25 sol (by decide)
    (by decide) h
  exact ⟨sol, x, h, h1, h2, h3⟩

/-- **C36 (negation).** `predict_until(25)` with steps of 10 ends at 30. -/
theorem predict_end_false : ∃ sol x, predictUntil exCfg 10 exEst 25 = some (.ok sol) ∧
    sol.getLast? = some x ∧ x.epoch = 30 := ⟨_, _, rfl, rfl, rfl⟩

/-- Also, a prediction to the epoch of the estimate, or before, makes one step forward. -/
theorem predict_zero_false : ∃ sol x, predictUntil exCfg 10 exEst 0 = some (.ok sol) ∧
    sol.getLast? = some x ∧ x.epoch = 10 := ⟨_, _, rfl, rfl, rfl⟩

/-- **C36 (termination).** With a positive step, the prediction ends. -/
theorem predict_terminates (cfg : Cfg T K F Ω s a m) {lo : Int} (hadv : Arrives cfg.adv lo)
    (e0 : Est Ω s) (end_ : Int) (hmax : 0 < cfg.maxStep) :
    ∃ fuel r, predictUntil cfg fuel e0 end_ = some r := by
  have key : ∀ (n : Nat) (p : PInst Ω s) (kf : KF F Ω s a) (sol : List (Entry T K Ω s m)),
      end_ ≤ p.state.epoch + ((n : Int) + 1) * cfg.maxStep →
      ∃ r, predictLoop cfg end_ (n + 1) p kf sol = some r := by
    intro n
    induction n with
    | zero =>
      intro p kf sol hd
      rw [predictLoop]
      cases ha : cfg.adv p cfg.maxStep with
      | err => exact ⟨_, rfl⟩
      | panic => exact ⟨_, rfl⟩
      | ok pr =>
        obtain ⟨p', states⟩ := pr
        simp only
        cases hu : kf.timeUpdate cfg.dcm p'.state with
        | err => exact ⟨_, rfl⟩
        | panic => exact ⟨_, rfl⟩
        | ok r =>
          simp only
          rw [if_pos (by rw [hadv.epoch _ _ _ _ ha]; push_cast at hd; omega)]
          exact ⟨_, rfl⟩
    | succ n ih =>
      intro p kf sol hd
      rw [predictLoop]
      cases ha : cfg.adv p cfg.maxStep with
      | err => exact ⟨_, rfl⟩
      | panic => exact ⟨_, rfl⟩
      | ok pr =>
        obtain ⟨p', states⟩ := pr
        simp only
        cases hu : kf.timeUpdate cfg.dcm p'.state with
        | err => exact ⟨_, rfl⟩
        | panic => exact ⟨_, rfl⟩
        | ok r =>
          simp only
          split
          · exact ⟨_, rfl⟩
          · apply ih
            show end_ ≤ p'.state.epoch + _
            rw [hadv.epoch _ _ _ _ ha]
            push_cast at hd
            linarith
  refine ⟨(end_ - e0.nominal.epoch).toNat + 1, ?_⟩
  apply key
  have h1 : end_ - e0.nominal.epoch ≤ ((end_ - e0.nominal.epoch).toNat : Int) := Int.self_le_toNat _
  have h2 : ((end_ - e0.nominal.epoch).toNat : Int) + 1 ≤
      (((end_ - e0.nominal.epoch).toNat : Int) + 1) * cfg.maxStep :=
    le_mul_of_one_le_right (by omega) (by omega)
  show end_ ≤ e0.nominal.epoch + (((end_ - e0.nominal.epoch).toNat : Int) + 1) * cfg.maxStep
  have h3 : end_ - e0.nominal.epoch ≤
      (((end_ - e0.nominal.epoch).toNat : Int) + 1) * cfg.maxStep := by
    refine le_trans h1 (le_trans ?_ h2); omega
  omega

example : ∃ fuel r, predictUntil exCfg fuel exEst 1000 = some r :=
  predict_terminates exCfg exCfg_arrives exEst 1000 (by decide)

/-- **C36 (negation of termination).** Unlike `process_arc`, `predict_until` does not check the maximum
step: with a zero step it never returns. -/
theorem predict_zero_step_diverges (fuel : Nat) :
    predictUntil { exCfg with maxStep := 0 } fuel exEst 1 = none := by
  have key : ∀ (n : Nat) (p : PInst Unit 1) (kf : KF Unit Unit 1 3)
      (sol : List (Entry Nat Nat Unit 1 1)), p.state.epoch = 0 → p.state.stm = some 1 →
      kf.noises = [] → predictLoop { exCfg with maxStep := 0 } 1 n p kf sol = none := by
    intro n
    induction n with
    | zero => intro p kf sol _ _ _; rfl
    | succ n ih =>
      intro p kf sol hp hs hn
      obtain ⟨⟨o, ep, stm⟩, step⟩ := p
      obtain ⟨prev, noises, variant, used⟩ := kf
      simp only at hp hs hn
      subst hp hs hn
      exact ih _ _ _ rfl rfl rfl
  exact key fuel _ _ _ rfl rfl rfl

/-- **C87 for predictions.** The state transition matrices of a prediction chain. -/
theorem predict_stm_chain (cfg : Cfg T K F Ω s a m) (fuel : Nat) (e0 : Est Ω s) (end_ : Int)
    (sol : List (Entry T K Ω s m)) (Φ : Int → Int → Matrix (Fin s) (Fin s) ℝ)
    (hflow : Flow cfg.adv Φ) (h : predictUntil cfg fuel e0 end_ = some (.ok sol)) :
    ∃ L, sol = .time e0 :: L ∧ Chained Φ e0.nominal.epoch L := by
  have key : ∀ (n : Nat) (p : PInst Ω s) (kf : KF F Ω s a) (sol res : List (Entry T K Ω s m)),
      p.state.stm = some 1 → predictLoop cfg end_ n p kf sol = some (.ok res) →
      ∃ L, res = sol ++ L ∧ Chained Φ p.state.epoch L := by
    intro n
    induction n with
    | zero => intro p kf sol res _ h; simp [predictLoop] at h
    | succ n ih =>
      intro p kf sol res hs h
      rw [predictLoop] at h
      cases ha : cfg.adv p cfg.maxStep with
      | err => rw [ha] at h; simp at h
      | panic => rw [ha] at h; simp at h
      | ok pr =>
        obtain ⟨p', states⟩ := pr
        rw [ha] at h
        simp only at h
        obtain ⟨_, hm⟩ := hflow.adv _ _ _ _ ha
        have hm := hm _ hs
        rw [Matrix.mul_one] at hm
        cases hu : kf.timeUpdate cfg.dcm p'.state with
        | err => rw [hu] at h; simp at h
        | panic => rw [hu] at h; simp at h
        | ok r =>
          obtain ⟨kf', e⟩ := r
          rw [hu] at h
          simp only at h
          have hn := (timeUpdate_nominal hu).1
          have hst := timeUpdate_stm hu
          rw [hm] at hst
          have hst := (Option.some.inj hst).symm
          split at h
          · simp only [Option.some.injEq, Res.ok.injEq] at h
            refine ⟨[.time e], h.symm, ?_, trivial⟩
            show e.stm = Φ _ e.nominal.epoch
            rw [hn, hst]
          · obtain ⟨L, h1, h2⟩ := ih _ _ _ _ (by rfl) h
            refine ⟨.time e :: L, by rw [h1]; simp, ?_, ?_⟩
            · show e.stm = Φ _ e.nominal.epoch
              rw [hn, hst]
            · show Chained Φ e.nominal.epoch L
              rw [hn]; exact h2
  obtain ⟨L, h1, h2⟩ := key fuel _ _ _ _ rfl h
  exact ⟨L, h1, h2⟩

example : ∃ sol L, predictUntil exFlow 10 exEst 25 = some (.ok sol) ∧ sol = .time exEst :: L ∧
    L.length = 3 ∧ Chained (fun t t' => ((2 : ℝ) ^ (t' - t)) • 1) 0 L := by
  have h : ∃ sol, predictUntil exFlow 10 exEst 25 = some (.ok sol) ∧ sol.length = 4 := ⟨_, rfl, rfl⟩
  obtain ⟨sol, h, hl⟩ := h
  obtain ⟨L, h1, h2⟩ := predict_stm_chain exFlow 10 exEst 25 sol _ exFlow_flow h
  exact ⟨sol, L, h, h1, by rw [h1] at hl; simpa using hl, h2⟩

/-! ### A precision that is not positive -/

/-- **C35 (negation of termination without a positive precision).** The epoch precision is not checked
by `process_arc`: with a zero precision the inner loop never sees a measurement as reached, even at the
exact epoch, and the process never returns. -/
theorem zero_precision_diverges (fuel : Nat) :
    processArc { exCfg with precision := 0 } fuel exEst
      ⟨[⟨1, 0, [], false⟩, ⟨1, 0, [], false⟩], none, false⟩ = none := by
  have key : ∀ (n : Nat) (z : Meas Nat Nat) (arc : PArc Nat Nat) (st : PSt Nat Nat Unit Unit 1 3 1),
      z.epoch = 0 → st.inst.state.epoch = 0 → st.epoch = 0 → st.inst.step = 10 →
      st.inst.state.stm = some 1 → st.kf.noises = [] →
      advanceTo { exCfg with precision := 0 } arc z n st = none := by
    intro n
    induction n with
    | zero => intros; rfl
    | succ n ih =>
      intro z arc st hz h1 h2 h3 h4 h5
      obtain ⟨⟨⟨o, ep, stm⟩, step⟩, epoch, ⟨prev, noises, variant, used⟩, traj, sol⟩ := st
      obtain ⟨tr, ze, data, rej⟩ := z
      simp only at hz h1 h2 h3 h4 h5
      subst hz h1 h2 h3 h4 h5
      exact ih ⟨tr, 0, data, rej⟩ arc _ rfl rfl rfl rfl rfl rfl
  have hall : processAll { exCfg with precision := 0 }
      ⟨[⟨1, 0, [], false⟩, ⟨1, 0, [], false⟩], none, false⟩ fuel
      [⟨1, 0, [], false⟩, ⟨1, 0, [], false⟩] (start { exCfg with precision := 0 } exEst) = none := by
    rw [processAll, key fuel _ _ _ rfl rfl rfl rfl rfl rfl]
  unfold processArc
  rw [if_neg (by decide), hall]

/-! ### The propagator of Verif.Propagate -/

open Classical in
/-- `for_duration_with_traj` of the propagator model as the `adv` of the process: the payload is the
orbit with the state transition matrix. A propagation that does not terminate is an error here. The
states of the trajectory are those published. propagators/instance.rs:265-276, 330-350. -/
noncomputable def propAdv {E Fr : Type} (env : Propagate.Env (Ω × Option (Matrix (Fin s) (Fin s) ℝ)) E Fr)
    (fixed : Bool) (p : PInst Ω s) (d : Int) : Res (PInst Ω s × List (Nominal Ω s)) :=
  if h : ∃ fuel o, Propagate.forDuration env fuel d
      ⟨⟨p.state.epoch, (p.state.orbit, p.state.stm)⟩, p.step, fixed⟩ = some o then
    match h.choose_spec.choose.res with
    | .ok x => .ok (⟨⟨x.x.1, x.epoch, x.x.2⟩, h.choose_spec.choose.inst.step⟩,
        h.choose_spec.choose.sent.map fun y => ⟨y.x.1, y.epoch, y.x.2⟩)
    | .error _ => .err
  else .err

/-- The propagator model meets `Arrives`, for any dynamics that do not change the epoch, in fixed step, or
in adaptive step with sane options. -/
theorem propAdv_arrives {E Fr : Type} (env : Propagate.Env (Ω × Option (Matrix (Fin s) (Fin s) ℝ)) E Fr)
    (hk : env.KeepsEpoch) (fixed : Bool) {lo : Int} (hlo : 2 ≤ lo)
    (hctl : fixed = false → env.SaneControl ∧ lo ≤ env.opts.minStep) :
    Arrives (propAdv (s := s) env fixed) lo := by
  classical
  have key : ∀ (p : PInst Ω s) d p' l, propAdv env fixed p d = .ok (p', l) →
      p'.state.epoch = p.state.epoch + d ∧ (lo ≤ p.step → lo ≤ p'.step) := by
    intro p d p' l h
    unfold propAdv at h
    split at h
    · rename_i hex
      have hspec := hex.choose_spec.choose_spec
      split at h
      · rename_i x hres
        simp only [Res.ok.injEq, Prod.mk.injEq] at h
        obtain ⟨rfl, _⟩ := h
        have h1 := Propagate.forDuration_arrives env hk _ _ _ _ _ hspec hres
        refine ⟨h1.1, fun hs => ?_⟩
        show lo ≤ hex.choose_spec.choose.inst.step
        generalize hex.choose_spec.choose = o at hspec hres
        generalize hex.choose = fuel at hspec
        by_cases hd : d = 0
        · have h2 := hspec
          unfold Propagate.forDuration Propagate.propagate at h2
          rw [if_pos hd] at h2
          simp only [Option.some.injEq] at h2
          rw [← h2]
          exact hs
        · exact (Propagate.forDuration_completed env hk _ d _ lo hd
            ⟨by omega, hs, hctl⟩ (fun _ => hlo) _ _ hspec hres).2.1
      · cases h
    · cases h
  exact ⟨fun p d p' l h => (key p d p' l h).1, fun p d p' l h => (key p d p' l h).2⟩

/-- A propagator for the example. -/
def exEnv : Propagate.Env (Unit × Option (Matrix (Fin 1) (Fin 1) ℝ)) Unit Unit where
  opts := ⟨2, 10, 1, 5, 4⟩
  rk st _ := .ok ⟨st.x, 0, false⟩
  root _ _ := 1
  finally_ st := .ok st
  integrationFrame := none
  frameOf _ := ()
  transform _ st := .ok st

example : Arrives (propAdv exEnv true) 2 ∧ Arrives (propAdv exEnv false) 2 := by
  have hk : exEnv.KeepsEpoch := ⟨fun _ _ h => by cases h; rfl, fun _ _ _ h => by cases h; rfl⟩
  refine ⟨propAdv_arrives exEnv hk true (le_refl _) (fun h => by cases h),
    propAdv_arrives exEnv hk false (le_refl _) fun _ => ⟨⟨by decide, by decide, by decide,
      fun _ _ _ => one_pos, fun _ _ _ _ => le_refl _, fun _ _ _ => le_refl _, ?_⟩, by decide⟩⟩
  intro st h r hr
  simp only [exEnv, Except.ok.injEq] at hr
  rw [← hr]

end Verif.Process
