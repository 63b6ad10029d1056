import Verif.Process.Trace
import Verif.Kalman.Snc
import Verif.Propagate.Control
/-!
C34 (ambiguities), C36 (prediction), C87 (state transition matrices of the solution), C88 (covariances of
the solution), and the negative results on the process.
-/
namespace Verif.Process
open Verif.Kalman Matrix

variable {T K F Ω : Type} [DecidableEq K] {s a m : Nat}

/-! ### C34 -/

/-- **C34 (integer multiples).** Each row of the resolved observation differs from the raw one by an
integer multiple of the modulus of its type, and is the raw one if there is no modulus. -/
theorem resolve_integer (moduli : Option (List (K × ℝ))) (types : List K) (computed real : Fin m → ℝ)
    (i : Fin m) :
    (∀ ms t md, moduli = some ms → types[i.val]? = some t → look ms t = some md →
      ∃ k : Int, resolve moduli types computed real i = real i + k * md) ∧
    ((moduli = none ∨ ∃ ms t, moduli = some ms ∧ types[i.val]? = some t ∧ look ms t = none) →
      resolve moduli types computed real i = real i) := by
  constructor
  · intro ms t md h1 h2 h3
    subst h1
    simp only [resolve, h2, h3, divEuclid]
    split
    · exact ⟨_, rfl⟩
    · exact ⟨_, rfl⟩
  · rintro (h | ⟨ms, t, h1, h2, h3⟩)
    · subst h; rfl
    · subst h1; simp [resolve, h2, h3]

/-- **C34 (partial).** For a positive modulus and a raw observation in `[0, md)`, the resolved observation
is in the same interval `[k md, (k+1) md)` as the computed one, hence less than one modulus away. Missing:
at most half a modulus away, which is false, see `resolve_not_nearest`. -/
theorem resolve_same_interval_partial (ms : List (K × ℝ)) (types : List K) (computed real : Fin m → ℝ)
    (i : Fin m) (t : K) (md : ℝ) (ht : types[i.val]? = some t) (hl : look ms t = some md)
    (hmd : 0 < md) (h0 : 0 ≤ real i) (h1 : real i < md) :
    ∃ k : Int, (k * md ≤ computed i ∧ computed i < (k + 1) * md) ∧
      (k * md ≤ resolve (some ms) types computed real i ∧
        resolve (some ms) types computed real i < (k + 1) * md) ∧
      |resolve (some ms) types computed real i - computed i| < md := by
  have hr : resolve (some ms) types computed real i = real i + ⌊computed i / md⌋ * md := by
    simp only [resolve, ht, hl, divEuclid, if_pos hmd]
  have hf1 := Int.floor_le (computed i / md)
  have hf2 := Int.lt_floor_add_one (computed i / md)
  rw [le_div_iff₀ hmd] at hf1
  rw [div_lt_iff₀ hmd] at hf2
  refine ⟨⌊computed i / md⌋, ⟨hf1, hf2⟩, ⟨by rw [hr]; linarith, by rw [hr]; nlinarith⟩, ?_⟩
  rw [hr, abs_lt]
  constructor <;> nlinarith

example : ∃ k : Int, (k * 100 ≤ (530 : ℝ) ∧ (530 : ℝ) < (k + 1) * 100) ∧
    (k * 100 ≤ resolve (m := 1) (some [(0, 100)]) [0] (fun _ => 530) (fun _ => 20) 0 ∧
      resolve (m := 1) (some [(0, 100)]) [0] (fun _ => 530) (fun _ => 20) 0 < (k + 1) * 100) ∧
    |resolve (m := 1) (some [(0, 100)]) [0] (fun _ => 530) (fun _ => 20) 0 - 530| < 100 :=
  resolve_same_interval_partial [(0, 100)] [0] (fun _ => 530) (fun _ => 20) 0 0 100 rfl rfl
    (by norm_num) (by norm_num) (by norm_num)

/-- **C34 (negation of the nearest claim).** Modulus 100, predicted 199, raw 1: 201 would be two units
away, the code gives 101. -/
theorem resolve_not_nearest :
    resolve (m := 1) (some [(0, 100)]) [0] (fun _ => 199) (fun _ => 1) 0 = 101 ∧
    |(1 + 2 * 100 : ℝ) - 199| = 2 ∧ (100 : ℝ) / 2 < |(101 : ℝ) - 199| := by
  refine ⟨?_, by norm_num, by norm_num⟩
  have : ⌊(199 : ℝ) / 100⌋ = 1 := by rw [Int.floor_eq_iff]; norm_num
  simp only [resolve, look, divEuclid]
  norm_num [this]

/-! ### Invariants of the process -/

/-- The atomic actions of the process. -/
inductive Act (cfg : Cfg T K F Ω s a m) (arc : PArc T K) : PSt T K F Ω s a m → PSt T K F Ω s a m → Prop
  | adv (st z p states) : cfg.adv st.inst (nextStep cfg z st) = .ok (p, states) →
      Act cfg arc st
        { st with inst := p, epoch := p.state.epoch, traj := truncate st.epoch st.traj ++ states }
  | tick (st st') : timeUp cfg st.inst.state st = .ok st' → Act cfg arc st st'
  | reject (st st') (z : Meas T K) : |st.inst.state.epoch - z.epoch| < cfg.precision →
      timeUp cfg st.inst.state { st with inst := setEpoch st.inst z.epoch } = .ok st' →
      Act cfg arc st st'
  | arrive (st) (z : Meas T K) : |st.inst.state.epoch - z.epoch| < cfg.precision →
      Act cfg arc st { st with inst := setEpoch st.inst z.epoch }
  | window (st st' z dev types) : cfg.devices z.tracker = some dev →
      oneWindow cfg arc z dev types st = .ok st' → Act cfg arc st st'

/-- What the actions preserve holds of the state after the loop. -/
theorem processAll_invariant {cfg : Cfg T K F Ω s a m} {arc : PArc T K}
    (I : PSt T K F Ω s a m → Prop) (hI : ∀ st st', I st → Act cfg arc st st' → I st') (n : Nat)
    (zs : List (Meas T K)) :
    ∀ {st st' : PSt T K F Ω s a m}, I st → processAll cfg arc n zs st = some (.ok st') → I st' := by
  have hw : ∀ (z : Meas T K) (dev : Dev T K Ω s m), cfg.devices z.tracker = some dev →
      ∀ (ws : List (List K)) {st st' : PSt T K F Ω s a m}, I st →
      allWindows cfg arc z dev ws st = .ok st' → I st' := by
    intro z dev hd ws
    induction ws with
    | nil => intro st st' h0 h; cases h; exact h0
    | cons w ws ih =>
      intro st st' h0 h
      obtain ⟨st1, h1, h2⟩ := Res.bind_eq_ok.1 h
      exact ih (hI _ _ h0 (.window _ _ _ _ _ hd h1)) h2
  have ha : ∀ (z : Meas T K) (n : Nat) {st st' : PSt T K F Ω s a m}, I st →
      advanceTo cfg arc z n st = some (.ok st') → I st' := by
    intro z n
    induction n with
    | zero => intro st st' _ h; simp [advanceTo] at h
    | succ n ih =>
      intro st st' h0 h
      rw [advanceTo] at h
      cases hadv : cfg.adv st.inst (nextStep cfg z st) with
      | err => rw [hadv] at h; simp at h
      | panic => rw [hadv] at h; simp at h
      | ok pr =>
        obtain ⟨p, states⟩ := pr
        rw [hadv] at h
        simp only at h
        have h1 := hI _ _ h0 (.adv st z p states hadv)
        split at h
        · rename_i hc
          simp only [Option.some.injEq] at h
          unfold atMeasurement at h
          simp only at h
          split at h
          · exact hI _ _ h1 (.reject _ _ z hc h)
          · have h2 := hI _ _ h1 (.arrive _ z hc)
            split at h
            · cases h; exact h2
            · rename_i dev hd
              exact hw z dev hd _ h2 h
        · split at h
          · rename_i st2 ht
            exact ih (hI _ _ h1 (.tick _ _ ht)) h
          · simp at h
          · simp at h
  induction zs with
  | nil =>
    intro st st' h0 h
    simp only [processAll, Option.some.injEq, Res.ok.injEq] at h
    subst h; exact h0
  | cons z zs ih =>
    intro st st' h0 h
    rw [processAll] at h
    split at h
    · cases h
    · rename_i st1 h1
      exact ih (ha z n h0 h1) h
    · rename_i hne _
      simp only [Option.some.injEq] at h
      exact absurd h (hne _)

theorem processArc_ok {cfg : Cfg T K F Ω s a m} {fuel : Nat} {e0 : Est Ω s} {arc : PArc T K}
    {sol : List (Entry T K Ω s m)} (h : processArc cfg fuel e0 arc = some (.ok sol)) :
    ∃ st, processAll cfg arc fuel arc.measurements (start cfg e0) = some (.ok st) ∧ sol = st.sol := by
  unfold processArc at h
  split at h
  · simp at h
  · split at h
    · cases h
    · rename_i st hst
      simp only [Option.some.injEq, Res.ok.injEq] at h
      exact ⟨st, hst, h.symm⟩
    · cases h
    · cases h

/-! ### C88: all the covariances of a solution are symmetric positive semi-definite -/

/-- **C88.** From a symmetric positive semi-definite initial covariance, with process noises of non
negative densities and devices whose measurement covariances are positive semi-definite, every
estimate of the solution of `process_arc` has a symmetric positive semi-definite covariance. -/
theorem solution_covariances_psd (cfg : Cfg T K F Ω s a m) (fuel : Nat) (e0 : Est Ω s)
    (arc : PArc T K) (sol : List (Entry T K Ω s m)) (hP : SymPsd e0.covar)
    (hq : ∀ q ∈ cfg.noises, ∀ i, 0 ≤ q.diag i)
    (hR : ∀ t dev types e R, cfg.devices t = some dev → dev.covar types e = .ok R → SymPsd R)
    (h : processArc cfg fuel e0 arc = some (.ok sol)) : ∀ x ∈ sol, SymPsd x.est.covar := by
  obtain ⟨st, hst, rfl⟩ := processArc_ok h
  have key := processAll_invariant
    (fun st => st.kf.prev.covar.PosSemidef ∧ GoodNoises st.kf ∧ ∀ x ∈ st.sol, SymPsd x.est.covar)
    (cfg := cfg) (arc := arc) ?_ fuel arc.measurements ?_ hst
  · exact key.2.2
  · rintro st st' ⟨h1, h2, h3⟩ hact
    have htime : ∀ (x : Nominal Ω s) (st st' : PSt T K F Ω s a m), st.kf.prev.covar.PosSemidef →
        GoodNoises st.kf → (∀ x ∈ st.sol, SymPsd x.est.covar) → timeUp cfg x st = .ok st' →
        st'.kf.prev.covar.PosSemidef ∧ GoodNoises st'.kf ∧ ∀ x ∈ st'.sol, SymPsd x.est.covar := by
      intro x st st' h1 h2 h3 ht
      obtain ⟨kf', e, hu, rfl⟩ := timeUp_ok ht
      obtain ⟨k1, k2, k3⟩ := time_psd h1 h2 hu
      refine ⟨k1, k2, ?_⟩
      intro x hx
      rcases List.mem_append.1 hx with hx | hx
      · exact h3 x hx
      · rw [List.mem_singleton.1 hx]
        exact (symPsd_iff _).2 (by rw [← k3] at *; exact k1)
    cases hact with
    | adv z p states h => exact ⟨h1, h2, h3⟩
    | tick _ h => exact htime _ _ _ h1 h2 h3 h
    | reject _ z _ h => exact htime _ _ _ (by exact h1) (by exact h2) (by exact h3) h
    | arrive z _ => exact ⟨h1, h2, h3⟩
    | window _ z dev types hd h =>
      rcases oneWindow_ok h with ⟨rfl, _⟩ | ⟨_, H, R, _, _, kf', e, r, g, _, _, _, hcov, _, _, hu, rfl⟩
      · exact ⟨h1, h2, h3⟩
      · obtain ⟨k1, k2, k3⟩ := msr_psd h1 h2 ((symPsd_iff _).1 (hR _ _ _ _ _ hd hcov)) hu
        refine ⟨k1, k2, ?_⟩
        intro x hx
        rcases List.mem_append.1 hx with hx | hx
        · exact h3 x hx
        · rw [List.mem_singleton.1 hx]
          exact (symPsd_iff _).2 (by rw [← k3] at *; exact k1)
  · refine ⟨(symPsd_iff _).1 hP, ?_, by simp [start]⟩
    intro q hq'
    simp only [start, KF.initNoises, List.mem_map] at hq'
    obtain ⟨q', h1, rfl⟩ := hq'
    exact hq q' h1

theorem symPsd_one (n : Nat) : SymPsd (1 : Matrix (Fin n) (Fin n) ℝ) := (symPsd_iff _).2 PosSemidef.one

example : ∃ sol, processArc exCfg 10 exEst exArc = some (.ok sol) ∧ sol.length = 6 ∧
    ∀ x ∈ sol, SymPsd x.est.covar := by
  obtain ⟨sol, h, h2⟩ := exCfg_runs
  refine ⟨sol, h, by simpa using congrArg List.length h2, ?_⟩
  refine solution_covariances_psd exCfg 10 exEst exArc sol (symPsd_one 1) (by simp [exCfg]) ?_ h
  intro t dev types e R hd hc
  simp only [exCfg] at hd
  split at hd
  · cases hd
    simp only [exDev, Res.ok.injEq] at hc
    rw [← hc]; exact symPsd_one 1
  · cases hd

/-! ### C87: the state transition matrices of a solution -/

/-- The state transition matrices of consecutive estimates chain: each is the transition from the epoch
of the previous estimate. -/
def Chained (Φ : Int → Int → Matrix (Fin s) (Fin s) ℝ) : Int → List (Entry T K Ω s m) → Prop
  | _, [] => True
  | t, x :: l => x.est.stm = Φ t x.epoch ∧ Chained Φ x.epoch l

/-- The epoch of the last entry, or the given one. -/
def lastEpoch (t : Int) (l : List (Entry T K Ω s m)) : Int := (l.getLast?.map Entry.epoch).getD t

theorem chained_snoc (Φ : Int → Int → Matrix (Fin s) (Fin s) ℝ) (x : Entry T K Ω s m)
    (l : List (Entry T K Ω s m)) : ∀ t, Chained Φ t l → x.est.stm = Φ (lastEpoch t l) x.epoch →
      Chained Φ t (l ++ [x]) := by
  induction l with
  | nil => intro t _ h; exact ⟨h, trivial⟩
  | cons y l ih =>
    intro t h h2
    refine ⟨h.1, ih _ h.2 ?_⟩
    rw [h2]
    congr 1
    unfold lastEpoch
    cases l with
    | nil => rfl
    | cons z l =>
      rw [List.getLast?_cons_cons]
      rw [List.getLast?_eq_some_getLast (List.cons_ne_nil z l)]
      rfl

theorem lastEpoch_snoc (t : Int) (l : List (Entry T K Ω s m)) (x : Entry T K Ω s m) :
    lastEpoch t (l ++ [x]) = x.epoch := by
  simp [lastEpoch]

/-- The transition matrices of a linear flow, computed by the propagator: propagating for `d` multiplies
the matrix of the state from the left by the transition over the interval. -/
structure Flow (adv : PInst Ω s → Int → Res (PInst Ω s × List (Nominal Ω s)))
    (Φ : Int → Int → Matrix (Fin s) (Fin s) ℝ) : Prop where
  refl : ∀ t, Φ t t = 1
  comp : ∀ t₁ t₂ t₃, Φ t₂ t₃ * Φ t₁ t₂ = Φ t₁ t₃
  adv : ∀ p d p' l, adv p d = .ok (p', l) → p'.state.epoch = p.state.epoch + d ∧
    ∀ M, p.state.stm = some M → p'.state.stm = some (Φ p.state.epoch p'.state.epoch * M)

theorem timeUpdate_stm {kf kf' : KF F Ω s a} {dcm : F → Ω → Option (Matrix (Fin 3) (Fin 3) ℝ)}
    {x : Nominal Ω s} {e : Est Ω s} (h : kf.timeUpdate dcm x = .ok (kf', e)) : x.stm = some e.stm := by
  obtain ⟨stm, _, h1, _, _, h7⟩ := timeUpdate_ok h
  rw [h7]; exact h1

theorem msrUpdate_stm {kf kf' : KF F Ω s a} {chol : Chol}
    {dcm : F → Ω → Option (Matrix (Fin 3) (Fin 3) ℝ)} {x : Nominal Ω s} {z : MsrIn s m}
    {t : Option ℝ} {e : Est Ω s} {r : Resid m} {g : Option (Matrix (Fin s) (Fin m) ℝ)}
    (h : kf.measurementUpdate chol dcm x z t = .ok (kf', e, r, g)) : x.stm = some e.stm := by
  obtain ⟨stm, pu, L, h1, h2, _, _, _, _, _, _, _, _, hc⟩ := measurementUpdate_ok h
  rcases hc with ⟨_, _, _, h3⟩ | ⟨_, K, _, _, h4, _, h5⟩
  · exact timeUpdate_stm h3
  · rw [h4]; exact h1

/-- **C87.** If the propagator computes the transition matrices of a linear flow, and measurement epochs
are matched exactly (precision of one nanosecond), then each estimate of the solution carries the
transition matrix from the epoch of the previous estimate (the initial one for the first) to its own, for
any arc: also across measurements without an entry (unknown trackers, no visibility), through several
updates at one epoch (identity), and through updates of the reference. -/
theorem solution_stm_chain (cfg : Cfg T K F Ω s a m) (fuel : Nat) (e0 : Est Ω s)
    (arc : PArc T K) (sol : List (Entry T K Ω s m)) (Φ : Int → Int → Matrix (Fin s) (Fin s) ℝ)
    (hplus : ∀ x d, (cfg.plus x d).epoch = x.epoch) (hprec : cfg.precision ≤ 1)
    (hflow : Flow cfg.adv Φ) (h : processArc cfg fuel e0 arc = some (.ok sol)) :
    Chained Φ e0.nominal.epoch sol := by
  obtain ⟨st, hst, rfl⟩ := processArc_ok h
  have key := processAll_invariant
    (fun st : PSt T K F Ω s a m =>
      st.inst.state.stm = some (Φ (lastEpoch e0.nominal.epoch st.sol) st.inst.state.epoch) ∧
        Chained Φ e0.nominal.epoch st.sol)
    (cfg := cfg) (arc := arc) ?_ fuel arc.measurements ?_ hst
  · exact key.2
  · rintro st st' ⟨h1, h2⟩ hact
    have htime : ∀ (x : Nominal Ω s) (st st' : PSt T K F Ω s a m),
        x.epoch = st.inst.state.epoch →
        x.stm = some (Φ (lastEpoch e0.nominal.epoch st.sol) x.epoch) →
        Chained Φ e0.nominal.epoch st.sol → timeUp cfg x st = .ok st' →
        st'.inst.state.stm =
            some (Φ (lastEpoch e0.nominal.epoch st'.sol) st'.inst.state.epoch) ∧
          Chained Φ e0.nominal.epoch st'.sol := by
      intro x st st' h0 h1 h2 ht
      obtain ⟨kf', e, hu, rfl⟩ := timeUp_ok ht
      have he := (timeUpdate_nominal hu).1
      have hs := timeUpdate_stm hu
      rw [h1] at hs
      constructor
      · show some 1 = some (Φ (lastEpoch _ (st.sol ++ [.time e])) st.inst.state.epoch)
        rw [lastEpoch_snoc]
        show some 1 = some (Φ e.nominal.epoch _)
        rw [he, ← h0, hflow.refl]
      · refine chained_snoc Φ _ _ _ h2 ?_
        show e.stm = Φ _ e.nominal.epoch
        rw [he]
        exact (Option.some.inj hs).symm
    cases hact with
    | adv z p states h =>
      obtain ⟨_, k2⟩ := hflow.adv _ _ _ _ h
      refine ⟨?_, h2⟩
      show p.state.stm = some (Φ _ p.state.epoch)
      rw [k2 _ h1, hflow.comp]
    | tick _ h => exact htime _ _ _ rfl h1 h2 h
    | reject _ z hc h =>
      have : st.inst.state.epoch = z.epoch := by rw [abs_lt] at hc; omega
      exact htime _ _ _ this (by exact h1) (by exact h2) h
    | arrive z hc =>
      have : st.inst.state.epoch = z.epoch := by rw [abs_lt] at hc; omega
      refine ⟨?_, h2⟩
      show st.inst.state.stm = some (Φ _ z.epoch)
      rw [← this]; exact h1
    | window _ z dev types hd h =>
      rcases oneWindow_ok h with ⟨rfl, _⟩ | ⟨_, H, R, _, _, kf', e, r, g, _, _, _, hcov, _, _, hu, rfl⟩
      · exact ⟨h1, h2⟩
      · have he := (msrUpdate_nominal hu).1
        have hs := msrUpdate_stm hu
        rw [h1] at hs
        constructor
        · have hep : (applyUpdate cfg st.inst st.traj e r.rejected).1.state.epoch =
              st.inst.state.epoch := by
            unfold applyUpdate
            split
            · show (cfg.plus e.nominal e.dev).epoch = _
              rw [hplus, he]
            · rfl
          have hstm : (applyUpdate cfg st.inst st.traj e r.rejected).1.state.stm = some 1 := by
            unfold applyUpdate
            split <;> rfl
          show (applyUpdate cfg st.inst st.traj e r.rejected).1.state.stm = some (Φ (lastEpoch _
            (st.sol ++ [.msr e r g z.tracker types]))
            (applyUpdate cfg st.inst st.traj e r.rejected).1.state.epoch)
          rw [hstm, hep, lastEpoch_snoc]
          show some 1 = some (Φ e.nominal.epoch _)
          rw [he, hflow.refl]
        · refine chained_snoc Φ _ _ _ h2 ?_
          show e.stm = Φ _ e.nominal.epoch
          rw [he]
          exact (Option.some.inj hs).symm
  · refine ⟨?_, trivial⟩
    show some 1 = some (Φ e0.nominal.epoch e0.nominal.epoch)
    rw [hflow.refl]

/-- A one dimensional flow: the transition over `d` nanoseconds is `2 ^ d`. -/
noncomputable def exFlow : Cfg Nat Nat Unit Unit 1 3 1 :=
  { exCfg with
    precision := 1
    adv := fun p d => .ok (⟨⟨p.state.orbit, p.state.epoch + d,
      p.state.stm.map fun M => ((2 : ℝ) ^ d) • M⟩, p.step⟩, []) }

theorem exFlow_flow : Flow exFlow.adv fun t t' => ((2 : ℝ) ^ (t' - t)) • 1 where
  refl t := by simp
  comp t₁ t₂ t₃ := by
    rw [Matrix.smul_mul, Matrix.one_mul, smul_smul, ← zpow_add₀ (by norm_num)]
    congr 2; ring
  adv p d p' l h := by
    simp only [exFlow, Res.ok.injEq, Prod.mk.injEq] at h
    obtain ⟨rfl, _⟩ := h
    refine ⟨rfl, fun M hM => ?_⟩
    simp only [hM, Option.map_some, add_sub_cancel_left, Matrix.smul_mul, Matrix.one_mul]

/-- The hypotheses of `solution_stm_chain` are met by a run with six entries. -/
example : ∃ sol : List (Entry Nat Nat Unit 1 1), Chained (fun t t' => ((2 : ℝ) ^ (t' - t)) • 1) 0 sol ∧
    sol.map Entry.epoch = [10, 20, 25, 25, 25, 40, 41] := by
  have h : ∃ sol, processArc exFlow 10 exEst exArc = some (.ok sol) ∧
    sol.map Entry.epoch = [10, 20, 25, 25, 25, 40, 41] := ⟨_, rfl, rfl⟩
  obtain ⟨sol, h, h2⟩ := h
  exact ⟨sol, solution_stm_chain exFlow 10 exEst exArc sol _ (fun _ _ => rfl) (le_refl _) exFlow_flow h, h2⟩

end Verif.Process
