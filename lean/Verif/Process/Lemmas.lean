import Verif.Process.Model
/-!
Lemmas on the orbit determination loop.
-/
namespace Verif.Process
open Verif.Kalman Matrix

variable {T K F Ω : Type} [DecidableEq K] {s a m : Nat}

/-- What is assumed of the propagator: a call for a duration advances the epoch by exactly that
duration (C01 of the propagator), leaves a step of at least `lo` (C04), and does not remove the state
transition matrix. -/
structure Arrives (adv : PInst Ω s → Int → Res (PInst Ω s × List (Nominal Ω s))) (lo : Int) : Prop where
  epoch : ∀ p d p' l, adv p d = .ok (p', l) → p'.state.epoch = p.state.epoch + d
  step : ∀ p d p' l, adv p d = .ok (p', l) → lo ≤ p.step → lo ≤ p'.step

theorem timeUp_ok {cfg : Cfg T K F Ω s a m} {x : Nominal Ω s} {st st' : PSt T K F Ω s a m}
    (h : timeUp cfg x st = .ok st') :
    ∃ kf' e, st.kf.timeUpdate cfg.dcm x = .ok (kf', e) ∧
      st' = { st with inst := resetStm st.inst, kf := kf', sol := st.sol ++ [.time e] } := by
  unfold timeUp at h
  obtain ⟨r, h1, h2⟩ := Res.bind_eq_ok.1 h
  cases h2
  exact ⟨r.1, r.2, h1, rfl⟩

theorem oneWindow_ok {cfg : Cfg T K F Ω s a m} {arc : PArc T K} {z : Meas T K}
    {dev : Dev T K Ω s m} {types : List K} {st st' : PSt T K F Ω s a m}
    (h : oneWindow cfg arc z dev types st = .ok st') :
    (st' = st ∧ (z.anyAvailable types = false ∨ dev.measure st.epoch st.traj = .ok none)) ∨
    ∃ real H R comp b kf' e r g, z.anyAvailable types = true ∧
      observation m z.data types = some real ∧ dev.hTilde z types st.inst.state = .ok H ∧
      dev.covar types st.epoch = .ok R ∧ dev.measure st.epoch st.traj = .ok (some comp) ∧
      dev.bias types st.epoch = .ok b ∧
      st.kf.measurementUpdate cfg.chol cfg.dcm st.inst.state
        ⟨resolve arc.moduli types (obsOf m comp types - b) real, obsOf m comp types - b, R, H⟩
        (threshold cfg arc) = .ok (kf', e, r, g) ∧
      st' = { inst := (applyUpdate cfg st.inst st.traj e r.rejected).1, epoch := st.epoch, kf := kf',
              traj := (applyUpdate cfg st.inst st.traj e r.rejected).2,
              sol := st.sol ++ [.msr e r g z.tracker types] } := by
  unfold oneWindow at h
  split at h
  · rename_i hav
    split at h
    · cases h
    · rename_i real hreal
      obtain ⟨H, h1, h⟩ := Res.bind_eq_ok.1 h
      obtain ⟨R, h2, h⟩ := Res.bind_eq_ok.1 h
      obtain ⟨o, h3, h⟩ := Res.bind_eq_ok.1 h
      cases o with
      | none => cases h; exact Or.inl ⟨rfl, Or.inr h3⟩
      | some comp =>
        obtain ⟨b, h4, h⟩ := Res.bind_eq_ok.1 h
        obtain ⟨⟨kf', e, r, g⟩, h5, h⟩ := Res.bind_eq_ok.1 h
        cases h
        exact Or.inr ⟨real, H, R, comp, b, kf', e, r, g, hav, hreal, h1, h2, h3, h4, h5, rfl⟩
  · rename_i hav
    cases h
    exact Or.inl ⟨rfl, Or.inl (by simpa using hav)⟩

/-- The nominal state of the estimate of an update is the state given. -/
theorem msrUpdate_nominal {kf kf' : KF F Ω s a} {chol : Chol}
    {dcm : F → Ω → Option (Matrix (Fin 3) (Fin 3) ℝ)} {x : Nominal Ω s} {z : MsrIn s m}
    {t : Option ℝ} {e : Est Ω s} {r : Resid m} {g : Option (Matrix (Fin s) (Fin m) ℝ)}
    (h : kf.measurementUpdate chol dcm x z t = .ok (kf', e, r, g)) :
    e.nominal = x ∧ kf'.prev = e := by
  obtain ⟨stm, pu, L, _, h2, _, _, _, _, _, _, _, _, hc⟩ := measurementUpdate_ok h
  rcases hc with ⟨_, _, _, h3⟩ | ⟨_, K, _, _, h4, _, h5⟩
  · obtain ⟨_, _, _, _, h6, h7⟩ := timeUpdate_ok h3
    exact ⟨by rw [h7], by rw [h6]; rfl⟩
  · exact ⟨by rw [h4], by rw [h5]; rfl⟩

theorem timeUpdate_nominal {kf kf' : KF F Ω s a}
    {dcm : F → Ω → Option (Matrix (Fin 3) (Fin 3) ℝ)} {x : Nominal Ω s} {e : Est Ω s}
    (h : kf.timeUpdate dcm x = .ok (kf', e)) : e.nominal = x ∧ kf'.prev = e := by
  obtain ⟨_, _, _, _, h6, h7⟩ := timeUpdate_ok h
  exact ⟨by rw [h7], by rw [h6]; rfl⟩

/-- What one window leaves of the epochs and the step. -/
theorem oneWindow_epoch {cfg : Cfg T K F Ω s a m} (hplus : ∀ x d, (cfg.plus x d).epoch = x.epoch)
    {arc : PArc T K} {z : Meas T K} {dev : Dev T K Ω s m} {types : List K}
    {st st' : PSt T K F Ω s a m} (h : oneWindow cfg arc z dev types st = .ok st') :
    st'.inst.state.epoch = st.inst.state.epoch ∧ st'.inst.step = st.inst.step ∧
      st'.epoch = st.epoch := by
  rcases oneWindow_ok h with ⟨rfl, _⟩ | ⟨_, _, _, _, _, kf', e, r, g, _, _, _, _, _, _, hu, rfl⟩
  · exact ⟨rfl, rfl, rfl⟩
  · have hn := (msrUpdate_nominal hu).1
    simp only [applyUpdate]
    split
    · refine ⟨?_, rfl, trivial⟩
      show (cfg.plus e.nominal e.dev).epoch = _
      rw [hplus, hn]
    · exact ⟨rfl, rfl, trivial⟩

theorem allWindows_epoch {cfg : Cfg T K F Ω s a m} (hplus : ∀ x d, (cfg.plus x d).epoch = x.epoch)
    {arc : PArc T K} {z : Meas T K} {dev : Dev T K Ω s m} (ws : List (List K)) :
    ∀ {st st' : PSt T K F Ω s a m}, allWindows cfg arc z dev ws st = .ok st' →
    st'.inst.state.epoch = st.inst.state.epoch ∧ st'.inst.step = st.inst.step ∧
      st'.epoch = st.epoch := by
  induction ws with
  | nil => intro st st' h; cases h; exact ⟨rfl, rfl, rfl⟩
  | cons w ws ih =>
    intro st st' h
    obtain ⟨st1, h1, h2⟩ := Res.bind_eq_ok.1 h
    obtain ⟨a1, a2, a3⟩ := oneWindow_epoch hplus h1
    obtain ⟨b1, b2, b3⟩ := ih h2
    exact ⟨by rw [b1, a1], by rw [b2, a2], by rw [b3, a3]⟩

theorem atMeasurement_epoch {cfg : Cfg T K F Ω s a m}
    (hplus : ∀ x d, (cfg.plus x d).epoch = x.epoch)
    {arc : PArc T K} {z : Meas T K} {st st' : PSt T K F Ω s a m}
    (h : atMeasurement cfg arc z st = .ok st') :
    st'.inst.state.epoch = z.epoch ∧ st'.inst.step = st.inst.step ∧ st'.epoch = st.epoch := by
  unfold atMeasurement at h
  simp only at h
  split at h
  · obtain ⟨kf', e, _, rfl⟩ := timeUp_ok h
    exact ⟨rfl, rfl, rfl⟩
  · split at h
    · cases h; exact ⟨rfl, rfl, rfl⟩
    · obtain ⟨h1, h2, h3⟩ := allWindows_epoch hplus _ h
      exact ⟨h1, h2, h3⟩

/-- More fuel does not change a result. -/
theorem advanceTo_mono (cfg : Cfg T K F Ω s a m) (arc : PArc T K) (z : Meas T K) (n : Nat) :
    ∀ (st : PSt T K F Ω s a m) (r : Res (PSt T K F Ω s a m)) (k : Nat),
      advanceTo cfg arc z n st = some r → advanceTo cfg arc z (n + k) st = some r := by
  induction n with
  | zero => intro st r k h; simp [advanceTo] at h
  | succ n ih =>
    intro st r k h
    rw [show n + 1 + k = (n + k) + 1 by omega]
    rw [advanceTo] at h ⊢
    split at h
    · exact h
    · exact h
    · rename_i p states hadv
      simp only at h ⊢
      split at h
      · rename_i hc; rw [if_pos hc]; exact h
      · rename_i hc
        rw [if_neg hc]
        split at h
        · exact ih _ _ _ h
        · exact h
        · exact h

theorem processAll_mono (cfg : Cfg T K F Ω s a m) (arc : PArc T K) (n k : Nat)
    (zs : List (Meas T K)) :
    ∀ (st : PSt T K F Ω s a m) (r : Res (PSt T K F Ω s a m)),
      processAll cfg arc n zs st = some r → processAll cfg arc (n + k) zs st = some r := by
  induction zs with
  | nil => intro st r h; exact h
  | cons z zs ih =>
    intro st r h
    rw [processAll] at h ⊢
    cases ha : advanceTo cfg arc z n st with
    | none => rw [ha] at h; simp at h
    | some q =>
      rw [advanceTo_mono cfg arc z n st q k ha]
      rw [ha] at h
      cases q with
      | ok st' => exact ih _ _ h
      | err => exact h
      | panic => exact h

/-- The inner loop ends. `off` is the offset between the propagator and the variable `epoch`. -/
theorem advanceTo_terminates (cfg : Cfg T K F Ω s a m) (arc : PArc T K) (z : Meas T K) {lo : Int}
    (hlo : 0 < lo) (hadv : Arrives cfg.adv lo) (hmax : 0 < cfg.maxStep) (hprec : 0 < cfg.precision)
    (n : Nat) : ∀ (st : PSt T K F Ω s a m), lo ≤ st.inst.step →
      |st.inst.state.epoch - st.epoch| < cfg.precision →
      (st.inst.state.epoch = st.epoch ∧ z.epoch - st.epoch ≤ (n : Int) * min lo cfg.maxStep) ∨
        (1 ≤ n ∧ z.epoch - st.inst.state.epoch ≤ ((n : Int) - 1) * min lo cfg.maxStep) →
      ∃ r, advanceTo cfg arc z (n + 1) st = some r := by
  induction n with
  | zero =>
    intro st hs hoff hd
    rcases hd with ⟨h0, hd⟩ | ⟨h1, _⟩
    · rw [advanceTo]
      cases ha : cfg.adv st.inst (nextStep cfg z st) with
      | err => exact ⟨_, rfl⟩
      | panic => exact ⟨_, rfl⟩
      | ok pr =>
        obtain ⟨p, states⟩ := pr
        simp only
        have he := hadv.epoch _ _ _ _ ha
        have : nextStep cfg z st = z.epoch - st.epoch := by
          unfold nextStep; simp at hd; omega
        rw [if_pos (by rw [he, this, h0]; rw [show st.epoch + (z.epoch - st.epoch) - z.epoch = 0 by ring]; simpa using hprec)]
        exact ⟨_, rfl⟩
    · omega
  | succ n ih =>
    intro st hs hoff hd
    rw [advanceTo]
    cases ha : cfg.adv st.inst (nextStep cfg z st) with
    | err => exact ⟨_, rfl⟩
    | panic => exact ⟨_, rfl⟩
    | ok pr =>
      obtain ⟨p, states⟩ := pr
      simp only
      have he := hadv.epoch _ _ _ _ ha
      have hst := hadv.step _ _ _ _ ha hs
      split
      · exact ⟨_, rfl⟩
      · rename_i hfar
        cases ht : timeUp cfg p.state
          { st with inst := p, epoch := p.state.epoch, traj := truncate st.epoch st.traj ++ states } with
        | err => exact ⟨_, rfl⟩
        | panic => exact ⟨_, rfl⟩
        | ok st2 =>
          simp only
          obtain ⟨kf', e, _, rfl⟩ := timeUp_ok ht
          apply ih
          · exact hst
          · simpa [resetStm] using hprec
          · left
            refine ⟨rfl, ?_⟩
            show z.epoch - p.state.epoch ≤ _
            have hmin : min lo cfg.maxStep ≤ nextStep cfg z st ∨
                nextStep cfg z st = z.epoch - st.epoch := by
              unfold nextStep; omega
            rcases hmin with hmin | hmin
            · rcases hd with ⟨h0, hd⟩ | ⟨_, hd⟩
              · have : ((n + 1 : Nat) : Int) * min lo cfg.maxStep =
                  (n : Int) * min lo cfg.maxStep + min lo cfg.maxStep := by push_cast; ring
                rw [he, h0]; omega
              · have : (((n + 1 : Nat) : Int) - 1) * min lo cfg.maxStep =
                  (n : Int) * min lo cfg.maxStep := by push_cast; ring
                have h0 : 0 < min lo cfg.maxStep := by omega
                rw [he]; omega
            · exfalso
              apply hfar
              rw [he, hmin]
              rw [show st.inst.state.epoch + (z.epoch - st.epoch) - z.epoch =
                st.inst.state.epoch - st.epoch by ring]
              exact hoff

/-- What the inner loop leaves. -/
theorem advanceTo_after {cfg : Cfg T K F Ω s a m} (hplus : ∀ x d, (cfg.plus x d).epoch = x.epoch)
    {arc : PArc T K} {z : Meas T K} {lo : Int} (hadv : Arrives cfg.adv lo) (n : Nat) :
    ∀ {st st' : PSt T K F Ω s a m}, lo ≤ st.inst.step →
      advanceTo cfg arc z n st = some (.ok st') →
      st'.inst.state.epoch = z.epoch ∧ lo ≤ st'.inst.step ∧ |z.epoch - st'.epoch| < cfg.precision := by
  induction n with
  | zero => intro st st' _ h; simp [advanceTo] at h
  | succ n ih =>
    intro st st' hs h
    rw [advanceTo] at h
    cases ha : cfg.adv st.inst (nextStep cfg z st) with
    | err => rw [ha] at h; simp at h
    | panic => rw [ha] at h; simp at h
    | ok pr =>
      obtain ⟨p, states⟩ := pr
      rw [ha] at h
      simp only at h
      have hst := hadv.step _ _ _ _ ha hs
      split at h
      · rename_i hc
        simp only [Option.some.injEq] at h
        obtain ⟨h1, h2, h3⟩ := atMeasurement_epoch hplus h
        refine ⟨h1, by rw [h2]; exact hst, ?_⟩
        rw [h3, abs_sub_comm]; exact hc
      · split at h
        · rename_i st2 ht
          obtain ⟨kf', e, _, rfl⟩ := timeUp_ok ht
          exact ih (by exact hst) h
        · simp at h
        · simp at h

end Verif.Process
