import Verif.Process.Exact
/-!
C242: a run of the filter resumed from its last estimate.
-/
namespace Verif.Process
open Verif.Kalman Matrix

variable {T K F Ω : Type} [DecidableEq K] {s a m : Nat}

/-! ### Two filters which behave alike -/

/-- Process noises, without decay nor local frame, which differ at most in their internal epochs; `t` is the epoch of the last estimate. -/
structure SameNoise (t : Int) (q q' : Noise F a) : Prop where
  start : q.startTime = q'.startTime
  frame : q.localFrame = none
  frame' : q'.localFrame = none
  disable : q.disableTime = q'.disableTime
  diag : q.diag = q'.diag
  decay : q.decay = none
  decay' : q'.decay = none
  prev : q.prevEpoch = none ∨ q.prevEpoch = some t
  prev' : q'.prevEpoch = none ∨ q'.prevEpoch = some t

theorem applies_eq (q : Noise F a) (epoch : Int) : q.applies epoch =
    (!(q.startTime.any fun u => decide (u > epoch)) && !(q.prevEpoch.any fun p => decide (epoch - p > q.disableTime))) := by
  unfold Noise.applies
  cases q.startTime <;> cases q.prevEpoch <;> rfl

theorem propagate_form {dcm : F → Ω → Option (Matrix (Fin 3) (Fin 3) ℝ)} {q : Noise F a} {t : Int} (hf : q.localFrame = none)
    (hd : q.decay = none) (hp : q.prevEpoch = none ∨ q.prevEpoch = some t) (o : Ω) (epoch : Int) :
    q.propagate s dcm o epoch (epoch - t) =
      if (q.startTime.any fun u => decide (u > epoch)) = true ∨ epoch - t > q.disableTime then .ok none
      else (gamma s a (toSec (epoch - t))).bind fun G => .ok (some (G * Matrix.diagonal q.diag * Gᵀ)) := by
  unfold Noise.propagate Noise.toDiag
  rw [hf, hd, applies_eq]
  cases hs : (q.startTime.any fun u => decide (u > epoch)) with
  | true => rfl
  | false =>
    by_cases hdis : epoch - t > q.disableTime
    · rw [if_pos (Or.inr hdis)]
      cases hq : (q.prevEpoch.any fun p => decide (epoch - p > q.disableTime)) with
      | true => rfl
      | false => simp only [Bool.not_false, Bool.and_self, if_true, Res.bind, if_pos hdis]
    · have hq : (q.prevEpoch.any fun p => decide (epoch - p > q.disableTime)) = false := by
        rcases hp with hp | hp
        · rw [hp]; rfl
        · rw [hp]; simpa using hdis
      simp only [hq, Bool.not_false, Bool.and_self, if_true, Res.bind, if_neg hdis, Bool.false_eq_true, false_or]

theorem SameNoise.propagate {dcm : F → Ω → Option (Matrix (Fin 3) (Fin 3) ℝ)} {q q' : Noise F a} {t : Int} (h : SameNoise t q q')
    (o : Ω) (epoch : Int) : q.propagate s dcm o epoch (epoch - t) = q'.propagate s dcm o epoch (epoch - t) := by
  rw [propagate_form h.frame h.decay h.prev, propagate_form h.frame' h.decay' h.prev', h.start, h.disable, h.diag]

/-- Filters with the same last estimate whose noises behave alike. -/
structure SameKF (kf kf' : KF F Ω s a) : Prop where
  prev : kf.prev = kf'.prev
  variant : kf.variant = kf'.variant
  noises : List.Forall₂ (SameNoise kf.prev.nominal.epoch) kf.noises kf'.noises

theorem sncLoop_same {dcm : F → Ω → Option (Matrix (Fin 3) (Fin 3) ℝ)} {x : Nominal Ω s} {t : Int} :
    ∀ {l l' : List (Noise F a × Nat)}, List.Forall₂ (fun p p' => SameNoise t p.1 p'.1 ∧ p.2 = p'.2) l l' →
      sncLoop dcm x (x.epoch - t) l = sncLoop dcm x (x.epoch - t) l' := by
  intro l l' h
  induction h with
  | nil => rfl
  | cons hp _ ih =>
    obtain ⟨hq, hi⟩ := hp
    simp only [sncLoop]
    rw [hq.propagate, ih, hi]

theorem zipIdx_same {t : Int} {l l' : List (Noise F a)} (h : List.Forall₂ (SameNoise t) l l') :
    ∀ n, List.Forall₂ (fun p p' => SameNoise t p.1 p'.1 ∧ p.2 = p'.2) (l.zipIdx n) (l'.zipIdx n) := by
  induction h with
  | nil => intro n; exact .nil
  | cons hp _ ih => intro n; exact .cons ⟨hp, rfl⟩ (ih (n + 1))

theorem predict_same {dcm : F → Ω → Option (Matrix (Fin 3) (Fin 3) ℝ)} {kf kf' : KF F Ω s a} (h : SameKF kf kf') {x : Nominal Ω s}
    {stm : Matrix (Fin s) (Fin s) ℝ} {pu : Matrix (Fin s) (Fin s) ℝ × Nat} (hp : kf.predict dcm x stm = .ok pu) :
    ∃ u, kf'.predict dcm x stm = .ok (pu.1, u) := by
  have hl : List.Forall₂ (fun p p' => SameNoise kf.prev.nominal.epoch p.1 p'.1 ∧ p.2 = p'.2) kf.noises.zipIdx.reverse kf'.noises.zipIdx.reverse :=
    List.rel_reverse (zipIdx_same h.noises 0)
  unfold KF.predict at hp ⊢
  rw [sncLoop_same hl] at hp
  rw [← h.prev]
  obtain ⟨o, h1, h2⟩ := Res.bind_eq_ok.1 hp
  rw [h1, Res.bind_ok]
  cases o with
  | none => cases h2; exact ⟨_, rfl⟩
  | some iC => cases h2; exact ⟨_, rfl⟩

theorem store_same {kf kf' : KF F Ω s a} (h : SameKF kf kf') (u u' : Nat) (e : Est Ω s) : SameKF (kf.store u e) (kf'.store u' e) := by
  refine ⟨rfl, h.variant, ?_⟩
  simp only [KF.store]
  rw [List.forall₂_map_left_iff, List.forall₂_map_right_iff]
  exact h.noises.imp fun q q' hq => ⟨hq.start, hq.frame, hq.frame', hq.disable, hq.diag, hq.decay, hq.decay', Or.inr rfl, Or.inr rfl⟩

theorem timeUpdate_same {dcm : F → Ω → Option (Matrix (Fin 3) (Fin 3) ℝ)} {kf kf' k : KF F Ω s a} (h : SameKF kf kf') {x : Nominal Ω s}
    {e : Est Ω s} (hu : kf.timeUpdate dcm x = .ok (k, e)) : ∃ k', kf'.timeUpdate dcm x = .ok (k', e) ∧ SameKF k k' := by
  obtain ⟨stm, pu, hs, hp, hk, he⟩ := timeUpdate_ok hu
  obtain ⟨u, hp'⟩ := predict_same h hp
  refine ⟨kf'.store u e, ?_, by rw [hk]; exact store_same h _ _ _⟩
  unfold KF.timeUpdate
  rw [hs]
  simp only [hp', Res.bind_ok]
  rw [← h.variant, ← h.prev, ← he]

theorem msrUpdate_same {chol : Chol} {dcm : F → Ω → Option (Matrix (Fin 3) (Fin 3) ℝ)} {kf kf' k : KF F Ω s a} (h : SameKF kf kf')
    {x : Nominal Ω s} {z : MsrIn s m} {t : Option ℝ} {e : Est Ω s} {r : Resid m} {g : Option (Matrix (Fin s) (Fin m) ℝ)}
    (hu : kf.measurementUpdate chol dcm x z t = .ok (k, e, r, g)) :
    ∃ k', kf'.measurementUpdate chol dcm x z t = .ok (k', e, r, g) ∧ SameKF k k' := by
  unfold KF.measurementUpdate at hu ⊢
  split at hu
  · cases hu
  · rename_i stm hs
    obtain ⟨pu, h1, h2⟩ := Res.bind_eq_ok.1 hu
    obtain ⟨u, hp'⟩ := predict_same h h1
    simp only [hp', Res.bind_ok]
    simp only at h2
    split at h2
    · cases h2
    · split at h2
      · obtain ⟨⟨k1, e1⟩, h3, h4⟩ := Res.bind_eq_ok.1 h2
        have hs1 : SameKF ({ kf with prevUsedSnc := pu.2 } : KF F Ω s a) { kf' with prevUsedSnc := u } := ⟨h.prev, h.variant, h.noises⟩
        obtain ⟨k', hk', hsame⟩ := timeUpdate_same hs1 h3
        simp only [Res.ok.injEq, Prod.mk.injEq] at h4
        obtain ⟨rfl, rfl, rfl, rfl⟩ := h4
        rename_i hrej
        rw [if_pos hrej, hk', Res.bind_ok]
        exact ⟨_, rfl, hsame⟩
      · rename_i hrej
        rw [if_neg hrej]
        obtain ⟨K', h3, h4⟩ := Res.bind_eq_ok.1 h2
        simp only [Res.ok.injEq, Prod.mk.injEq] at h4
        obtain ⟨rfl, rfl, rfl, rfl⟩ := h4
        rw [h3, Res.bind_ok, ← h.variant, ← h.prev]
        exact ⟨_, rfl, store_same h _ _ _⟩

/-! ### Two processes which behave alike -/

/-- States of two processes which differ in the trajectory and in the solution before. -/
structure SameRun (pre : List (Entry T K Ω s m)) (st st' : PSt T K F Ω s a m) : Prop where
  inst : st.inst = st'.inst
  epoch : st.epoch = st'.epoch
  kf : SameKF st.kf st'.kf
  sol : st.sol = pre ++ st'.sol

/-- What is assumed of the trackers: they measure at the last state of the trajectory, as without an integration time. -/
def LastOnly (cfg : Cfg T K F Ω s a m) : Prop :=
  ∀ tr dev, cfg.devices tr = some dev → ∀ t l l', l.getLast? = l'.getLast? → dev.measure t l = dev.measure t l'

theorem timeUp_same {cfg : Cfg T K F Ω s a m} {pre : List (Entry T K Ω s m)} {x : Nominal Ω s} {st st' u : PSt T K F Ω s a m}
    (h : SameRun pre st st') (hu : timeUp cfg x st = .ok u) : ∃ u', timeUp cfg x st' = .ok u' ∧ SameRun pre u u' := by
  obtain ⟨k, e, hk, rfl⟩ := timeUp_ok hu
  obtain ⟨k', hk', hs⟩ := timeUpdate_same h.kf hk
  refine ⟨{ st' with inst := resetStm st'.inst, kf := k', sol := st'.sol ++ [.time e] }, by unfold timeUp; rw [hk', Res.bind_ok],
    ⟨by simp [h.inst], h.epoch, hs, by simp [h.sol]⟩⟩

theorem oneWindow_same {cfg : Cfg T K F Ω s a m} (hl : LastOnly cfg) {arc arc' : PArc T K} (hm : arc'.moduli = arc.moduli)
    (hf : arc'.forceReject = arc.forceReject) {z : Meas T K} {dev : Dev T K Ω s m} (hd : cfg.devices z.tracker = some dev) {types : List K}
    {pre : List (Entry T K Ω s m)} {st st' u : PSt T K F Ω s a m} (h : SameRun pre st st') (hlast : st.traj.getLast? = st'.traj.getLast?)
    (hu : oneWindow cfg arc z dev types st = .ok u) :
    ∃ u', oneWindow cfg arc' z dev types st' = .ok u' ∧ SameRun pre u u' ∧ u.traj.getLast? = u'.traj.getLast? := by
  have hth : threshold cfg arc' = threshold cfg arc := by unfold threshold; rw [hf]
  unfold oneWindow at hu ⊢
  split at hu
  · rename_i hav
    rw [if_pos hav]
    split at hu
    · cases hu
    · rename_i real hreal
      simp only
      obtain ⟨H, h1, hu⟩ := Res.bind_eq_ok.1 hu
      obtain ⟨R, h2, hu⟩ := Res.bind_eq_ok.1 hu
      obtain ⟨o, h3, hu⟩ := Res.bind_eq_ok.1 hu
      rw [← h.inst, h1, Res.bind_ok, ← h.epoch, h2, Res.bind_ok, ← hl _ _ hd st.epoch _ _ hlast, h3, Res.bind_ok]
      cases o with
      | none => cases hu; exact ⟨st', rfl, h, hlast⟩
      | some comp =>
        obtain ⟨b, h4, hu⟩ := Res.bind_eq_ok.1 hu
        obtain ⟨⟨k, e, r, gn⟩, h5, hu⟩ := Res.bind_eq_ok.1 hu
        obtain ⟨k', h5', hs⟩ := msrUpdate_same h.kf h5
        simp only [h4, Res.bind_ok, hm, hth, h5']
        cases hu
        refine ⟨_, rfl, ⟨?_, h.epoch ▸ rfl, hs, by simp [h.sol]⟩, ?_⟩
        · simp only [applyUpdate]; split <;> rfl
        · simp only [applyUpdate]
          split
          · simp
          · exact hlast
  · rename_i hav
    rw [if_neg hav]
    cases hu
    exact ⟨st', rfl, h, hlast⟩

theorem allWindows_same {cfg : Cfg T K F Ω s a m} (hl : LastOnly cfg) {arc arc' : PArc T K} (hm : arc'.moduli = arc.moduli)
    (hf : arc'.forceReject = arc.forceReject) {z : Meas T K} {dev : Dev T K Ω s m} (hd : cfg.devices z.tracker = some dev)
    {pre : List (Entry T K Ω s m)} (ws : List (List K)) :
    ∀ {st st' u : PSt T K F Ω s a m}, SameRun pre st st' → st.traj.getLast? = st'.traj.getLast? →
      allWindows cfg arc z dev ws st = .ok u → ∃ u', allWindows cfg arc' z dev ws st' = .ok u' ∧ SameRun pre u u' := by
  induction ws with
  | nil => intro st st' u h _ hu; cases hu; exact ⟨st', rfl, h⟩
  | cons w ws ih =>
    intro st st' u h hlast hu
    obtain ⟨st1, h1, h2⟩ := Res.bind_eq_ok.1 hu
    obtain ⟨u1, k1, k2, k3⟩ := oneWindow_same hl hm hf hd h hlast h1
    obtain ⟨u', k4, k5⟩ := ih k2 k3 h2
    exact ⟨u', by rw [allWindows, k1, Res.bind_ok, k4], k5⟩

theorem advanceTo_same {cfg : Cfg T K F Ω s a m} (hl : LastOnly cfg)
    (hne : ∀ p d p' l, cfg.adv p d = .ok (p', l) → l ≠ []) {arc arc' : PArc T K} (hm : arc'.moduli = arc.moduli)
    (hf : arc'.forceReject = arc.forceReject) (z : Meas T K) {pre : List (Entry T K Ω s m)} (n : Nat) :
    ∀ {st st' u : PSt T K F Ω s a m}, SameRun pre st st' → advanceTo cfg arc z n st = some (.ok u) →
      ∃ u', advanceTo cfg arc' z n st' = some (.ok u') ∧ SameRun pre u u' := by
  induction n with
  | zero => intro st st' u _ hu; simp [advanceTo] at hu
  | succ n ih =>
    intro st st' u h hu
    have hns : nextStep cfg z st' = nextStep cfg z st := by unfold nextStep; rw [h.epoch, h.inst]
    rw [advanceTo] at hu ⊢
    rw [hns, ← h.inst]
    cases hadv : cfg.adv st.inst (nextStep cfg z st) with
    | err => rw [hadv] at hu; simp at hu
    | panic => rw [hadv] at hu; simp at hu
    | ok pr =>
      obtain ⟨p, states⟩ := pr
      rw [hadv] at hu
      simp only at hu ⊢
      have hsame : SameRun pre
          ({ st with inst := p, epoch := p.state.epoch, traj := truncate st.epoch st.traj ++ states } : PSt T K F Ω s a m)
          { st' with inst := p, epoch := p.state.epoch, traj := truncate st'.epoch st'.traj ++ states } :=
        ⟨rfl, rfl, h.kf, h.sol⟩
      have hlast : (truncate st.epoch st.traj ++ states).getLast? = (truncate st'.epoch st'.traj ++ states).getLast? := by
        have := hne _ _ _ _ hadv
        rw [List.getLast?_append_of_ne_nil _ this, List.getLast?_append_of_ne_nil _ this]
      split at hu
      · rename_i hc
        rw [if_pos hc]
        simp only [Option.some.injEq] at hu ⊢
        unfold atMeasurement at hu ⊢
        simp only at hu ⊢
        have hsame' := fun (e : Int) => (⟨rfl, rfl, hsame.kf, hsame.sol⟩ : SameRun pre
          ({ st with inst := setEpoch p e, epoch := p.state.epoch, traj := truncate st.epoch st.traj ++ states } : PSt T K F Ω s a m)
          { st' with inst := setEpoch p e, epoch := p.state.epoch, traj := truncate st'.epoch st'.traj ++ states })
        split at hu
        · rename_i hr
          rw [if_pos hr]
          exact timeUp_same (hsame' _) hu
        · rename_i hr
          rw [if_neg hr]
          split at hu
          · cases hu; exact ⟨_, rfl, hsame' _⟩
          · rename_i dev hd
            exact allWindows_same hl hm hf hd _ (hsame' _) hlast hu
      · rename_i hc
        rw [if_neg hc]
        split at hu
        · rename_i st2 ht
          obtain ⟨u2, k1, k2⟩ := timeUp_same hsame ht
          rw [k1]
          exact ih k2 hu
        · simp at hu
        · simp at hu

theorem processAll_same {cfg : Cfg T K F Ω s a m} (hl : LastOnly cfg)
    (hne : ∀ p d p' l, cfg.adv p d = .ok (p', l) → l ≠ []) {arc arc' : PArc T K} (hm : arc'.moduli = arc.moduli)
    (hf : arc'.forceReject = arc.forceReject) {pre : List (Entry T K Ω s m)} (fuel : Nat) (zs : List (Meas T K)) :
    ∀ {st st' u : PSt T K F Ω s a m}, SameRun pre st st' → processAll cfg arc fuel zs st = some (.ok u) →
      ∃ u', processAll cfg arc' fuel zs st' = some (.ok u') ∧ SameRun pre u u' := by
  induction zs with
  | nil =>
    intro st st' u h hu
    simp only [processAll, Option.some.injEq, Res.ok.injEq] at hu
    subst hu
    exact ⟨st', rfl, h⟩
  | cons z zs ih =>
    intro st st' u h hu
    rw [processAll] at hu ⊢
    split at hu
    · cases hu
    · rename_i st1 h1
      obtain ⟨u1, k1, k2⟩ := advanceTo_same hl hne hm hf z fuel h h1
      rw [k1]
      exact ih k2 hu
    · rename_i hn _
      simp only [Option.some.injEq] at hu
      exact absurd hu (hn _)

theorem processAll_append {cfg : Cfg T K F Ω s a m} {arc : PArc T K} (fuel : Nat) (zs zs' : List (Meas T K)) :
    ∀ {st u : PSt T K F Ω s a m}, processAll cfg arc fuel (zs ++ zs') st = some (.ok u) →
      ∃ st1, processAll cfg arc fuel zs st = some (.ok st1) ∧ processAll cfg arc fuel zs' st1 = some (.ok u) := by
  induction zs with
  | nil => intro st u h; exact ⟨st, rfl, h⟩
  | cons z zs ih =>
    intro st u h
    rw [List.cons_append, processAll] at h
    rw [processAll]
    split at h
    · cases h
    · exact ih h
    · rename_i hn _
      simp only [Option.some.injEq] at h
      exact absurd h (hn _)

theorem processAll_then {cfg : Cfg T K F Ω s a m} {arc : PArc T K} (fuel : Nat) (zs zs' : List (Meas T K)) :
    ∀ {st u : PSt T K F Ω s a m}, processAll cfg arc fuel zs st = some (.ok u) →
      processAll cfg arc fuel (zs ++ zs') st = processAll cfg arc fuel zs' u := by
  induction zs with
  | nil =>
    intro st u h
    simp only [processAll, Option.some.injEq, Res.ok.injEq] at h
    rw [h]
    rfl
  | cons z zs ih =>
    intro st u h
    rw [List.cons_append, processAll]
    rw [processAll] at h
    split at h
    · simp at h
    · exact ih h
    · rename_i hne _
      simp only [Option.some.injEq] at h
      exact (hne u h).elim

/-! ### The end of a run -/

/-- The state of the process is exactly what its last estimate says. -/
structure AtEstimate (cfg : Cfg T K F Ω s a m) (st : PSt T K F Ω s a m) : Prop where
  last : ∃ en, st.sol.getLast? = some en ∧ st.inst.state = { en.est.nominal with stm := some 1 } ∧ st.kf.prev = en.est

/-- What every action of the process of deviations preserves, when it reaches the measurements exactly. -/
structure Kept (cfg : Cfg T K F Ω s a m) (g t0 : Int) (st : PSt T K F Ω s a m) : Prop where
  epoch : st.inst.state.epoch = st.epoch
  grid : g ∣ st.epoch - t0
  step : st.inst.step = if cfg.fixed then cfg.propStep else cfg.maxStep
  variant : st.kf.variant = cfg.variant
  noises : List.Forall₂ (SameNoise st.kf.prev.nominal.epoch) st.kf.noises cfg.noises

theorem timeUpdate_kept {dcm : F → Ω → Option (Matrix (Fin 3) (Fin 3) ℝ)} {kf k : KF F Ω s a} {x : Nominal Ω s} {e : Est Ω s}
    (h : kf.timeUpdate dcm x = .ok (k, e)) : ∃ u, k = kf.store u e := by
  obtain ⟨_, pu, _, _, hk, _⟩ := timeUpdate_ok h
  exact ⟨_, hk⟩

theorem msrUpdate_kept {chol : Chol} {dcm : F → Ω → Option (Matrix (Fin 3) (Fin 3) ℝ)} {kf k : KF F Ω s a} {x : Nominal Ω s}
    {z : MsrIn s m} {t : Option ℝ} {e : Est Ω s} {r : Resid m} {g : Option (Matrix (Fin s) (Fin m) ℝ)}
    (h : kf.measurementUpdate chol dcm x z t = .ok (k, e, r, g)) :
    k.variant = kf.variant ∧ k.noises = kf.noises.map (fun q => { q with prevEpoch := some e.nominal.epoch }) ∧ k.prev = e := by
  unfold KF.measurementUpdate at h
  split at h
  · cases h
  · obtain ⟨pu, h1, h2⟩ := Res.bind_eq_ok.1 h
    simp only at h2
    split at h2
    · cases h2
    · split at h2
      · obtain ⟨⟨k1, e1⟩, h3, h4⟩ := Res.bind_eq_ok.1 h2
        obtain ⟨u, hk⟩ := timeUpdate_kept h3
        simp only [Res.ok.injEq, Prod.mk.injEq] at h4
        obtain ⟨rfl, rfl, rfl, rfl⟩ := h4
        rw [hk]
        exact ⟨rfl, rfl, rfl⟩
      · obtain ⟨K', h3, h4⟩ := Res.bind_eq_ok.1 h2
        simp only [Res.ok.injEq, Prod.mk.injEq] at h4
        obtain ⟨rfl, rfl, rfl, rfl⟩ := h4
        exact ⟨rfl, rfl, rfl⟩

theorem noises_stored {t t' : Int} {l l0 : List (Noise F a)} (h : List.Forall₂ (SameNoise t) l l0) (h0 : ∀ q ∈ l0, q.prevEpoch = none) :
    List.Forall₂ (SameNoise t') (l.map fun q => { q with prevEpoch := some t' }) l0 := by
  rw [List.forall₂_map_left_iff]
  have : ∀ q ∈ l0, q.prevEpoch = none := h0
  induction h with
  | nil => exact .nil
  | cons hq _ ih =>
    refine .cons ⟨hq.start, hq.frame, hq.frame', hq.disable, hq.diag, hq.decay, hq.decay', Or.inr rfl, Or.inl (h0 _ (by simp))⟩ (ih ?_ ?_)
    · exact fun q hq => h0 q (by simp [hq])
    · exact fun q hq => h0 q (by simp [hq])

theorem timeUp_kept {cfg : Cfg T K F Ω s a m} {g t0 : Int} (hn : ∀ q ∈ cfg.noises, q.prevEpoch = none) {st u : PSt T K F Ω s a m}
    (h : Kept cfg g t0 st) {x : Nominal Ω s} (hx : st.inst.state = x) (hu : timeUp cfg x st = .ok u) :
    Kept cfg g t0 u ∧ AtEstimate cfg u ∧ ∃ e, u.sol = st.sol ++ [.time e] ∧ e.nominal = x ∧ u.epoch = st.epoch := by
  obtain ⟨k, e, hk, rfl⟩ := timeUp_ok hu
  obtain ⟨w, hw⟩ := timeUpdate_kept hk
  obtain ⟨hn1, hn2⟩ := timeUpdate_nominal hk
  refine ⟨⟨h.epoch, h.grid, h.step, ?_, ?_⟩, ⟨.time e, by simp, ?_, hn2⟩, e, rfl, hn1, rfl⟩
  · rw [hw]; exact h.variant
  · rw [hw]; exact noises_stored h.noises hn
  · show (resetStm st.inst).state = { e.nominal with stm := some 1 }
    rw [hn1, ← hx]
    rfl

theorem oneWindow_kept {cfg : Cfg T K F Ω s a m} (hv : cfg.variant = .deviationTracking) {g t0 : Int}
    (hn : ∀ q ∈ cfg.noises, q.prevEpoch = none) {arc : PArc T K} {z : Meas T K} {dev : Dev T K Ω s m} {types : List K}
    {st u : PSt T K F Ω s a m} (h : Kept cfg g t0 st) (hu : oneWindow cfg arc z dev types st = .ok u) :
    Kept cfg g t0 u ∧ u.epoch = st.epoch ∧ (u = st ∨ AtEstimate cfg u) := by
  rcases oneWindow_ok hu with ⟨rfl, _⟩ | ⟨real, H, R, comp, b, k, e, r, gn, _, _, _, _, _, _, hk, rfl⟩
  · exact ⟨h, rfl, Or.inl rfl⟩
  · obtain ⟨k1, k2, k3⟩ := msrUpdate_kept hk
    obtain ⟨n1, n2⟩ := msrUpdate_nominal hk
    have ha : applyUpdate cfg st.inst st.traj e r.rejected = (resetStm st.inst, st.traj) := by
      unfold applyUpdate
      rw [if_neg (by rw [hv]; simp)]
    simp only [ha]
    refine ⟨⟨h.epoch, h.grid, h.step, ?_, ?_⟩, trivial, Or.inr ⟨_, List.getLast?_concat, ?_, n2⟩⟩
    · rw [k1]; exact h.variant
    · rw [k2, k3]; exact noises_stored h.noises hn
    · show (resetStm st.inst).state = { e.nominal with stm := some 1 }
      rw [n1]
      rfl

theorem allWindows_kept {cfg : Cfg T K F Ω s a m} (hv : cfg.variant = .deviationTracking) {g t0 : Int}
    (hn : ∀ q ∈ cfg.noises, q.prevEpoch = none) {arc : PArc T K} {z : Meas T K} {dev : Dev T K Ω s m} (ws : List (List K)) :
    ∀ {st u : PSt T K F Ω s a m}, Kept cfg g t0 st → allWindows cfg arc z dev ws st = .ok u →
      Kept cfg g t0 u ∧ u.epoch = st.epoch ∧ (u = st ∨ AtEstimate cfg u) := by
  induction ws with
  | nil => intro st u h hu; cases hu; exact ⟨h, rfl, Or.inl rfl⟩
  | cons w ws ih =>
    intro st u h hu
    obtain ⟨st1, h1, h2⟩ := Res.bind_eq_ok.1 hu
    obtain ⟨a1, a2, a3⟩ := oneWindow_kept hv hn h h1
    obtain ⟨b1, b2, b3⟩ := ih a1 h2
    refine ⟨b1, b2.trans a2, ?_⟩
    rcases b3 with rfl | b3
    · exact a3
    · exact Or.inr b3

/-- What is assumed of the propagator: it advances by the duration asked for, keeps its step, and returns states. -/
structure Steady (adv : PInst Ω s → Int → Res (PInst Ω s × List (Nominal Ω s))) : Prop where
  epoch : ∀ p d p' l, adv p d = .ok (p', l) → p'.state.epoch = p.state.epoch + d
  step : ∀ p d p' l, adv p d = .ok (p', l) → p'.step = p.step
  states : ∀ p d p' l, adv p d = .ok (p', l) → l ≠ []

theorem advanceTo_kept {cfg : Cfg T K F Ω s a m} (hv : cfg.variant = .deviationTracking) {g t0 : Int}
    (hn : ∀ q ∈ cfg.noises, q.prevEpoch = none) (hadv : Steady cfg.adv) (hpos : 0 < cfg.precision) (hprec : cfg.precision ≤ g) (hmax : g ∣ cfg.maxStep)
    (hstep : g ∣ cfg.propStep) {arc : PArc T K} {z : Meas T K} (hgz : g ∣ z.epoch - t0) {Z : Int} (hZ : z.epoch ≤ Z) (n : Nat) :
    ∀ {st u : PSt T K F Ω s a m}, Kept cfg g t0 st → (∀ en ∈ st.sol, en.epoch < Z) → advanceTo cfg arc z n st = some (.ok u) →
      Kept cfg g t0 u ∧ (z.epoch < Z → ∀ en ∈ u.sol, en.epoch < Z) ∧
        (z.epoch = Z → (∀ en ∈ u.sol, en.epoch < Z) ∨ AtEstimate cfg u) := by
  induction n with
  | zero => intro st u _ _ hu; simp [advanceTo] at hu
  | succ n ih =>
    intro st u h hb hu
    rw [advanceTo] at hu
    cases ha : cfg.adv st.inst (nextStep cfg z st) with
    | err => rw [ha] at hu; simp at hu
    | panic => rw [ha] at hu; simp at hu
    | ok pr =>
      obtain ⟨p, states⟩ := pr
      rw [ha] at hu
      simp only at hu
      have hmin : ∀ u v : Int, g ∣ u → g ∣ v → g ∣ min u v := fun u v hu hv => by
        rcases min_choice u v with h | h <;> rw [h] <;> assumption
      have hdz : g ∣ z.epoch - st.epoch := by
        have := dvd_sub hgz h.grid
        rwa [sub_sub_sub_cancel_right] at this
      have hst : g ∣ st.inst.step := by rw [h.step]; split <;> assumption
      have hpe : p.state.epoch = st.epoch + nextStep cfg z st := by rw [hadv.epoch _ _ _ _ ha, h.epoch]
      have hgrid : g ∣ p.state.epoch - t0 := by
        rw [hpe, add_sub_right_comm]
        exact dvd_add h.grid (hmin _ _ (hmin _ _ hdz hst) hmax)
      have hple : p.state.epoch ≤ z.epoch := by
        have : nextStep cfg z st ≤ z.epoch - st.epoch := le_trans (min_le_left _ _) (min_le_left _ _)
        omega
      have h1 : Kept cfg g t0
          ({ st with inst := p, epoch := p.state.epoch, traj := truncate st.epoch st.traj ++ states } : PSt T K F Ω s a m) :=
        ⟨rfl, hgrid, by rw [← h.step]; exact hadv.step _ _ _ _ ha, h.variant, h.noises⟩
      split at hu
      · rename_i hc
        have hexact : p.state.epoch = z.epoch := by
          have hd : g ∣ p.state.epoch - z.epoch := by
            have := dvd_sub hgrid hgz
            rwa [sub_sub_sub_cancel_right] at this
          have := Int.eq_zero_of_abs_lt_dvd hd (lt_of_lt_of_le hc hprec)
          omega
        simp only [Option.some.injEq] at hu
        have hset : setEpoch p z.epoch = p := by
          obtain ⟨⟨o, e, stm⟩, k⟩ := p
          simp only at hexact
          subst hexact
          rfl
        unfold atMeasurement at hu
        simp only [hset] at hu
        split at hu
        · obtain ⟨k1, k2, e, k3, k4, k5⟩ := timeUp_kept hn h1 rfl hu
          refine ⟨k1, fun hlt en hen => ?_, fun _ => Or.inr k2⟩
          rw [k3] at hen
          rcases List.mem_append.1 hen with hen | hen
          · exact hb en hen
          · rw [List.mem_singleton.1 hen]
            show e.nominal.epoch < Z
            rw [k4]
            show p.state.epoch < Z
            omega
        · split at hu
          · cases hu
            exact ⟨h1, fun _ => hb, fun _ => Or.inl hb⟩
          · rename_i dev hd
            obtain ⟨k1, k2, k3⟩ := allWindows_kept hv hn _ h1 hu
            refine ⟨k1, fun hlt => ?_, fun _ => ?_⟩
            · have key : ∀ (ws : List (List K)) {st u : PSt T K F Ω s a m}, Kept cfg g t0 st → st.epoch < Z →
                  (∀ en ∈ st.sol, en.epoch < Z) → allWindows cfg arc z dev ws st = .ok u → ∀ en ∈ u.sol, en.epoch < Z := by
                intro ws
                induction ws with
                | nil => intro st u _ _ h2 h3; cases h3; exact h2
                | cons w ws ihw =>
                  intro st u c0 c1 c2 c3
                  obtain ⟨st1, d1, d2⟩ := Res.bind_eq_ok.1 c3
                  obtain ⟨a1, a2, _⟩ := oneWindow_kept hv hn c0 d1
                  refine ihw a1 (by rw [a2]; exact c1) ?_ d2
                  rcases oneWindow_ok d1 with ⟨rfl, _⟩ | ⟨real, H, R, comp, b, k, e, r, gn, _, _, _, _, _, _, hk, rfl⟩
                  · exact c2
                  · intro en hen
                    rcases List.mem_append.1 hen with hen | hen
                    · exact c2 en hen
                    · rw [List.mem_singleton.1 hen]
                      show e.nominal.epoch < Z
                      rw [(msrUpdate_nominal hk).1, c0.epoch]
                      exact c1
              exact key _ h1 (show p.state.epoch < Z by omega) hb hu
            · rcases k3 with rfl | k3
              · exact Or.inl hb
              · exact Or.inr k3
      · rename_i hc
        split at hu
        · rename_i st2 ht
          obtain ⟨k1, k2, e, k3, k4, k5⟩ := timeUp_kept hn h1 rfl ht
          refine ih k1 ?_ hu
          intro en hen
          rw [k3] at hen
          rcases List.mem_append.1 hen with hen | hen
          · exact hb en hen
          · rw [List.mem_singleton.1 hen]
            show e.nominal.epoch < Z
            rw [k4]
            show p.state.epoch < Z
            have hne : p.state.epoch ≠ z.epoch := fun he => hc (by simpa [he] using hpos)
            omega
        · simp at hu
        · simp at hu

theorem processAll_kept {cfg : Cfg T K F Ω s a m} (hv : cfg.variant = .deviationTracking) {g t0 : Int}
    (hn : ∀ q ∈ cfg.noises, q.prevEpoch = none) (hadv : Steady cfg.adv) (hpos : 0 < cfg.precision) (hprec : cfg.precision ≤ g)
    (hmax : g ∣ cfg.maxStep) (hstep : g ∣ cfg.propStep) {arc : PArc T K} {Z : Int} (fuel : Nat) (zs : List (Meas T K)) :
    ∀ {st u : PSt T K F Ω s a m}, (∀ z ∈ zs, g ∣ z.epoch - t0 ∧ z.epoch < Z) → Kept cfg g t0 st → (∀ en ∈ st.sol, en.epoch < Z) →
      processAll cfg arc fuel zs st = some (.ok u) → Kept cfg g t0 u ∧ ∀ en ∈ u.sol, en.epoch < Z := by
  induction zs with
  | nil =>
    intro st u _ h hb hu
    simp only [processAll, Option.some.injEq, Res.ok.injEq] at hu
    subst hu
    exact ⟨h, hb⟩
  | cons z zs ih =>
    intro st u hz h hb hu
    rw [processAll] at hu
    split at hu
    · simp at hu
    · rename_i st1 h1
      obtain ⟨k1, k2, _⟩ := advanceTo_kept hv hn hadv hpos hprec hmax hstep (hz z (by simp)).1 (hz z (by simp)).2.le fuel h hb h1
      exact ih (fun y hy => hz y (by simp [hy])) k1 (k2 (hz z (by simp)).2) hu
    · rename_i hne h1
      simp only [Option.some.injEq] at hu
      exact (hne u hu).elim

/-- A noise which the model of a resumed run starts with. -/
def Plain (q : Noise F a) : Prop := q.localFrame = none ∧ q.decay = none ∧ q.prevEpoch = none

theorem plain_same {t : Int} {f : Noise F a → Noise F a} (hf : ∀ q, (f q).startTime = q.startTime ∧ (f q).localFrame = q.localFrame ∧
      (f q).disableTime = q.disableTime ∧ (f q).diag = q.diag ∧ (f q).decay = q.decay ∧ (f q).prevEpoch = q.prevEpoch)
    {l : List (Noise F a)} (h : ∀ q ∈ l, Plain q) : List.Forall₂ (SameNoise t) (l.map f) l := by
  rw [List.forall₂_map_left_iff, List.forall₂_same]
  intro q hq
  obtain ⟨h1, h2, h3⟩ := h q hq
  obtain ⟨f1, f2, f3, f4, f5, f6⟩ := hf q
  exact ⟨f1, f2.trans h1, h1, f3, f4, f5.trans h2, h2, Or.inl (f6.trans h3), Or.inl h3⟩

theorem SameNoise.via {t : Int} {q q' q0 : Noise F a} (h : SameNoise t q q0) (h' : SameNoise t q' q0) : SameNoise t q q' :=
  ⟨h.start.trans h'.start.symm, h.frame, h'.frame, h.disable.trans h'.disable.symm, h.diag.trans h'.diag.symm, h.decay, h'.decay,
    h.prev, h'.prev⟩

theorem noises_via {t : Int} : ∀ {l l' l0 : List (Noise F a)}, List.Forall₂ (SameNoise t) l l0 → List.Forall₂ (SameNoise t) l' l0 →
    List.Forall₂ (SameNoise t) l l'
  | _, _, _, .nil, .nil => .nil
  | _, _, _, .cons h t, .cons h' t' => .cons (h.via h') (noises_via t t')

theorem start_noises (cfg : Cfg T K F Ω s a m) (e0 : Est Ω s) {t : Int} (hn : ∀ q ∈ cfg.noises, Plain q) :
    List.Forall₂ (SameNoise t) (start cfg e0).kf.noises cfg.noises :=
  plain_same (f := fun q => { q with initEpoch := some e0.nominal.epoch }) (fun _ => ⟨rfl, rfl, rfl, rfl, rfl, rfl⟩) hn

/-- C242. A filter which tracks deviations can be resumed: the data are cut after the measurement `z`, the first part is processed from the
initial estimate, the second part from the last estimate of the first solution, and the two solutions one after the other are the solution
of the whole. What is asked: the propagator keeps to the durations asked for; the devices read the last state; the noises are white, with
no decay nor local frame; the epochs of the measurements are reached exactly; and the last estimate of the first solution is that of `z`
(not so when `z` is of an unknown tracker, is invisible or has no data of the tracker). -/
theorem resume_partial (cfg : Cfg T K F Ω s a m) (hv : cfg.variant = .deviationTracking) (hn : ∀ q ∈ cfg.noises, Plain q)
    (hadv : Steady cfg.adv) (hl : LastOnly cfg) (g : Int) (hpos : 0 < cfg.precision) (hprec : cfg.precision ≤ g)
    (hmax : g ∣ cfg.maxStep) (hstep : g ∣ cfg.propStep) (e0 : Est Ω s) (arc : PArc T K) (zs₁ zs₂ : List (Meas T K)) (z : Meas T K)
    (harc : arc.measurements = (zs₁ ++ [z]) ++ zs₂) (h₁ : zs₁ ≠ []) (h₂ : 2 ≤ zs₂.length)
    (hgrid : ∀ y ∈ zs₁ ++ [z], g ∣ y.epoch - e0.nominal.epoch) (hlt : ∀ y ∈ zs₁, y.epoch < z.epoch) (fuel : Nat)
    (sol : List (Entry T K Ω s m)) (h : processArc cfg fuel e0 arc = some (.ok sol)) :
    ∃ sol₁, processArc cfg fuel e0 { arc with measurements := zs₁ ++ [z] } = some (.ok sol₁) ∧
      ∀ en, sol₁.getLast? = some en → en.epoch = z.epoch →
        ∃ sol₂, processArc cfg fuel en.est { arc with measurements := zs₂ } = some (.ok sol₂) ∧ sol = sol₁ ++ sol₂ := by
  have hn' : ∀ q ∈ cfg.noises, q.prevEpoch = none := fun q hq => (hn q hq).2.2
  have hstep' : 0 < cfg.maxStep := by
    by_contra hc
    rw [processArc, if_pos (Or.inr (not_lt.1 hc))] at h
    simp at h
  obtain ⟨u, hu, rfl⟩ := processArc_ok h
  rw [harc] at hu
  obtain ⟨st, hst, hrest⟩ := processAll_append fuel _ _ hu
  have hself : SameRun [] (start cfg e0) (start cfg e0) :=
    ⟨rfl, rfl, ⟨rfl, rfl, noises_via (start_noises cfg e0 hn) (start_noises cfg e0 hn)⟩, rfl⟩
  obtain ⟨st', hst', hsame⟩ := processAll_same hl hadv.states (arc := arc) (arc' := { arc with measurements := zs₁ ++ [z] }) rfl rfl
    fuel _ hself hst
  have hsol : st'.sol = st.sol := by rw [hsame.sol]; rfl
  refine ⟨st.sol, ?_, ?_⟩
  · unfold processArc
    rw [if_neg]
    · simp only [hst', hsol]
    · have := List.length_pos_iff.2 h₁
      simp only [List.length_append, List.length_singleton, not_or]
      omega
  · intro en hen hepoch
    obtain ⟨st0, h0, hz⟩ := processAll_append fuel _ _ hst
    have hk0 : Kept cfg g e0.nominal.epoch (start cfg e0) :=
      ⟨rfl, by simp [start], rfl, rfl, start_noises cfg e0 hn⟩
    obtain ⟨k0, b0⟩ := processAll_kept hv hn' hadv hpos hprec hmax hstep (Z := z.epoch) fuel zs₁
      (fun y hy => ⟨hgrid y (by simp [hy]), hlt y hy⟩) hk0 (by simp [start]) h0
    have hz' : advanceTo cfg arc z fuel st0 = some (.ok st) := by
      rw [processAll] at hz
      split at hz
      · simp at hz
      · simp only [processAll, Option.some.injEq, Res.ok.injEq] at hz
        subst hz
        assumption
      · rename_i hne h1
        simp only [Option.some.injEq] at hz
        exact (hne st hz).elim
    obtain ⟨k1, _, k3⟩ := advanceTo_kept hv hn' hadv hpos hprec hmax hstep (hgrid z (by simp)) le_rfl fuel k0 b0 hz'
    rcases k3 rfl with hb | ⟨en', hlast, hinst, hprev⟩
    · have := hb en (List.mem_of_getLast? hen)
      omega
    · rw [hen, Option.some.injEq] at hlast
      subst hlast
      have hrun : SameRun st.sol st (start cfg en.est) := by
        refine ⟨?_, ?_, ⟨hprev, k1.variant, ?_⟩, by simp [start]⟩
        · have h5 := k1.step
          generalize st.inst = p at hinst h5
          obtain ⟨x, k⟩ := p
          simp only at hinst h5
          subst hinst h5
          rfl
        · rw [← k1.epoch, hinst]
          rfl
        · exact noises_via k1.noises (start_noises cfg en.est hn)
      obtain ⟨u', hu', hs'⟩ := processAll_same hl hadv.states (arc := arc) (arc' := { arc with measurements := zs₂ }) rfl rfl
        fuel _ hrun hrest
      refine ⟨u'.sol, ?_, hs'.sol⟩
      unfold processArc
      rw [if_neg]
      · simp only [hu']
      · simp only [not_or]
        omega

/-! ### With reference updates -/

theorem window_nominal {cfg : Cfg T K F Ω s a m} {arc : PArc T K} {z : Meas T K} {dev : Dev T K Ω s m} {types ty : List K}
    {st u : PSt T K F Ω s a m} {e : Est Ω s} {r : Resid m} {g : Option (Matrix (Fin s) (Fin m) ℝ)} {tr : T}
    (hu : oneWindow cfg arc z dev types st = .ok u) (hs : u.sol = st.sol ++ [.msr e r g tr ty]) : e.nominal = st.inst.state := by
  rcases oneWindow_ok hu with ⟨rfl, _⟩ | ⟨real, H, R, comp, b, k, e', r', gn, _, _, _, _, _, _, hk, rfl⟩
  · have := congrArg List.length hs
    simp at this
  · simp only [List.append_cancel_left_eq, List.cons.injEq, Entry.msr.injEq, and_true] at hs
    rw [← hs.1]
    exact (msrUpdate_nominal hk).1

theorem plain_timeUp (kf : KF Unit ℝ 1 3) (hn : kf.noises = []) (x : Nominal ℝ 1) (hx : x.stm = some 1) (hv : kf.variant = .referenceUpdate) :
    ∃ k e, kf.timeUpdate exNav.dcm x = .ok (k, e) ∧ e.nominal = x ∧ e.dev = 0 ∧ k.noises = [] ∧ k.variant = .referenceUpdate := by
  obtain ⟨prev, noises, variant, used⟩ := kf
  simp only at hn hv
  subst hn hv
  unfold KF.timeUpdate
  simp only [hx, KF.predict, List.zipIdx_nil, List.reverse_nil, sncLoop, Res.bind_ok]
  exact ⟨_, _, rfl, rfl, rfl, rfl, rfl⟩

/-- The measurement of both types of the example. -/
noncomputable def exCutZ : Meas Nat Nat := ⟨1, 5, [(0, some 2), (1, some 2)], false⟩

/-- An arc of the example: only `exCutZ` is of a known tracker. -/
noncomputable def exCutArc (zs : List (Meas Nat Nat)) : PArc Nat Nat := ⟨zs, none, false⟩

/-- The first part of the data. -/
noncomputable def exCut₁ : List (Meas Nat Nat) := [⟨7, 5, [], false⟩, exCutZ]

/-- The second part of the data. -/
def exCut₂ : List (Meas Nat Nat) := [⟨7, 20, [], false⟩, ⟨7, 30, [], false⟩]

/-- The first part of the data processed: the second of the two estimates has the nominal state 1 and the state 4/3. -/
theorem exCut_first : ∃ en₁ e r g k, (∀ zs, processAll exNav (exCutArc zs) 5 exCut₁ (start exNav exNavEst) =
      some (.ok ⟨⟨⟨4 / 3, 5, some 1⟩, 10⟩, 5, k, [⟨4 / 3, 5, some 1⟩], [en₁, .msr e r g 1 [1]]⟩)) ∧
    estState exNav.plus e = ⟨5, 4 / 3⟩ ∧ e.nominal = ⟨1, 5, some 1⟩ ∧ k.noises = [] ∧ k.variant = .referenceUpdate := by
  obtain ⟨k₁, e₁, r₁, g₁, w₁, s₁, c₁, n₁, v₁⟩ := exNav_window 0 (Or.inl rfl) ⟨exNavEst, [], .referenceUpdate, 0⟩ 1
    one_pos rfl rfl rfl 0 []
  obtain ⟨k₂, e₂, r₂, g₂, w₂, s₂, c₂, n₂, v₂⟩ := exNav_window 1 (Or.inr rfl) k₁ (1 / (1 + 1)) (by norm_num) n₁ c₁ v₁
    (0 + 1 / (1 + 1) * (2 - 0)) [.msr e₁ r₁ g₁ 1 [0]]
  have hnom := window_nominal w₂ rfl
  have e1 : (0 + 1 / (1 + 1) * (2 - 0) : ℝ) = 1 := by norm_num
  simp only [e1] at w₁ w₂ s₂ hnom
  have e2 : (1 + 1 / (1 + 1) / (1 / (1 + 1) + 1) * (2 - 1) : ℝ) = 4 / 3 := by norm_num
  simp only [e2] at w₂ s₂
  refine ⟨.msr e₁ r₁ g₁ 1 [0], e₂, r₂, g₂, k₂, fun zs => ?_, s₂, hnom, n₂, v₂⟩
  have h1 : advanceTo exNav (exCutArc zs) ⟨7, 5, [], false⟩ 5 (start exNav exNavEst) =
      some (.ok ⟨⟨⟨0, 5, some 1⟩, 10⟩, 5, ⟨exNavEst, [], .referenceUpdate, 0⟩, [⟨0, 5, some 1⟩], []⟩) := rfl
  have h2 : advanceTo exNav (exCutArc zs) exCutZ 5
      ⟨⟨⟨0, 5, some 1⟩, 10⟩, 5, ⟨exNavEst, [], .referenceUpdate, 0⟩, [⟨0, 5, some 1⟩], []⟩ =
      some (allWindows exNav exNavArc ⟨1, 5, [(0, some 2), (1, some 2)], false⟩ exNavDev [[0], [1]]
        ⟨⟨⟨0, 5, some 1⟩, 10⟩, 5, ⟨exNavEst, [], .referenceUpdate, 0⟩, [⟨0, 5, some 1⟩], []⟩) := rfl
  rw [allWindows, w₁, Res.bind_ok, allWindows] at h2
  simp only [List.nil_append] at h2
  rw [w₂, Res.bind_ok, allWindows] at h2
  rw [exCut₁, processAll, h1]
  simp only
  rw [processAll, h2]
  rfl

/-- The second part of the data processed from the state `v` at 5: one time update at 15, with the state `v`. -/
theorem exCut_second (v : ℝ) (k : KF Unit ℝ 1 3) (hn : k.noises = []) (hv : k.variant = .referenceUpdate) (tr : List (Nominal ℝ 1))
    (sol : List (Entry Nat Nat ℝ 1 1)) (zs : List (Meas Nat Nat)) :
    ∃ u e, processAll exNav (exCutArc zs) 5 exCut₂ ⟨⟨⟨v, 5, some 1⟩, 10⟩, 5, k, tr, sol⟩ = some (.ok u) ∧
      u.sol = sol ++ [.time e] ∧ estState exNav.plus e = ⟨15, v⟩ := by
  obtain ⟨k', e, ht, he, hd, _, _⟩ := plain_timeUp k hn ⟨v, 15, some 1⟩ rfl hv
  have h1 : advanceTo exNav (exCutArc zs) ⟨7, 20, [], false⟩ 5 ⟨⟨⟨v, 5, some 1⟩, 10⟩, 5, k, tr, sol⟩ =
      some (.ok ⟨⟨⟨v, 20, some 1⟩, 10⟩, 20, k',
        truncate 15 (truncate 5 tr ++ [⟨v, 15, some 1⟩]) ++ [⟨v, 20, some 1⟩], sol ++ [.time e]⟩) := by
    have h2 : timeUp exNav ⟨v, 15, some 1⟩ ⟨⟨⟨v, 15, some 1⟩, 10⟩, 15, k, truncate 5 tr ++ [⟨v, 15, some 1⟩], sol⟩ =
        .ok ⟨⟨⟨v, 15, some 1⟩, 10⟩, 15, k', truncate 5 tr ++ [⟨v, 15, some 1⟩], sol ++ [.time e]⟩ := by
      simp only [timeUp, ht, Res.bind_ok]
      rfl
    have h3 : exNav.adv ⟨⟨v, 5, some 1⟩, 10⟩ (nextStep exNav ⟨7, 20, [], false⟩
        (⟨⟨⟨v, 5, some 1⟩, 10⟩, 5, k, tr, sol⟩ : PSt Nat Nat Unit ℝ 1 3 1)) = .ok (⟨⟨v, 15, some 1⟩, 10⟩, [⟨v, 15, some 1⟩]) := rfl
    rw [advanceTo]
    simp only [h3]
    rw [if_neg (by simp [exNav])]
    simp only [h2]
    rfl
  refine ⟨⟨⟨⟨v, 30, some 1⟩, 10⟩, 30, k', truncate 20 (truncate 15 (truncate 5 tr ++ [⟨v, 15, some 1⟩]) ++ [⟨v, 20, some 1⟩]) ++
      [⟨v, 30, some 1⟩], sol ++ [.time e]⟩, e, ?_, rfl, ?_⟩
  · rw [exCut₂, processAll, h1]
    rfl
  · simp [estState, exNav, he, hd]

/-- **C242 refuted.** With reference updates, the run of the whole data has the state 4/3 at 15; the run resumed from the last estimate of
the first part, whose state is 4/3, has the state 1 at 15: `process_arc` starts from the nominal state of the estimate it is given, and
the last correction is lost. -/
theorem resume_reference_false : ∃ sol₁ en x y,
    processArc exNav 5 exNavEst (exCutArc exCut₁) = some (.ok sol₁) ∧ sol₁.getLast? = some en ∧
    en.epoch = exCutZ.epoch ∧ estState exNav.plus en.est = ⟨5, 4 / 3⟩ ∧
    processArc exNav 5 exNavEst (exCutArc (exCut₁ ++ exCut₂)) = some (.ok (sol₁ ++ [.time x])) ∧
    estState exNav.plus x = ⟨15, 4 / 3⟩ ∧
    processArc exNav 5 en.est (exCutArc exCut₂) = some (.ok [.time y]) ∧ estState exNav.plus y = ⟨15, 1⟩ := by
  obtain ⟨en₁, e, r, g, k, h, hs, hnom, hn, hv⟩ := exCut_first
  obtain ⟨u, x, hu, hux, hx⟩ := exCut_second (4 / 3) k hn hv [⟨4 / 3, 5, some 1⟩] [en₁, .msr e r g 1 [1]] (exCut₁ ++ exCut₂)
  obtain ⟨w, y, hw, hwy, hy⟩ := exCut_second 1 ⟨e, [], .referenceUpdate, 0⟩ rfl rfl [] [] exCut₂
  refine ⟨[en₁, .msr e r g 1 [1]], .msr e r g 1 [1], x, y, ?_, rfl, ?_, hs, ?_, hx, ?_, hy⟩
  · unfold processArc
    rw [if_neg (by simp [exCutArc, exNav, exCut₁]), show (exCutArc exCut₁).measurements = exCut₁ from rfl, h]
  · show e.nominal.epoch = 5
    rw [hnom]
  · unfold processArc
    rw [if_neg (by simp [exCutArc, exNav, exCut₁, exCut₂]),
      show (exCutArc (exCut₁ ++ exCut₂)).measurements = exCut₁ ++ exCut₂ from rfl]
    simp only [processAll_then _ _ _ (h _), hu, hux]
  · unfold processArc
    rw [if_neg (by simp [exCutArc, exNav, exCut₂]), show (exCutArc exCut₂).measurements = exCut₂ from rfl]
    have : start exNav e = ⟨⟨⟨1, 5, some 1⟩, 10⟩, 5, ⟨e, [], .referenceUpdate, 0⟩, [], []⟩ := by
      obtain ⟨x, d, P, P', Φ, b⟩ := e
      simp only at hnom
      subst hnom
      rfl
    simp only [Entry.est, this, hw, hwy, List.nil_append]

/-! ### Predictions -/

theorem predictLoop_sol {cfg : Cfg T K F Ω s a m} {end_ : Int} (n : Nat) : ∀ (p : PInst Ω s) (kf : KF F Ω s a)
    (sol : List (Entry T K Ω s m)), predictLoop cfg end_ n p kf sol =
      (predictLoop cfg end_ n p kf []).map fun r => r.bind fun l => .ok (sol ++ l) := by
  induction n with
  | zero => intro p kf sol; rfl
  | succ n ih =>
    intro p kf sol
    rw [predictLoop, predictLoop]
    split
    · rfl
    · rfl
    · split
      · rfl
      · rfl
      · split
        · rfl
        · rw [ih _ _ (sol ++ _), ih _ _ ([] ++ _), Option.map_map]
          congr 1
          funext r
          cases r <;> simp [Res.bind]

/-- With reference updates a prediction ignores the deviation of the estimate it starts from: two estimates which differ only by their
deviation, hence by their state, have the same predictions after the first entry. -/
theorem predict_ignores_deviation (cfg : Cfg T K F Ω s a m) (hv : cfg.variant = .referenceUpdate) (fuel : Nat) (e0 : Est Ω s) (d : Fin s → ℝ)
    (end_ : Int) (sol : List (Entry T K Ω s m)) (h : predictUntil cfg fuel e0 end_ = some (.ok sol)) :
    ∃ l, sol = .time e0 :: l ∧ predictUntil cfg fuel { e0 with dev := d } end_ = some (.ok (.time { e0 with dev := d } :: l)) := by
  unfold predictUntil at h ⊢
  rw [predictLoop_sol] at h ⊢
  have key : predictLoop cfg end_ fuel ⟨{ e0.nominal with stm := some 1 }, cfg.propStep⟩ ⟨{ e0 with dev := d }, cfg.noises, cfg.variant, 0⟩ [] =
      predictLoop cfg end_ fuel ⟨{ e0.nominal with stm := some 1 }, cfg.propStep⟩ ⟨e0, cfg.noises, cfg.variant, 0⟩ ([] : List (Entry T K Ω s m)) := by
    cases fuel with
    | zero => rfl
    | succ n =>
      have : ∀ x, (⟨{ e0 with dev := d }, cfg.noises, cfg.variant, 0⟩ : KF F Ω s a).timeUpdate cfg.dcm x =
          (⟨e0, cfg.noises, cfg.variant, 0⟩ : KF F Ω s a).timeUpdate cfg.dcm x := by
        intro x
        simp only [KF.timeUpdate, hv, reduceCtorEq, if_false]
        rfl
      rw [predictLoop, predictLoop]
      simp only [this]
  rw [key]
  cases hl : predictLoop cfg end_ fuel ⟨{ e0.nominal with stm := some 1 }, cfg.propStep⟩ ⟨e0, cfg.noises, cfg.variant, 0⟩
      ([] : List (Entry T K Ω s m)) with
  | none => rw [hl] at h; simp at h
  | some r =>
    rw [hl] at h
    cases r with
    | err => simp [Res.bind] at h
    | panic => simp [Res.bind] at h
    | ok l =>
      simp only [Option.map_some, Res.bind, Option.some.injEq, Res.ok.injEq] at h
      exact ⟨l, h.symm, rfl⟩

/-- **C242 refuted, for predictions.** The state of the last estimate of the run is 4/3 at 5 and the dynamics keep it constant; the
prediction from that estimate is 1 at 15. -/
theorem predict_reference_false : ∃ sol₁ en y,
    processArc exNav 5 exNavEst (exCutArc exCut₁) = some (.ok sol₁) ∧ sol₁.getLast? = some en ∧
    estState exNav.plus en.est = ⟨5, 4 / 3⟩ ∧
    predictUntil exNav 5 en.est 15 = some (.ok [.time en.est, .time y]) ∧ estState exNav.plus y = ⟨15, 1⟩ := by
  obtain ⟨en₁, e, r, g, k, h, hs, hnom, hn, hv⟩ := exCut_first
  obtain ⟨k', y, ht, he, hd, _, _⟩ := plain_timeUp ⟨e, [], .referenceUpdate, 0⟩ rfl ⟨1, 15, some 1⟩ rfl rfl
  refine ⟨[en₁, .msr e r g 1 [1]], .msr e r g 1 [1], y, ?_, rfl, hs, ?_, ?_⟩
  · unfold processArc
    rw [if_neg (by simp [exCutArc, exNav, exCut₁]), show (exCutArc exCut₁).measurements = exCut₁ from rfl, h]
  · show predictUntil exNav 5 e 15 = _
    unfold predictUntil
    have h3 : exNav.adv ⟨{ e.nominal with stm := some 1 }, exNav.propStep⟩ exNav.maxStep =
        .ok (⟨⟨1, 15, some 1⟩, 5⟩, [⟨1, 15, some 1⟩]) := by
      rw [hnom]
      rfl
    have h4 : (⟨e, exNav.noises, exNav.variant, 0⟩ : KF Unit ℝ 1 3).timeUpdate exNav.dcm ⟨1, 15, some 1⟩ = .ok (k', y) := ht
    rw [predictLoop]
    simp only [h3, h4]
    rfl
  · simp [estState, exNav, he, hd]

/-! ### The hypotheses of `resume_partial` are met -/

/-- `exNav` with deviation tracking. -/
noncomputable def exTrack : Cfg Nat Nat Unit ℝ 1 3 1 := { exNav with variant := .deviationTracking }

theorem exTrack_window : ∃ k e r g, oneWindow exTrack (exCutArc []) ⟨1, 5, [(0, some 2)], false⟩ exNavDev [0]
      ⟨⟨⟨0, 5, some 1⟩, 10⟩, 5, ⟨exNavEst, [], .deviationTracking, 0⟩, [⟨0, 5, some 1⟩], []⟩ =
    .ok ⟨⟨⟨0, 5, some 1⟩, 10⟩, 5, k, [⟨0, 5, some 1⟩], [.msr e r g 1 [0]]⟩ ∧ e.nominal = ⟨0, 5, some 1⟩ ∧ k.noises = [] := by
  have hS : ((1 : Matrix (Fin 1) (Fin 1) ℝ) * ((diagonal fun _ => (1 : ℝ)) * (1 : Matrix (Fin 1) (Fin 1) ℝ)ᵀ) + 1) =
      diagonal fun _ => (1 : ℝ) + 1 := by
    ext i j
    fin_cases i; fin_cases j
    simp
  have hpd : (diagonal fun _ : Fin 1 => (1 : ℝ) + 1).PosDef := posDef_diagonal_iff.2 fun _ => by norm_num
  obtain ⟨L, hL⟩ := someChol_spec.1 1 _ hpd
  have hLL := (someChol_spec.2 1 _ L (isSymm_diagonal _) hL).2.1
  obtain ⟨G, hg⟩ : ∃ G, gainOf someChol (diagonal fun _ => (1 : ℝ)) (1 : Matrix (Fin 1) (Fin 1) ℝ)
      (diagonal fun _ => (1 : ℝ) + 1) = .ok G := by
    simp only [gainOf, hL]
    exact ⟨_, rfl⟩
  have hpr : (⟨exNavEst, [], .deviationTracking, 0⟩ : KF Unit ℝ 1 3).predict (fun _ _ => none) ⟨0, 5, some 1⟩ 1 =
      .ok (diagonal fun _ => 1, 0) := by
    simp [KF.predict, sncLoop, Res.bind, exNavEst]
  obtain ⟨⟨k, e, r, g⟩, hu⟩ : ∃ o, (⟨exNavEst, [], .deviationTracking, 0⟩ : KF Unit ℝ 1 3).measurementUpdate someChol
      (fun _ _ => none) ⟨0, 5, some 1⟩ (⟨fun _ => 2, fun _ => 0, 1, 1⟩ : MsrIn 1 1) none = .ok o := by
    simp only [KF.measurementUpdate, hpr, Res.bind_ok, hS, factorOf, hL, rejects, hg]
    exact ⟨_, rfl⟩
  obtain ⟨_, k2, _⟩ := msrUpdate_kept hu
  refine ⟨k, e, r, g, ?_, (msrUpdate_nominal hu).1, by rw [k2]; rfl⟩
  have h0 : observation 1 [(0, some (2 : ℝ))] [0] = some fun _ => 2 := by
    unfold observation
    rw [if_pos (by rfl)]
    congr 1
    funext i
    fin_cases i
    rfl
  have h1 : obsOf 1 [(0, (0 : ℝ)), (1, 0)] [0] - 0 = fun _ => 0 := by
    rw [sub_zero]
    funext i
    fin_cases i
    rfl
  have ha : (⟨1, 5, [(0, some 2)], false⟩ : Meas Nat Nat).anyAvailable [0] = true := rfl
  unfold oneWindow
  rw [if_pos ha]
  have h2 : exNavDev.measure 5 [⟨0, 5, some 1⟩] = .ok (some [(0, 0), (1, 0)]) := rfl
  have h3 : exNavDev.hTilde ⟨1, 5, [(0, some 2)], false⟩ [0] ⟨0, 5, some 1⟩ = .ok 1 := rfl
  have h4 : exNavDev.covar [0] 5 = .ok 1 := rfl
  have h5 : exNavDev.bias [0] 5 = .ok 0 := rfl
  have h6 : threshold exTrack (exCutArc []) = none := rfl
  have h7 : resolve (exCutArc []).moduli [0] (fun _ => 0) (fun _ : Fin 1 => (2 : ℝ)) = fun _ => 2 := rfl
  have h8 : (⟨exNavEst, [], .deviationTracking, 0⟩ : KF Unit ℝ 1 3).measurementUpdate exTrack.chol exTrack.dcm ⟨0, 5, some 1⟩
      ⟨fun _ => 2, fun _ => 0, 1, 1⟩ none = .ok (k, e, r, g) := hu
  simp only [h0, h2, h3, h4, h5, h6, h1, h7, h8, Res.bind_ok]
  rfl

/-- Any time update of the example succeeds. -/
theorem exTrack_timeUp (kf : KF Unit ℝ 1 3) (hn : kf.noises = []) (x : Nominal ℝ 1) (hx : x.stm = some 1) :
    ∃ k e, kf.timeUpdate exTrack.dcm x = .ok (k, e) ∧ k.noises = [] := by
  obtain ⟨prev, noises, variant, used⟩ := kf
  simp only at hn
  subst hn
  unfold KF.timeUpdate
  simp only [hx, KF.predict, List.zipIdx_nil, List.reverse_nil, sncLoop, Res.bind_ok]
  exact ⟨_, _, rfl, rfl⟩

/-- A run with an accepted measurement at the cut and a time update after it meets the hypotheses. -/
example : ∃ sol₁ sol₂ en, processArc exTrack 5 exNavEst (exCutArc ([⟨7, 0, [], false⟩] ++ [⟨1, 5, [(0, some 2)], false⟩])) = some (.ok sol₁) ∧
    sol₁.getLast? = some en ∧ processArc exTrack 5 en.est (exCutArc exCut₂) = some (.ok sol₂) ∧ sol₁.length = 1 ∧ sol₂.length = 1 := by
  obtain ⟨k, e, r, g, hw, hnom, hn⟩ := exTrack_window
  obtain ⟨k', e', ht, hn'⟩ := exTrack_timeUp k hn ⟨0, 15, some 1⟩ rfl
  have h1 : ∀ zs, advanceTo exTrack (exCutArc zs) ⟨7, 0, [], false⟩ 5 (start exTrack exNavEst) =
      some (.ok ⟨⟨⟨0, 0, some 1⟩, 10⟩, 0, ⟨exNavEst, [], .deviationTracking, 0⟩, [⟨0, 0, some 1⟩], []⟩) := fun zs => rfl
  have h2 : ∀ zs, advanceTo exTrack (exCutArc zs) ⟨1, 5, [(0, some 2)], false⟩ 5
      ⟨⟨⟨0, 0, some 1⟩, 10⟩, 0, ⟨exNavEst, [], .deviationTracking, 0⟩, [⟨0, 0, some 1⟩], []⟩ =
      some (.ok ⟨⟨⟨0, 5, some 1⟩, 10⟩, 5, k, [⟨0, 5, some 1⟩], [.msr e r g 1 [0]]⟩) := by
    intro zs
    have h : advanceTo exTrack (exCutArc zs) ⟨1, 5, [(0, some 2)], false⟩ 5
      ⟨⟨⟨0, 0, some 1⟩, 10⟩, 0, ⟨exNavEst, [], .deviationTracking, 0⟩, [⟨0, 0, some 1⟩], []⟩ =
      some (allWindows exTrack (exCutArc []) ⟨1, 5, [(0, some 2)], false⟩ exNavDev [[0], [1]]
        ⟨⟨⟨0, 5, some 1⟩, 10⟩, 5, ⟨exNavEst, [], .deviationTracking, 0⟩, [⟨0, 5, some 1⟩], []⟩) := rfl
    rw [h, allWindows, hw, Res.bind_ok, allWindows]
    rfl
  have hfirst : ∀ zs, processAll exTrack (exCutArc zs) 5 ([⟨7, 0, [], false⟩] ++ [⟨1, 5, [(0, some 2)], false⟩]) (start exTrack exNavEst) =
      some (.ok ⟨⟨⟨0, 5, some 1⟩, 10⟩, 5, k, [⟨0, 5, some 1⟩], [.msr e r g 1 [0]]⟩) := by
    intro zs
    rw [List.cons_append, processAll, h1]
    simp only [List.nil_append]
    rw [processAll, h2]
    rfl
  have hsecond : ∀ zs, processAll exTrack (exCutArc zs) 5 exCut₂ ⟨⟨⟨0, 5, some 1⟩, 10⟩, 5, k, [⟨0, 5, some 1⟩], [.msr e r g 1 [0]]⟩ =
      some (.ok ⟨⟨⟨0, 30, some 1⟩, 10⟩, 30, k', [⟨0, 30, some 1⟩], [.msr e r g 1 [0], .time e']⟩) := by
    intro zs
    have h2 : timeUp exTrack ⟨0, 15, some 1⟩ ⟨⟨⟨0, 15, some 1⟩, 10⟩, 15, k, [⟨0, 15, some 1⟩], [.msr e r g 1 [0]]⟩ =
        .ok ⟨⟨⟨0, 15, some 1⟩, 10⟩, 15, k', [⟨0, 15, some 1⟩], [.msr e r g 1 [0], .time e']⟩ := by
      simp only [timeUp, ht, Res.bind_ok]
      rfl
    have h4 : advanceTo exTrack (exCutArc zs) ⟨7, 20, [], false⟩ 5
        ⟨⟨⟨0, 5, some 1⟩, 10⟩, 5, k, [⟨0, 5, some 1⟩], [.msr e r g 1 [0]]⟩ =
        some (.ok ⟨⟨⟨0, 20, some 1⟩, 10⟩, 20, k', [⟨0, 20, some 1⟩], [.msr e r g 1 [0], .time e']⟩) := by
      have h3 : exTrack.adv ⟨⟨0, 5, some 1⟩, 10⟩ (nextStep exTrack ⟨7, 20, [], false⟩
          (⟨⟨⟨0, 5, some 1⟩, 10⟩, 5, k, [⟨0, 5, some 1⟩], [.msr e r g 1 [0]]⟩ : PSt Nat Nat Unit ℝ 1 3 1)) =
          .ok (⟨⟨0, 15, some 1⟩, 10⟩, [⟨0, 15, some 1⟩]) := rfl
      have h5 : truncate 5 [(⟨0, 5, some 1⟩ : Nominal ℝ 1)] ++ [⟨0, 15, some 1⟩] = [⟨0, 15, some 1⟩] := rfl
      rw [advanceTo]
      simp only [h3, h5]
      rw [if_neg (by simp [exTrack, exNav])]
      simp only [h2]
      rfl
    rw [exCut₂, processAll, h4]
    rfl
  have hrun : processArc exTrack 5 exNavEst (exCutArc (([⟨7, 0, [], false⟩] ++ [⟨1, 5, [(0, some 2)], false⟩]) ++ exCut₂)) =
      some (.ok [.msr e r g 1 [0], .time e']) := by
    unfold processArc
    rw [if_neg (by simp [exCutArc, exTrack, exNav, exCut₂])]
    simp only [show ∀ zs, (exCutArc zs).measurements = zs from fun _ => rfl]
    rw [processAll_then _ _ _ (hfirst _), hsecond]
  obtain ⟨sol₁, hs₁, hres⟩ := resume_partial exTrack rfl (fun q hq => by cases hq)
    ⟨fun p d p' l h => by cases h; rfl, fun p d p' l h => by cases h; rfl, fun p d p' l h => by cases h; simp⟩
    (fun tr dev hd t l l' hl => by
      simp only [exTrack, exNav] at hd
      split at hd
      · cases hd
        simp only [exNavDev, hl]
      · cases hd)
    5 (by simp [exTrack, exNav]) (by simp [exTrack, exNav]) ⟨2, rfl⟩ ⟨1, rfl⟩ exNavEst _ [⟨7, 0, [], false⟩] exCut₂ ⟨1, 5, [(0, some 2)], false⟩ rfl
    (by simp) le_rfl (by
      intro y hy
      simp only [List.cons_append, List.nil_append, List.mem_cons, List.not_mem_nil, or_false] at hy
      rcases hy with rfl | rfl
      · exact ⟨0, rfl⟩
      · exact ⟨1, rfl⟩) (by simp) 5 _ hrun
  have hs₁' : processArc exTrack 5 exNavEst (exCutArc ([⟨7, 0, [], false⟩] ++ [⟨1, 5, [(0, some 2)], false⟩])) =
      some (.ok [.msr e r g 1 [0]]) := by
    unfold processArc
    rw [if_neg (by simp [exCutArc, exTrack, exNav])]
    simp only [show ∀ zs, (exCutArc zs).measurements = zs from fun _ => rfl]
    rw [hfirst]
  have hs : sol₁ = [.msr e r g 1 [0]] := by
    have := hs₁.symm.trans hs₁'
    simpa using this
  subst hs
  obtain ⟨sol₂, h₂, happ⟩ := hres (.msr e r g 1 [0]) rfl (by show e.nominal.epoch = 5; rw [hnom])
  refine ⟨_, sol₂, _, hs₁', rfl, h₂, rfl, ?_⟩
  have := congrArg List.length happ
  simp at this
  omega

end Verif.Process
