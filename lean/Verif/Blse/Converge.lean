import Verif.Blse.Solve
/-!
C40, continued: the whole estimation, what is reported, and where the claim fails.
-/
namespace Verif.Blse
open Verif.Kalman Verif.Process Matrix

variable {T K Ω : Type} [DecidableEq K] {s : Nat}

theorem startAt_epoch (cfg : BCfg T K Ω s) (x : Nominal Ω s) :
    (startAt cfg x).inst.state.epoch = (startAt cfg x).epoch := rfl

/-- What the last iteration of the normal equations did, from the estimate `x`. -/
structure LastStep (cfg : BCfg T K Ω s) (fuel : Nat) (arc : List (Meas T K)) (x : Nominal Ω s)
    (us : List (Use T K Ω s)) (dx : Fin s → ℝ) (it : It Ω s) : Prop where
  valid : ∀ u ∈ us, u.Valid cfg.devices ∧ u.z ∈ fresh x.epoch arc ∧ |u.x.epoch - u.z.epoch| < cfg.precision
  complete : cfg.precision = 1 → (∀ z ∈ arc, ∃ dev, cfg.devices z.tracker = some dev ∧
      ∀ y, dev.measure y ≠ .ok none) →
    us.map (fun u => (u.z, u.k)) = (fresh x.epoch arc).flatMap fun z => z.data.map fun e => (z, e.1)
  est : it.est = cfg.plus x dx
  solves : (1 + infoSum us) *ᵥ dx = normalSum us
  covar : it.covar = (1 + infoSum us)⁻¹
  rms : ∃ r, it.rms = some r ∧ evaluate cfg fuel x arc = some (.ok r)
  rmsValue : it.rms = some (Real.sqrt (squareSum us / (numMsr arc : ℝ)))
  corr : it.corr = some (positionNorm dx)
  converged : it.converged = true ↔ positionNorm dx < cfg.tolerance

theorem iterate_normal {cfg : BCfg T K Ω s} {lo : Int} (hs : cfg.solver = .normalEquations)
    (hadv : Arrives cfg.adv lo) (hc : CholOk cfg.chol) (hu : UduOk cfg.udu) {fuel : Nat}
    {arc : List (Meas T K)} (hn : 1 ≤ numMsr arc) :
    ∀ (n : Nat) (it it' : It Ω s), it.converged = false → iterate cfg fuel arc n it = some (.ok it') →
      (n = 0 ∧ it' = it) ∨
      ((∃ x us dx, LastStep cfg fuel arc x us dx it') ∧ it.iter < it'.iter ∧ it'.iter ≤ it.iter + n ∧
        (it'.converged = false → it'.iter = it.iter + n)) := by
  intro n
  induction n with
  | zero => intro it it' _ h; cases h; exact Or.inl ⟨rfl, rfl⟩
  | succ n ih =>
    intro it it' hcv h
    right
    unfold iterate at h
    split at h
    · cases h
    · cases h
    · cases h
    · rename_i st hg
      obtain ⟨us, h1, h2, h3⟩ := gather_uses hadv (Inv := fun _ _ => True) (fun _ _ _ _ _ _ _ _ => trivial)
        fuel arc _ _ (startAt_epoch cfg it.est) trivial hg
      have hv : ∀ u ∈ us, 0 < u.R := fun u hu => (h2 u hu).1.noise
      obtain ⟨it1, b, dx, g1, g2, g3, _, g5, _, _, g8, g9, g10, g11, g12⟩ :=
        normal_step hc hu (numMsr arc) h1 hv { it with iter := it.iter + 1 }
      have hstep : stepOf cfg (numMsr arc) st.sums { it with iter := it.iter + 1 } = .ok (it1, b) := by
        unfold stepOf; rw [hs]; exact g1
      rw [hstep] at h
      simp only at g10 g12
      have e3 : st.sums.sumSq = squareSum us := by rw [h1.2.2]; simp [startAt, Sums.init]
      have hlast : LastStep cfg fuel arc it.est us dx it1 := by
        refine ⟨fun u hu => ⟨(h2 u hu).1, (h2 u hu).2.1, (h2 u hu).2.2.1⟩, h3, g2, g3, g5, ?_, g8, g9, ?_⟩
        · refine ⟨_, g8, ?_⟩
          rw [evaluate_eq_rms hn hg]
          unfold rmsOf; rw [e3]
        · rw [g12, hcv, Bool.or_false]; exact g11
      cases b with
      | true =>
        injection h with h
        injection h with h
        subst h
        refine ⟨⟨_, _, _, hlast⟩, by omega, by omega, fun hc' => ?_⟩
        rw [g12] at hc'; simp at hc'
      | false =>
        have hcv1 : it1.converged = false := by rw [g12, hcv]; rfl
        rcases ih it1 it' hcv1 h with ⟨rfl, rfl⟩ | ⟨k1, k2, k3, k4⟩
        · exact ⟨⟨_, _, _, hlast⟩, by omega, by omega, fun _ => by omega⟩
        · exact ⟨k1, by omega, by omega, fun hc' => by have := k4 hc'; omega⟩

/-- **C40 (partial).** For the normal equations, any arc and any devices: a successful estimation ran at least
one iteration (if at least one is allowed) and at most the maximum, exactly the maximum if it did not
converge; the state returned is the previous estimate `x` plus a correction `dx` that solves
`(1 + Σ H^T W H) dx = Σ H^T W y` over the observations used, the covariance is the inverse of
`1 + Σ H^T W H`, convergence is reported exactly when the position correction is below the tolerance, and
the reported root mean square is the one `evaluate` gives for `x`, not for the state returned. Missing: the
identity should not be there, measurements at the initial epoch or at the epoch of an earlier one are not
used, and the rows are not those of the transition from the initial state (`accumulated_matrix`). -/
theorem estimate_normal_partial {cfg : BCfg T K Ω s} {lo : Int} (hs : cfg.solver = .normalEquations)
    (hadv : Arrives cfg.adv lo) (hc : CholOk cfg.chol) (hu : UduOk cfg.udu) {fuel : Nat}
    {arc : List (Meas T K)} {guess : Nominal Ω s} {it : It Ω s} (hmax : 0 < cfg.maxIterations)
    (h : estimate cfg fuel guess arc = some (.ok it)) :
    2 ≤ numMsr arc ∧ (∃ x us dx, LastStep cfg fuel arc x us dx it) ∧ 1 ≤ it.iter ∧
      it.iter ≤ cfg.maxIterations ∧ (it.converged = false → it.iter = cfg.maxIterations) := by
  unfold estimate at h
  split at h
  · cases h
  · rename_i hn
    rcases iterate_normal hs hadv hc hu (by omega) _ _ it rfl h with ⟨h0, _⟩ | ⟨h1, h2, h3, h4⟩
    · omega
    · simp only [initIt] at h2 h3 h4
      exact ⟨by omega, h1, by omega, by omega, fun hc' => by have := h4 hc'; omega⟩

/-! ### Only the measurements strictly later than the previous ones matter -/

theorem fresh_not_rejected (t : Int) (l : List (Meas T K)) : ∀ z ∈ fresh t l, z.rejected = false := by
  induction l generalizing t with
  | nil => simp [fresh]
  | cons z l ih =>
    unfold fresh
    split
    · rename_i h
      intro y hy
      rcases List.mem_cons.1 hy with rfl | hy
      · exact h.1
      · exact ih _ y hy
    · exact ih t

/-- **C40 (negative).** The iteration does not depend on the measurements that are rejected, at or before the
initial epoch, or not later than an earlier measurement: two stations observing at the same time, only the
first one counts. -/
theorem gather_fresh {cfg : BCfg T K Ω s} {lo : Int} (hadv : Arrives cfg.adv lo) (fuel : Nat) :
    ∀ (arc : List (Meas T K)) (st : BSt Ω s), st.inst.state.epoch = st.epoch →
      gather cfg (fuel + 1) arc st = gather cfg (fuel + 1) (fresh st.epoch arc) st := by
  intro arc
  induction arc with
  | nil => intro st _; rfl
  | cons z l ih =>
    intro st he
    unfold fresh
    by_cases hr : z.rejected = true
    · rw [if_neg (by simp [hr]), ← ih st he]
      conv_lhs => unfold gather
      rw [if_pos hr]
    · have hr' : z.rejected = false := by simpa using hr
      by_cases hlt : st.epoch < z.epoch
      · rw [if_pos ⟨hr', hlt⟩]
        unfold gather
        rw [if_neg hr, if_neg hr]
        cases hg : gatherOne cfg z (fuel + 1) st with
        | none => rfl
        | some r =>
          cases r with
          | err => rfl
          | panic => rfl
          | ok st1 =>
            obtain ⟨g1, _, g2, _⟩ := gatherOne_spec hadv (Inv := fun _ _ => True)
              (fun _ _ _ _ _ _ _ _ => trivial) z _ st st1 he trivial hg
            simp only
            rw [ih st1 g1, show st1.epoch = z.epoch by omega]
      · rw [if_neg (by tauto), ← ih st he]
        conv_lhs => unfold gather
        rw [if_neg hr]
        have : gatherOne cfg z (fuel + 1) st = some (.ok st) := by
          unfold gatherOne
          rw [if_pos (by omega)]
        rw [this]

/-! ### The transition matrices -/

/-- The propagator computes the transition matrices of a linear flow: it multiplies the matrix of the state
from the left by the transition over the interval. -/
structure Flow (adv : PInst Ω s → Int → Res (PInst Ω s)) (Φ : Int → Int → Matrix (Fin s) (Fin s) ℝ) :
    Prop where
  refl : ∀ t, Φ t t = 1
  comp : ∀ t₁ t₂ t₃, Φ t₂ t₃ * Φ t₁ t₂ = Φ t₁ t₃
  adv : ∀ p d p', adv p d = .ok p' → p'.state.epoch = p.state.epoch + d ∧
    ∀ M, p.state.stm = some M → p'.state.stm = some (Φ p.state.epoch p'.state.epoch * M)

/-- The product of the transitions from the initial epoch `t₀` to each of the epochs of the steps. -/
inductive Accumulated (Φ : Int → Int → Matrix (Fin s) (Fin s) ℝ) (t₀ : Int) :
    List Int → Matrix (Fin s) (Fin s) ℝ → Prop
  | start : Accumulated Φ t₀ [] 1
  | step (ts : List Int) (t : Int) (M : Matrix (Fin s) (Fin s) ℝ) :
      Accumulated Φ t₀ ts M → Accumulated Φ t₀ (ts ++ [t]) (Φ t₀ t * M)

/-- **C40 (negative).** The matrix that maps the initial deviation to the state of an observation is not the
transition from the initial epoch but the product of the transitions from the initial epoch to the end of
every step taken so far: the matrix of the state already is the transition from the initial epoch. -/
theorem accumulated_matrix {cfg : BCfg T K Ω s} {Φ : Int → Int → Matrix (Fin s) (Fin s) ℝ}
    (hf : Flow cfg.adv Φ) {lo : Int} (hadv : Arrives cfg.adv lo) (fuel : Nat) (arc : List (Meas T K))
    (x : Nominal Ω s) (st : BSt Ω s) (h : gather cfg fuel arc (startAt cfg x) = some (.ok st)) :
    ∃ us : List (Use T K Ω s), Sums.init.Extends st.sums us ∧ ∀ u ∈ us, u.Valid cfg.devices ∧
      u.x.stm = some (Φ x.epoch u.x.epoch) ∧
      ∃ ts, Accumulated Φ x.epoch ts u.M ∧ ts.getLast?.getD x.epoch = u.x.epoch := by
  obtain ⟨us, h1, h2, _⟩ := gather_uses hadv
    (Inv := fun y M => y.stm = some (Φ x.epoch y.epoch) ∧
      ∃ ts, Accumulated Φ x.epoch ts M ∧ ts.getLast?.getD x.epoch = y.epoch)
    (by
      rintro p d p' S M ⟨i1, ts, i2, i3⟩ hp hM
      obtain ⟨e1, e2⟩ := hf.adv p d p' hp
      have e3 := e2 _ i1
      rw [hf.comp] at e3
      rw [hM] at e3
      injection e3 with e3
      refine ⟨by rw [hM, e3], ts ++ [p'.state.epoch], ?_, by simp⟩
      rw [e3]
      exact .step _ _ _ i2)
    fuel arc _ _ (startAt_epoch cfg x)
    ⟨by simp [startAt, hf.refl], [], .start, rfl⟩ h
  exact ⟨us, h1, fun u hu => ⟨(h2 u hu).1, (h2 u hu).2.2.2⟩⟩

end Verif.Blse
