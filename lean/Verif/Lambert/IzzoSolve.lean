import Verif.Lambert.Series
/-!
The theorems on `izzo` itself: what it returns, when it panics, and the transfers for which it is wrong.
-/
namespace Verif.Lambert
open Matrix
open Verif.MathU (V3 nrm atan2 dot3 nrm_sq nrm_nonneg ext3 cross0 cross1 cross2)

theorem izzoDirection_cases {kind : Kind} {r1 r2 : V3} {dm : ℝ} (h : izzoDirection kind r1 r2 = .ok dm) :
    dm = 1 ∨ dm = -1 := by
  cases kind with
  | nRevs n => rw [izzoDirection, Res.ok.injEq] at h; exact Or.inl h.symm
  | auto => exact direction_cases (by simpa only [izzoDirection] using h)
  | shortWay => exact direction_cases (by simpa only [izzoDirection] using h)
  | longWay => exact direction_cases (by simpa only [izzoDirection] using h)

theorem izzoDirection_ok (kind : Kind) (r1 r2 : V3) : ∃ dm, izzoDirection kind r1 r2 = .ok dm := by
  cases kind with
  | nRevs n => exact ⟨1, rfl⟩
  | auto => simp only [izzoDirection, Kind.direction]; split_ifs <;> exact ⟨_, rfl⟩
  | shortWay => exact ⟨1, rfl⟩
  | longWay => exact ⟨-1, rfl⟩

theorem Res.bind_ok {α β : Type} {x : Res α} {f : α → Res β} {b : β} (h : x.bind f = .ok b) :
    ∃ a, x = .ok a ∧ f a = .ok b := by
  cases x with
  | ok a => exact ⟨a, rfl, h⟩
  | fault e => simp [Res.bind] at h
  | panic => simp [Res.bind] at h

/-- A solution comes from a value of `x` that the iteration returned. -/
theorem izzo_ok {inp : Input} {kind : Kind} {mu : ℝ} {sol : Solution} (hm : inp.initial.frame.mu = some mu)
    (h : izzo inp kind = .ok sol) :
    ∃ dm x, izzoDirection kind inp.initial.pos inp.final.pos = .ok dm ∧
      findXY (izzoLambda dm inp.initial.pos inp.final.pos) (izzoTime mu inp.tof inp.initial.pos inp.final.pos) kind.revs
        1000 (1 / 10 ^ 4) (1 / 10 ^ 4) true = .ok (x, computeY x (izzoLambda dm inp.initial.pos inp.final.pos)) ∧
      izzoVelocities mu dm x (computeY x (izzoLambda dm inp.initial.pos inp.final.pos)) inp.initial.pos inp.final.pos =
        (sol.vInit, sol.vFinal) ∧ sol.input = inp := by
  rw [izzo, Input.mu, hm] at h
  simp only [Res.bind] at h
  obtain ⟨dm, h1, h2⟩ := Res.bind_ok h
  obtain ⟨⟨x, y⟩, h3, h4⟩ := Res.bind_ok h2
  have hy : y = computeY x (izzoLambda dm inp.initial.pos inp.final.pos) := by
    rw [findXY] at h3
    split_ifs at h3
    obtain ⟨mm, _, h5⟩ := Res.bind_ok h3
    split_ifs at h5
    obtain ⟨x', _, h6⟩ := Res.bind_ok h5
    rw [Res.ok.injEq, Prod.mk.injEq] at h6
    rw [← h6.1, ← h6.2]
  rw [Res.ok.injEq] at h4
  subst hy
  exact ⟨dm, x, h1, h3, by rw [← h4], by rw [← h4]⟩

/-- **C58.** The velocities that `izzo` returns, for positions that are not aligned, give the same angular momentum
and the same energy at both ends. -/
theorem izzo_conserves {inp : Input} {kind : Kind} {mu : ℝ} {sol : Solution} (hm : inp.initial.frame.mu = some mu)
    (hmu : 0 < mu) (hc : inp.initial.pos ⨯₃ inp.final.pos ≠ 0) (h : izzo inp kind = .ok sol) :
    ∃ v1 v2, sol.vInit = some v1 ∧ sol.vFinal = some v2 ∧ inp.final.pos ⨯₃ v2 = inp.initial.pos ⨯₃ v1 ∧
      energy mu inp.final.pos v2 = energy mu inp.initial.pos v1 := by
  obtain ⟨dm, x, h1, h2, h3, h4⟩ := izzo_ok hm h
  obtain ⟨v1, v2, e1, e2, e3, e4⟩ := izzo_momentum_energy hc (izzoDirection_cases h1) hmu x
  rw [h3, Prod.mk.injEq] at e1
  exact ⟨v1, v2, e1.1, e1.2, e2, by rw [e3, e4]⟩

/-- The sense of the motion that `izzo` follows: as for the other solver, and along `r1 × r2` for several
revolutions. -/
def Sense' (kind : Kind) (r1 r2 h : V3) : Prop :=
  match kind with
  | .nRevs _ => ∃ k : ℝ, 0 < k ∧ h = k • (r1 ⨯₃ r2)
  | k => Sense k r1 r2 h

/-- **The flight of Izzo's solution.** When the third component of `r1 × r2` is not negative, the velocities are on one
conic through both positions, in the sense asked for; and if the equation of the time of flight has the value `res` at
the `x` that was accepted, the motion from the first state reaches the second one after the time asked for plus `res`
units of time. The solver accepts `x` by the size of the last step and not by `res`, so the statement does not bound
`res`; for more than zero revolutions `x` must be below 1. -/
theorem izzo_solves_partial {inp : Input} {kind : Kind} {mu dm x y : ℝ} {sol : Solution}
    (hm : inp.initial.frame.mu = some mu) (hmu : 0 < mu) (hc : inp.initial.pos ⨯₃ inp.final.pos ≠ 0)
    (hz : 0 ≤ (inp.initial.pos ⨯₃ inp.final.pos) 2)
    (hk : izzoDirection kind inp.initial.pos inp.final.pos = .ok dm)
    (hf : findXY (izzoLambda dm inp.initial.pos inp.final.pos) (izzoTime mu inp.tof inp.initial.pos inp.final.pos)
      kind.revs 1000 (1 / 10 ^ 4) (1 / 10 ^ 4) true = .ok (x, y)) (h : izzo inp kind = .ok sol) :
    ∃ v1 v2, sol.vInit = some v1 ∧ sol.vFinal = some v2 ∧ inp.final.pos ⨯₃ v2 = inp.initial.pos ⨯₃ v1 ∧
      ecc mu inp.final.pos v2 = ecc mu inp.initial.pos v1 ∧ energy mu inp.final.pos v2 = energy mu inp.initial.pos v1 ∧
      Sense' kind inp.initial.pos inp.final.pos (inp.initial.pos ⨯₃ v1) ∧
      ∀ res, tofEquation x (izzoTime mu inp.tof inp.initial.pos inp.final.pos)
        (izzoLambda dm inp.initial.pos inp.final.pos) kind.revs = some res → (x < 1 ∨ kind.revs = 0) →
        Reaches mu inp.initial.pos v1 inp.final.pos v2
          (inp.tof + res * Real.sqrt (semi inp.initial.pos inp.final.pos ^ 3 / (2 * mu))) := by
  obtain ⟨dm', x', h1, h2, h3, h4⟩ := izzo_ok hm h
  rw [hk, Res.ok.injEq] at h1
  subst h1
  rw [hf, Res.ok.injEq, Prod.mk.injEq] at h2
  obtain ⟨rfl, -⟩ := h2
  have hdm := izzoDirection_cases hk
  obtain ⟨v1, v2, e1, e2, e3, e4, k, hk0, hkh⟩ := izzo_conic hc hdm hmu x hz
  have hv := e1
  rw [h3, Prod.mk.injEq] at e1
  refine ⟨v1, v2, e1.1, e1.2, e2, e3, e4, ?_, ?_⟩
  · have hs : ∀ kd : Kind, kd.direction inp.final.pos inp.initial.pos = .ok dm →
        Sense kd inp.initial.pos inp.final.pos (inp.initial.pos ⨯₃ v1) := by
      intro kd hkd
      refine sense_of (g := dm / k) hkd ?_ ?_
      · rw [← mul_div_assoc, ← pow_two, dm_sq hdm]; positivity
      · rw [hkh, smul_smul, show dm / k * (dm * k) = dm ^ 2 by field_simp, dm_sq hdm, one_smul]
    cases kind with
    | nRevs n =>
      rw [izzoDirection, Res.ok.injEq] at hk
      exact ⟨k, hk0, by rw [hkh, ← hk, one_mul]⟩
    | auto => exact hs .auto (by simpa only [izzoDirection] using hk)
    | shortWay => exact hs .shortWay (by simpa only [izzoDirection] using hk)
    | longWay => exact hs .longWay (by simpa only [izzoDirection] using hk)
  · intro res hres hx1
    have hr := tof_reach hc hdm hmu hz hx1 hres hv
    have sp := (tri_of hc).sp
    have : (izzoTime mu inp.tof inp.initial.pos inp.final.pos + res) *
        Real.sqrt (semi inp.initial.pos inp.final.pos ^ 3 / (2 * mu)) =
        inp.tof + res * Real.sqrt (semi inp.initial.pos inp.final.pos ^ 3 / (2 * mu)) := by
      rw [add_mul, izzoTime]
      congr 1
      rw [mul_right_comm, ← Real.sqrt_mul (by positivity)]
      rw [show 2 * mu / semi inp.initial.pos inp.final.pos ^ 3 * (semi inp.initial.pos inp.final.pos ^ 3 / (2 * mu)) = 1
        by field_simp, Real.sqrt_one, one_mul]
    rwa [this] at hr

/-- **False of the code.** Whenever the third component of `r1 × r2` is negative and the positions are at different
distances, no motion joins the two states that `izzo` returns, whatever its duration, for all the kinds of transfer: the
normal is reversed but the sign of lambda is not. -/
theorem izzo_wrong_plane {inp : Input} {kind : Kind} {mu : ℝ} {sol : Solution} (hm : inp.initial.frame.mu = some mu)
    (hmu : 0 < mu) (hz : (inp.initial.pos ⨯₃ inp.final.pos) 2 < 0)
    (hn : nrm inp.initial.pos ≠ nrm inp.final.pos) (h : izzo inp kind = .ok sol) :
    ∃ v1 v2, sol.vInit = some v1 ∧ sol.vFinal = some v2 ∧
      ecc mu inp.final.pos v2 ≠ ecc mu inp.initial.pos v1 ∧
      ∀ T, ¬ Reaches mu inp.initial.pos v1 inp.final.pos v2 T := by
  have hc : inp.initial.pos ⨯₃ inp.final.pos ≠ 0 := by intro h0; rw [h0] at hz; simp at hz
  obtain ⟨dm, x, h1, h2, h3, h4⟩ := izzo_ok hm h
  have hdm := izzoDirection_cases h1
  obtain ⟨v1, v2, e1, -⟩ := izzo_momentum_energy hc hdm hmu x
  have hv := e1
  rw [h3, Prod.mk.injEq] at e1
  exact ⟨v1, v2, e1.1, e1.2, izzo_flipped hc hdm hmu x hz hn hv,
    fun T => izzo_flipped_unreachable hc hdm hmu x hz hn hv T⟩

theorem iterate_no_panic {step : ℝ → Option (Res ℝ)} (hs : ∀ p, step p ≠ some .panic) (atol rtol : ℝ) (n : Nat) :
    ∀ k p, iterate step atol rtol n k p ≠ .panic
  | 0, p => by simp [iterate]
  | k + 1, p => by
    rw [iterate]
    have := hs p
    rcases hh : step p with _ | (a | e | _)
    · simp
    · simp only
      split_ifs
      · simp
      · exact iterate_no_panic hs atol rtol n k a
    · simp
    · exact absurd hh this

theorem Res.bind_ne_panic {α β : Type} {x : Res α} {f : α → Res β} (h1 : x ≠ .panic) (h2 : ∀ a, f a ≠ .panic) :
    x.bind f ≠ .panic := by
  cases x with
  | ok a => exact h2 a
  | fault e => simp [Res.bind]
  | panic => exact absurd rfl h1

theorem householder_no_panic (p0 t0 ll : ℝ) (m : Nat) (atol rtol : ℝ) (n : Nat) :
    householder p0 t0 ll m atol rtol n ≠ .panic := by
  refine iterate_no_panic (fun p => ?_) _ _ _ _ _
  rw [householderStep]
  cases tofEquationY p (computeY p ll) t0 ll m with
  | none => simp
  | some f => simp only; split_ifs <;> simp

theorem halley_no_panic (p0 t0 ll atol rtol : ℝ) (n : Nat) : halley p0 t0 ll atol rtol n ≠ .panic := by
  refine iterate_no_panic (fun p => ?_) _ _ _ _ _
  rw [halleyStep]
  simp only
  split_ifs <;> simp

theorem findXY_panic_iff (ll t : ℝ) (m n : Nat) (atol rtol : ℝ) (b : Bool) :
    findXY ll t m n atol rtol b = .panic ↔ 1 ≤ |ll| := by
  rw [findXY]
  split_ifs with h
  · refine ⟨fun h' => absurd h' ?_, fun h' => absurd h (not_lt.2 h')⟩
    refine Res.bind_ne_panic ?_ fun mm => ?_
    · rw [maxRevs]
      split_ifs
      · refine Res.bind_ne_panic ?_ fun tm => ?_
        · rw [computeTMin]
          split_ifs
          · simp
          · simp
          · cases tofEquation (1 / 10) 0 ll (min ⌊t / Real.pi⌋.toNat (2 ^ 32 - 1)) with
            | none => simp
            | some ti => exact Res.bind_ne_panic (halley_no_panic _ _ _ _ _ _) fun _ => by simp
        · cases tm with
          | none => simp
          | some v => simp only; split_ifs <;> simp
      · simp
    · split_ifs
      · simp
      · exact Res.bind_ne_panic (householder_no_panic _ _ _ _ _ _ _) fun _ => by simp
  · exact ⟨fun _ => not_lt.1 h, fun _ => rfl⟩

theorem nrm_zero_iff (v : V3) : nrm v = 0 ↔ v = 0 := by
  constructor
  · intro h
    by_contra h'
    exact (Verif.MathU.nrm_pos v h').ne' h
  · rintro rfl
    show Real.sqrt ((0 : V3) ⬝ᵥ 0) = 0
    simp

/-- **Panic.** With a gravitational parameter, `izzo` panics exactly when the two positions are the same. -/
theorem izzo_panic_iff {inp : Input} {kind : Kind} {mu : ℝ} (hm : inp.initial.frame.mu = some mu) :
    izzo inp kind = .panic ↔ inp.initial.pos = inp.final.pos := by
  rw [izzo, Input.mu, hm]
  obtain ⟨dm, hd⟩ := izzoDirection_ok kind inp.initial.pos inp.final.pos
  have hdm := izzoDirection_cases hd
  simp only [Res.bind, hd]
  have key : 1 ≤ |izzoLambda dm inp.initial.pos inp.final.pos| ↔ inp.initial.pos = inp.final.pos := by
    generalize inp.initial.pos = r1
    generalize inp.final.pos = r2
    have ha : |izzoLambda dm r1 r2| = Real.sqrt (1 - nrm (r2 - r1) / semi r1 r2) := by
      rw [izzoLambda_eq hdm, abs_mul, abs_of_nonneg (Real.sqrt_nonneg _)]
      rcases hdm with h | h <;> rw [h] <;> norm_num
    rw [ha, Real.one_le_sqrt]
    have h1 := nrm_nonneg r1
    have h2 := nrm_nonneg r2
    have h3 := nrm_nonneg (r2 - r1)
    constructor
    · intro h
      by_contra hne
      have h4 : 0 < nrm (r2 - r1) := Verif.MathU.nrm_pos _ (sub_ne_zero.2 (Ne.symm hne))
      have h5 : 0 < semi r1 r2 := by rw [semi]; linarith
      have := div_pos h4 h5
      linarith
    · rintro rfl
      rw [sub_self, (nrm_zero_iff 0).2 rfl, zero_div, sub_zero]
  rw [← key, ← findXY_panic_iff (t := izzoTime mu inp.tof inp.initial.pos inp.final.pos) (m := kind.revs) (n := 1000)
    (atol := 1 / 10 ^ 4) (rtol := 1 / 10 ^ 4) (b := true)]
  cases findXY (izzoLambda dm inp.initial.pos inp.final.pos) (izzoTime mu inp.tof inp.initial.pos inp.final.pos)
    kind.revs 1000 (1 / 10 ^ 4) (1 / 10 ^ 4) true <;> simp

end Verif.Lambert
