import Verif.Blse.Witness
import Verif.Process.Exact
/-!
C241: the batch estimator keeps a true guess when its data are exact.
-/
namespace Verif.Blse
open Verif.Kalman Verif.Process Matrix

variable {T K Ω : Type} [DecidableEq K] {s : Nat}

/-- The propagator integrates the true dynamics `x`, as `Process.Follows`. -/
structure BFollows (adv : PInst Ω s → Int → Res (PInst Ω s)) (x : Int → Ω) (g : Int) : Prop where
  epoch : ∀ p d p', adv p d = .ok p' → p'.state.epoch = p.state.epoch + d
  state : ∀ p d p', True' x p.state → adv p d = .ok p' → True' x p'.state
  step : ∀ p d p', adv p d = .ok p' → g ∣ p.step → g ∣ p'.step

/-- The data are exact: each value of a measurement is that which its tracker computes from the true state. -/
def BExact (cfg : BCfg T K Ω s) (arc : List (Meas T K)) (x : Int → Ω) : Prop :=
  ∀ z ∈ arc, z.rejected = false → ∀ dev, cfg.devices z.tracker = some dev → ∀ y, True' x y → y.epoch = z.epoch →
    ∀ comp, dev.measure y = .ok (some comp) → ∀ k v, (k, some v) ∈ z.data → look comp k = some v

/-- Sums without any residual. -/
structure Clean (q : Sums s) : Prop where
  info : q.info.PosDef
  normal : q.normal = 0
  sumSq : q.sumSq = 0

theorem useAll_clean {dev : BDev T K Ω s} {z : Meas T K} {y : Nominal Ω s} {M : Matrix (Fin s) (Fin s) ℝ}
    (hv : ∀ comp, dev.measure y = .ok (some comp) → ∀ k v, (k, some v) ∈ z.data → look comp k = some v) :
    ∀ (l : List (K × Option ℝ)), (∀ p ∈ l, p ∈ z.data) → ∀ {q q' : Sums s}, Clean q → useAll dev z y M l q = .ok q' → Clean q' := by
  intro l
  induction l with
  | nil => intro _ q q' h0 h; cases h; exact h0
  | cons p l ih =>
    obtain ⟨k, v⟩ := p
    intro hl q q' h0 h
    obtain ⟨q1, h1, h2⟩ := Res.bind_eq_ok.1 h
    refine ih (fun p hp => hl p (by simp [hp])) ?_ h2
    unfold useValue at h1
    obtain ⟨hr, _, h1⟩ := Res.bind_eq_ok.1 h1
    obtain ⟨o, hm, h1⟩ := Res.bind_eq_ok.1 h1
    cases o with
    | none => cases h1; exact h0
    | some comp =>
      cases v with
      | none => cases h1
      | some real =>
        obtain ⟨R, _, h1⟩ := Res.bind_eq_ok.1 h1
        split at h1
        · rename_i hR
          cases h1
          have hzero : real - (look comp k).getD 0 = 0 := by
            rw [hv comp hm k real (hl _ (by simp))]; simp
          rw [hzero]
          refine ⟨?_, by simp [Sums.add, h0.normal], by simp [Sums.add, h0.sumSq]⟩
          exact h0.info.add_posSemidef ((vecMulVec_posSemidef _).smul (by positivity))
        · cases h1

/-- What the loop of an iteration preserves. -/
structure BTruth (x : Int → Ω) (g t0 : Int) (st : BSt Ω s) : Prop where
  epoch : st.inst.state.epoch = st.epoch
  grid : g ∣ st.epoch - t0
  step : g ∣ st.inst.step
  state : True' x st.inst.state
  sums : Clean st.sums

theorem gatherOne_clean {cfg : BCfg T K Ω s} {arc : List (Meas T K)} {x : Int → Ω} {g t0 : Int} (hx : BExact cfg arc x)
    (hf : BFollows cfg.adv x g) (hprec : cfg.precision ≤ g) (hmax : g ∣ cfg.maxStep) {z : Meas T K} (hz : z ∈ arc)
    (hzr : z.rejected = false) (hgz : g ∣ z.epoch - t0) (n : Nat) :
    ∀ {st st' : BSt Ω s}, BTruth x g t0 st → gatherOne cfg z n st = some (.ok st') → BTruth x g t0 st' := by
  induction n with
  | zero => intro st st' _ h; simp [gatherOne] at h
  | succ n ih =>
    intro st st' h0 h
    rw [gatherOne] at h
    split at h
    · cases h; exact h0
    · cases hadv : cfg.adv st.inst (nextStep cfg z st) with
      | err => rw [hadv] at h; simp at h
      | panic => rw [hadv] at h; simp at h
      | ok p =>
        rw [hadv] at h
        simp only at h
        cases hM : p.state.stm with
        | none => rw [hM] at h; simp at h
        | some M =>
          rw [hM] at h
          simp only at h
          have hmin : ∀ u v : Int, g ∣ u → g ∣ v → g ∣ min u v := fun u v hu hv => by
            rcases min_choice u v with h | h <;> rw [h] <;> assumption
          have hdz : g ∣ z.epoch - st.epoch := by
            have := dvd_sub hgz h0.grid
            rwa [sub_sub_sub_cancel_right] at this
          have hgrid : g ∣ p.state.epoch - t0 := by
            rw [hf.epoch _ _ _ hadv, h0.epoch, add_sub_right_comm]
            exact dvd_add h0.grid (hmin _ _ (hmin _ _ hdz h0.step) hmax)
          have htrue := hf.state _ _ _ h0.state hadv
          cases hq : atMsr cfg z p.state (M * st.stm) st.sums with
          | err => rw [hq] at h; simp at h
          | panic => rw [hq] at h; simp at h
          | ok q =>
            rw [hq] at h
            refine ih ⟨rfl, hgrid, hf.step _ _ _ hadv h0.step, htrue, ?_⟩ h
            unfold atMsr at hq
            split at hq
            · rename_i hc
              have hexact : p.state.epoch = z.epoch := by
                have hd : g ∣ p.state.epoch - z.epoch := by
                  have := dvd_sub hgrid hgz
                  rwa [sub_sub_sub_cancel_right] at this
                have := Int.eq_zero_of_abs_lt_dvd hd (lt_of_lt_of_le hc hprec)
                omega
              split at hq
              · cases hq; exact h0.sums
              · rename_i dev hd
                exact useAll_clean (fun comp hm => hx z hz hzr dev hd _ htrue hexact comp hm) _ (fun _ h => h) h0.sums hq
            · cases hq; exact h0.sums

theorem gather_clean {cfg : BCfg T K Ω s} {arc : List (Meas T K)} {x : Int → Ω} {g t0 : Int} (hx : BExact cfg arc x)
    (hf : BFollows cfg.adv x g) (hprec : cfg.precision ≤ g) (hmax : g ∣ cfg.maxStep)
    (hg : ∀ z ∈ arc, z.rejected = false → g ∣ z.epoch - t0) (fuel : Nat) (zs : List (Meas T K)) (hzs : ∀ z ∈ zs, z ∈ arc) :
    ∀ {st st' : BSt Ω s}, BTruth x g t0 st → gather cfg fuel zs st = some (.ok st') → BTruth x g t0 st' := by
  induction zs with
  | nil =>
    intro st st' h0 h
    simp only [gather, Option.some.injEq, Res.ok.injEq] at h
    subst h; exact h0
  | cons z zs ih =>
    intro st st' h0 h
    have ih' := @ih fun z' hz' => hzs z' (by simp [hz'])
    rw [gather] at h
    split at h
    · exact ih' h0 h
    · rename_i hr
      have hr' : z.rejected = false := by simpa using hr
      have hz := hzs z (by simp)
      split at h
      · cases h
      · rename_i st1 h1
        exact ih' (gatherOne_clean hx hf hprec hmax hz hr' (hg z hz hr') fuel h0 h1) h
      · rename_i hne _
        simp only [Option.some.injEq] at h
        exact absurd h (hne _)

theorem posNorm_zero : posNorm (0 : Fin s → ℝ) = 0 := by simp [posNorm]

/-- C241, the part which holds. If the guess is the true state, the propagator follows the true dynamics and the data are exact, then both solvers
return the guess itself, converged in the first iteration with a zero correction and a zero root mean square. The epochs of the measurements and the
steps are multiples of `g`, at least the precision on epochs. Missing: measurements used at a step nearby, as
`exact_batch_early` shows, and constant biases, which the estimator ignores (C127). -/
theorem exact_batch_partial (cfg : BCfg T K Ω s) (hc : CholOk cfg.chol) (arc : List (Meas T K)) (x : Int → Ω) (g : Int) (hx : BExact cfg arc x)
    (hf : BFollows cfg.adv x g) (hplus : ∀ y, cfg.plus y 0 = y) (hprec : cfg.precision ≤ g) (hmax : g ∣ cfg.maxStep)
    (hstep : g ∣ cfg.propStep) (htol : 0 < cfg.tolerance) (hit : 0 < cfg.maxIterations) (hl : 0 ≤ cfg.lambdaInit)
    (guess : Nominal Ω s) (h0 : guess.orbit = x guess.epoch)
    (hg : ∀ z ∈ arc, z.rejected = false → g ∣ z.epoch - guess.epoch) (fuel : Nat) (it : It Ω s)
    (h : estimate cfg fuel guess arc = some (.ok it)) :
    it.est = guess ∧ it.converged = true ∧ it.iter = 1 ∧ it.corr = some 0 ∧ it.rms = some 0 := by
  unfold estimate at h
  split at h
  · simp at h
  · obtain ⟨n, hn⟩ : ∃ n, cfg.maxIterations = n + 1 := ⟨cfg.maxIterations - 1, by omega⟩
    rw [hn, iterate] at h
    split at h
    · cases h
    · simp at h
    · simp at h
    · rename_i st hst
      have hstart : BTruth x g guess.epoch (startAt cfg (initIt cfg guess).est) := by
        refine ⟨rfl, ?_, hstep, h0, ⟨PosDef.one, rfl, rfl⟩⟩
        simp [startAt, initIt]
      have hclean := (gather_clean hx hf hprec hmax hg fuel arc (fun _ h => h) hstart hst).sums
      have hrms : rmsOf (numMsr arc) st.sums = 0 := by simp [rmsOf, hclean.sumSq]
      have hacc : ∀ (it0 : It Ω s) (S : Matrix (Fin s) (Fin s) ℝ), accept cfg st.sums (S *ᵥ st.sums.normal) it0 =
          ({ it0 with corr := some 0, covar := covarOf cfg st.sums.info, converged := true }, true) := by
        intro it0 S
        rw [hclean.normal, mulVec_zero]
        simp [accept, posNorm_zero, htol, hplus]
      obtain ⟨L, hL⟩ := hc _ hclean.info
      have hpd : (st.sums.info + cfg.lambdaInit • dSq cfg st.sums.info).PosDef :=
        hclean.info.add_posSemidef ((dSq_posSemidef cfg).smul hl)
      obtain ⟨L', hL'⟩ := hc _ hpd
      cases hs : cfg.solver with
      | normalEquations =>
        simp only [stepOf, hs, stepNormal, hL, hacc, hrms, initIt] at h
        simp only [Option.some.injEq, Res.ok.injEq] at h
        subst h
        exact ⟨rfl, rfl, rfl, rfl, rfl⟩
      | levenbergMarquardt =>
        simp only [stepOf, hs, stepLm, initIt, hL', hacc, hrms, improves, if_true] at h
        simp only [Option.some.injEq, Res.ok.injEq] at h
        subst h
        exact ⟨rfl, rfl, rfl, rfl, rfl⟩

/-! ### A state which moves one unit per nanosecond -/

/-- The scalar state of `exCfg` moving with constant velocity, with the precision `prec` on epochs. -/
noncomputable def exMoveB (solver : Solver) (prec : Int) : BCfg Unit Unit ℝ 1 :=
  { exCfg solver 1 id 1 with
    precision := prec
    adv := fun p d => .ok ⟨⟨p.state.orbit + d, p.state.epoch + d, p.state.stm⟩, p.step⟩ }

/-- The exact values at the times 11 and 20. -/
noncomputable def exMoveData : List (Meas Unit Unit) := [⟨(), 11, [((), some 11)], false⟩, ⟨(), 20, [((), some 20)], false⟩]

theorem exMoveB_exact (solver : Solver) (prec : Int) : BExact (exMoveB solver prec) exMoveData fun t => (t : ℝ) := by
  intro z hz _ dev hd y hy he comp hm k v hv
  have hd' : dev = exDev id := by
    have : some (exDev id) = some dev := hd
    simpa using this.symm
  subst hd'
  unfold True' at hy
  simp only [exDev, id, Res.ok.injEq, Option.some.injEq] at hm
  subst hm
  simp only [exMoveData, List.mem_cons, List.not_mem_nil, or_false] at hz
  rcases hz with rfl | rfl
  · simp only [List.mem_singleton, Prod.mk.injEq, Option.some.injEq, true_and] at hv
    simp [look, hy, he, hv]
  · simp only [List.mem_singleton, Prod.mk.injEq, Option.some.injEq, true_and] at hv
    simp [look, hy, he, hv]

theorem exMoveB_follows (solver : Solver) (prec : Int) : BFollows (exMoveB solver prec).adv (fun t => (t : ℝ)) 1 where
  epoch p d p' h := by cases h; rfl
  state p d p' hp h := by
    cases h
    unfold True' at hp
    simp [True', hp]
  step _ _ _ _ _ := one_dvd _

/-- C241, refuted. The guess is the truth and the data are exact. With a precision of 2 on epochs, the state at the step to 10 is
compared with the value at 11, and the estimator moves the state from 0 to 1/4. -/
theorem exact_batch_early : ∃ it, estimate (exMoveB .normalEquations 2) 5 ⟨0, 0, none⟩ exMoveData = some (.ok it) ∧
    BExact (exMoveB .normalEquations 2) exMoveData (fun t => (t : ℝ)) ∧
    BFollows (exMoveB .normalEquations 2).adv (fun t => (t : ℝ)) 1 ∧ it.est.orbit = 1 / 4 := by
  have hg : ∃ st, gather (exMoveB .normalEquations 2) 5 exMoveData (startAt (exMoveB .normalEquations 2) ⟨0, 0, none⟩) =
      some (.ok st) ∧ st.sums.info = of (fun _ _ => 4) ∧ st.sums.normal = fun _ => 1 := by
    refine ⟨_, by
      simp [gather, gatherOne, exMoveB, exCfg, exMoveData, exDev, startAt, nextStep, atMsr, useAll, useValue, Res.bind, look,
        Sums.init, Sums.add]
      rfl, ?_, ?_⟩
    · ext i j
      have hi : i = 0 := Subsingleton.elim _ _
      have hj : j = 0 := Subsingleton.elim _ _
      subst hi hj
      simp [vecMulVec, vecMul, dotProduct]
      norm_num
    · ext i
      have hi : i = 0 := Subsingleton.elim _ _
      subst hi
      simp [vecMul, dotProduct]
      try norm_num
  obtain ⟨st, h1, h2, h3⟩ := hg
  have hinv : (of (fun _ _ => (4 : ℝ)) : Matrix (Fin 1) (Fin 1) ℝ)⁻¹ = of fun _ _ => 1 / 4 := by
    refine Matrix.inv_eq_left_inv ?_
    ext i j
    have hi : i = 0 := Subsingleton.elim _ _
    have hj : j = 0 := Subsingleton.elim _ _
    subst hi hj
    simp [Matrix.mul_apply]
  have edx : st.sums.info⁻¹ *ᵥ st.sums.normal = fun _ => 1 / 4 := by
    rw [h2, hinv, h3]
    ext i
    simp [mulVec, dotProduct]
  have hnum : ¬ numMsr exMoveData < 2 := by decide
  have hstep : ∀ it0, ∃ it1 b, stepOf (exMoveB .normalEquations 2) (numMsr exMoveData) st.sums it0 = .ok (it1, b) ∧
      it1.est.orbit = it0.est.orbit + 1 / 4 := by
    intro it0
    have hsolv : (exMoveB .normalEquations 2).solver = .normalEquations := rfl
    have hchol : ∀ S, (exMoveB .normalEquations 2).chol S = some 1 := fun _ => rfl
    simp only [stepOf, hsolv, stepNormal, hchol, accept, edx]
    exact ⟨_, _, rfl, rfl⟩
  obtain ⟨it1, b, k1, k2⟩ := hstep { initIt (exMoveB .normalEquations 2) ⟨0, 0, none⟩ with iter := 1 }
  refine ⟨it1, ?_, exMoveB_exact _ _, exMoveB_follows _ _, by rw [k2]; simp [initIt]⟩
  unfold estimate
  rw [if_neg hnum]
  show iterate _ 5 _ 1 (initIt _ _) = _
  unfold iterate
  rw [show gather (exMoveB .normalEquations 2) 5 exMoveData (startAt (exMoveB .normalEquations 2)
      (initIt (exMoveB .normalEquations 2) ⟨0, 0, none⟩).est) = some (.ok st) from h1]
  simp only
  rw [show ({ initIt (exMoveB .normalEquations 2) ⟨0, 0, none⟩ with
      iter := (initIt (exMoveB .normalEquations 2) ⟨0, 0, none⟩).iter + 1 } : It ℝ 1) =
    { initIt (exMoveB .normalEquations 2) ⟨0, 0, none⟩ with iter := 1 } from rfl, k1]
  cases b <;> rfl

/-- The hypotheses are met by a run: with a precision of one nanosecond, either solver returns the true guess. -/
example (solver : Solver) : ∃ it, estimate (exMoveB solver 1) 5 ⟨0, 0, none⟩ exMoveData = some (.ok it) ∧ it.est = ⟨0, 0, none⟩ ∧ it.converged = true := by
  have hr : ∃ it, estimate (exMoveB solver 1) 5 ⟨0, 0, none⟩ exMoveData = some (.ok it) := by
    unfold estimate
    rw [if_neg (by decide)]
    show ∃ it, iterate _ 5 _ 1 (initIt _ _) = _
    unfold iterate
    have hg : ∃ st, gather (exMoveB solver 1) 5 exMoveData (startAt (exMoveB solver 1)
        (initIt (exMoveB solver 1) ⟨0, 0, none⟩).est) = some (.ok st) := by
      refine ⟨_, by
        simp [gather, gatherOne, exMoveB, exCfg, exMoveData, exDev, startAt, nextStep, atMsr, useAll, useValue, Res.bind, look,
          Sums.init, Sums.add, initIt]
        rfl⟩
    obtain ⟨st, h1⟩ := hg
    rw [h1]
    have hs : ∀ it0, ∃ it1 b, stepOf (exMoveB solver 1) (numMsr exMoveData) st.sums it0 = .ok (it1, b) := by
      intro it0
      have hchol : ∀ S, (exMoveB solver 1).chol S = some 1 := fun _ => rfl
      unfold stepOf
      split
      · simp only [stepNormal, hchol]; exact ⟨_, _, rfl⟩
      · simp only [stepLm, hchol]
        split <;> exact ⟨_, _, rfl⟩
    obtain ⟨it1, b, k1⟩ := hs { initIt (exMoveB solver 1) ⟨0, 0, none⟩ with iter := (initIt (exMoveB solver 1) ⟨0, 0, none⟩).iter + 1 }
    simp only [k1]
    cases b <;> exact ⟨_, rfl⟩
  obtain ⟨it, hit⟩ := hr
  have := exact_batch_partial (exMoveB solver 1) (exCfg_chol solver 1 id 1) exMoveData (fun t => (t : ℝ)) 1 (exMoveB_exact _ _) (exMoveB_follows _ _)
    (fun y => by simp [exMoveB, exCfg]) le_rfl (one_dvd _) (one_dvd _) (by norm_num [exMoveB, exCfg]) (by simp [exMoveB, exCfg])
    (by simp [exMoveB, exCfg]) ⟨0, 0, none⟩ (by simp) (fun _ _ _ => one_dvd _) 5 it hit
  exact ⟨it, hit, this.1, this.2.1⟩

end Verif.Blse
