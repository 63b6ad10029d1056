import Verif.Blse.Converge
/-!
C40, continued: the Levenberg-Marquardt solver, termination, the conversion to an estimate of the filter, and
concrete runs where the claims fail.
-/
namespace Verif.Blse
open Verif.Kalman Verif.Process Matrix

variable {T K Ω : Type} [DecidableEq K] {s : Nat}

/-! ### Levenberg-Marquardt -/

theorem dSq_posSemidef (cfg : BCfg T K Ω s) {info : Matrix (Fin s) (Fin s) ℝ} : (dSq cfg info).PosSemidef := by
  unfold dSq
  refine PosSemidef.diagonal fun i => ?_
  simp only [Pi.zero_apply]
  split
  · split
    · norm_num
    · rename_i h; exact (not_le.1 h).le
  · norm_num

/-- One iteration of the Levenberg-Marquardt solver with a non negative damping never fails. If the root mean
square is below the best one, the correction solves the damped system (with the identity added too) and the
damping is divided; otherwise nothing but the damping changes.
Missing from C94: progress, as a rejected step at the largest damping repeats (`lm_stuck`). -/
theorem lm_step_partial {cfg : BCfg T K Ω s} (hc : CholOk cfg.chol) (num : Nat) {q : Sums s}
    {us : List (Use T K Ω s)} (hq : Sums.init.Extends q us) (hv : ∀ u ∈ us, 0 < u.R) (it : It Ω s)
    (hl : 0 ≤ it.lambda) :
    ∃ it' b, stepLm cfg num q it = .ok (it', b) ∧ it'.iter = it.iter ∧
      ((∀ c, it.rms = some c → rmsOf num q < c) → ∃ dx, it'.est = cfg.plus it.est dx ∧
        (1 + infoSum us + it.lambda • dSq cfg (1 + infoSum us)) *ᵥ dx = normalSum us ∧
        it'.rms = some (rmsOf num q) ∧ it'.lambda = max (it.lambda / cfg.lambdaDecrease) cfg.lambdaMin ∧
        (b = true ↔ positionNorm dx < cfg.tolerance)) ∧
      ((∃ c, it.rms = some c ∧ c ≤ rmsOf num q) → b = false ∧ it'.est = it.est ∧ it'.covar = it.covar ∧
        it'.converged = it.converged ∧ it'.rms = it.rms ∧ it'.corr = none ∧
        it'.lambda = min (it.lambda * cfg.lambdaIncrease) cfg.lambdaMax) := by
  obtain ⟨h1, h2, h3⟩ := hq
  have e1 : q.info = 1 + infoSum us := h1
  have e2 : q.normal = normalSum us := by rw [h2]; simp [Sums.init]
  have hpd : (1 + infoSum us + it.lambda • dSq cfg (1 + infoSum us)).PosDef :=
    (info_posDef hv).add_posSemidef ((dSq_posSemidef cfg).smul hl)
  obtain ⟨L, hL⟩ := hc _ hpd
  have hsol := show (1 + infoSum us + it.lambda • dSq cfg (1 + infoSum us)) *ᵥ
      ((1 + infoSum us + it.lambda • dSq cfg (1 + infoSum us))⁻¹ *ᵥ normalSum us) = normalSum us by
    rw [mulVec_mulVec, Matrix.mul_nonsing_inv _ (isUnit_iff_ne_zero.2 hpd.det_pos.ne'), one_mulVec]
  unfold stepLm
  rw [e1, hL, e2]
  simp only
  cases hi : improves (rmsOf num q) it.rms with
  | true =>
    rw [if_pos rfl]
    refine ⟨_, _, rfl, rfl, fun _ => ⟨_, rfl, hsol, rfl, rfl, ?_⟩, ?_⟩
    · rw [← posNorm_eq]
      show (if _ then true else false) = true ↔ _
      split <;> simp_all
    · rintro ⟨c, hc1, hc2⟩
      rw [hc1] at hi
      simp only [improves, decide_eq_true_eq] at hi
      exact absurd hi (not_lt.2 hc2)
  | false =>
    rw [if_neg (by simp)]
    refine ⟨_, _, rfl, rfl, fun h => ?_, fun _ => ⟨rfl, rfl, rfl, rfl, rfl, rfl, rfl⟩⟩
    exfalso
    cases hr : it.rms with
    | none => rw [hr] at hi; simp [improves] at hi
    | some c =>
      rw [hr] at hi
      simp only [improves, decide_eq_false_iff_not] at hi
      exact hi (h c hr)

/-- **C40 (negative).** Once the root mean square of an estimate is not below the previous one, the
Levenberg-Marquardt solver never moves again: the estimate is not restored and, being the same, is rejected
at every following iteration, whatever the damping. -/
theorem lm_stuck {cfg : BCfg T K Ω s} (hs : cfg.solver = .levenbergMarquardt) {fuel : Nat}
    {arc : List (Meas T K)} {it : It Ω s} {st : BSt Ω s} {c : ℝ}
    (hg : gather cfg fuel arc (startAt cfg it.est) = some (.ok st)) (hc : it.rms = some c)
    (hle : c ≤ rmsOf (numMsr arc) st.sums) (n : Nat) :
    ∃ it', iterate cfg fuel arc n it = some (.ok it') ∧ it'.est = it.est ∧ it'.covar = it.covar ∧
      it'.converged = it.converged ∧ it'.rms = it.rms ∧ it'.iter = it.iter + n := by
  induction n generalizing it with
  | zero => exact ⟨it, rfl, rfl, rfl, rfl, rfl, rfl⟩
  | succ n ih =>
    have hstep : ∃ it1, stepOf cfg (numMsr arc) st.sums { it with iter := it.iter + 1 } = .ok (it1, false) ∧
        it1.est = it.est ∧ it1.covar = it.covar ∧ it1.converged = it.converged ∧ it1.rms = it.rms ∧
        it1.iter = it.iter + 1 := by
      unfold stepOf stepLm
      rw [hs]
      simp only
      cases hch : cfg.chol (st.sums.info + it.lambda • dSq cfg st.sums.info) with
      | none => exact ⟨_, rfl, rfl, rfl, rfl, rfl, rfl⟩
      | some L =>
        have : improves (rmsOf (numMsr arc) st.sums) it.rms = false := by
          rw [hc]; simp [improves, hle]
        simp only [this]
        exact ⟨_, rfl, rfl, rfl, rfl, rfl, rfl⟩
    obtain ⟨it1, h1, h2, h3, h4, h5, h6⟩ := hstep
    obtain ⟨it', g1, g2, g3, g4, g5, g6⟩ := ih (it := it1) (by rw [h2]; exact hg) (by rw [h5]; exact hc)
    refine ⟨it', ?_, by rw [g2, h2], by rw [g3, h3], by rw [g4, h4], by rw [g5, h5], by omega⟩
    unfold iterate
    rw [hg]
    simp only
    rw [h1]
    exact g1

/-! ### Termination -/

theorem gatherOne_terminates {cfg : BCfg T K Ω s} {lo : Int} (hadv : Arrives cfg.adv lo) (hlo : 0 < lo)
    (hm : 0 < cfg.maxStep) (z : Meas T K) :
    ∀ (n : Nat) (st : BSt Ω s), st.inst.state.epoch = st.epoch → lo ≤ st.inst.step →
      z.epoch - st.epoch < n →
      gatherOne cfg z (n + 1) st ≠ none ∧ ∀ st', gatherOne cfg z (n + 1) st = some (.ok st') →
        lo ≤ st'.inst.step := by
  intro n
  induction n with
  | zero =>
    intro st he hst hz
    have : gatherOne cfg z (0 + 1) st = some (.ok st) := by
      unfold gatherOne; rw [if_pos (by omega)]
    rw [this]
    exact ⟨by simp, fun st' h => by cases h; exact hst⟩
  | succ n ih =>
    intro st he hst hz
    by_cases hle : z.epoch - st.epoch ≤ 0
    · have : gatherOne cfg z (n + 1 + 1) st = some (.ok st) := by
        unfold gatherOne; rw [if_pos hle]
      rw [this]
      exact ⟨by simp, fun st' h => by cases h; exact hst⟩
    · rw [show gatherOne cfg z (n + 1 + 1) st = _ from by unfold gatherOne; rw [if_neg hle]]
      cases hp : cfg.adv st.inst (nextStep cfg z st) with
      | err => exact ⟨by simp, fun _ h => by cases h⟩
      | panic => exact ⟨by simp, fun _ h => by cases h⟩
      | ok p =>
        simp only
        cases hM : p.state.stm with
        | none => exact ⟨by simp, fun _ h => by cases h⟩
        | some M =>
          simp only
          cases hq : atMsr cfg z p.state (M * st.stm) st.sums with
          | err => exact ⟨by simp, fun _ h => by cases h⟩
          | panic => exact ⟨by simp, fun _ h => by cases h⟩
          | ok q =>
            have he' := hadv.epoch _ _ _ hp
            have hs' := hadv.step _ _ _ hp hst
            refine ih ⟨p, p.state.epoch, M * st.stm, q⟩ rfl hs' ?_
            simp only
            rw [he', he]
            unfold nextStep
            omega

/-- The accumulation over an arc ends: `fuel` larger than the time to the latest measurement is enough. -/
theorem gather_terminates {cfg : BCfg T K Ω s} {lo : Int} (hadv : Arrives cfg.adv lo) (hlo : 0 < lo)
    (hm : 0 < cfg.maxStep) (fuel : Nat) :
    ∀ (arc : List (Meas T K)) (st : BSt Ω s), st.inst.state.epoch = st.epoch → lo ≤ st.inst.step →
      (∀ z ∈ arc, z.epoch - st.epoch < fuel) → gather cfg (fuel + 1) arc st ≠ none := by
  intro arc
  induction arc with
  | nil => intro st _ _ _; simp [gather]
  | cons z l ih =>
    intro st he hst hz
    unfold gather
    split
    · exact ih st he hst fun y hy => hz y (List.mem_cons_of_mem _ hy)
    · obtain ⟨h1, h2⟩ := gatherOne_terminates hadv hlo hm z fuel st he hst (hz z (List.mem_cons_self ..))
      split
      · rename_i h; exact absurd h h1
      · rename_i st1 h
        obtain ⟨g1, _, g2, _⟩ := gatherOne_spec hadv (Inv := fun _ _ => True)
          (fun _ _ _ _ _ _ _ _ => trivial) z _ st st1 he trivial h
        refine ih st1 g1 (h2 st1 h) fun y hy => ?_
        have := hz y (List.mem_cons_of_mem _ hy)
        omega
      · simp

/-- **C40 (termination).** The estimation always returns, given a propagator that arrives where it is asked
with a positive step, a positive maximum step, and an addition of corrections that keeps the epoch. -/
theorem estimate_terminates {cfg : BCfg T K Ω s} {lo : Int} (hadv : Arrives cfg.adv lo) (hlo : 0 < lo)
    (hstep : lo ≤ cfg.propStep) (hm : 0 < cfg.maxStep) (hplus : ∀ x dx, (cfg.plus x dx).epoch = x.epoch)
    (guess : Nominal Ω s) (arc : List (Meas T K)) :
    ∃ fuel, estimate cfg fuel guess arc ≠ none := by
  obtain ⟨B, hB⟩ : ∃ B : Nat, ∀ z ∈ arc, z.epoch - guess.epoch < B := by
    induction arc with
    | nil => exact ⟨0, by simp⟩
    | cons z l ih =>
      obtain ⟨B, hB⟩ := ih
      refine ⟨B + (z.epoch - guess.epoch).toNat + 1, fun y hy => ?_⟩
      rcases List.mem_cons.1 hy with rfl | hy
      · omega
      · have := hB y hy; omega
  refine ⟨B + 1, ?_⟩
  have key : ∀ (n : Nat) (it : It Ω s), it.est.epoch = guess.epoch →
      iterate cfg (B + 1) arc n it ≠ none := by
    intro n
    induction n with
    | zero => intro it _; simp [iterate]
    | succ n ih =>
      intro it he
      unfold iterate
      have hg := gather_terminates hadv hlo hm B arc (startAt cfg it.est) rfl hstep
        (fun z hz => by have := hB z hz; simp only [startAt]; omega)
      split
      · rename_i h; exact absurd h hg
      · simp
      · simp
      · split
        · simp
        · simp
        · simp
        · rename_i it' hst
          refine ih it' ?_
          have hest : it'.est = it.est ∨ ∃ dx, it'.est = cfg.plus it.est dx := by
            unfold stepOf at hst
            split at hst
            · unfold stepNormal at hst
              split at hst
              · cases hst
              · simp only [accept] at hst
                injection hst with hst
                injection hst with h1 h2
                rw [← h1]; exact Or.inr ⟨_, rfl⟩
            · unfold stepLm at hst
              split at hst
              · injection hst with hst
                injection hst with h1 h2
                rw [← h1]; exact Or.inl rfl
              · split at hst
                · simp only [accept] at hst
                  injection hst with hst
                  injection hst with h1 h2
                  rw [← h1]; exact Or.inr ⟨_, rfl⟩
                · injection hst with hst
                  injection hst with h1 h2
                  rw [← h1]; exact Or.inl rfl
          rcases hest with h | ⟨dx, h⟩
          · rw [h, he]
          · rw [h, hplus, he]
  unfold estimate
  split
  · simp
  · exact key _ _ rfl

/-! ### Conversion to an estimate of the filter -/

/-- The conversion zeroes the variances of `Cr`, `Cd` and the mass. The covariance it returns is positive semi
definite if and only if these were uncorrelated with everything else: zeroing a variance but not its
covariances breaks it otherwise.
Missing from C96: the covariances with correlations, for which the conversion is not positive (`kf_conversion_not_psd`). -/
theorem kf_conversion_psd_partial {P Q : Matrix (Fin s) (Fin s) ℝ} (hP : P.PosSemidef) (h : toKfCovar P = .ok Q) :
    9 ≤ s ∧ (∀ i, i.val = 6 ∨ i.val = 7 ∨ i.val = 8 → Q i i = 0) ∧
    (Q.PosSemidef ↔ ∀ i j, (i.val = 6 ∨ i.val = 7 ∨ i.val = 8) → i ≠ j → P i j = 0) := by
  unfold toKfCovar at h
  split at h
  · cases h
  · rename_i hs
    injection h with h
    subst h
    refine ⟨by omega, fun i hi => by simp [hi], ?_⟩
    constructor
    · intro hQ i j hi hij
      by_contra hne
      have hsym : P j i = P i j := by
        have := hP.isHermitian.apply i j
        simpa using this
      -- the quadratic form along `t e_i + e_j` is `2 t P i j + Q j j`, negative for some `t`
      set Q : Matrix (Fin s) (Fin s) ℝ := of fun i j =>
        if i = j ∧ (i.val = 6 ∨ i.val = 7 ∨ i.val = 8) then 0 else P i j with hQd
      have hform : ∀ t : ℝ, 0 ≤ 2 * t * P i j + Q j j := by
        intro t
        have := hQ.dotProduct_mulVec_nonneg (t • Pi.single i 1 + Pi.single j 1)
        have e1 : Q i i = 0 := by rw [hQd]; simp [hi]
        have e2 : Q i j = P i j := by rw [hQd]; simp [hij]
        have e3 : Q j i = P i j := by rw [hQd]; simp [Ne.symm hij, hsym]
        simp only [star_trivial, mulVec_add, mulVec_smul, dotProduct_add, add_dotProduct, smul_dotProduct,
          dotProduct_smul, mulVec_single_one, single_one_dotProduct, smul_eq_mul, col_apply, e1, e2, e3] at this
        linarith
      have h1 := hform ((-(Q j j) - 1) / (2 * P i j))
      have h2 : 2 * ((-(Q j j) - 1) / (2 * P i j)) * P i j = -(Q j j) - 1 := by field_simp
      rw [h2] at h1
      linarith
    · intro hz
      -- the matrix is `D P D` with `D` the projection on the other components
      have e : (of fun i j => if i = j ∧ (i.val = 6 ∨ i.val = 7 ∨ i.val = 8) then 0 else P i j :
          Matrix (Fin s) (Fin s) ℝ) =
          diagonal (fun i : Fin s => if i.val = 6 ∨ i.val = 7 ∨ i.val = 8 then (0 : ℝ) else 1) * P *
          (diagonal (fun i : Fin s => if i.val = 6 ∨ i.val = 7 ∨ i.val = 8 then (0 : ℝ) else 1))ᴴ := by
        ext i j
        rw [conjTranspose_eq_transpose_of_trivial, diagonal_transpose, mul_diagonal, diagonal_mul]
        simp only [of_apply]
        have hsym : P j i = P i j := by
          have := hP.isHermitian.apply i j
          simpa using this
        by_cases hij : i = j
        · subst hij
          by_cases hi : i.val = 6 ∨ i.val = 7 ∨ i.val = 8 <;> simp [hi]
        · rw [if_neg (by tauto)]
          by_cases hi : i.val = 6 ∨ i.val = 7 ∨ i.val = 8
          · rw [hz i j hi hij]; simp
          · by_cases hj : j.val = 6 ∨ j.val = 7 ∨ j.val = 8
            · rw [← hsym, hz j i hj (Ne.symm hij)]; simp
            · simp [hi, hj]
      rw [e]
      exact hP.mul_mul_conjTranspose_same _

/-- A covariance for which the conversion is not positive semi definite. -/
theorem kf_conversion_not_psd :
    ∃ P Q : Matrix (Fin 9) (Fin 9) ℝ, P.PosSemidef ∧ toKfCovar P = .ok Q ∧ ¬ Q.PosSemidef := by
  have hP : (vecMulVec (fun _ : Fin 9 => (1 : ℝ)) fun _ => 1).PosSemidef := vecMulVec_posSemidef _
  refine ⟨_, _, hP, by unfold toKfCovar; rw [if_neg (by norm_num)], fun hQ => ?_⟩
  have := ((kf_conversion_psd_partial hP (by unfold toKfCovar; rw [if_neg (by norm_num)])).2.2.1 hQ) 6 0
    (Or.inl rfl) (by decide)
  simp [vecMulVec] at this

/-! ### Concrete runs -/

/-- A device that observes with the function `f` of a scalar state, with unit variance and partial. -/
noncomputable def exDev (f : ℝ → ℝ) : BDev Unit Unit ℝ 1 where
  hTilde := fun _ _ _ => .ok fun _ => 1
  measure := fun x => .ok (some [((), f x.orbit)])
  variance := fun _ _ => .ok 1

/-- A scalar state that does not move, whose transition over `d` nanoseconds is `g ^ d`. -/
noncomputable def exCfg (solver : Solver) (g : ℝ) (f : ℝ → ℝ) (maxIter : Nat) : BCfg Unit Unit ℝ 1 where
  propStep := 10
  devices := fun _ => some (exDev f)
  solver := solver
  tolerance := 1 / 10
  maxIterations := maxIter
  maxStep := 10
  precision := 1
  lambdaInit := 1
  lambdaDecrease := 10
  lambdaIncrease := 10
  lambdaMin := 0
  lambdaMax := 1000
  diagScaling := true
  adv := fun p d => .ok ⟨⟨p.state.orbit, p.state.epoch + d, p.state.stm.map fun M => g ^ d • M⟩, p.step⟩
  plus := fun x dx => { x with orbit := x.orbit + dx 0 }
  chol := fun _ => some 1
  udu := fun S => some (1, fun i => S i i)

/-- A measurement of value one. -/
def exMsr (t : Int) : Meas Unit Unit := ⟨(), t, [((), some 1)], false⟩

theorem exCfg_arrives (solver : Solver) (g : ℝ) (f : ℝ → ℝ) (n : Nat) :
    Arrives (exCfg solver g f n).adv 10 := by
  constructor
  · rintro p d p' h; cases h; rfl
  · rintro p d p' h hp; cases h; exact hp

theorem exCfg_flow (solver : Solver) {g : ℝ} (hg : g ≠ 0) (f : ℝ → ℝ) (n : Nat) :
    Flow (exCfg solver g f n).adv (fun t t' => g ^ (t' - t) • 1) := by
  constructor
  · intro t; simp
  · intro a b c
    simp only [Matrix.smul_mul, Matrix.one_mul, smul_smul]
    rw [← zpow_add₀ hg]
    congr 2; ring
  · rintro p d p' h
    cases h
    refine ⟨rfl, fun M hM => ?_⟩
    simp [hM]

theorem exCfg_chol (solver : Solver) (g : ℝ) (f : ℝ → ℝ) (n : Nat) : CholOk (exCfg solver g f n).chol :=
  fun _ _ => ⟨1, rfl⟩

theorem exCfg_udu (solver : Solver) (g : ℝ) (f : ℝ → ℝ) (n : Nat) : UduOk (exCfg solver g f n).udu := by
  intro S _
  refine ⟨1, _, rfl, ?_⟩
  ext i j
  have : i = j := Subsingleton.elim i j
  subst this
  simp

/-- The sums of one iteration of the example from the state `x`. -/
theorem exCfg_gather (solver : Solver) (g : ℝ) (f : ℝ → ℝ) (n : Nat) (x : ℝ) :
    ∃ st, gather (exCfg solver g f n) 5 [exMsr 1, exMsr 2] (startAt (exCfg solver g f n) ⟨x, 0, none⟩) =
        some (.ok st) ∧
      st.sums.info = of (fun _ _ => 1 + g ^ 2 + (g * g * g) ^ 2) ∧
      st.sums.normal = (fun _ => (1 - f x) * (g + g * g * g)) ∧ st.sums.sumSq = 2 * (1 - f x) ^ 2 := by
  refine ⟨_, by
    simp [gather, gatherOne, exCfg, exMsr, exDev, startAt, nextStep, atMsr, useAll, useValue, Res.bind, look,
      Sums.init, Sums.add]
    rfl, ?_, ?_, ?_⟩
  · ext i j
    have hi : i = 0 := Subsingleton.elim _ _
    have hj : j = 0 := Subsingleton.elim _ _
    subst hi hj
    simp [vecMulVec, vecMul, dotProduct]
    ring
  · ext i
    have hi : i = 0 := Subsingleton.elim _ _
    subst hi
    simp [vecMul, dotProduct]
    ring
  · ring

/-- **C40 is false.** Whenever the correction is not zero, it does not solve the normal equations of the
observations used; and the covariance is never the inverse of their information matrix. -/
theorem normal_equations_refuted {cfg : BCfg T K Ω s} {fuel : Nat} {arc : List (Meas T K)} {x : Nominal Ω s}
    {us : List (Use T K Ω s)} {dx : Fin s → ℝ} {it : It Ω s} (h : LastStep cfg fuel arc x us dx it) :
    (dx ≠ 0 → infoSum us *ᵥ dx ≠ normalSum us) ∧ (0 < s → it.covar * infoSum us ≠ 1) := by
  refine ⟨fun hne heq => ?_, fun hs heq => ?_⟩
  · have h1 := h.solves
    rw [add_mulVec, one_mulVec, heq] at h1
    exact hne (by simpa using h1)
  · have hpd := info_posDef fun u hu => (h.valid u hu).1.noise
    have h1 : it.covar * (1 + infoSum us) = 1 := by
      rw [h.covar]
      exact Matrix.nonsing_inv_mul _ (isUnit_iff_ne_zero.2 hpd.det_pos.ne')
    rw [Matrix.mul_add, Matrix.mul_one, heq] at h1
    have h2 : it.covar = 0 := by simpa using h1
    rw [h2, Matrix.zero_mul] at heq
    have h3 := congrFun (congrFun heq ⟨0, hs⟩) ⟨0, hs⟩
    simp at h3

/-- Two direct observations equal to one of a constant scalar, unit variance, first guess zero: the least
squares estimate is one with variance one half. The estimator, allowed one iteration, returns two thirds with
variance one third, and reports the root mean square of the guess. -/
theorem normal_equations_witness :
    ∃ it, estimate (exCfg .normalEquations 1 id 1) 5 ⟨0, 0, none⟩ [exMsr 1, exMsr 2] = some (.ok it) ∧
      it.est.orbit = 2 / 3 ∧ it.covar = of (fun _ _ => 1 / 3) ∧ it.rms = some 1 ∧ it.converged = false ∧
      evaluate (exCfg .normalEquations 1 id 1) 5 it.est [exMsr 1, exMsr 2] = some (.ok (1 / 3)) := by
  obtain ⟨st, h1, h2, h3, h4⟩ := exCfg_gather .normalEquations 1 id 1 0
  have hinv : (of (fun _ _ => (3 : ℝ)) : Matrix (Fin 1) (Fin 1) ℝ)⁻¹ = of fun _ _ => 1 / 3 := by
    refine Matrix.inv_eq_left_inv ?_
    ext i j
    have hi : i = 0 := Subsingleton.elim _ _
    have hj : j = 0 := Subsingleton.elim _ _
    subst hi hj
    simp [Matrix.mul_apply]
  have e2 : st.sums.info = of (fun _ _ => 3) := by rw [h2]; norm_num
  have e3 : st.sums.normal = fun _ => 2 := by rw [h3]; norm_num
  have e4 : st.sums.sumSq = 2 := by rw [h4]; norm_num
  have edx : st.sums.info⁻¹ *ᵥ st.sums.normal = fun _ => 2 / 3 := by
    rw [e2, hinv, e3]
    ext i
    simp [mulVec, dotProduct]
    norm_num
  have hnum : numMsr [exMsr 1, exMsr 2] = 2 := rfl
  have hnorm : posNorm (fun _ : Fin 1 => (2 / 3 : ℝ)) = 2 / 3 := by
    unfold posNorm
    simp only [Finset.univ_unique, Finset.sum_singleton, Fin.default_eq_zero, Fin.val_zero,
      Nat.ofNat_pos, if_true]
    exact Real.sqrt_sq (by norm_num)
  have hrms : rmsOf 2 st.sums = 1 := by
    unfold rmsOf; rw [e4]; norm_num
  have hstep : ∃ it1, stepOf (exCfg .normalEquations 1 id 1) 2 st.sums
      { initIt (exCfg .normalEquations 1 id 1) ⟨0, 0, none⟩ with iter := 1 } = .ok (it1, false) ∧
      it1.est = ⟨0 + 2 / 3, 0, none⟩ ∧ it1.rms = some 1 ∧ it1.converged = false ∧
      it1.covar = covarOf (exCfg .normalEquations 1 id 1) st.sums.info := by
    have hsolv : (exCfg .normalEquations 1 id 1).solver = .normalEquations := rfl
    have hchol : ∀ S, (exCfg .normalEquations 1 id 1).chol S = some 1 := fun _ => rfl
    simp only [stepOf, hsolv, stepNormal, hchol, accept, edx, hnorm, hrms]
    rw [if_neg (by simp only [exCfg]; norm_num), if_neg (by simp only [exCfg]; norm_num)]
    exact ⟨_, rfl, rfl, rfl, rfl, rfl⟩
  obtain ⟨it1, k1, k2, k3, k4, k5⟩ := hstep
  refine ⟨it1, ?_, by rw [k2]; norm_num, ?_, k3, k4, ?_⟩
  · unfold estimate
    rw [if_neg (by rw [hnum]; norm_num)]
    show iterate _ 5 _ 1 (initIt _ _) = _
    unfold iterate
    rw [show gather (exCfg .normalEquations 1 id 1) 5 [exMsr 1, exMsr 2]
      (startAt (exCfg .normalEquations 1 id 1)
        (initIt (exCfg .normalEquations 1 id 1) ⟨0, 0, none⟩).est) = some (.ok st) from h1]
    simp only [hnum]
    rw [show ({ initIt (exCfg .normalEquations 1 id 1) ⟨0, 0, none⟩ with
        iter := (initIt (exCfg .normalEquations 1 id 1) ⟨0, 0, none⟩).iter + 1 } : It ℝ 1) =
      { initIt (exCfg .normalEquations 1 id 1) ⟨0, 0, none⟩ with iter := 1 } from rfl, k1]
    rfl
  · have hpd : st.sums.info.PosDef := by
      rw [e2]
      have := (PosDef.one (n := Fin 1) (R := ℝ)).smul (show (0 : ℝ) < 3 by norm_num)
      convert this using 1
      ext i j
      have hi : i = 0 := Subsingleton.elim _ _
      have hj : j = 0 := Subsingleton.elim _ _
      subst hi hj
      simp
    rw [k5, covarOf_eq (exCfg_udu _ _ _ _) hpd, e2, hinv]
  · obtain ⟨st', g1, _, _, g4⟩ := exCfg_gather .normalEquations 1 id 1 (0 + 2 / 3)
    have := evaluate_eq_rms (by rw [hnum]; norm_num) g1
    rw [k2]
    refine Eq.trans this ?_
    unfold rmsOf
    rw [hnum, g4]
    congr 2
    rw [show ((2 * (1 - id (0 + 2 / 3)) ^ 2 : ℝ) / ((2 : Nat) : ℝ)) = (1 / 3) ^ 2 by norm_num]
    exact Real.sqrt_sq (by norm_num)

/-- The same with a transition of two per nanosecond: the rows should be `2` and `4`, thus the information
`1 + 4 + 16` (with the identity); the code uses `2` and `8`. -/
theorem stm_double_count :
    ∃ st, gather (exCfg .normalEquations 2 id 1) 5 [exMsr 1, exMsr 2]
        (startAt (exCfg .normalEquations 2 id 1) ⟨0, 0, none⟩) = some (.ok st) ∧
      st.sums.info 0 0 = 1 + 2 ^ 2 + 8 ^ 2 := by
  obtain ⟨st, h1, h2, _⟩ := exCfg_gather .normalEquations 2 id 1 0
  exact ⟨st, h1, by rw [h2]; norm_num⟩

/-- A step that ends within the precision before a measurement makes it count twice. -/
theorem measurement_counted_twice :
    ∃ st, gather { exCfg .normalEquations 1 id 1 with precision := 3 } 5 [exMsr 11]
        (startAt { exCfg .normalEquations 1 id 1 with precision := 3 } ⟨0, 0, none⟩) = some (.ok st) ∧
      st.sums.normal 0 = 2 := by
  refine ⟨_, by
    simp [gather, gatherOne, exCfg, exMsr, exDev, startAt, nextStep, atMsr, useAll, useValue, Res.bind, look,
      Sums.init, Sums.add]
    rfl, ?_⟩
  simp [vecMul, dotProduct]
  norm_num

/-- Observations `y + 100 y^2` of a scalar, first guess zero: the first step of Levenberg-Marquardt goes too
far, and whatever the number of iterations allowed the estimate stays there, not converged. -/
theorem lm_stuck_witness (n : Nat) :
    ∃ it, estimate (exCfg .levenbergMarquardt 1 (fun y => y + 100 * y ^ 2) (n + 1)) 5 ⟨0, 0, none⟩
        [exMsr 1, exMsr 2] = some (.ok it) ∧
      it.est.orbit = 1 / 3 ∧ it.converged = false ∧ it.rms = some 1 ∧ it.iter = n + 1 := by
  set cfg := exCfg .levenbergMarquardt 1 (fun y => y + 100 * y ^ 2) (n + 1) with hcfg
  obtain ⟨st, h1, h2, h3, h4⟩ :=
    exCfg_gather .levenbergMarquardt 1 (fun y => y + 100 * y ^ 2) (n + 1) 0
  rw [← hcfg] at h1
  have e2 : st.sums.info = of (fun _ _ => 3) := by rw [h2]; norm_num
  have e3 : st.sums.normal = fun _ => 2 := by rw [h3]; norm_num
  have e4 : st.sums.sumSq = 2 := by rw [h4]; norm_num
  have hnum : numMsr [exMsr 1, exMsr 2] = 2 := rfl
  have haug : st.sums.info + (1 : ℝ) • dSq cfg st.sums.info = of fun _ _ => 6 := by
    rw [e2]
    ext i j
    have hi : i = 0 := Subsingleton.elim _ _
    have hj : j = 0 := Subsingleton.elim _ _
    subst hi hj
    simp [dSq, hcfg, exCfg]
    norm_num
  have hinv : (of (fun _ _ => (6 : ℝ)) : Matrix (Fin 1) (Fin 1) ℝ)⁻¹ = of fun _ _ => 1 / 6 := by
    refine Matrix.inv_eq_left_inv ?_
    ext i j
    have hi : i = 0 := Subsingleton.elim _ _
    have hj : j = 0 := Subsingleton.elim _ _
    subst hi hj
    simp [Matrix.mul_apply]
  have edx : (st.sums.info + (1 : ℝ) • dSq cfg st.sums.info)⁻¹ *ᵥ st.sums.normal = fun _ => 1 / 3 := by
    rw [haug, hinv, e3]
    ext i
    simp [mulVec, dotProduct]
    norm_num
  have hnorm : posNorm (fun _ : Fin 1 => (1 / 3 : ℝ)) = 1 / 3 := by
    unfold posNorm
    simp
  have hrms : rmsOf 2 st.sums = 1 := by
    unfold rmsOf; rw [e4]; norm_num
  obtain ⟨st', g1, _, _, g4⟩ :=
    exCfg_gather .levenbergMarquardt 1 (fun y => y + 100 * y ^ 2) (n + 1) (0 + 1 / 3)
  rw [← hcfg] at g1
  have hstep : ∃ it1, stepOf cfg 2 st.sums { initIt cfg ⟨0, 0, none⟩ with iter := 1 } = .ok (it1, false) ∧
      it1.est = ⟨0 + 1 / 3, 0, none⟩ ∧ it1.rms = some 1 ∧ it1.converged = false ∧ it1.iter = 1 := by
    have hl : (initIt cfg ⟨0, 0, none⟩).lambda = 1 := rfl
    have hsolv : cfg.solver = .levenbergMarquardt := rfl
    have hchol : ∀ S, cfg.chol S = some 1 := fun _ => rfl
    have hr : (initIt cfg ⟨0, 0, none⟩).rms = none := rfl
    simp only [stepOf, hsolv, stepLm, hl, hchol, hr, improves, if_true, accept, edx, hnorm, hrms]
    rw [if_neg (by simp only [hcfg, exCfg]; norm_num), if_neg (by simp only [hcfg, exCfg]; norm_num)]
    exact ⟨_, rfl, rfl, rfl, rfl, rfl⟩
  obtain ⟨it1, k1, k2, k3, k4, k5⟩ := hstep
  have hle : (1 : ℝ) ≤ rmsOf (numMsr [exMsr 1, exMsr 2]) st'.sums := by
    unfold rmsOf
    rw [hnum, g4]
    refine Real.le_sqrt_of_sq_le ?_
    norm_num
  obtain ⟨it, l1, l2, _, l4, l5, l6⟩ := lm_stuck (cfg := cfg) rfl (by rw [k2]; exact g1) k3 hle n
  refine ⟨it, ?_, by rw [l2, k2]; norm_num, by rw [l4, k4], by rw [l5, k3], by rw [l6, k5]; ring⟩
  unfold estimate
  rw [if_neg (by rw [hnum]; norm_num)]
  show iterate cfg 5 _ (n + 1) (initIt cfg _) = _
  unfold iterate
  rw [show gather cfg 5 [exMsr 1, exMsr 2] (startAt cfg (initIt cfg ⟨0, 0, none⟩).est) = some (.ok st) from h1]
  simp only [hnum]
  rw [show ({ initIt cfg ⟨0, 0, none⟩ with iter := (initIt cfg ⟨0, 0, none⟩).iter + 1 } : It ℝ 1) =
    { initIt cfg ⟨0, 0, none⟩ with iter := 1 } from rfl, k1]
  exact l1

/-- The hypotheses of `estimate_normal_partial`, `gather_uses`, `gather_fresh`, `accumulated_matrix` and
`estimate_terminates` are met by the concrete run. -/
example : ∃ it, estimate (exCfg .normalEquations 1 id 1) 5 ⟨0, 0, none⟩ [exMsr 1, exMsr 2] = some (.ok it) ∧
    (exCfg .normalEquations 1 id 1).solver = .normalEquations ∧ 0 < (exCfg .normalEquations 1 id 1).maxIterations ∧
    CholOk (exCfg .normalEquations 1 id 1).chol ∧ UduOk (exCfg .normalEquations 1 id 1).udu ∧
    Arrives (exCfg .normalEquations 1 id 1).adv 10 ∧
    Flow (exCfg .normalEquations 1 id 1).adv (fun t t' => (1 : ℝ) ^ (t' - t) • 1) := by
  obtain ⟨it, h, _⟩ := normal_equations_witness
  exact ⟨it, h, rfl, by simp [exCfg], exCfg_chol _ _ _ _, exCfg_udu _ _ _ _, exCfg_arrives _ _ _ _,
    exCfg_flow _ one_ne_zero _ _⟩

/-- Simultaneous measurements: the second one is not in the list of those used. -/
example : fresh 0 [exMsr 1, { exMsr 1 with data := [((), some 7)] }, exMsr 2, exMsr 0] = [exMsr 1, exMsr 2] := rfl

/-- A covariance with correlations between position and velocity only meets the condition of
`kf_conversion_psd_partial`. -/
example : ∃ P Q : Matrix (Fin 9) (Fin 9) ℝ, P.PosSemidef ∧ toKfCovar P = .ok Q ∧ Q.PosSemidef ∧ P 0 3 ≠ 0 := by
  have hP : (vecMulVec (fun i : Fin 9 => if i.val < 6 then (1 : ℝ) else 0)
      fun i => if i.val < 6 then 1 else 0).PosSemidef := vecMulVec_posSemidef _
  obtain ⟨Q, hQ⟩ : ∃ Q, toKfCovar (vecMulVec (fun i : Fin 9 => if i.val < 6 then (1 : ℝ) else 0)
      fun i => if i.val < 6 then 1 else 0) = .ok Q := by
    unfold toKfCovar; rw [if_neg (by norm_num)]; exact ⟨_, rfl⟩
  refine ⟨_, Q, hP, hQ, (kf_conversion_psd_partial hP hQ).2.2.2 ?_, by simp [vecMulVec]⟩
  intro i j hi _
  have : ¬ i.val < 6 := by omega
  simp [vecMulVec, this]

example := estimate_normal_partial (cfg := exCfg .normalEquations 1 id 1) rfl (exCfg_arrives _ _ _ _) (exCfg_chol _ _ _ _)
  (exCfg_udu _ _ _ _) (by simp [exCfg]) normal_equations_witness.choose_spec.1

example : ∃ x us dx it, LastStep (exCfg .normalEquations 1 id 1) 5 [exMsr 1, exMsr 2] x us dx it ∧
    (dx ≠ 0 → infoSum us *ᵥ dx ≠ normalSum us) ∧ it.covar * infoSum us ≠ 1 := by
  obtain ⟨it, h, -⟩ := normal_equations_witness
  obtain ⟨-, ⟨x, us, dx, hL⟩, -, -, -⟩ := estimate_normal_partial (cfg := exCfg .normalEquations 1 id 1) rfl
    (exCfg_arrives _ _ _ _) (exCfg_chol _ _ _ _) (exCfg_udu _ _ _ _) (by simp [exCfg]) h
  obtain ⟨r1, r2⟩ := normal_equations_refuted hL
  exact ⟨x, us, dx, it, hL, r1, r2 one_pos⟩

example (x : Nominal ℝ 1) := gather_fresh (exCfg_arrives .normalEquations 1 id 1) 4 [exMsr 1, exMsr 1, exMsr 2, exMsr 0]
  (startAt (exCfg .normalEquations 1 id 1) x) rfl

example := accumulated_matrix (exCfg_flow .normalEquations (g := 2) (by norm_num) id 1) (exCfg_arrives _ _ _ _) 5 [exMsr 1, exMsr 2] _
  _ (exCfg_gather .normalEquations 2 id 1 0).choose_spec.1

example := estimate_terminates (exCfg_arrives .levenbergMarquardt 2 id 4) (by norm_num) le_rfl (by simp [exCfg])
  (fun _ _ => rfl) ⟨0, 0, none⟩ [exMsr 1, exMsr 2, exMsr 25]

end Verif.Blse
