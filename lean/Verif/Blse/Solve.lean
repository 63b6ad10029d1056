import Verif.Blse.Theorems
/-!
C40, continued: the correction, the covariance, the root mean square, convergence.
-/
namespace Verif.Blse
open Verif.Kalman Verif.Process Matrix

variable {T K Ω : Type} [DecidableEq K] {s : Nat}

/-- The norm of the position part, the first three components, of a correction. -/
noncomputable def positionNorm (dx : Fin s → ℝ) : ℝ := Real.sqrt (∑ i : Fin s, if i.val ≤ 2 then dx i ^ 2 else 0)

theorem posNorm_eq (dx : Fin s → ℝ) : posNorm dx = positionNorm dx := by
  unfold posNorm positionNorm
  simp only [Nat.lt_succ_iff]

/-! ### The linear system -/

theorem vecMulVec_posSemidef (h : Fin s → ℝ) : (vecMulVec h h).PosSemidef := by
  have := posSemidef_vecMulVec_self_star h
  simpa using this

theorem infoSum_posSemidef {l : List (Use T K Ω s)} (hl : ∀ u ∈ l, 0 < u.R) : (infoSum l).PosSemidef := by
  induction l with
  | nil => simpa [infoSum] using PosSemidef.zero
  | cons u l ih =>
    have h1 := ih fun v hv => hl v (List.mem_cons_of_mem _ hv)
    have h2 : (u.R⁻¹ • vecMulVec u.h u.h).PosSemidef :=
      (vecMulVec_posSemidef u.h).smul (inv_nonneg.2 (hl u (List.mem_cons_self ..)).le)
    simpa [infoSum] using h2.add h1

/-- The information matrix with the identity added is positive definite. -/
theorem info_posDef {l : List (Use T K Ω s)} (hl : ∀ u ∈ l, 0 < u.R) : (1 + infoSum l).PosDef :=
  PosDef.one.add_posSemidef (infoSum_posSemidef hl)

/-- The weighted least squares cost of a deviation `y` of the initial state, for observations that are
linear with the rows used. -/
noncomputable def lsCost (l : List (Use T K Ω s)) (y : Fin s → ℝ) : ℝ :=
  (l.map fun u => (u.res - u.h ⬝ᵥ y) ^ 2 / u.R).sum

theorem lsCost_expand {l : List (Use T K Ω s)} (hl : ∀ u ∈ l, 0 < u.R) (x d : Fin s → ℝ) :
    lsCost l (x + d) = lsCost l x - 2 * (d ⬝ᵥ (normalSum l - infoSum l *ᵥ x)) + d ⬝ᵥ (infoSum l *ᵥ d) := by
  induction l with
  | nil => simp [lsCost, normalSum, infoSum]
  | cons u l ih =>
    have h1 := ih fun v hv => hl v (List.mem_cons_of_mem _ hv)
    have hR := (hl u (List.mem_cons_self ..)).ne'
    have e1 : lsCost (u :: l) (x + d) = (u.res - u.h ⬝ᵥ (x + d)) ^ 2 / u.R + lsCost l (x + d) := by
      simp [lsCost]
    have e2 : lsCost (u :: l) x = (u.res - u.h ⬝ᵥ x) ^ 2 / u.R + lsCost l x := by simp [lsCost]
    have e3 : normalSum (u :: l) = (u.R⁻¹ * u.res) • u.h + normalSum l := by simp [normalSum]
    have e4 : infoSum (u :: l) = u.R⁻¹ • vecMulVec u.h u.h + infoSum l := by simp [infoSum]
    have e5 : ∀ y, (vecMulVec u.h u.h) *ᵥ y = (u.h ⬝ᵥ y) • u.h := by
      intro y
      rw [vecMulVec_mulVec]
      simp
    rw [e1, e2, e3, e4, h1]
    simp only [add_mulVec, smul_mulVec, e5, dotProduct_sub, dotProduct_add, dotProduct_smul, smul_eq_mul]
    rw [dotProduct_comm d u.h]
    field_simp
    ring

/-- The cost of the code: the least squares cost plus the square of the norm, as if an a priori of unit
covariance were centred on the current estimate. -/
noncomputable def ridgeCost (l : List (Use T K Ω s)) (y : Fin s → ℝ) : ℝ := lsCost l y + y ⬝ᵥ y

/-- A solution of the system with the identity is the unique minimum of the cost of the code. -/
theorem ridge_minimum {l : List (Use T K Ω s)} (hl : ∀ u ∈ l, 0 < u.R) {x : Fin s → ℝ}
    (hx : (1 + infoSum l) *ᵥ x = normalSum l) (y : Fin s → ℝ) :
    ridgeCost l x ≤ ridgeCost l y ∧ (ridgeCost l y = ridgeCost l x → y = x) := by
  have hd : y = x + (y - x) := by abel
  have hn : normalSum l - infoSum l *ᵥ x = x := by
    rw [← hx, add_mulVec, one_mulVec]; abel
  have key : ridgeCost l y = ridgeCost l x + (y - x) ⬝ᵥ ((1 + infoSum l) *ᵥ (y - x)) := by
    unfold ridgeCost
    conv_lhs => rw [hd]
    rw [lsCost_expand hl, hn, add_mulVec, one_mulVec]
    generalize y - x = d
    simp only [dotProduct_add, add_dotProduct]
    rw [dotProduct_comm x d]
    ring
  have hpos := info_posDef hl
  by_cases h0 : y - x = 0
  · have : y = x := sub_eq_zero.1 h0
    subst this
    exact ⟨le_refl _, fun _ => rfl⟩
  · have h1 := hpos.dotProduct_mulVec_pos h0
    simp only [star_trivial] at h1
    refine ⟨by linarith, fun h => by linarith⟩

/-- What is assumed of the Cholesky decomposition: it succeeds on positive definite matrices. -/
def CholOk (chol : Matrix (Fin s) (Fin s) ℝ → Option (Matrix (Fin s) (Fin s) ℝ)) : Prop :=
  ∀ S, S.PosDef → ∃ L, chol S = some L

/-- What is assumed of the `U D U^T` decomposition: it succeeds on positive definite matrices and
recomposes the matrix. -/
def UduOk (udu : Matrix (Fin s) (Fin s) ℝ → Option (Matrix (Fin s) (Fin s) ℝ × (Fin s → ℝ))) : Prop :=
  ∀ S, S.PosDef → ∃ U d, udu S = some (U, d) ∧ U * diagonal d * Uᵀ = S

theorem covarOf_eq {cfg : BCfg T K Ω s} (hu : UduOk cfg.udu) {S : Matrix (Fin s) (Fin s) ℝ} (hS : S.PosDef) :
    covarOf cfg S = S⁻¹ := by
  obtain ⟨U, d, h1, h2⟩ := hu S hS
  have hdet : S.det = U.det * (∏ i, d i) * U.det := by
    rw [← h2, det_mul, det_mul, det_diagonal, det_transpose]
  have hne : S.det ≠ 0 := hS.det_pos.ne'
  have hU : U.det ≠ 0 := by rintro h; rw [hdet, h] at hne; simp at hne
  have hd : ∀ i, d i ≠ 0 := by
    intro i h
    rw [hdet, Finset.prod_eq_zero (Finset.mem_univ i) h] at hne
    simp at hne
  unfold covarOf
  rw [h1]
  simp only
  rw [if_pos (isUnit_iff_ne_zero.2 hU)]
  refine (Matrix.inv_eq_left_inv ?_).symm
  have hUu : U⁻¹ * U = 1 := Matrix.nonsing_inv_mul _ (isUnit_iff_ne_zero.2 hU)
  have hdd : diagonal (fun i => 1 / d i) * diagonal d = (1 : Matrix (Fin s) (Fin s) ℝ) := by
    rw [diagonal_mul_diagonal]
    simp [hd]
  calc (U⁻¹)ᵀ * (diagonal (fun i => 1 / d i) * U⁻¹) * S
      = (U⁻¹)ᵀ * (diagonal (fun i => 1 / d i) * (U⁻¹ * U) * diagonal d) * Uᵀ := by
        rw [← h2]; simp only [Matrix.mul_assoc]
    _ = (U⁻¹)ᵀ * Uᵀ := by rw [hUu, Matrix.mul_one, hdd, Matrix.mul_one]
    _ = 1 := by rw [← transpose_mul, Matrix.mul_nonsing_inv _ (isUnit_iff_ne_zero.2 hU), transpose_one]

/-- **C40 (one iteration of the normal equations).** It never fails; the correction `dx` solves the system
with the identity added to `Σ H^T W H`, so is the unique minimum of the regularised cost; the covariance is
the inverse of that matrix; it is zero exactly when `Σ H^T W y = 0`, i.e. at the least squares solution. -/
theorem normal_step {cfg : BCfg T K Ω s} (hc : CholOk cfg.chol) (hu : UduOk cfg.udu) (num : Nat) {q : Sums s}
    {us : List (Use T K Ω s)} (hq : Sums.init.Extends q us) (hv : ∀ u ∈ us, 0 < u.R) (it : It Ω s) :
    ∃ it' b dx, stepNormal cfg num q it = .ok (it', b) ∧ it'.est = cfg.plus it.est dx ∧
      (1 + infoSum us) *ᵥ dx = normalSum us ∧
      (∀ y, ridgeCost us dx ≤ ridgeCost us y ∧ (ridgeCost us y = ridgeCost us dx → y = dx)) ∧
      it'.covar = (1 + infoSum us)⁻¹ ∧ it'.covar.PosDef ∧
      (dx = 0 ↔ normalSum us = 0) ∧
      it'.rms = some (Real.sqrt (squareSum us / (num : ℝ))) ∧ it'.corr = some (positionNorm dx) ∧
      it'.iter = it.iter ∧
      (b = true ↔ positionNorm dx < cfg.tolerance) ∧ it'.converged = (b || it.converged) := by
  obtain ⟨h1, h2, h3⟩ := hq
  have e1 : q.info = 1 + infoSum us := h1
  have e2 : q.normal = normalSum us := by rw [h2]; simp [Sums.init]
  have e3 : q.sumSq = squareSum us := by rw [h3]; simp [Sums.init]
  have hpd := info_posDef hv
  obtain ⟨L, hL⟩ := hc _ hpd
  have hsol : (1 + infoSum us) *ᵥ ((1 + infoSum us)⁻¹ *ᵥ normalSum us) = normalSum us := by
    rw [mulVec_mulVec, Matrix.mul_nonsing_inv _ (isUnit_iff_ne_zero.2 hpd.det_pos.ne'), one_mulVec]
  refine ⟨(accept cfg q ((1 + infoSum us)⁻¹ *ᵥ normalSum us) { it with rms := some (rmsOf num q) }).1,
    (accept cfg q ((1 + infoSum us)⁻¹ *ᵥ normalSum us) { it with rms := some (rmsOf num q) }).2,
    (1 + infoSum us)⁻¹ *ᵥ normalSum us, ?_, ?_, hsol, ridge_minimum hv hsol, ?_, ?_, ?_, ?_, ?_,
    ?_, ?_, ?_⟩
  · unfold stepNormal
    rw [e1, hL, e2]
  · rfl
  · show covarOf cfg q.info = _
    rw [e1, covarOf_eq hu hpd]
  · show (covarOf cfg q.info).PosDef
    rw [e1, covarOf_eq hu hpd]
    exact hpd.inv
  · constructor
    · intro h; rw [← hsol, h, mulVec_zero]
    · intro h; rw [h, mulVec_zero]
  · show some (rmsOf num q) = _
    unfold rmsOf; rw [e3]
  · exact congrArg some (posNorm_eq _)
  · rfl
  · rw [← posNorm_eq]
    show (if _ then true else false) = true ↔ _
    split <;> simp_all
  · show (if _ then true else it.converged) = ((if _ then true else false) || it.converged)
    split <;> simp

/-! ### evaluate is the root mean square of an iteration -/

theorem useAll_eval {dev : BDev T K Ω s} {z : Meas T K} {x : Nominal Ω s} {M : Matrix (Fin s) (Fin s) ℝ} :
    ∀ (l : List (K × Option ℝ)) (q q' : Sums s), useAll dev z x M l q = .ok q' →
      evalAll dev z x l q.sumSq = .ok q'.sumSq := by
  intro l
  induction l with
  | nil => intro q q' h; cases h; rfl
  | cons e l ih =>
    intro q q' h
    obtain ⟨k, v⟩ := e
    obtain ⟨q1, h1, h2⟩ := Res.bind_eq_ok.1 h
    have h3 := ih q1 q' h2
    unfold useValue at h1
    obtain ⟨h0, hh, h1⟩ := Res.bind_eq_ok.1 h1
    obtain ⟨o, ho, h1⟩ := Res.bind_eq_ok.1 h1
    unfold evalAll evalValue
    rw [ho]
    cases o with
    | none => cases h1; exact h3
    | some comp =>
      cases v with
      | none => cases h1
      | some real =>
        obtain ⟨R, hR, h1⟩ := Res.bind_eq_ok.1 h1
        by_cases hp : 0 < R
        · rw [if_pos hp] at h1
          injection h1 with h1
          subst h1
          simp only [Res.bind, hR, if_pos hp]
          exact h3
        · rw [if_neg hp] at h1; cases h1

theorem atMsr_eval {cfg : BCfg T K Ω s} {z : Meas T K} {x : Nominal Ω s} {M : Matrix (Fin s) (Fin s) ℝ}
    {q q' : Sums s} (h : atMsr cfg z x M q = .ok q') : evalMsr cfg z x q.sumSq = .ok q'.sumSq := by
  unfold atMsr at h
  unfold evalMsr
  split
  · rename_i hp
    rw [if_pos hp] at h
    cases hd : cfg.devices z.tracker with
    | none => rw [hd] at h; simp only at h; cases h; rfl
    | some dev => rw [hd] at h; exact useAll_eval _ _ _ h
  · rename_i hp
    rw [if_neg hp] at h
    cases h; rfl

theorem gatherOne_eval {cfg : BCfg T K Ω s} {z : Meas T K} :
    ∀ (n : Nat) (st st' : BSt Ω s), gatherOne cfg z n st = some (.ok st') →
      evalOne cfg z n (st.inst, st.epoch, st.sums.sumSq) = some (.ok (st'.inst, st'.epoch, st'.sums.sumSq)) := by
  intro n
  induction n with
  | zero => intro st st' h; cases h
  | succ n ih =>
    intro st st' h
    unfold gatherOne at h
    unfold evalOne
    split at h
    · rename_i hle
      cases h
      simp only
      rw [if_pos hle]
    · rename_i hgt
      simp only
      rw [if_neg hgt]
      have e : min (min (z.epoch - st.epoch) st.inst.step) cfg.maxStep = nextStep cfg z st := rfl
      rw [e]
      split at h
      · cases h
      · cases h
      · rename_i p hp
        split at h
        · cases h
        · split at h
          · cases h
          · cases h
          · rename_i q hq
            rw [atMsr_eval hq]
            exact ih _ _ h

theorem gather_eval {cfg : BCfg T K Ω s} {fuel : Nat} :
    ∀ (arc : List (Meas T K)) (st st' : BSt Ω s), gather cfg fuel arc st = some (.ok st') →
      evalGather cfg fuel arc (st.inst, st.epoch, st.sums.sumSq) =
        some (.ok (st'.inst, st'.epoch, st'.sums.sumSq)) := by
  intro arc
  induction arc with
  | nil => intro st st' h; cases h; rfl
  | cons z l ih =>
    intro st st' h
    unfold gather at h
    unfold evalGather
    split at h
    · rename_i hr
      rw [if_pos hr]
      exact ih _ _ h
    · rename_i hr
      rw [if_neg hr]
      split at h
      · cases h
      · rename_i st1 hg
        rw [gatherOne_eval fuel st st1 hg]
        exact ih _ _ h
      · rename_i hne hg
        cases h
        exact (hne st' rfl).elim

/-- The root mean square of an iteration is the one `evaluate` returns for the estimate at its start. -/
theorem evaluate_eq_rms {cfg : BCfg T K Ω s} {fuel : Nat} {arc : List (Meas T K)} {x : Nominal Ω s}
    {st : BSt Ω s} (hn : 1 ≤ numMsr arc) (h : gather cfg fuel arc (startAt cfg x) = some (.ok st)) :
    evaluate cfg fuel x arc = some (.ok (rmsOf (numMsr arc) st.sums)) := by
  unfold evaluate
  rw [if_neg (by omega)]
  have := gather_eval arc _ _ h
  have e : (startAt cfg x).sums.sumSq = 0 := rfl
  rw [e] at this
  have e2 : (startAt cfg x).inst = ⟨{ x with stm := some 1 }, cfg.propStep⟩ := rfl
  have e3 : (startAt cfg x).epoch = x.epoch := rfl
  rw [e2, e3] at this
  rw [this]
  rfl

end Verif.Blse
