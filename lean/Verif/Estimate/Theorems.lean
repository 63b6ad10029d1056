import Verif.Estimate.Model
/-!
C42: estimates from dispersions. C128: initial uncertainty in a local frame. C129: uncertainty of orbital
elements. C130: `within_sigma`. C131: uncertainties displayed. C132: setters and scaling. C133: residuals.
C134: random variables of an estimate.
-/
namespace Verif.Estimate
open Verif.Spacecraft Matrix MeasureTheory
open Verif.Mc (Out Ext Disp mvnNew fromCov Gen coords IsCov StdDraws SvdOk EigOk Dispersed)

variable {E Fr X L T : Type}

/-! ### C130 -/

theorem nsqrt_some {x : ℝ} (h : 0 ≤ x) : nsqrt x = some (Real.sqrt x) := if_pos h

/-- C130. With variances which are not negative, an estimate is within `k` sigma exactly when each component of
its deviation is at most `k` times its standard deviation; `within_3sigma` is the case `k = 3`.
Missing: the negative variances (`within_negative_variance`). -/
theorem within_iff_partial {n : Nat} (e : Kf X n) (k : ℝ) (hc : ∀ i, 0 ≤ e.covar i i) :
    (e.within k = true ↔ ∀ i, |e.dev i| ≤ k * Real.sqrt (e.covar i i)) ∧
    (e.within3 = true ↔ ∀ i, |e.dev i| ≤ 3 * Real.sqrt (e.covar i i)) := by
  have key : ∀ k : ℝ, e.within k = true ↔ ∀ i, |e.dev i| ≤ k * Real.sqrt (e.covar i i) := by
    intro k
    unfold Kf.within
    rw [List.all_eq_true]
    refine ⟨fun h i => ?_, fun h i _ => ?_⟩
    · have := h i (List.mem_finRange i)
      rw [nsqrt_some (hc i)] at this
      simp only [Option.map_some, beyond, Bool.not_eq_true', Bool.or_eq_false_iff, decide_eq_false_iff_not, not_lt,
        gt_iff_lt] at this
      rw [abs_le]
      constructor <;> linarith [this.1, this.2]
    · have := abs_le.1 (h i)
      rw [nsqrt_some (hc i)]
      simp only [Option.map_some, beyond, Bool.not_eq_true', Bool.or_eq_false_iff, decide_eq_false_iff_not, not_lt,
        gt_iff_lt]
      constructor <;> linarith [this.1, this.2]
  exact ⟨key k, key 3⟩

/-- C130, refuted without that hypothesis. With negative variances, which a filter may reach by rounding, any
deviation is within any bound. -/
theorem within_negative_variance {n : Nat} (e : Kf X n) (k : ℝ) (hc : ∀ i, e.covar i i < 0) : e.within k = true := by
  unfold Kf.within
  rw [List.all_eq_true]
  intro i _
  have : nsqrt (e.covar i i) = none := if_neg (not_le.2 (hc i))
  rw [this]
  rfl

/-! ### C42 -/

/-- C42 (partial). The covariance of an estimate built from dispersions is diagonal and positive semi-definite,
its nominal state is the one given, and its deviation is the difference of the nominal and the dispersed
states, which is a third of each standard deviation; so the estimate is within one third of a sigma.
What is missing: the state of the estimate is not the dispersed one, see `dispersions_mirrored`. -/
theorem dispersions_partial (x : Ext E Fr) (nom : Craft ℝ Fr) (ds : List (Disp E)) (z : Fin 9 → ℝ)
    (e : Kf (Craft ℝ Fr) 9) (h : fromDispersions x nom ds z = .ok e) :
    ∃ g d, mvnNew x nom ds = .ok g ∧ g.sample x z = .ok d ∧ e.nominal = nom ∧ e.predicted = true ∧
      IsCov e.covar ∧ e.covarBar = e.covar ∧ (∀ i j, i ≠ j → e.covar i j = 0) ∧
      (∀ i, e.dev i = coords nom i - coords d.state i) ∧
      (∀ i, Real.sqrt (e.covar i i) = 3 * |coords nom i - coords d.state i|) ∧ e.within (1 / 3) = true := by
  obtain ⟨g, hg, h⟩ := Mc.bind_eq_ok.1 h
  obtain ⟨d, hd, h⟩ := Mc.bind_eq_ok.1 h
  cases h
  have hdev : ∀ i, deviation nom d.state i = coords nom i - coords d.state i := by
    intro i; fin_cases i <;> rfl
  have hs : ∀ i, Real.sqrt ((3 * |deviation nom d.state i|) ^ 2) = 3 * |coords nom i - coords d.state i| := by
    intro i
    rw [Real.sqrt_sq (by positivity), hdev]
  refine ⟨g, d, hg, hd, rfl, rfl, ?_, rfl, fun i j hij => diagonal_apply_ne _ hij, hdev, fun i => ?_, ?_⟩
  · rw [Mc.isCov_iff]
    exact PosSemidef.diagonal fun i => by positivity
  · show Real.sqrt (diagonal _ i i) = _
    rw [diagonal_apply_eq]
    exact hs i
  · rw [(within_iff_partial _ _ ?_).1]
    · intro i
      show |deviation nom d.state i| ≤ 1 / 3 * Real.sqrt (diagonal _ i i)
      rw [diagonal_apply_eq, hs, hdev]
      linarith
    · intro i
      show 0 ≤ diagonal _ i i
      rw [diagonal_apply_eq]
      positivity

/-- C42, refuted. The state of the estimate is the mirror image of the dispersed state about the nominal one
(except for the coefficient of reflectivity, which is then clamped): it is the dispersed state only where
nothing is dispersed. -/
theorem dispersions_mirrored (x : Ext E Fr) (nom : Craft ℝ Fr) (ds : List (Disp E)) (z : Fin 9 → ℝ)
    (e : Kf (Craft ℝ Fr) 9) (h : fromDispersions x nom ds z = .ok e) :
    ∃ g d, mvnNew x nom ds = .ok g ∧ g.sample x z = .ok d ∧
      ∀ i, i ≠ 6 → coords (e.state Craft.add) i = 2 * coords nom i - coords d.state i ∧
        (coords (e.state Craft.add) i = coords d.state i ↔ coords d.state i = coords nom i) := by
  obtain ⟨g, hg, h⟩ := Mc.bind_eq_ok.1 h
  obtain ⟨d, hd, h⟩ := Mc.bind_eq_ok.1 h
  cases h
  refine ⟨g, d, hg, hd, fun i hi => ?_⟩
  have key : coords (Craft.add nom (deviation nom d.state)) i = 2 * coords nom i - coords d.state i := by
    have t : ∀ a b : ℝ, a + (a - b) = 2 * a - b := fun a b => by ring
    fin_cases i <;> first | exact absurd rfl hi | exact t _ _
  refine ⟨key, ?_⟩
  show coords (Craft.add nom (deviation nom d.state)) i = _ ↔ _
  rw [key]
  constructor <;> intro h <;> linarith

/-! ### C128 -/

/-- Specification: the covariance of the inertial components of a vector whose components in the local frame are
independent with the standard deviations `sig`; `d` takes local components to inertial ones. -/
def inertialCov (d : Matrix (Fin 6) (Fin 6) ℝ) (sig : Fin 6 → ℝ) (i j : Fin 6) : ℝ :=
  ∑ k, d i k * sig k ^ 2 * d j k

/-- This is the covariance, for any random local components. -/
theorem inertialCov_spec {Ω : Type} [MeasurableSpace Ω] {P : Measure Ω} (d : Matrix (Fin 6) (Fin 6) ℝ) (sig : Fin 6 → ℝ)
    (loc : Ω → Fin 6 → ℝ) (hi : ∀ i j, Integrable (fun w => loc w i * loc w j) P)
    (hc : ∀ i j, ∫ w, loc w i * loc w j ∂P = if i = j then sig i ^ 2 else 0) (i j : Fin 6) :
    ∫ w, (d *ᵥ loc w) i * (d *ᵥ loc w) j ∂P = inertialCov d sig i j := by
  have h2 : ∀ w, (d *ᵥ loc w) i * (d *ᵥ loc w) j = ∑ k, ∑ l, d i k * d j l * (loc w k * loc w l) := by
    intro w
    simp only [mulVec, dotProduct]
    rw [Finset.sum_mul_sum]
    exact Finset.sum_congr rfl fun k _ => Finset.sum_congr rfl fun l _ => by ring
  simp_rw [h2]
  rw [integral_finsetSum _ fun i _ => integrable_finsetSum _ fun j _ => (hi i j).const_mul _]
  unfold inertialCov
  refine Finset.sum_congr rfl fun k _ => ?_
  rw [integral_finsetSum _ fun j _ => (hi k j).const_mul _]
  simp [integral_const_mul, hc]
  ring

theorem rot_apply (d : Matrix (Fin 6) (Fin 6) ℝ) (sig : Fin 6 → ℝ) (i j : Fin 6) :
    (dᵀ * diagonal (fun i => sig i ^ 2) * d) i j = ∑ k, d k i * sig k ^ 2 * d k j := by
  rw [Matrix.mul_apply]
  refine Finset.sum_congr rfl fun k _ => ?_
  rw [Matrix.mul_diagonal, transpose_apply]

/-- C128 (partial). An estimate is built exactly when no uncertainty is negative and the frame is available. It
has the nominal state, no deviation, the variances of the coefficients and of the mass, and nothing else
correlated with them. When the matrix of the frame is symmetric, so in the inertial frame, or when it is a
rotation and the uncertainties are the same on the three axes, its orbital part is the covariance of the
inertial components; then it is positive semi-definite.
What is missing: the other local frames, see `uncertainty_wrong_axes`. -/
theorem uncertainty_partial (inertial : L) (dcm : Craft ℝ Fr → L → Option (Matrix (Fin 6) (Fin 6) ℝ)) (u : Unc L Fr) :
    ((∃ e, u.toEstimate inertial dcm = some e) ↔
      ((∀ i, 0 ≤ u.sig i) ∧ 0 ≤ u.cr ∧ 0 ≤ u.cd ∧ 0 ≤ u.mass) ∧ (dcm u.nominal (u.frame.getD inertial)).isSome) ∧
    ∀ e d, u.toEstimate inertial dcm = some e → dcm u.nominal (u.frame.getD inertial) = some d →
      e.nominal = u.nominal ∧ e.dev = 0 ∧ e.covarBar = e.covar ∧ IsCov e.covar ∧
      (∀ i j : Fin 9, 6 ≤ i.val ∨ 6 ≤ j.val → e.covar i j = if i = j then (![u.cr, u.cd, u.mass] (Fin.ofNat 3 i.val)) ^ 2 else 0) ∧
      ((dᵀ = d ∨ ∃ (r : Matrix (Fin 3) (Fin 3) ℝ) (a b : ℝ), r * rᵀ = 1 ∧ d = (fromBlocks r 0 0 r).submatrix
          (finSumFinEquiv (m := 3) (n := 3)).symm (finSumFinEquiv (m := 3) (n := 3)).symm ∧ u.sig = ![a, a, a, b, b, b]) →
        ∀ i j : Fin 6, e.covar (i.castLE (by decide)) (j.castLE (by decide)) = inertialCov d u.sig i j) := by
  have hneg : u.negative = true ↔ ¬ ((∀ i, 0 ≤ u.sig i) ∧ 0 ≤ u.cr ∧ 0 ≤ u.cd ∧ 0 ≤ u.mass) := by
    unfold Unc.negative
    simp only [Bool.or_eq_true, List.any_eq_true, List.mem_finRange, true_and, decide_eq_true_eq]
    constructor
    · rintro (((⟨i, hi⟩ | h) | h) | h) ⟨h1, h2, h3, h4⟩
      · linarith [h1 i]
      all_goals linarith
    · intro h
      by_contra hcon
      simp only [not_or, not_exists, not_lt] at hcon
      exact h ⟨hcon.1.1.1, hcon.1.2, hcon.1.1.2, hcon.2⟩
  constructor
  · unfold Unc.toEstimate
    by_cases hn : u.negative = true
    · rw [if_pos hn]
      simp only [reduceCtorEq, exists_false, false_iff, not_and]
      intro h
      exact absurd h (hneg.1 hn)
    · rw [if_neg hn]
      have := not_not.1 (fun h => hn (hneg.2 h))
      cases dcm u.nominal (u.frame.getD inertial) with
      | none => simp
      | some d => simp [this]
  · intro e d he hd
    unfold Unc.toEstimate at he
    by_cases hn : u.negative = true
    · rw [if_pos hn] at he; cases he
    rw [if_neg hn, hd, Option.map_some, Option.some.injEq] at he
    subst he
    have hin : ∀ i j : Fin 6, (write6 (diagonal u.coeffs) (dᵀ * diagonal (fun i => u.sig i ^ 2) * d))
        (i.castLE (by decide)) (j.castLE (by decide)) = (dᵀ * diagonal (fun i => u.sig i ^ 2) * d) i j := by
      intro i j
      unfold write6
      rw [of_apply, dif_pos ⟨i.isLt, j.isLt⟩]
      rfl
    refine ⟨rfl, rfl, rfl, ?_, fun i j hij => ?_, fun hcase i j => ?_⟩
    · -- a sum of squares
      have e9 : write6 (diagonal u.coeffs) (dᵀ * diagonal (fun i => u.sig i ^ 2) * d) =
          (of fun (i : Fin 9) (k : Fin 6) => if hi : i.val < 6 then d k ⟨i.val, hi⟩ * u.sig k else 0) *
          (of fun (i : Fin 9) (k : Fin 6) => if hi : i.val < 6 then d k ⟨i.val, hi⟩ * u.sig k else 0)ᵀ +
          diagonal u.coeffs := by
        ext i j
        rw [Matrix.add_apply, Matrix.mul_apply]
        simp only [transpose_apply, of_apply, write6]
        have hz : ∀ i : Fin 9, i.val < 6 → u.coeffs i = 0 := by
          intro i hi
          fin_cases i <;> first | rfl | exact absurd hi (by decide)
        by_cases hi : i.val < 6 <;> by_cases hj : j.val < 6
        · rw [dif_pos ⟨hi, hj⟩, rot_apply]
          have h0 : diagonal u.coeffs i j = 0 := by
            by_cases he : i = j
            · subst he; rw [diagonal_apply_eq, hz i hi]
            · exact diagonal_apply_ne _ he
          rw [h0, add_zero]
          refine Finset.sum_congr rfl fun k _ => ?_
          rw [dif_pos hi, dif_pos hj]
          ring
        · rw [dif_neg (by tauto)]
          simp [hj]
        · rw [dif_neg (by tauto)]
          simp [hi]
        · rw [dif_neg (by tauto)]
          simp [hi]
      show IsCov (write6 _ _)
      rw [e9, Mc.isCov_iff]
      refine ((Mc.isCov_iff _).1 (Mc.isCov_mul_transpose _)).add (PosSemidef.diagonal fun i => ?_)
      unfold Unc.coeffs
      fin_cases i <;> first | exact le_refl (0 : ℝ) | exact sq_nonneg (_ : ℝ)
    · show write6 _ _ i j = _
      have h6 : ¬ (i.val < 6 ∧ j.val < 6) := by omega
      unfold write6
      rw [of_apply, dif_neg h6]
      by_cases he : i = j
      · subst he
        rw [if_pos rfl, diagonal_apply_eq]
        have hi : 6 ≤ i.val := by omega
        have c : ∀ k : Fin 9, 6 ≤ k.val → k = 6 ∨ k = 7 ∨ k = 8 := by decide
        rcases c i hi with rfl | rfl | rfl <;> rfl
      · rw [if_neg he, diagonal_apply_ne _ he]
    · show write6 _ _ _ _ = _
      rw [hin, rot_apply]
      unfold inertialCov
      rcases hcase with hs | ⟨r, a, b, hr, hd2, hsig⟩
      · refine Finset.sum_congr rfl fun k _ => ?_
        have t : ∀ p q, d p q = d q p := fun p q => by
          conv_lhs => rw [← hs]
          rfl
        rw [t k i, t k j]
      · have hr2 : rᵀ * r = 1 := mul_eq_one_comm.1 hr
        have h1 : ∀ p q, r p 0 * r q 0 + r p 1 * r q 1 + r p 2 * r q 2 = if p = q then 1 else 0 := by
          intro p q
          have := congrFun (congrFun hr p) q
          rw [Matrix.mul_apply, Fin.sum_univ_three, Matrix.one_apply] at this
          exact this
        have h2 : ∀ p q, r 0 p * r 0 q + r 1 p * r 1 q + r 2 p * r 2 q = if p = q then 1 else 0 := by
          intro p q
          have := congrFun (congrFun hr2 p) q
          rw [Matrix.mul_apply, Fin.sum_univ_three, Matrix.one_apply] at this
          exact this
        -- the entries of the matrix of the frame
        have hent : ∀ i j : Fin 6, d i j = (fromBlocks r 0 0 r) (finSumFinEquiv (m := 3) (n := 3) |>.symm i)
            (finSumFinEquiv (m := 3) (n := 3) |>.symm j) := fun i j => by rw [hd2]; rfl
        have e0 : ∀ f : Fin 6 → ℝ, ∑ k, f k = ∑ k : Fin 3, f (Fin.castAdd 3 k) + ∑ k : Fin 3, f (Fin.natAdd 3 k) :=
          fun f => Fin.sum_univ_add (a := 3) (b := 3) f
        rw [e0, e0]
        have sl : ∀ k : Fin 3, u.sig (Fin.castAdd 3 k) = a := by rw [hsig]; intro k; fin_cases k <;> rfl
        have sr : ∀ k : Fin 3, u.sig (Fin.natAdd 3 k) = b := by rw [hsig]; intro k; fin_cases k <;> rfl
        simp only [sl, sr, hent]
        obtain ⟨p, rfl⟩ := (finSumFinEquiv (m := 3) (n := 3)).surjective i
        obtain ⟨q, rfl⟩ := (finSumFinEquiv (m := 3) (n := 3)).surjective j
        have al : ∀ k : Fin 3, (finSumFinEquiv (m := 3) (n := 3)).symm (Fin.castAdd 3 k) = .inl k := fun k => by
          rw [Equiv.symm_apply_eq]; rfl
        have ar : ∀ k : Fin 3, (finSumFinEquiv (m := 3) (n := 3)).symm (Fin.natAdd 3 k) = .inr k := fun k => by
          rw [Equiv.symm_apply_eq]; rfl
        simp only [Equiv.symm_apply_apply, al, ar]
        cases p with
        | inl p =>
          cases q with
          | inl q =>
            simp only [fromBlocks_apply₁₁, fromBlocks_apply₂₁, fromBlocks_apply₁₂, Matrix.zero_apply, zero_mul, mul_zero, Finset.sum_const_zero, add_zero]
            rw [Fin.sum_univ_three, Fin.sum_univ_three]
            linear_combination (a ^ 2) * (h2 p q) - (a ^ 2) * (h1 p q)
          | inr q => simp
        | inr p =>
          cases q with
          | inl q => simp
          | inr q =>
            simp only [fromBlocks_apply₂₂, fromBlocks_apply₂₁, fromBlocks_apply₁₂, Matrix.zero_apply, zero_mul, mul_zero, Finset.sum_const_zero, zero_add]
            rw [Fin.sum_univ_three, Fin.sum_univ_three]
            linear_combination (b ^ 2) * (h2 p q) - (b ^ 2) * (h1 p q)

/-- The matrix of the frame radial, in-track, cross-track for a position along Y and a velocity along Z: the
radial axis is Y, the in-track axis is Z and the cross-track axis is X. -/
def ricYZ : Matrix (Fin 6) (Fin 6) ℝ :=
  !![0, 0, 1, 0, 0, 0; 1, 0, 0, 0, 0, 0; 0, 1, 0, 0, 0, 0; 0, 0, 0, 0, 0, 1; 0, 0, 0, 1, 0, 0; 0, 0, 0, 0, 1, 0]

/-- C128, refuted. For a spacecraft at a position along Y with a velocity along Z, an uncertainty of one
kilometer in the radial direction only should be one kilometer along Y; the estimate has one kilometer along
Z, in-track, and none along Y. -/
theorem uncertainty_wrong_axes (inertial ric : L) (dcm : Craft ℝ Fr → L → Option (Matrix (Fin 6) (Fin 6) ℝ))
    (nominal : Craft ℝ Fr) (hd : dcm nominal ric = some ricYZ) :
    ∃ e, (Unc.mk nominal (some ric) ![1, 0, 0, 0, 0, 0] 0 0 0).toEstimate inertial dcm = some e ∧
      inertialCov ricYZ ![1, 0, 0, 0, 0, 0] 1 1 = 1 ∧ inertialCov ricYZ ![1, 0, 0, 0, 0, 0] 2 2 = 0 ∧
      e.covar 1 1 = 0 ∧ e.covar 2 2 = 1 := by
  have hn : (Unc.mk nominal (some ric) ![1, 0, 0, 0, 0, 0] 0 0 0).negative ≠ true := by
    unfold Unc.negative
    simp [List.finRange_succ]
    norm_num
  refine ⟨_, by unfold Unc.toEstimate; rw [if_neg hn]; simp only [Option.getD_some, hd, Option.map_some]; rfl, ?_, ?_, ?_, ?_⟩
  · unfold inertialCov ricYZ
    rw [Fin.sum_univ_six]
    simp
  · unfold inertialCov ricYZ
    rw [Fin.sum_univ_six]
    simp
  · show (ricYZᵀ * diagonal (fun i => (![1, 0, 0, 0, 0, 0] : Fin 6 → ℝ) i ^ 2) * ricYZ : Matrix (Fin 6) (Fin 6) ℝ) 1 1 = 0
    rw [rot_apply, Fin.sum_univ_six]
    unfold ricYZ
    simp
  · show (ricYZᵀ * diagonal (fun i => (![1, 0, 0, 0, 0, 0] : Fin 6 → ℝ) i ^ 2) * ricYZ : Matrix (Fin 6) (Fin 6) ℝ) 2 2 = 1
    rw [rot_apply, Fin.sum_univ_six]
    unfold ricYZ
    simp

/-! ### C129 -/

theorem view6_cov {c : Matrix (Fin 9) (Fin 9) ℝ} (h : IsCov c) : IsCov (view6 c) := by
  rw [Mc.isCov_iff] at h ⊢
  exact h.submatrix _

theorem quad_row (c : Matrix (Fin 6) (Fin 6) ℝ) (g : Fin 6 → ℝ) :
    (replicateRow (Fin 1) g * c * (replicateRow (Fin 1) g)ᵀ) 0 0 = ∑ i, ∑ j, g i * c i j * g j := by
  rw [Matrix.mul_apply]
  rw [Finset.sum_comm]
  refine Finset.sum_congr rfl fun j _ => ?_
  rw [Matrix.mul_apply, Finset.sum_mul]
  exact Finset.sum_congr rfl fun i _ => rfl

/-- C129. For an estimate with a covariance, `sigma_for` is a number which is not negative, whose square is the
variance of the first order change of the element for any random error with the covariance of the estimate;
the entries of the Keplerian covariance are the covariances of the changes of two elements, and it is a
covariance whose diagonal has the squares of `sigma_for`. -/
theorem element_uncertainty {Ω : Type} [MeasurableSpace Ω] {P : Measure Ω}
    (partials : Craft ℝ Fr → E → Option (Fin 6 → ℝ)) (e : Kf (Craft ℝ Fr) 9) (hc : IsCov e.covar)
    (err : Ω → Fin 9 → ℝ) (hi : ∀ i j, Integrable (fun w => err w i * err w j) P)
    (herr : ∀ i j, ∫ w, err w i * err w j ∂P = e.covar i j)
    (change : (Fin 6 → ℝ) → Ω → ℝ) (hch : ∀ g w, change g w = ∑ i : Fin 6, g i * err w (i.castLE (by decide))) :
    (∀ p g, partials e.nominal p = some g → ∃ s, e.sigmaFor partials p = .ok (some s) ∧ 0 ≤ s ∧
      s ^ 2 = ∫ w, change g w ^ 2 ∂P) ∧
    ∀ (ps : Fin 6 → E) (gs : Fin 6 → Fin 6 → ℝ), (∀ i, partials e.nominal (ps i) = some (gs i)) →
      ∃ k, e.keplerian partials ps = .ok k ∧ IsCov k ∧
        (∀ i j, k i j = ∫ w, change (gs i) w * change (gs j) w ∂P) ∧
        ∀ i s, e.sigmaFor partials (ps i) = .ok (some s) → k i i = s ^ 2 := by
  have hcov : ∀ g g' : Fin 6 → ℝ, ∫ w, change g w * change g' w ∂P = ∑ i, ∑ j, g i * view6 e.covar i j * g' j := by
    intro g g'
    have h2 : ∀ w, change g w * change g' w = ∑ i : Fin 6, ∑ j : Fin 6,
        g i * g' j * (err w (i.castLE (by decide)) * err w (j.castLE (by decide))) := by
      intro w
      rw [hch, hch, Finset.sum_mul_sum]
      exact Finset.sum_congr rfl fun k _ => Finset.sum_congr rfl fun l _ => by ring
    simp_rw [h2]
    rw [integral_finsetSum _ fun i _ => integrable_finsetSum _ fun j _ => (hi _ _).const_mul _]
    refine Finset.sum_congr rfl fun k _ => ?_
    rw [integral_finsetSum _ fun j _ => (hi _ _).const_mul _]
    refine Finset.sum_congr rfl fun l _ => ?_
    rw [integral_const_mul, herr]
    show _ = g k * e.covar _ _ * g' l
    ring
  have hv := view6_cov hc
  have hnn : ∀ g : Fin 6 → ℝ, 0 ≤ ∑ i, ∑ j, g i * view6 e.covar i j * g j := by
    intro g
    have := hv.2 g
    simp only [dotProduct, mulVec, Finset.mul_sum] at this
    refine this.trans_eq ?_
    exact Finset.sum_congr rfl fun i _ => Finset.sum_congr rfl fun j _ => by ring
  have hsig : ∀ p g, partials e.nominal p = some g →
      e.sigmaFor partials p = .ok (some (Real.sqrt (∑ i, ∑ j, g i * view6 e.covar i j * g j))) := by
    intro p g hg
    unfold Kf.sigmaFor
    rw [hg, Option.elim_some, quad_row, nsqrt_some (hnn g)]
  refine ⟨fun p g hg => ⟨_, hsig p g hg, Real.sqrt_nonneg _, ?_⟩, fun ps gs hgs => ?_⟩
  · rw [Real.sq_sqrt (hnn g), ← hcov]
    simp_rw [sq]
  · have hr : rowsOf partials e.nominal ps = some (of gs) := by
      unfold rowsOf
      rw [if_pos (fun i => by rw [hgs i]; rfl)]
      congr 2
      funext i
      rw [hgs i]
      rfl
    have hent : ∀ i j, (of gs * view6 e.covar * (of gs)ᵀ) i j = ∑ a, ∑ b, gs i a * view6 e.covar a b * gs j b := by
      intro i j
      rw [Matrix.mul_apply, Finset.sum_comm]
      refine Finset.sum_congr rfl fun b _ => ?_
      rw [Matrix.mul_apply, Finset.sum_mul]
      rfl
    refine ⟨of gs * view6 e.covar * (of gs)ᵀ, by unfold Kf.keplerian; rw [hr]; rfl, ?_, fun i j => ?_, fun i s hs => ?_⟩
    · rw [Mc.isCov_iff] at hv ⊢
      have := hv.mul_mul_conjTranspose_same (of gs)
      rwa [conjTranspose_eq_transpose_of_trivial] at this
    · rw [hent, hcov]
    · rw [hsig _ _ (hgs i)] at hs
      cases hs
      rw [Real.sq_sqrt (hnn _), hent]

/-! ### C131 -/

/-- C131, refuted. The numbers displayed as sigmas are the variances in the unit of the estimate times one
thousand (in exponential notation, the variances): with the standard deviation `s` of component `i`, the value
in meters should be `1000 s`, and it is `1000 s²`, which is right only for `s = 0` and `s = 1`. -/
theorem displayed_variances {n : Nat} (e : Kf X n) (i : Fin n) (s : ℝ) (hs : 0 ≤ s) (hc : e.covar i i = s ^ 2) :
    e.shown[i.val]? = some (1000 * s ^ 2) ∧ e.shownExp[i.val]? = some (s ^ 2) ∧
    (e.shown[i.val]? = some (1000 * s) ↔ s = 0 ∨ s = 1) ∧ (e.shownExp[i.val]? = some s ↔ s = 0 ∨ s = 1) := by
  have h1 : e.shown[i.val]? = some (1000 * s ^ 2) := by
    unfold Kf.shown
    rw [List.getElem?_map, List.getElem?_eq_getElem (by simp), List.getElem_finRange]
    simp only [Option.map_some, Fin.cast_mk, Fin.eta, hc]
    rw [mul_comm]
  have h2 : e.shownExp[i.val]? = some (s ^ 2) := by
    unfold Kf.shownExp
    rw [List.getElem?_map, List.getElem?_eq_getElem (by simp), List.getElem_finRange]
    simp only [Option.map_some, Fin.cast_mk, Fin.eta, hc]
  have h3 : s ^ 2 = s ↔ s = 0 ∨ s = 1 := by
    constructor
    · intro h
      have : s * (s - 1) = 0 := by linarith [h, sq s]
      rcases mul_eq_zero.1 this with h | h
      · left; exact h
      · right; linarith
    · rintro (rfl | rfl) <;> norm_num
  refine ⟨h1, h2, ?_, ?_⟩
  · rw [h1, Option.some.injEq, ← h3]
    constructor <;> intro h <;> linarith
  · rw [h2, Option.some.injEq, h3]

/-! ### C132 -/

/-- C132 (partial). Constructors, setters and scaling: an estimate from a covariance (or its diagonal) has that
covariance, no deviation, and its state is the nominal state moved by zero; setting the deviation or the
covariance changes this and nothing else; scaling by `k` multiplies the standard deviations of the estimate by
`|k|`. What is missing: `set_epoch`, see `set_epoch_ignored`. -/
theorem setters_partial {n : Nat} (add : X → (Fin n → ℝ) → X) (x : X) (c : Matrix (Fin n) (Fin n) ℝ) (d v : Fin n → ℝ)
    (e : Kf X n) (k : ℝ) :
    ((fromCovar x c).covar = c ∧ (fromCovar x c).dev = 0 ∧ (fromCovar x c).state add = add x 0) ∧
    ((∀ i, (fromDiag x d).covar i i = d i) ∧ (∀ i j, i ≠ j → (fromDiag x d).covar i j = 0) ∧
      (fromDiag x d).state add = add x 0) ∧
    ((zeros x : Kf X n).covar = 0 ∧ (zeros x : Kf X n).state add = add x 0) ∧
    ((e.setDev v).state add = add e.nominal v ∧ (e.setDev v).covar = e.covar ∧ (e.setDev v).covarBar = e.covarBar ∧
      (e.setDev v).stm = e.stm) ∧
    ((e.setCovar c).covar = c ∧ (e.setCovar c).state add = e.state add ∧ (e.setCovar c).dev = e.dev ∧
      (e.setCovar c).covarBar = e.covarBar ∧ (e.setCovar c).stm = e.stm) ∧
    ((e.scale k).state add = e.state add ∧ (e.scale k).covarBar = e.covarBar ∧ (e.scale k).dev = e.dev ∧
      (e.scale k).stm = e.stm ∧ (∀ i j, (e.scale k).covar i j = k * k * e.covar i j) ∧
      ∀ i, Real.sqrt ((e.scale k).covar i i) = |k| * Real.sqrt (e.covar i i)) := by
  refine ⟨⟨rfl, rfl, rfl⟩, ⟨fun i => diagonal_apply_eq _ i, fun i j h => diagonal_apply_ne _ h, rfl⟩, ⟨rfl, rfl⟩,
    ⟨rfl, rfl, rfl, rfl⟩, ⟨rfl, rfl, rfl, rfl, rfl⟩, rfl, rfl, rfl, rfl, fun i j => ?_, fun i => ?_⟩
  · show k ^ 2 * e.covar i j = _
    ring
  show Real.sqrt (k ^ 2 * e.covar i i) = _
  rw [Real.sqrt_mul (sq_nonneg k), Real.sqrt_sq_eq_abs]

/-- C132, refuted. Setting the epoch of an estimate never changes its epoch. -/
theorem set_epoch_ignored (e : Kf (Craft ℝ Fr) 9) (t : Int) (h : (e.state Craft.add).epoch ≠ t) :
    ((e.setEpoch t).state Craft.add).epoch ≠ t := h

/-! ### C133 -/

/-- C133. For a residual whose types are distinct, the value of a type of index `i` is the component `i`, and a type
which is absent has none. A rejected residual has no postfit and is marked; the
normalized innovation squared is not negative and is zero only if the whitened residual is. -/
theorem residual_by_type [DecidableEq T] {m : Nat} (types : List T) (v : Fin m → ℝ) (hn : types.Nodup) :
    (∀ (i : Fin m) k, types[i.val]? = some k → compOf types v k = .ok (some (v i))) ∧
    ∀ k, k ∉ types → compOf types v k = .ok none := by
  refine ⟨fun i k hk => ?_, fun k hk => if_neg hk⟩
  have hmem := List.mem_of_getElem? hk
  obtain ⟨hlt, hget⟩ := List.getElem?_eq_some_iff.1 hk
  have hidx : types.idxOf k = i.val := by
    rw [← hget]
    exact List.Nodup.idxOf_getElem hn i.val hlt
  unfold compOf
  rw [if_pos hmem, dif_pos (by rw [hidx]; exact i.isLt)]
  congr 3
  exact Fin.ext hidx

theorem residual_marks {m : Nat} (prefit whitened postfit : Fin m → ℝ) (ratio : ℝ) (noise real computed : Fin m → ℝ) :
    (Resid.reject prefit whitened ratio noise real computed : Resid T m).rejected = true ∧
    (Resid.reject prefit whitened ratio noise real computed : Resid T m).postfit = none ∧
    (Resid.accept prefit whitened postfit ratio noise real computed : Resid T m).rejected = false ∧
    (Resid.accept prefit whitened postfit ratio noise real computed : Resid T m).postfit = some postfit ∧
    (Resid.accept prefit whitened postfit ratio noise real computed : Resid T m).prefit = prefit ∧
    (Resid.accept prefit whitened postfit ratio noise real computed : Resid T m).real = real ∧
    (Resid.accept prefit whitened postfit ratio noise real computed : Resid T m).computed = computed ∧
    0 ≤ (Resid.accept prefit whitened postfit ratio noise real computed : Resid T m).nis ∧
    ((Resid.accept prefit whitened postfit ratio noise real computed : Resid T m).nis = 0 ↔ whitened = 0) := by
  refine ⟨rfl, rfl, rfl, rfl, rfl, rfl, rfl, Finset.sum_nonneg fun i _ => mul_self_nonneg _, ?_⟩
  constructor
  · intro h
    have h2 := (Finset.sum_eq_zero_iff_of_nonneg fun i _ => mul_self_nonneg (whitened i)).1 h
    funext i
    exact mul_self_eq_zero.1 (h2 i (Finset.mem_univ i))
  · intro h
    unfold Resid.nis Resid.accept
    simp [h]

/-! ### C134 -/

/-- C134 (partial). The random variable of an estimate has the covariance of the estimate and as mean the nominal
state moved by the deviation: the nominal state if there is no deviation. A randomized initial estimate has the
covariance of the initial uncertainty, and its nominal state is a sample with this covariance about the
nominal one. What is missing: the mean is documented as zero, see `random_variable_mean`. -/
theorem random_variable_partial {Ω : Type} [MeasurableSpace Ω] {P : Measure Ω} {z : Ω → Fin 9 → ℝ}
    (hz : StdDraws P z) (x : Ext E Fr) (hx : SvdOk x) (ax : Fin 6 → E) :
    (∀ (e : Kf (Craft ℝ Fr) 9), IsCov e.covar → ∀ g, e.toRandom x ax = .ok g → ∀ smp : Ω → Dispersed E Fr,
      (∀ w, g.sample x (z w) = .ok (smp w)) → ∀ i j,
      ∫ w, (coords (smp w).state i - coords e.nominal i) ∂P = e.dev i ∧
      ∫ w, (coords (smp w).state i - coords e.nominal i - e.dev i) *
        (coords (smp w).state j - coords e.nominal j - e.dev j) ∂P = e.covar i j) ∧
    ∀ (inertial : L) (dcm : Craft ℝ Fr → L → Option (Matrix (Fin 6) (Fin 6) ℝ)) (u : Unc L Fr) (e : Kf (Craft ℝ Fr) 9),
      u.toEstimate inertial dcm = some e → ∀ r : Ω → Kf (Craft ℝ Fr) 9,
      (∀ w, u.randomized x ax inertial dcm (z w) = .ok (r w)) →
      (∀ w, (r w).covar = e.covar ∧ (r w).dev = 0) ∧
      ∀ i j, ∫ w, (coords (r w).nominal i - coords u.nominal i) ∂P = 0 ∧
        ∫ w, (coords (r w).nominal i - coords u.nominal i) * (coords (r w).nominal j - coords u.nominal j) ∂P =
          e.covar i j := by
  refine ⟨fun e hc g hg smp hs i j => Mc.from_cov_statistics hz x hx ax e.nominal e.covar hc e.dev g hg smp hs i j, ?_⟩
  intro inertial dcm u e he r hr
  have hcov : IsCov e.covar := by
    have hd : ∃ d, dcm u.nominal (u.frame.getD inertial) = some d := by
      have := ((uncertainty_partial inertial dcm u).1.1 ⟨e, he⟩).2
      exact Option.isSome_iff_exists.1 this
    obtain ⟨d, hd⟩ := hd
    exact ((uncertainty_partial inertial dcm u).2 e d he hd).2.2.2.1
  have hdev : e.dev = 0 := by
    unfold Unc.toEstimate at he
    split at he
    · cases he
    · obtain ⟨d, -, rfl⟩ := Option.map_eq_some_iff.1 he
      rfl
  have hone : ∀ w, ∃ g d, fromCov x ax u.nominal e.covar 0 = .ok g ∧ g.sample x (z w) = .ok d ∧
      r w = { e with nominal := d.state } := by
    intro w
    have h := hr w
    unfold Unc.randomized at h
    rw [he, Option.elim_some] at h
    split at h
    · rename_i g hg
      obtain ⟨d, hd, h⟩ := Mc.bind_eq_ok.1 h
      rw [Out.ok.injEq] at h
      exact ⟨g, d, hg, hd, h.symm⟩
    · cases h
  refine ⟨fun w => ?_, fun i j => ?_⟩
  · obtain ⟨g, d, -, -, h⟩ := hone w
    rw [h]
    exact ⟨rfl, hdev⟩
  · cases hgen : fromCov x ax u.nominal e.covar 0 with
    | ok g =>
      have hs : ∀ w, ∃ d, g.sample x (z w) = .ok d ∧ (r w).nominal = d.state := by
        intro w
        obtain ⟨g', d, h1, h2, h3⟩ := hone w
        rw [hgen] at h1
        cases h1
        exact ⟨d, h2, by rw [h3]⟩
      choose smp hsmp hst using hs
      have := Mc.from_cov_statistics hz x hx ax u.nominal e.covar hcov 0 g hgen smp hsmp i j
      simp only [Pi.zero_apply, sub_zero] at this
      simp only [hst]
      exact this
    | err =>
      have := hz.prob
      obtain ⟨w⟩ : Nonempty Ω := P.nonempty_of_neZero
      obtain ⟨g', d, h1, -⟩ := hone w
      rw [hgen] at h1
      cases h1
    | panic =>
      have := hz.prob
      obtain ⟨w⟩ : Nonempty Ω := P.nonempty_of_neZero
      obtain ⟨g', d, h1, -⟩ := hone w
      rw [hgen] at h1
      cases h1

/-- C134, refuted. The random variable of an estimate has zero mean about the nominal state only if the
deviation of the estimate is zero. -/
theorem random_variable_mean {Ω : Type} [MeasurableSpace Ω] {P : Measure Ω} {z : Ω → Fin 9 → ℝ}
    (hz : StdDraws P z) (x : Ext E Fr) (hx : SvdOk x) (ax : Fin 6 → E) (e : Kf (Craft ℝ Fr) 9) (hc : IsCov e.covar)
    (g : Gen E Fr) (hg : e.toRandom x ax = .ok g) (smp : Ω → Dispersed E Fr) (hs : ∀ w, g.sample x (z w) = .ok (smp w)) :
    (∀ i, ∫ w, (coords (smp w).state i - coords e.nominal i) ∂P = 0) ↔ e.dev = 0 := by
  have h := fun i => (Mc.from_cov_statistics hz x hx ax e.nominal e.covar hc e.dev g hg smp hs i i).1
  simp only [h]
  exact ⟨funext, fun h i => by rw [h]; rfl⟩

/-- **C131, in part.** The numbers displayed are the standard deviations if the variances are zero or one. Missing: all the other variances
(`displayed_variances`). -/
theorem displayed_sigmas_partial {n : Nat} (e : Kf X n) (h : ∀ i, e.covar i i = 0 ∨ e.covar i i = 1) (i : Fin n) :
    e.shown[i.val]? = some (1000 * Real.sqrt (e.covar i i)) ∧ e.shownExp[i.val]? = some (Real.sqrt (e.covar i i)) := by
  rcases h i with h | h
  · have := displayed_variances e i 0 le_rfl (by rw [h]; norm_num)
    rw [h, Real.sqrt_zero]
    exact ⟨this.2.2.1.2 (.inl rfl), this.2.2.2.2 (.inl rfl)⟩
  · have := displayed_variances e i 1 zero_le_one (by rw [h]; norm_num)
    rw [h, Real.sqrt_one]
    exact ⟨this.2.2.1.2 (.inr rfl), this.2.2.2.2 (.inr rfl)⟩

example (x : X) := displayed_sigmas_partial (fromDiag x ![1, 0]) (by intro i; fin_cases i <;> simp [fromDiag]) 0

end Verif.Estimate
