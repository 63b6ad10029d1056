import Verif.Kalman.Chol
import Mathlib.LinearAlgebra.Matrix.SchurComplement
import Mathlib.Data.Matrix.ColumnRowPartitioned
/-!
Theorems on the Kalman filter: C31 (units), C81 (measurements one at a time or together), C82 (the
update is the least squares optimum).
-/
namespace Verif.Kalman
open Matrix
set_option linter.unusedSectionVars false

variable {F Ω : Type} {s a m : Nat} {chol : Chol}
variable {dcm : F → Ω → Option (Matrix (Fin 3) (Fin 3) ℝ)}

/-! ### Algebra -/

section
variable {k l : Type} [Fintype k] [Fintype l] [DecidableEq k] [DecidableEq l]

/-- `P'^-1 K = H^T R^-1`, with the information matrix written out. -/
theorem info_gain {P : Matrix k k ℝ} {R S : Matrix l l ℝ} {H : Matrix l k ℝ} (hP : IsUnit P.det)
    (hR : IsUnit R.det) (hS : IsUnit S.det) (hSe : S = H * (P * Hᵀ) + R) :
    (P⁻¹ + Hᵀ * R⁻¹ * H) * (P * Hᵀ * S⁻¹) = Hᵀ * R⁻¹ := by
  have e1 : P⁻¹ * (P * Hᵀ * S⁻¹) = Hᵀ * S⁻¹ := by
    rw [← Matrix.mul_assoc, ← Matrix.mul_assoc, nonsing_inv_mul _ hP, Matrix.one_mul]
  have e2 : Hᵀ * R⁻¹ * H * (P * Hᵀ * S⁻¹) = Hᵀ * R⁻¹ * (H * (P * Hᵀ)) * S⁻¹ := by
    simp only [Matrix.mul_assoc]
  have e3 : H * (P * Hᵀ) = S - R := by rw [hSe]; abel
  rw [Matrix.add_mul, e1, e2, e3, Matrix.mul_sub, Matrix.sub_mul,
    Matrix.mul_assoc (Hᵀ * R⁻¹) S, mul_nonsing_inv _ hS, Matrix.mul_one,
    Matrix.mul_assoc Hᵀ R⁻¹ R, nonsing_inv_mul _ hR, Matrix.mul_one]
  abel

/-- The information matrix is the inverse of the updated covariance. -/
theorem info_covar {P : Matrix k k ℝ} {R S : Matrix l l ℝ} {H : Matrix l k ℝ} (hP : IsUnit P.det)
    (hR : IsUnit R.det) (hS : IsUnit S.det) (hSe : S = H * (P * Hᵀ) + R) :
    (P⁻¹ + Hᵀ * R⁻¹ * H) * ((1 - P * Hᵀ * S⁻¹ * H) * P) = 1 := by
  have h := info_gain hP hR hS hSe
  rw [← Matrix.mul_assoc, Matrix.mul_sub, Matrix.mul_one, ← Matrix.mul_assoc, h, add_sub_cancel_right,
    nonsing_inv_mul _ hP]

end

theorem detUnit {k : Type} [Fintype k] [DecidableEq k] {S : Matrix k k ℝ} (h : S.PosDef) :
    IsUnit S.det := (isUnit_iff_isUnit_det S).1 h.isUnit

/-- What an accepted update computes, in terms of the predicted deviation and covariance, which are
those of a time update. -/
theorem accepted_form (hc : CholSpec chol) {kf kf' : KF F Ω s a} {x : Nominal Ω s} {z : MsrIn s m}
    {t : Option ℝ} {e : Est Ω s} {r : Resid m} {g : Option (Matrix (Fin s) (Fin m) ℝ)}
    (hP : SymPsd kf.prev.covar) (hq : ∀ q ∈ kf.noises, ∀ i, 0 ≤ q.diag i) (hR : SymPsd z.R)
    (h : kf.measurementUpdate chol dcm x z t = .ok (kf', e, r, g)) (hr : r.rejected = false) :
    ∃ (kb : KF F Ω s a) (eb : Est Ω s) (S : Matrix (Fin m) (Fin m) ℝ),
      kf.timeUpdate dcm x = .ok (kb, eb) ∧ eb.covar = e.covarBar ∧ eb.covar.PosSemidef ∧
      S = z.H * (eb.covar * z.Hᵀ) + z.R ∧ S.PosDef ∧ g = some (eb.covar * z.Hᵀ * S⁻¹) ∧
      e.dev = eb.dev + (eb.covar * z.Hᵀ * S⁻¹) *ᵥ ((z.real - z.computed) - z.H *ᵥ eb.dev) ∧
      e.covar = (1 - eb.covar * z.Hᵀ * S⁻¹ * z.H) * eb.covar ∧
      kf' = kb.store kb.prevUsedSnc e := by
  have hopt : ∀ K, g = some K → e.covar = (1 - K * z.H) * e.covarBar := by
    intro K hK
    subst hK
    exact (gain_optimal hc kf kf' x z t e r K hP hq hR h).1
  rw [symPsd_iff] at hP hR
  obtain ⟨stm, pu, L, h1, h2, _, _, _, _, _, _, _, _, hcase⟩ := measurementUpdate_ok h
  rcases hcase with ⟨h3, _⟩ | ⟨_, K, h3, h4, h5, _, h7⟩
  · rw [hr] at h3; cases h3
  · have hPp : pu.1.PosSemidef := predict_psd hP hq h2
    have hS := innovation_psd hPp hR z.H
    obtain ⟨hSd, hK⟩ := gainOf_eq hc hS h4
    let eb : Est Ω s :=
      { nominal := x
        dev := if kf.variant = .deviationTracking then stm *ᵥ kf.prev.dev else 0
        covar := pu.1, covarBar := pu.1, stm := stm, predicted := true }
    refine ⟨kf.store pu.2 eb, eb, z.H * (pu.1 * z.Hᵀ) + z.R, ?_, ?_, hPp, rfl, hSd, ?_, ?_, ?_, ?_⟩
    · unfold KF.timeUpdate
      rw [h1]
      simp only
      rw [h2]
      rfl
    · rw [h5]
    · rw [h3, hK]
    · rw [h5, ← hK]
      simp only [eb, devPost]
      cases kf.variant <;> simp
    · have := hopt K h3
      rw [this, h5, hK]
    · rw [h7]
      have : e.nominal = x := by rw [h5]
      simp [KF.store, this, eb, Function.comp_def]

/-- With a positive definite prediction, an accepted update in information form. -/
theorem accepted_info (hc : CholSpec chol) {kf kf' kb : KF F Ω s a} {x : Nominal Ω s}
    {z : MsrIn s m} {t : Option ℝ} {e eb : Est Ω s} {r : Resid m}
    {g : Option (Matrix (Fin s) (Fin m) ℝ)}
    (hP : SymPsd kf.prev.covar) (hq : ∀ q ∈ kf.noises, ∀ i, 0 ≤ q.diag i) (hR : z.R.PosDef)
    (h : kf.measurementUpdate chol dcm x z t = .ok (kf', e, r, g)) (hr : r.rejected = false)
    (hb : kf.timeUpdate dcm x = .ok (kb, eb)) (hbd : eb.covar.PosDef) :
    (eb.covar⁻¹ + z.Hᵀ * z.R⁻¹ * z.H) * e.covar = 1 ∧
    (eb.covar⁻¹ + z.Hᵀ * z.R⁻¹ * z.H) *ᵥ e.dev =
      eb.covar⁻¹ *ᵥ eb.dev + (z.Hᵀ * z.R⁻¹) *ᵥ (z.real - z.computed) := by
  obtain ⟨kb', eb', S, g1, _, _, g4, g5, _, g6, g7, _⟩ :=
    accepted_form hc hP hq ((symPsd_iff _).2 hR.posSemidef) h hr
  rw [hb] at g1
  cases g1
  have hi := info_covar (H := z.H) (detUnit hbd) (detUnit hR) (detUnit g5) g4
  have hg := info_gain (H := z.H) (detUnit hbd) (detUnit hR) (detUnit g5) g4
  refine ⟨by rw [g7]; exact hi, ?_⟩
  rw [g6, mulVec_add, mulVec_mulVec, hg, add_mulVec, mulVec_sub, mulVec_mulVec]
  abel

/-! ### C82 -/

/-- Cost of a deviation `v`: distance to the prediction plus measurement residuals, both weighted. -/
noncomputable def cost (Pb : Matrix (Fin s) (Fin s) ℝ) (xb : Fin s → ℝ) (z : MsrIn s m)
    (v : Fin s → ℝ) : ℝ :=
  (v - xb) ⬝ᵥ (Pb⁻¹ *ᵥ (v - xb)) +
    ((z.real - z.computed) - z.H *ᵥ v) ⬝ᵥ (z.R⁻¹ *ᵥ ((z.real - z.computed) - z.H *ᵥ v))

theorem quad_expand {k : Type} [Fintype k] {A : Matrix k k ℝ} (hA : Aᵀ = A) (u v : k → ℝ) :
    (u + v) ⬝ᵥ (A *ᵥ (u + v)) = u ⬝ᵥ (A *ᵥ u) + 2 * (v ⬝ᵥ (A *ᵥ u)) + v ⬝ᵥ (A *ᵥ v) := by
  have : u ⬝ᵥ (A *ᵥ v) = v ⬝ᵥ (A *ᵥ u) := by
    rw [dotProduct_mulVec, ← mulVec_transpose, hA, dotProduct_comm]
  rw [mulVec_add, add_dotProduct, dotProduct_add, dotProduct_add, this]
  ring

theorem cost_expand {Pb : Matrix (Fin s) (Fin s) ℝ} {xb : Fin s → ℝ} {z : MsrIn s m}
    (hP : Pb.PosDef) (hR : z.R.PosDef) (w d : Fin s → ℝ) :
    cost Pb xb z (w + d) = cost Pb xb z w +
      2 * (d ⬝ᵥ ((Pb⁻¹ + z.Hᵀ * z.R⁻¹ * z.H) *ᵥ w -
        (Pb⁻¹ *ᵥ xb + (z.Hᵀ * z.R⁻¹) *ᵥ (z.real - z.computed)))) +
      d ⬝ᵥ ((Pb⁻¹ + z.Hᵀ * z.R⁻¹ * z.H) *ᵥ d) := by
  have hPi : (Pb⁻¹)ᵀ = Pb⁻¹ := PosSemidef.symm hP.inv.posSemidef
  have hRi : (z.R⁻¹)ᵀ = z.R⁻¹ := PosSemidef.symm hR.inv.posSemidef
  set y := z.real - z.computed with hy
  unfold cost
  rw [← hy]
  have e1 : w + d - xb = (w - xb) + d := by abel
  have e2 : y - z.H *ᵥ (w + d) = (y - z.H *ᵥ w) + (-(z.H *ᵥ d)) := by rw [mulVec_add]; abel
  rw [e1, e2, quad_expand hPi, quad_expand hRi]
  have e3 : ∀ u : Fin m → ℝ, (z.H *ᵥ d) ⬝ᵥ u = d ⬝ᵥ (z.Hᵀ *ᵥ u) := by
    intro u
    rw [mulVec_transpose, dotProduct_comm d, ← dotProduct_mulVec, dotProduct_comm]
  simp only [neg_dotProduct, mulVec_neg, dotProduct_neg, e3, mulVec_sub, dotProduct_sub,
    add_mulVec, dotProduct_add, mulVec_mulVec, Matrix.mul_assoc]
  ring

/-- **C82.** With a positive definite predicted covariance and measurement noise, the deviation of an
accepted update is the unique minimiser of the weighted least squares cost around the prediction. -/
theorem update_minimises_cost (hc : CholSpec chol) (kf kf' kb : KF F Ω s a) (x : Nominal Ω s)
    (z : MsrIn s m) (t : Option ℝ) (e eb : Est Ω s) (r : Resid m)
    (g : Option (Matrix (Fin s) (Fin m) ℝ))
    (hP : SymPsd kf.prev.covar) (hq : ∀ q ∈ kf.noises, ∀ i, 0 ≤ q.diag i) (hR : z.R.PosDef)
    (h : kf.measurementUpdate chol dcm x z t = .ok (kf', e, r, g)) (hr : r.rejected = false)
    (hb : kf.timeUpdate dcm x = .ok (kb, eb)) (hbd : eb.covar.PosDef) (v : Fin s → ℝ) :
    cost eb.covar eb.dev z e.dev ≤ cost eb.covar eb.dev z v ∧
    (cost eb.covar eb.dev z v = cost eb.covar eb.dev z e.dev → v = e.dev) := by
  obtain ⟨_, hx⟩ := accepted_info hc hP hq hR h hr hb hbd
  have hI : (eb.covar⁻¹ + z.Hᵀ * z.R⁻¹ * z.H).PosDef := by
    refine hbd.inv.add_posSemidef ?_
    have := posSemidef_conj hR.inv.posSemidef z.Hᵀ
    rwa [transpose_transpose] at this
  have hv : v = e.dev + (v - e.dev) := by abel
  have hcst : cost eb.covar eb.dev z v = cost eb.covar eb.dev z e.dev +
      (v - e.dev) ⬝ᵥ ((eb.covar⁻¹ + z.Hᵀ * z.R⁻¹ * z.H) *ᵥ (v - e.dev)) := by
    conv_lhs => rw [hv]
    rw [cost_expand hbd hR, hx, sub_self, dotProduct_zero, mul_zero, add_zero]
  constructor
  · have := ((symPsd_iff _).2 hI.posSemidef).2 (v - e.dev)
    linarith
  · intro heq
    by_contra hne
    have hpos := hI.dotProduct_mulVec_pos (sub_ne_zero.2 hne)
    simp only [star_trivial] at hpos
    linarith

/-- The hypotheses are met by the example filter: without threshold nothing is rejected, and the
predicted covariance is one. -/
example (v : Variant) (y : ℝ) : ∃ kf' kb e eb r g,
    (exKf v).measurementUpdate someChol (fun _ _ => none) exX (exZ y) none = .ok (kf', e, r, g) ∧
    r.rejected = false ∧ (exKf v).timeUpdate (fun _ _ => none) exX = .ok (kb, eb) ∧
    eb.covar.PosDef ∧ (exZ y).R.PosDef := by
  obtain ⟨⟨kf', e, r, g⟩, h⟩ := exOk v y none
  have hr := no_threshold_no_rejection _ _ _ _ _ _ _ h
  refine ⟨kf', (exKf v).store 0 (exE v), e, exE v, r, g, h, hr, ?_, PosDef.one, PosDef.one⟩
  · unfold KF.timeUpdate
    have := exPredict v
    simp only [exX] at this ⊢
    rw [this]; rfl

/-! ### C81 -/

/-- Two simultaneous measurements stacked, with independent noises. -/
noncomputable def MsrIn.stack {m1 m2 : Nat} (z1 : MsrIn s m1) (z2 : MsrIn s m2) :
    MsrIn s (m1 + m2) :=
  { real := Sum.elim z1.real z2.real ∘ finSumFinEquiv.symm
    computed := Sum.elim z1.computed z2.computed ∘ finSumFinEquiv.symm
    R := (fromBlocks z1.R 0 0 z2.R).submatrix finSumFinEquiv.symm finSumFinEquiv.symm
    H := (fromRows z1.H z2.H).submatrix finSumFinEquiv.symm id }

theorem stack_posDef {m1 m2 : Nat} {z1 : MsrIn s m1} {z2 : MsrIn s m2} (h1 : z1.R.PosDef)
    (h2 : z2.R.PosDef) : (z1.stack z2).R.PosDef := by
  have hd : (fromBlocks z1.R 0 0 z2.R).PosDef := by
    have hp : (fromBlocks z1.R 0 0 z2.R).PosSemidef := by
      have := h1.isUnit.invertible
      have := (PosDef.fromBlocks₁₁ (A := z1.R) 0 z2.R h1).2 (by simpa using h2.posSemidef)
      simpa using this
    refine posDef_of_psd_det hp ?_
    rw [det_fromBlocks_zero₂₁]
    exact mul_ne_zero (detUnit h1).ne_zero (detUnit h2).ne_zero
  exact hd.submatrix finSumFinEquiv.symm.injective

theorem stack_info {m1 m2 : Nat} {z1 : MsrIn s m1} {z2 : MsrIn s m2} (h1 : z1.R.PosDef)
    (h2 : z2.R.PosDef) :
    (z1.stack z2).Hᵀ * (z1.stack z2).R⁻¹ =
      (fromCols (z1.Hᵀ * z1.R⁻¹) (z2.Hᵀ * z2.R⁻¹)).submatrix id finSumFinEquiv.symm := by
  unfold MsrIn.stack
  simp only
  rw [inv_submatrix_equiv, inv_fromBlocks_zero₂₁_of_isUnit_iff _ _ _
    (iff_of_true h1.isUnit h2.isUnit), transpose_submatrix, transpose_fromRows, submatrix_mul_equiv,
    fromCols_mul_fromBlocks]
  simp

/-- **C81.** Deviation tracking: processing two simultaneous measurements with independent noises one
after the other gives the same covariance and the same deviation as processing them together, when
none is rejected and the prediction is positive definite. The second state is at the same epoch with
a unit state transition, which is how the orbit determination process presents it. -/
theorem sequential_eq_joint {m1 m2 : Nat} (hc : CholSpec chol) (kf kf1 kf2 kf3 kb : KF F Ω s a)
    (x x2 : Nominal Ω s) (z1 : MsrIn s m1) (z2 : MsrIn s m2) (t1 t2 t3 : Option ℝ)
    (eb e1 e2 e3 : Est Ω s) (r1 : Resid m1) (r2 : Resid m2) (r3 : Resid (m1 + m2))
    (g1 : Option (Matrix (Fin s) (Fin m1) ℝ)) (g2 : Option (Matrix (Fin s) (Fin m2) ℝ))
    (g3 : Option (Matrix (Fin s) (Fin (m1 + m2)) ℝ))
    (hv : kf.variant = .deviationTracking) (hP : SymPsd kf.prev.covar)
    (hq : ∀ q ∈ kf.noises, ∀ i, 0 ≤ q.diag i) (hR1 : z1.R.PosDef) (hR2 : z2.R.PosDef)
    (hb : kf.timeUpdate dcm x = .ok (kb, eb)) (hbd : eb.covar.PosDef)
    (hx2 : x2.stm = some 1) (hx2e : x2.epoch = x.epoch)
    (h1 : kf.measurementUpdate chol dcm x z1 t1 = .ok (kf1, e1, r1, g1)) (n1 : r1.rejected = false)
    (h2 : kf1.measurementUpdate chol dcm x2 z2 t2 = .ok (kf2, e2, r2, g2)) (n2 : r2.rejected = false)
    (h3 : kf.measurementUpdate chol dcm x (z1.stack z2) t3 = .ok (kf3, e3, r3, g3))
    (n3 : r3.rejected = false) :
    e2.covar = e3.covar ∧ e2.dev = e3.dev := by
  obtain ⟨c1, d1⟩ := accepted_info hc hP hq hR1 h1 n1 hb hbd
  obtain ⟨c3, d3⟩ := accepted_info hc hP hq (stack_posDef hR1 hR2) h3 n3 hb hbd
  -- the state between the two measurements
  obtain ⟨kb1, eb1, S1, b1, _, _, _, _, _, _, _, b8⟩ :=
    accepted_form hc hP hq ((symPsd_iff _).2 hR1.posSemidef) h1 n1
  rw [hb] at b1
  cases b1
  obtain ⟨p1, p2, p3⟩ := msr_psd ((symPsd_iff _).1 hP) hq hR1.posSemidef h1
  have hI1 : (eb.covar⁻¹ + z1.Hᵀ * z1.R⁻¹ * z1.H).PosDef := by
    refine hbd.inv.add_posSemidef ?_
    have := posSemidef_conj hR1.inv.posSemidef z1.Hᵀ
    rwa [transpose_transpose] at this
  have hinv1 : e1.covar⁻¹ = eb.covar⁻¹ + z1.Hᵀ * z1.R⁻¹ * z1.H := inv_eq_left_inv c1
  have he1d : e1.covar.PosDef := by
    rw [← posDef_inv_iff, hinv1]; exact hI1
  have hp1 : kf1.prev = e1 := p3
  -- prediction of the second measurement: nothing changes
  obtain ⟨kb2, eb2, S2, q1, _, _, _, _, _, _, _, _⟩ :=
    accepted_form hc ((symPsd_iff _).2 p1) p2 ((symPsd_iff _).2 hR2.posSemidef) h2 n2
  have hpred : eb2.covar = e1.covar ∧ eb2.dev = e1.dev := by
    obtain ⟨stm, pu, k1, k2, _, k4⟩ := timeUpdate_ok q1
    rw [hx2] at k1
    cases k1
    have hvar : kf1.variant = .deviationTracking := by
      obtain ⟨_, _, _, _, _, _, _, _, _, _, _, _, _, hcase⟩ := measurementUpdate_ok h1
      rcases hcase with ⟨h3, _⟩ | ⟨_, _, _, _, _, _, h7⟩
      · rw [n1] at h3; cases h3
      · rw [h7]; exact hv
    have hnom : e1.nominal = x := by
      obtain ⟨_, _, _, _, _, _, _, _, _, _, _, _, _, hcase⟩ := measurementUpdate_ok h1
      rcases hcase with ⟨h3, _⟩ | ⟨_, _, _, _, h5, _, _⟩
      · rw [n1] at h3; cases h3
      · rw [h5]
    refine ⟨?_, ?_⟩
    · rw [k4]
      simp only
      unfold KF.predict at k2
      obtain ⟨o, l1, l2⟩ := Res.bind_eq_ok.1 k2
      rw [hp1] at l2 l1
      rcases o with _ | ⟨i, C⟩
      · cases l2
        simp
      · cases l2
        obtain ⟨_, q, _, _, l3, _⟩ := sncLoop_some l1
        obtain ⟨_, _, G, d, l4, rfl, _⟩ := propagate_some l3
        have hdt : x2.epoch - e1.nominal.epoch = 0 := by rw [hnom, hx2e, sub_self]
        rw [hdt] at l4
        have hG : G = 0 := by
          unfold gamma at l4
          split at l4
          · injection l4 with l4
            rw [← l4]
            have : ∀ (l : List (Nat × Nat × Bool)),
                l.foldl (gammaWrite (toSec 0)) (0 : Matrix (Fin s) (Fin a) ℝ) = 0 := by
              intro l
              induction l with
              | nil => rfl
              | cons w l ih =>
                rw [List.foldl_cons]
                have : gammaWrite (toSec 0) (0 : Matrix (Fin s) (Fin a) ℝ) w = 0 := by
                  ext r c
                  simp [toSec, gammaWrite]
                rw [this]
                exact ih
            exact this _
          · cases l4
        rw [hG]
        simp
    · rw [k4]
      simp [hvar, hp1]
  have he2d : eb2.covar.PosDef := by rw [hpred.1]; exact he1d
  obtain ⟨c2, d2⟩ := accepted_info hc ((symPsd_iff _).2 p1) p2 hR2 h2 n2 q1 he2d
  rw [hpred.1, hinv1] at c2 d2
  rw [hpred.2] at d2
  have hst := stack_info (s := s) (z1 := z1) (z2 := z2) hR1 hR2
  have hM : (z1.stack z2).Hᵀ * (z1.stack z2).R⁻¹ * (z1.stack z2).H =
      z1.Hᵀ * z1.R⁻¹ * z1.H + z2.Hᵀ * z2.R⁻¹ * z2.H := by
    rw [hst]
    unfold MsrIn.stack
    simp only
    rw [submatrix_mul_equiv, fromCols_mul_fromRows]
    rfl
  have hy : ((z1.stack z2).Hᵀ * (z1.stack z2).R⁻¹) *ᵥ ((z1.stack z2).real - (z1.stack z2).computed) =
      (z1.Hᵀ * z1.R⁻¹) *ᵥ (z1.real - z1.computed) + (z2.Hᵀ * z2.R⁻¹) *ᵥ (z2.real - z2.computed) := by
    rw [hst]
    have : (z1.stack z2).real - (z1.stack z2).computed =
        Sum.elim (z1.real - z1.computed) (z2.real - z2.computed) ∘ finSumFinEquiv.symm := by
      funext i
      unfold MsrIn.stack
      simp only [Pi.sub_apply, Function.comp_apply]
      cases finSumFinEquiv.symm i <;> rfl
    rw [this, submatrix_mulVec_equiv]
    simp only [Function.comp_assoc, Equiv.symm_symm, Equiv.symm_comp_self, Function.comp_id]
    rw [fromCols_mulVec]
    rfl
  have hI : (eb.covar⁻¹ + z1.Hᵀ * z1.R⁻¹ * z1.H + z2.Hᵀ * z2.R⁻¹ * z2.H).PosDef := by
    refine hI1.add_posSemidef ?_
    have := posSemidef_conj hR2.inv.posSemidef z2.Hᵀ
    rwa [transpose_transpose] at this
  rw [hM, ← add_assoc] at c3 d3
  rw [hy] at d3
  constructor
  · have i2 := inv_eq_right_inv c2
    have i3 := inv_eq_right_inv c3
    rw [← i2, ← i3]
  · have : (eb.covar⁻¹ + z1.Hᵀ * z1.R⁻¹ * z1.H + z2.Hᵀ * z2.R⁻¹ * z2.H) *ᵥ e2.dev =
        (eb.covar⁻¹ + z1.Hᵀ * z1.R⁻¹ * z1.H + z2.Hᵀ * z2.R⁻¹ * z2.H) *ᵥ e3.dev := by
      rw [d2, d3, d1]
      abel
    exact mulVec_injective_of_isUnit hI.isUnit this

/-- The hypotheses are met by the example filter with two scalar measurements. -/
example (y1 y2 : ℝ) : ∃ kf1 kf2 kf3 e1 e2 e3 r1 r2 r3 g1 g2 g3,
    (exKf .deviationTracking).measurementUpdate someChol (fun _ _ => none) exX (exZ y1) none =
      .ok (kf1, e1, r1, g1) ∧
    kf1.measurementUpdate someChol (fun _ _ => none) exX (exZ y2) none = .ok (kf2, e2, r2, g2) ∧
    (exKf .deviationTracking).measurementUpdate someChol (fun _ _ => none) exX
      ((exZ y1).stack (exZ y2)) none = .ok (kf3, e3, r3, g3) := by
  obtain ⟨⟨kf1, e1, r1, g1⟩, h1⟩ := exOk .deviationTracking y1 none
  have hs1 := (symPsd_iff _).1 exSymPsd
  obtain ⟨p1, p2, p3⟩ := msr_psd (kf := exKf .deviationTracking) (z := exZ y1) hs1
    (by intro q hq; simp [exKf] at hq) hs1 h1
  have hn : kf1.noises = [] := by
    obtain ⟨_, _, _, _, _, _, _, _, _, _, _, _, _, hcase⟩ := measurementUpdate_ok h1
    rcases hcase with ⟨_, _, _, h3⟩ | ⟨_, _, _, _, _, _, h3⟩
    · obtain ⟨_, _, _, _, h4, _⟩ := timeUpdate_ok h3
      rw [h4]; rfl
    · rw [h3]; rfl
  have hp : kf1.predict (fun _ _ => none) exX 1 = .ok (1 * kf1.prev.covar * 1ᵀ, kf1.prevUsedSnc) := by
    unfold KF.predict
    rw [hn]
    rfl
  obtain ⟨⟨kf2, e2, r2, g2⟩, h2⟩ := (singular_innovation (dcm := fun _ _ => none) someChol_spec kf1 exX
    (exZ y2) none 1 _ ((symPsd_iff _).2 p1) p2 exSymPsd rfl hp).2 (by
      rw [← Matrix.mul_assoc]
      refine PosDef.posSemidef_add (posSemidef_conj ?_ _) PosDef.one
      simpa using p1)
  have hR : ((exZ y1).stack (exZ y2)).R.PosDef := stack_posDef PosDef.one PosDef.one
  obtain ⟨⟨kf3, e3, r3, g3⟩, h3⟩ := (singular_innovation (dcm := fun _ _ => none) someChol_spec
    (exKf .deviationTracking) exX ((exZ y1).stack (exZ y2)) none 1 (1, 0) exSymPsd (by simp [exKf])
    ((symPsd_iff _).2 hR.posSemidef) rfl (exPredict _)).2 (by
      rw [← Matrix.mul_assoc]
      exact PosDef.posSemidef_add (posSemidef_conj PosSemidef.one _) hR)
  exact ⟨kf1, kf2, kf3, e1, e2, e3, r1, r2, r3, g1, g2, g3, h1, h2, h3⟩

end Verif.Kalman
