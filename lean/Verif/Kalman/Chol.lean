import Verif.Kalman.Theorems
import Mathlib.Analysis.Matrix.LDL
import Mathlib.LinearAlgebra.Matrix.Block
/-!
The specification assumed of the Cholesky decomposition is satisfiable, and concrete cases meeting the
hypotheses of C28 to C31.
-/
namespace Verif.Kalman
open Matrix

theorem cholesky_exists {m : Nat} {S : Matrix (Fin m) (Fin m) ℝ} (hS : S.PosDef) :
    ∃ L : Matrix (Fin m) (Fin m) ℝ, L * Lᵀ = S ∧ ∀ i j, i < j → L i j = 0 := by
  have hpos : ∀ i, 0 < LDL.diagEntries hS i := by
    have hd := LDL.diag_eq_lowerInv_conj hS
    have hu : IsUnit (LDL.lowerInv hS) := isUnit_of_invertible _
    have : (LDL.diag hS).PosDef := by
      rw [hd]
      exact (IsUnit.posDef_star_right_conjugate_iff hu).2 hS
    exact posDef_diagonal_iff.1 this
  refine ⟨LDL.lower hS * diagonal (fun i => Real.sqrt (LDL.diagEntries hS i)), ?_, ?_⟩
  · have h := LDL.lower_conj_diag hS
    rw [conjTranspose_eq_transpose_of_trivial] at h
    rw [transpose_mul, diagonal_transpose, Matrix.mul_assoc,
      ← Matrix.mul_assoc (diagonal _) (diagonal _), diagonal_mul_diagonal, ← Matrix.mul_assoc]
    have hd : (fun i => √(LDL.diagEntries hS i) * √(LDL.diagEntries hS i)) = LDL.diagEntries hS := by
      funext i
      exact Real.mul_self_sqrt (hpos i).le
    rw [hd]
    exact h
  · intro i j hij
    have htri : (LDL.lowerInv hS).BlockTriangular OrderDual.toDual := by
      intro i j h
      exact LDL.lowerInv_triangular hS h
    have := blockTriangular_inv_of_blockTriangular htri
    have hz : LDL.lower hS i j = 0 := this hij
    rw [mul_diagonal, hz, zero_mul]

open Classical in
/-- A Cholesky decomposition. -/
noncomputable def someChol : Chol := fun _ S =>
  if h : S.PosDef then some (cholesky_exists h).choose else none

theorem someChol_spec : CholSpec someChol := by
  refine ⟨fun m S h => ⟨(cholesky_exists h).choose, by unfold someChol; rw [dif_pos h]⟩, ?_⟩
  intro m S L _ h
  unfold someChol at h
  split at h
  · rename_i hS
    injection h with h
    subst h
    exact ⟨hS, (cholesky_exists hS).choose_spec⟩
  · cases h

/-! A one dimensional filter: covariance 1, no process noise, one measurement of sensitivity 1 and
noise 1. -/

/-- Initial filter of the examples. -/
noncomputable def exKf (v : Variant) : KF Unit Unit 1 3 :=
  { prev := { nominal := { orbit := (), epoch := 0, stm := some 1 }, dev := 0, covar := 1,
              covarBar := 1, stm := 1, predicted := false }
    noises := [], variant := v, prevUsedSnc := 0 }

/-- State at 10 s. -/
noncomputable def exX : Nominal Unit 1 := { orbit := (), epoch := 10000000000, stm := some 1 }

/-- Estimate at 10 s without measurement. -/
noncomputable def exE (v : Variant) : Est Unit 1 :=
  { nominal := exX
    dev := if v = .deviationTracking then (1 : Matrix (Fin 1) (Fin 1) ℝ) *ᵥ 0 else 0
    covar := 1, covarBar := 1, stm := 1, predicted := true }

/-- Measurement with prefit `y`. -/
noncomputable def exZ (y : ℝ) : MsrIn 1 1 :=
  { real := fun _ => y, computed := 0, R := 1, H := 1 }

theorem exPredict (v : Variant) :
    (exKf v).predict (fun _ _ => none) exX 1 = .ok (1, 0) := by
  simp [KF.predict, exKf, sncLoop, Res.bind]

theorem exSymPsd : SymPsd (1 : Matrix (Fin 1) (Fin 1) ℝ) := (symPsd_iff _).2 PosSemidef.one

theorem exOk (v : Variant) (y : ℝ) (t : Option ℝ) :
    ∃ out, (exKf v).measurementUpdate someChol (fun _ _ => none) exX (exZ y) t = .ok out := by
  refine (singular_innovation someChol_spec (exKf v) exX (exZ y) t 1 (1, 0) exSymPsd
    (by simp [exKf]) exSymPsd rfl (exPredict v)).2 ?_
  simp only [exZ, Matrix.one_mul, transpose_one]
  exact PosDef.one.add PosDef.one

/-- The hypotheses of C28 to C31 are met by the filter of the example, whatever the residual. -/
example (v : Variant) (y : ℝ) : ∃ kf', (exKf v).run someChol (fun _ _ => none)
    [.time exX, .msr exX 1 (exZ y) (some 3)] = .ok kf' ∧ SymPsd (exKf v).prev.covar ∧
    (∀ o ∈ [Op.time exX, Op.msr exX 1 (exZ y) (some 3)], GoodOp o) := by
  suffices h : ∃ kf', (exKf v).run someChol (fun _ _ => none)
      [.time exX, .msr exX 1 (exZ y) (some 3)] = .ok kf' by
    obtain ⟨kf', h⟩ := h
    exact ⟨kf', h, exSymPsd, by simp [GoodOp, exZ, exSymPsd]⟩
  have h1 : (exKf v).timeUpdate (fun _ _ => none) exX = .ok
      ((exKf v).store 0 (exE v),
       (exE v)) := by
    unfold KF.timeUpdate
    have := exPredict v
    simp only [exX] at this ⊢
    rw [this]; rfl
  rw [KF.run, h1, Res.bind_ok, KF.run]
  set kf1 := (exKf v).store 0 (exE v) with hk
  have hp : kf1.predict (fun _ _ => none) exX 1 = .ok (1, 0) := by
    simp [KF.predict, hk, KF.store, exKf, exE, sncLoop, Res.bind]
  have hok := (singular_innovation (dcm := fun _ _ => none) someChol_spec kf1 exX (exZ y) (some 3) 1
    (1, 0) exSymPsd (by simp [hk, KF.store, exKf]) exSymPsd rfl hp).2 (by
      simp only [exZ, Matrix.one_mul, transpose_one]
      exact PosDef.one.add PosDef.one)
  obtain ⟨out, ho⟩ := hok
  rw [ho, Res.bind_ok, KF.run]
  exact ⟨_, rfl⟩

end Verif.Kalman
