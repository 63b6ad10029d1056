import Verif.Kalman.Model
import Mathlib.Analysis.Matrix.Order
import Mathlib.Algebra.Order.Star.Real
/-! Helper lemmas of the Kalman filter theorems. -/
namespace Verif.Kalman
open Matrix
set_option linter.unusedSectionVars false

theorem Res.bind_eq_ok {α β : Type} {r : Res α} {f : α → Res β} {b : β} :
    r.bind f = .ok b ↔ ∃ a, r = .ok a ∧ f a = .ok b := by
  cases r <;> simp [Res.bind]

theorem Res.bind_ok {α β : Type} (a : α) (f : α → Res β) : (Res.ok a).bind f = f a := rfl

variable {F Ω : Type} {s a m : Nat}

theorem posSemidef_conj {k l : Type} [Fintype k] [Fintype l] [DecidableEq k] [DecidableEq l]
    {P : Matrix k k ℝ} (h : P.PosSemidef) (A : Matrix l k ℝ) : (A * P * Aᵀ).PosSemidef := by
  have := h.mul_mul_conjTranspose_same A
  rwa [conjTranspose_eq_transpose_of_trivial] at this

theorem PosSemidef.symm {k : Type} [Fintype k] {P : Matrix k k ℝ} (h : P.PosSemidef) : Pᵀ = P := by
  have := h.isHermitian
  rwa [IsHermitian, conjTranspose_eq_transpose_of_trivial] at this

theorem at_nonneg {d : Fin a → ℝ} (h : ∀ i, 0 ≤ d i) (j : Nat) : 0 ≤ at_ d j := by
  unfold at_; split
  · exact h _
  · exact le_refl _

theorem rotDiag_nonneg {R : Matrix (Fin 3) (Fin 3) ℝ} {d d' : Fin a → ℝ} (h : ∀ i, 0 ≤ d i)
    (e : rotDiag R d = .ok d') : ∀ i, 0 ≤ d' i := by
  unfold rotDiag at e
  split at e
  · cases e
    intro i
    refine Finset.sum_nonneg fun k _ => ?_
    have := at_nonneg h (3 * (i.val / 3) + k.val)
    nlinarith [mul_nonneg this (mul_self_nonneg (R ⟨i.val % 3, Nat.mod_lt _ (by omega)⟩ k))]
  · cases e

theorem toDiag_some {q : Noise F a} {epoch : Int} {d : Fin a → ℝ} (e : q.toDiag epoch = .ok (some d)) :
    q.applies epoch = true ∧ ((∀ i, 0 ≤ q.diag i) → ∀ i, 0 ≤ d i) := by
  unfold Noise.toDiag at e
  split at e
  · rename_i h
    refine ⟨h, fun hq i => ?_⟩
    split at e
    · cases e; exact hq i
    · split at e
      · cases e
      · cases e; exact mul_nonneg (hq i) (Real.exp_nonneg _)
  · cases e

theorem propagate_some {dcm : F → Ω → Option (Matrix (Fin 3) (Fin 3) ℝ)} {q : Noise F a} {o : Ω}
    {epoch dt : Int} {C : Matrix (Fin s) (Fin s) ℝ}
    (e : q.propagate s dcm o epoch dt = .ok (some C)) :
    q.applies epoch = true ∧ dt ≤ q.disableTime ∧
      ∃ (G : Matrix (Fin s) (Fin a) ℝ) (d : Fin a → ℝ), gamma s a (toSec dt) = .ok G ∧
        C = G * Matrix.diagonal d * Gᵀ ∧ ((∀ i, 0 ≤ q.diag i) → ∀ i, 0 ≤ d i) := by
  unfold Noise.propagate at e
  obtain ⟨od, h1, e⟩ := Res.bind_eq_ok.1 e
  cases od with
  | none => cases e
  | some d =>
    obtain ⟨h2, h3⟩ := toDiag_some h1
    obtain ⟨d', h4, e⟩ := Res.bind_eq_ok.1 e
    split at e
    · cases e
    · rename_i h5
      obtain ⟨G, h6, e⟩ := Res.bind_eq_ok.1 e
      cases e
      refine ⟨h2, not_lt.1 h5, G, d', h6, rfl, fun hq => ?_⟩
      split at h4
      · cases h4; exact h3 hq
      · split at h4
        · cases h4
        · exact rotDiag_nonneg (h3 hq) h4

/-- The noise is not used: tests on epochs. -/
theorem propagate_none {dcm : F → Ω → Option (Matrix (Fin 3) (Fin 3) ℝ)} {q : Noise F a} {o : Ω}
    {epoch dt : Int} (e : q.propagate s dcm o epoch dt = .ok none) :
    q.applies epoch = false ∨ q.disableTime < dt := by
  unfold Noise.propagate at e
  obtain ⟨od, h1, e⟩ := Res.bind_eq_ok.1 e
  cases od with
  | none =>
    left
    unfold Noise.toDiag at h1
    split at h1
    · split at h1
      · cases h1
      · split at h1 <;> cases h1
    · rename_i h
      simpa using h
  | some d =>
    obtain ⟨d', h4, e⟩ := Res.bind_eq_ok.1 e
    split at e
    · right; assumption
    · obtain ⟨G, h6, e⟩ := Res.bind_eq_ok.1 e
      cases e

theorem gamma_psd {q : Fin a → ℝ} (h : ∀ i, 0 ≤ q i) (G : Matrix (Fin s) (Fin a) ℝ) :
    (G * Matrix.diagonal q * Gᵀ).PosSemidef :=
  posSemidef_conj (PosSemidef.diagonal h) G

theorem sncLoop_some {dcm : F → Ω → Option (Matrix (Fin 3) (Fin 3) ℝ)} {x : Nominal Ω s} {dt : Int}
    {l : List (Noise F a × Nat)} {i : Nat} {C : Matrix (Fin s) (Fin s) ℝ}
    (e : sncLoop dcm x dt l = .ok (some (i, C))) :
    ∃ pre q post, l = pre ++ (q, i) :: post ∧
      q.propagate s dcm x.orbit x.epoch dt = .ok (some C) ∧
      ∀ p ∈ pre, p.1.propagate s dcm x.orbit x.epoch dt = .ok none := by
  induction l with
  | nil => simp [sncLoop] at e
  | cons p rest ih =>
    obtain ⟨q, j⟩ := p
    rw [sncLoop] at e
    obtain ⟨o, h1, e⟩ := Res.bind_eq_ok.1 e
    cases o with
    | some D =>
      cases e
      exact ⟨[], q, rest, rfl, h1, by simp⟩
    | none =>
      obtain ⟨pre, q', post, h2, h3, h4⟩ := ih e
      refine ⟨(q, j) :: pre, q', post, by simp [h2], h3, ?_⟩
      intro p hp
      rcases List.mem_cons.1 hp with rfl | hp
      · exact h1
      · exact h4 p hp

theorem sncLoop_none {dcm : F → Ω → Option (Matrix (Fin 3) (Fin 3) ℝ)} {x : Nominal Ω s} {dt : Int}
    {l : List (Noise F a × Nat)} (e : sncLoop dcm x dt l = .ok none) :
    ∀ p ∈ l, p.1.propagate s dcm x.orbit x.epoch dt = .ok none := by
  induction l with
  | nil => simp
  | cons p rest ih =>
    obtain ⟨q, j⟩ := p
    rw [sncLoop] at e
    obtain ⟨o, h1, e⟩ := Res.bind_eq_ok.1 e
    cases o with
    | some D => cases e
    | none =>
      intro p hp
      rcases List.mem_cons.1 hp with rfl | hp
      · exact h1
      · exact ih e p hp

/-- Every noise of the filter has non negative diagonal values. -/
def GoodNoises (kf : KF F Ω s a) : Prop := ∀ q ∈ kf.noises, ∀ i, 0 ≤ q.diag i

theorem predict_psd {dcm : F → Ω → Option (Matrix (Fin 3) (Fin 3) ℝ)} {kf : KF F Ω s a}
    {x : Nominal Ω s} {stm : Matrix (Fin s) (Fin s) ℝ} {pu : Matrix (Fin s) (Fin s) ℝ × Nat}
    (hP : kf.prev.covar.PosSemidef) (hq : GoodNoises kf) (e : kf.predict dcm x stm = .ok pu) :
    pu.1.PosSemidef := by
  unfold KF.predict at e
  obtain ⟨o, h1, e⟩ := Res.bind_eq_ok.1 e
  have h0 := posSemidef_conj hP stm
  rcases o with _ | ⟨i, C⟩
  · cases e; exact h0
  · cases e
    obtain ⟨pre, q, post, h2, h3, _⟩ := sncLoop_some h1
    obtain ⟨_, _, G, d, _, rfl, h4⟩ := propagate_some h3
    refine h0.add (gamma_psd (h4 ?_) G)
    have : (q, i) ∈ kf.noises.zipIdx.reverse := by rw [h2]; simp
    rw [List.mem_reverse] at this
    have := List.mem_zipIdx' this
    exact hq q (by rw [this.2]; exact List.getElem_mem _)

/-! ### Algebra of the update -/

section
variable {k l : Type} [Fintype k] [Fintype l] [DecidableEq k] [DecidableEq l]

theorem innovation_psd {P : Matrix k k ℝ} {R : Matrix l l ℝ} (hP : P.PosSemidef)
    (hR : R.PosSemidef) (H : Matrix l k ℝ) : (H * (P * Hᵀ) + R).PosSemidef := by
  rw [← Matrix.mul_assoc]
  exact (posSemidef_conj hP H).add hR

/-- Joseph form for any gain, expanded. -/
theorem joseph_expand (P : Matrix k k ℝ) (H : Matrix l k ℝ) (R : Matrix l l ℝ) (K : Matrix k l ℝ) :
    (1 - K * H) * P * (1 - K * H)ᵀ + K * R * Kᵀ =
      P - K * (H * P) - P * Hᵀ * Kᵀ + K * (H * (P * Hᵀ) + R) * Kᵀ := by
  simp only [transpose_sub, transpose_one, transpose_mul, Matrix.sub_mul, Matrix.mul_sub,
    Matrix.one_mul, Matrix.mul_one, Matrix.mul_add, Matrix.add_mul, Matrix.mul_assoc]
  abel

theorem joseph_opt {P : Matrix k k ℝ} {H : Matrix l k ℝ} {R S : Matrix l l ℝ}
    (hP : Pᵀ = P) (hS : S = H * (P * Hᵀ) + R) (hSs : Sᵀ = S) (hdet : IsUnit S.det) (K : Matrix k l ℝ) :
    (1 - K * H) * P * (1 - K * H)ᵀ + K * R * Kᵀ =
      (P - P * Hᵀ * S⁻¹ * (H * P)) +
        (K - P * Hᵀ * S⁻¹) * S * (K - P * Hᵀ * S⁻¹)ᵀ := by
  rw [joseph_expand, ← hS]
  have hSi : (S⁻¹)ᵀ = S⁻¹ := by rw [transpose_nonsing_inv, hSs]
  have e1 : ∀ (X : Matrix k l ℝ), X * S⁻¹ * S = X := fun X => by
    rw [Matrix.mul_assoc, nonsing_inv_mul _ hdet, Matrix.mul_one]
  have e2 : ∀ (X : Matrix k l ℝ), X * S * S⁻¹ = X := fun X => by
    rw [Matrix.mul_assoc, mul_nonsing_inv _ hdet, Matrix.mul_one]
  rw [transpose_sub, Matrix.sub_mul K, Matrix.sub_mul, e1, Matrix.mul_sub, Matrix.mul_sub]
  simp only [transpose_mul, transpose_transpose, hSi, hP]
  have e3 : K * S * (S⁻¹ * (H * P)) = K * (H * P) := by
    rw [← Matrix.mul_assoc, e2]
  rw [e3]
  have e4 : P * Hᵀ * (S⁻¹ * (H * P)) = P * Hᵀ * S⁻¹ * (H * P) := by
    rw [Matrix.mul_assoc (P * Hᵀ) S⁻¹]
  rw [e4]
  abel

end

theorem joseph_eq {P : Matrix (Fin s) (Fin s) ℝ} {R : Matrix (Fin m) (Fin m) ℝ} (hP : Pᵀ = P)
    (hR : Rᵀ = R) (H : Matrix (Fin m) (Fin s) ℝ) (K : Matrix (Fin s) (Fin m) ℝ) :
    joseph P H R K = (1 - K * H) * P * (1 - K * H)ᵀ + K * R * Kᵀ := by
  have hC : ((1 - K * H) * P * (1 - K * H)ᵀ + K * R * Kᵀ)ᵀ
      = (1 - K * H) * P * (1 - K * H)ᵀ + K * R * Kᵀ := by
    simp only [transpose_add, transpose_mul, transpose_transpose, hP, hR, Matrix.mul_assoc]
  unfold joseph
  simp only
  rw [hC, ← two_smul ℝ, smul_smul]
  norm_num

theorem joseph_psd {P : Matrix (Fin s) (Fin s) ℝ} {R : Matrix (Fin m) (Fin m) ℝ}
    (hP : P.PosSemidef) (hR : R.PosSemidef) (H : Matrix (Fin m) (Fin s) ℝ)
    (K : Matrix (Fin s) (Fin m) ℝ) : (joseph P H R K).PosSemidef := by
  rw [joseph_eq (PosSemidef.symm hP) (PosSemidef.symm hR)]
  exact (posSemidef_conj hP _).add (posSemidef_conj hR _)

/-- A positive semi definite invertible matrix is positive definite. -/
theorem posDef_of_psd_det {k : Type} [Fintype k] [DecidableEq k] {S : Matrix k k ℝ}
    (h : S.PosSemidef) (hd : S.det ≠ 0) : S.PosDef := by
  exact h.posDef_iff_det_ne_zero.2 hd

end Verif.Kalman
