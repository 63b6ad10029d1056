import Mathlib.Data.Matrix.Diagonal
import Mathlib.Data.Real.Basic
import Mathlib.Data.Fintype.Basic
import Mathlib.Tactic.FinCases
import Mathlib.Tactic.Linarith
import Mathlib.Tactic.Ring
import Mathlib.Tactic.NormNum
/-!
C230: estimates in the Python interface, `SpacecraftEstimate.from_diag` and `SpacecraftEstimate.covariance`
(nyx-py/src/py_od.rs:217-304).
-/
namespace Verif.Py
open Matrix

/-- `matrix.iter()` of nalgebra: column by column. -/
def colMajor (M : Matrix (Fin 9) (Fin 9) ℝ) : List ℝ :=
  (List.finRange 9).flatMap fun j => (List.finRange 9).map fun i => M i j

/-- `Array2::from_shape_vec((9, 9), data)` of ndarray, row by row: `none` if the number of elements is not 81 (the `expect`
panics). -/
def fromShapeVec (data : List ℝ) : Option (Fin 9 → Fin 9 → ℝ) :=
  if data.length = 81 then some fun i j => data.getD (9 * i.val + j.val) 0 else none

/-- The getter `covariance`. nyx-py/src/py_od.rs:289-304. -/
def covariance (covar : Matrix (Fin 9) (Fin 9) ℝ) : Option (Fin 9 → Fin 9 → ℝ) := fromShapeVec (colMajor covarᵀ)

/-- `from_diag`: the state and the covariance of the estimate; `none` is the `ValueError` of an array whose size is not 9. A
numpy array that is not contiguous is also refused; it is left out. `KfEstimate::from_diag` copies the diagonal.
nyx-py/src/py_od.rs:219-237, nyx-core/src/od/estimate/kfestimate.rs:89-99. -/
def fromDiag {S : Type} (nominal : S) (diag : List ℝ) : Option (S × Matrix (Fin 9) (Fin 9) ℝ) :=
  if diag.length = 9 then some (nominal, Matrix.diagonal fun i => diag.getD i.val 0) else none

theorem flat_getElem {n m : Nat} (f : Nat → Nat → ℝ) : ∀ i j, i < n → j < m →
    ((List.range n).flatMap fun i => (List.range m).map fun j => f i j)[m * i + j]? = some (f i j) := by
  induction n with
  | zero => intro i j hi; omega
  | succ n ih =>
    intro i j hi hj
    have hlen : ∀ n, ((List.range n).flatMap fun i => (List.range m).map fun j => f i j).length = m * n := by
      intro n
      induction n with
      | zero => simp
      | succ n ih => rw [List.range_succ, List.flatMap_append, List.length_append, ih]; simp [Nat.mul_succ]
    rw [List.range_succ, List.flatMap_append]
    by_cases h : i < n
    · rw [List.getElem?_append_left]
      · exact ih i j h hj
      · rw [hlen]
        have h1 : m * (i + 1) ≤ m * n := Nat.mul_le_mul_left _ h
        rw [Nat.mul_succ] at h1
        omega
    · have : i = n := by omega
      subst this
      rw [List.getElem?_append_right (by rw [hlen]; omega), hlen]
      simp [hj]

/-- **C230.** The array of the covariance of an estimate has at row `i` and column `j` the covariance of the components `i`
and `j`, whatever the matrix (symmetric or not), and its reading never fails. An estimate is built from nine values, and only
nine; its covariance array then has them on the diagonal and zero elsewhere, and its nominal state is the one given. -/
theorem python_covariance {S : Type} (covar : Matrix (Fin 9) (Fin 9) ℝ) (nominal : S) (diag : List ℝ) :
    (∃ A, covariance covar = some A ∧ ∀ i j, A i j = covar i j) ∧
    (fromDiag nominal diag = none ↔ diag.length ≠ 9) ∧
    (∀ x P, fromDiag nominal diag = some (x, P) → x = nominal ∧
      ∃ A, covariance P = some A ∧ (∀ i : Fin 9, diag[i.val]? = some (A i i)) ∧ ∀ i j, i ≠ j → A i j = 0) := by
  have key : ∀ covar : Matrix (Fin 9) (Fin 9) ℝ, ∃ A, covariance covar = some A ∧ ∀ i j, A i j = covar i j := by
    intro covar
    have hr : (List.finRange 9).map Fin.val = List.range 9 := by decide
    let f : Nat → Nat → ℝ := fun i j => if h : i < 9 ∧ j < 9 then covar ⟨i, h.1⟩ ⟨j, h.2⟩ else 0
    have hc : colMajor covarᵀ = (List.range 9).flatMap fun i => (List.range 9).map fun j => f i j := by
      unfold colMajor
      rw [← hr, List.flatMap_map]
      congr 1
      funext i
      rw [List.map_map]
      congr 1
      funext j
      simp [f]
    have hl : (colMajor covarᵀ).length = 81 := by
      unfold colMajor
      simp
    refine ⟨_, by unfold covariance fromShapeVec; rw [if_pos hl], fun i j => ?_⟩
    rw [List.getD_eq_getElem?_getD, hc, flat_getElem f i.val j.val i.isLt j.isLt]
    simp [f]
  refine ⟨key covar, by unfold fromDiag; split <;> simp_all, fun x P h => ?_⟩
  unfold fromDiag at h
  split at h
  · rename_i hl
    simp only [Option.some.injEq, Prod.mk.injEq] at h
    obtain ⟨rfl, rfl⟩ := h
    obtain ⟨A, h1, h2⟩ := key (Matrix.diagonal fun i : Fin 9 => diag.getD i.val 0)
    refine ⟨rfl, A, h1, fun i => ?_, fun i j hij => ?_⟩
    · rw [h2, diagonal_apply_eq, List.getD_eq_getElem?_getD]
      rw [List.getElem?_eq_getElem (by omega)]
      rfl
    · rw [h2, diagonal_apply_ne _ hij]
  · cases h

example : fromDiag 'x' [1, 2, 3, 4, 5, 6, 7, 8, 9] = some ('x', Matrix.diagonal fun i => (i.val : ℝ) + 1) := by
  unfold fromDiag
  rw [if_pos (by rfl)]
  congr 3
  funext i
  fin_cases i <;> norm_num

end Verif.Py
