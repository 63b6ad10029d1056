import Mathlib.Analysis.Calculus.LocalExtr.Rolle
import Mathlib.Analysis.Calculus.Deriv.Polynomial
import Mathlib.Algebra.Polynomial.Derivative
import Mathlib.Data.Finset.Max
import Mathlib.LinearAlgebra.Lagrange
/-!
C221: the error of the interpolation by values and derivatives at distinct times (Hermite interpolation).
-/
namespace Verif.Traj
open Finset Polynomial

/-- `F (k + 1)` is the derivative of `F k` between `A` and `B`, for the `k` below `N`. -/
def Derivs (F : Nat → ℝ → ℝ) (N : Nat) (A B : ℝ) : Prop := ∀ k < N, ∀ s ∈ Set.Icc A B, HasDerivAt (F k) (F (k + 1) s) s

/-! ### Rolle's theorem on sets of zeros -/

theorem rolle_set {g g' : ℝ → ℝ} {A B : ℝ} (hg : ∀ s ∈ Set.Icc A B, HasDerivAt g (g' s) s) (S : Finset ℝ) (hS : ∀ x ∈ S, x ∈ Set.Icc A B ∧ g x = 0) :
    ∃ T : Finset ℝ, (∀ x ∈ T, x ∈ Set.Icc A B ∧ g' x = 0) ∧ Disjoint S T ∧ S.card ≤ T.card + 1 := by
  have h : ∀ x ∈ S, ∀ y ∈ S, x < y → ∃ z, x < z ∧ z < y ∧ g' z = 0 := by
    intro x hx y hy hxy
    have hsub : ∀ z ∈ Set.Icc x y, z ∈ Set.Icc A B := fun z hz => ⟨(hS x hx).1.1.trans hz.1, hz.2.trans (hS y hy).1.2⟩
    obtain ⟨z, hz, e⟩ := exists_hasDerivAt_eq_zero (f := g) (f' := g') hxy (fun z hz => (hg z (hsub z hz)).continuousAt.continuousWithinAt)
      (by rw [(hS x hx).2, (hS y hy).2]) fun z hz => hg z (hsub z ⟨hz.1.le, hz.2.le⟩)
    exact ⟨z, hz.1, hz.2, e⟩
  choose! c hc using h
  obtain ⟨T, hT⟩ : ∃ T, T = ((S ×ˢ S).filter fun p => p.1 < p.2).image fun p => c p.1 p.2 := ⟨_, rfl⟩
  refine ⟨T \ S, ?_, disjoint_sdiff, ?_⟩
  · intro z hz
    rw [hT, mem_sdiff, mem_image] at hz
    obtain ⟨⟨⟨x, y⟩, hp, rfl⟩, -⟩ := hz
    rw [mem_filter, mem_product] at hp
    obtain ⟨h1, h2, h3⟩ := hc x hp.1.1 y hp.1.2 hp.2
    exact ⟨⟨(hS x hp.1.1).1.1.trans h1.le, h2.le.trans (hS y hp.1.2).1.2⟩, h3⟩
  · refine card_le_sdiff_of_interleaved fun x hx y hy hxy _ => ?_
    refine ⟨c x y, ?_, (hc x hx y hy hxy).1, (hc x hx y hy hxy).2.1⟩
    rw [hT]
    exact mem_image.2 ⟨(x, y), mem_filter.2 ⟨mem_product.2 ⟨hx, hy⟩, hxy⟩, rfl⟩

theorem rolle_iter {A B : ℝ} : ∀ (m : Nat) (F : Nat → ℝ → ℝ), Derivs F m A B → ∀ S : Finset ℝ, (∀ x ∈ S, x ∈ Set.Icc A B ∧ F 0 x = 0) →
    m + 1 ≤ S.card → ∃ ξ ∈ Set.Icc A B, F m ξ = 0 := by
  intro m
  induction m with
  | zero =>
    intro F _ S hS hc
    obtain ⟨x, hx⟩ := card_pos.1 (by omega : 0 < S.card)
    exact ⟨x, hS x hx⟩
  | succ m ih =>
    intro F hF S hS hc
    obtain ⟨T, hT, -, hcard⟩ := rolle_set (hF 0 (by omega)) S hS
    exact ih (fun k => F (k + 1)) (fun k hk s hs => hF (k + 1) (by omega) s hs) T hT (by omega)

/-! ### The errors -/

/-- The derivatives of a polynomial. -/
noncomputable def polyF (P : ℝ[X]) (k : Nat) (s : ℝ) : ℝ := (derivative^[k] P).eval s

theorem polyF_derivs (P : ℝ[X]) (N : Nat) (A B : ℝ) : Derivs (polyF P) N A B := by
  intro k _ s _
  unfold polyF
  rw [Function.iterate_succ_apply']
  exact (derivative^[k] P).hasDerivAt s

theorem Derivs.sub {F G : Nat → ℝ → ℝ} {N : Nat} {A B : ℝ} (hF : Derivs F N A B) (hG : Derivs G N A B) : Derivs (fun k s => F k s - G k s) N A B :=
  fun k hk s hs => (hF k hk s hs).sub (hG k hk s hs)

theorem polyF_low {P : ℝ[X]} {N : Nat} (h : P.degree < N) (s : ℝ) : polyF P N s = 0 := by
  unfold polyF
  rw [iterate_derivative_eq_zero_of_degree_lt h, eval_zero]

theorem polyF_monic {W : ℝ[X]} {N : Nat} (hW : W.Monic) (h : W.natDegree = N) (s : ℝ) : polyF W N s = N.factorial := by
  unfold polyF
  have h0 : (derivative^[N] W).natDegree = 0 := by
    have := natDegree_iterate_derivative W N
    omega
  rw [eq_C_of_natDegree_eq_zero h0, eval_C, coeff_iterate_derivative, zero_add, Nat.descFactorial_self, ← h, hW.coeff_natDegree, nsmul_eq_mul, mul_one]

/-- A function with as many zeros as derivatives. -/
theorem zeros_error {G : Nat → ℝ → ℝ} {m : Nat} {A B : ℝ} (hG : Derivs G m A B) (U : Finset ℝ) (hU : ∀ u ∈ U, u ∈ Set.Icc A B ∧ G 0 u = 0) (hc : U.card = m)
    {t : ℝ} (ht : t ∈ Set.Icc A B) : ∃ ξ ∈ Set.Icc A B, G 0 t = G m ξ / m.factorial * ∏ u ∈ U, (t - u) := by
  by_cases htU : t ∈ U
  · exact ⟨t, ht, by rw [(hU t htU).2, prod_eq_zero htU (sub_self t), mul_zero]⟩
  obtain ⟨W, hW⟩ : ∃ W : ℝ[X], W = ∏ u ∈ U, (X - C u) := ⟨_, rfl⟩
  have hWm : W.Monic := by rw [hW]; exact monic_prod_of_monic _ _ fun u _ => monic_X_sub_C u
  have hWd : W.natDegree = m := by
    rw [hW, natDegree_prod_of_monic _ _ fun u _ => monic_X_sub_C u]
    simp [hc]
  have hWe : ∀ s, W.eval s = ∏ u ∈ U, (s - u) := fun s => by rw [hW, eval_prod]; simp
  have hWt : W.eval t ≠ 0 := by
    rw [hWe, prod_ne_zero_iff]
    intro u hu
    exact sub_ne_zero.2 fun h => htU (h ▸ hu)
  obtain ⟨c, hcd⟩ : ∃ c, c = G 0 t / W.eval t := ⟨_, rfl⟩
  have hH : Derivs (fun k s => G k s - polyF (C c * W) k s) m A B := hG.sub (polyF_derivs _ _ _ _)
  have hp0 : ∀ s, polyF (C c * W) 0 s = c * W.eval s := fun s => by simp [polyF]
  obtain ⟨ξ, hξ, e⟩ := rolle_iter m _ hH (insert t U) (by
    intro x hx
    rw [mem_insert] at hx
    rcases hx with rfl | hx
    · refine ⟨ht, ?_⟩
      simp only [hp0]
      rw [hcd]
      field_simp
      ring
    · refine ⟨(hU x hx).1, ?_⟩
      simp only [hp0]
      rw [(hU x hx).2, hWe, prod_eq_zero hx (sub_self x)]
      ring) (by rw [card_insert_of_notMem htU, hc])
  refine ⟨ξ, hξ, ?_⟩
  have hpm : polyF (C c * W) m ξ = c * m.factorial := by
    have := polyF_monic hWm hWd ξ
    unfold polyF at this ⊢
    rw [iterate_derivative_C_mul, eval_mul, eval_C, this]
  simp only [hpm] at e
  rw [← hWe, sub_eq_zero.1 e, hcd]
  have : (m.factorial : ℝ) ≠ 0 := by exact_mod_cast m.factorial_ne_zero
  field_simp

/-- The polynomial `P` of degree below `2 n` has the values and derivatives of `F` at the `n` times of `S`. -/
structure Matches (P : ℝ[X]) (S : Finset ℝ) (F : Nat → ℝ → ℝ) : Prop where
  degree : P.degree < (2 * S.card : ℕ)
  value : ∀ s ∈ S, P.eval s = F 0 s
  slope : ∀ s ∈ S, P.derivative.eval s = F 1 s

/-- The error of the value. -/
theorem hermite_value {F : Nat → ℝ → ℝ} {A B : ℝ} {S : Finset ℝ} (hF : Derivs F (2 * S.card) A B) (hn : 1 ≤ S.card) (hS : ∀ s ∈ S, s ∈ Set.Icc A B)
    {P : ℝ[X]} (hP : Matches P S F) {t : ℝ} (ht : t ∈ Set.Icc A B) :
    ∃ ξ ∈ Set.Icc A B, F 0 t - P.eval t = F (2 * S.card) ξ / (2 * S.card).factorial * ∏ s ∈ S, (t - s) ^ 2 := by
  obtain ⟨n, hnd⟩ : ∃ n, n = S.card := ⟨_, rfl⟩
  rw [← hnd] at hF hn ⊢
  by_cases htS : t ∈ S
  · exact ⟨t, ht, by rw [hP.value t htS, prod_eq_zero htS (by rw [sub_self]; norm_num), mul_zero, sub_self]⟩
  obtain ⟨W, hW⟩ : ∃ W : ℝ[X], W = ∏ u ∈ S, (X - C u) ^ 2 := ⟨_, rfl⟩
  have hWm : W.Monic := by rw [hW]; exact monic_prod_of_monic _ _ fun u _ => (monic_X_sub_C u).pow 2
  have hWd : W.natDegree = 2 * n := by
    rw [hW, natDegree_prod_of_monic _ _ fun u _ => (monic_X_sub_C u).pow 2]
    simp [(monic_X_sub_C _).natDegree_pow, hnd, mul_comm]
  have hWe : ∀ s, W.eval s = ∏ u ∈ S, (s - u) ^ 2 := fun s => by rw [hW, eval_prod]; simp
  have hW' : ∀ s ∈ S, W.derivative.eval s = 0 := by
    intro s hs
    rw [hW, ← mul_prod_erase _ _ hs, derivative_mul, derivative_pow]
    simp
  have hWt : W.eval t ≠ 0 := by
    rw [hWe, prod_ne_zero_iff]
    intro u hu
    exact pow_ne_zero 2 (sub_ne_zero.2 fun h => htS (h ▸ hu))
  obtain ⟨c, hcd⟩ : ∃ c, c = (F 0 t - P.eval t) / W.eval t := ⟨_, rfl⟩
  have hH : Derivs (fun k s => F k s - polyF (P + C c * W) k s) (2 * n) A B := hF.sub (polyF_derivs _ _ _ _)
  have hp0 : ∀ s, polyF (P + C c * W) 0 s = P.eval s + c * W.eval s := fun s => by simp [polyF]
  have hp1 : ∀ s, polyF (P + C c * W) 1 s = P.derivative.eval s + c * W.derivative.eval s := fun s => by simp [polyF]
  obtain ⟨T, hT, hdis, hcard⟩ := rolle_set (hH 0 (by omega)) (insert t S) (by
    intro x hx
    rw [mem_insert] at hx
    rcases hx with rfl | hx
    · refine ⟨ht, ?_⟩
      simp only [hp0]
      rw [hcd]
      field_simp
      ring
    · refine ⟨hS x hx, ?_⟩
      simp only [hp0]
      rw [hP.value x hx, hWe, prod_eq_zero hx (by rw [sub_self]; norm_num)]
      ring)
  rw [card_insert_of_notMem htS, ← hnd] at hcard
  have hdis' : Disjoint S T := hdis.mono_left (subset_insert t S)
  obtain ⟨m, hm⟩ : ∃ m, 2 * n = m + 1 := ⟨2 * n - 1, by omega⟩
  obtain ⟨ξ, hξ, e⟩ := rolle_iter m (fun k s => F (k + 1) s - polyF (P + C c * W) (k + 1) s) (fun k hk s hs => hH (k + 1) (by omega) s hs) (S ∪ T) (by
    intro x hx
    rw [mem_union] at hx
    rcases hx with hx | hx
    · refine ⟨hS x hx, ?_⟩
      simp only [zero_add, hp1]
      rw [hP.slope x hx, hW' x hx]
      ring
    · exact hT x hx) (by rw [card_union_of_disjoint hdis', ← hnd]; omega)
  refine ⟨ξ, hξ, ?_⟩
  have hpm : polyF (P + C c * W) (2 * n) ξ = c * (2 * n).factorial := by
    have h1 := polyF_monic hWm hWd ξ
    have h2 := polyF_low hP.degree ξ
    rw [← hnd] at h2
    unfold polyF at h1 h2 ⊢
    rw [iterate_map_add, eval_add, h2, iterate_derivative_C_mul, eval_mul, eval_C, h1, zero_add]
  simp only [← hm, hpm] at e
  rw [← hWe, sub_eq_zero.1 e, hcd]
  have : ((2 * n).factorial : ℝ) ≠ 0 := by exact_mod_cast (2 * n).factorial_ne_zero
  field_simp

/-- The error of the derivative. -/
theorem hermite_slope {F : Nat → ℝ → ℝ} {A B M : ℝ} {S : Finset ℝ} (hF : Derivs F (2 * S.card) A B) (hn : 1 ≤ S.card) (hS : ∀ s ∈ S, s ∈ Set.Icc A B)
    (hM : ∀ s ∈ Set.Icc A B, |F (2 * S.card) s| ≤ M)
    {P : ℝ[X]} (hP : Matches P S F) {t : ℝ} (ht : t ∈ Set.Icc A B) :
    |F 1 t - P.derivative.eval t| ≤ M * (B - A) ^ (2 * S.card - 1) / (2 * S.card - 1).factorial := by
  obtain ⟨n, hnd⟩ : ∃ n, n = S.card := ⟨_, rfl⟩
  rw [← hnd] at hF hn hM ⊢
  obtain ⟨m, hm⟩ : ∃ m, 2 * n = m + 1 := ⟨2 * n - 1, by omega⟩
  have hH : Derivs (fun k s => F k s - polyF P k s) (2 * n) A B := hF.sub (polyF_derivs _ _ _ _)
  have hp0 : ∀ s, polyF P 0 s = P.eval s := fun s => by simp [polyF]
  have hp1 : ∀ s, polyF P 1 s = P.derivative.eval s := fun s => by simp [polyF]
  obtain ⟨T, hT, hdis, hcard⟩ := rolle_set (hH 0 (by omega)) S (fun x hx => ⟨hS x hx, by simp only [hp0, hP.value x hx, sub_self]⟩)
  obtain ⟨U, hU, hUc⟩ := exists_subset_card_eq (s := S ∪ T) (n := m) (by rw [card_union_of_disjoint hdis]; omega)
  obtain ⟨ξ, hξ, e⟩ := zeros_error (G := fun k s => F (k + 1) s - polyF P (k + 1) s) (fun k hk s hs => hH (k + 1) (by omega) s hs) U (by
    intro x hx
    rcases mem_union.1 (hU hx) with hx | hx
    · exact ⟨hS x hx, by simp only [zero_add, hp1, hP.slope x hx, sub_self]⟩
    · exact hT x hx) hUc ht
  have hlow : polyF P (m + 1) ξ = 0 := polyF_low (by have := hP.degree; rw [← hnd, hm] at this; exact this) ξ
  simp only [zero_add, hp1, hlow, sub_zero] at e
  rw [e, hm, Nat.add_sub_cancel, abs_mul, abs_div, abs_prod, abs_of_nonneg (by positivity : (0 : ℝ) ≤ (m.factorial : ℝ))]
  have h1 : ∏ u ∈ U, |t - u| ≤ (B - A) ^ m := by
    rw [← hUc, ← prod_const]
    refine prod_le_prod (fun _ _ => abs_nonneg _) fun u hu => ?_
    have hu' : u ∈ Set.Icc A B := by
      rcases mem_union.1 (hU hu) with hx | hx
      · exact hS u hx
      · exact (hT u hx).1
    rw [abs_le]
    constructor <;> linarith [ht.1, ht.2, hu'.1, hu'.2]
  have h2 := hM ξ hξ
  rw [hm] at h2
  have h3 : 0 ≤ M := (abs_nonneg _).trans h2
  have hf : (0 : ℝ) < m.factorial := by exact_mod_cast m.factorial_pos
  calc |F (m + 1) ξ| / m.factorial * ∏ u ∈ U, |t - u| ≤ M / m.factorial * (B - A) ^ m := by
        gcongr
    _ = M * (B - A) ^ m / m.factorial := by ring

/-! ### Errors of the data -/

/-- The polynomial of degree below `2 n` which is one at `i`, with zero derivative there and zero value and derivative at the other times. -/
noncomputable def unitValue (S : Finset ℝ) (i : ℝ) : ℝ[X] :=
  (1 - C (2 * (Lagrange.basis S id i).derivative.eval i) * (X - C i)) * Lagrange.basis S id i ^ 2

/-- The one with derivative one at `i`. -/
noncomputable def unitSlope (S : Finset ℝ) (i : ℝ) : ℝ[X] := (X - C i) * Lagrange.basis S id i ^ 2

/-- The polynomial with the values `e` and the derivatives `e'` at the times of `S`. -/
noncomputable def hermitePoly (S : Finset ℝ) (e e' : ℝ → ℝ) : ℝ[X] := ∑ i ∈ S, (C (e i) * unitValue S i + C (e' i) * unitSlope S i)

theorem basis_self {S : Finset ℝ} {i : ℝ} (hi : i ∈ S) : (Lagrange.basis S id i).eval i = 1 :=
  Lagrange.eval_basis_self (v := id) (fun _ _ _ _ h => h) hi

theorem basis_other {S : Finset ℝ} {i j : ℝ} (h : i ≠ j) (hj : j ∈ S) : (Lagrange.basis S id i).eval j = 0 :=
  Lagrange.eval_basis_of_ne (v := id) h hj

theorem unitValue_eval {S : Finset ℝ} {i j : ℝ} (hj : j ∈ S) : (unitValue S i).eval j = if i = j then 1 else 0 := by
  unfold unitValue
  split
  · rename_i h
    subst h
    simp [basis_self hj]
  · rename_i h
    simp [basis_other h hj]

theorem unitSlope_eval {S : Finset ℝ} {i j : ℝ} (hj : j ∈ S) : (unitSlope S i).eval j = 0 := by
  unfold unitSlope
  by_cases h : i = j
  · subst h
    simp
  · simp [basis_other h hj]

theorem unitValue_derivative (S : Finset ℝ) (i t : ℝ) : (unitValue S i).derivative.eval t =
    -(2 * (Lagrange.basis S id i).derivative.eval i) * (Lagrange.basis S id i).eval t ^ 2 +
    (1 - 2 * (Lagrange.basis S id i).derivative.eval i * (t - i)) * (2 * (Lagrange.basis S id i).eval t * (Lagrange.basis S id i).derivative.eval t) := by
  unfold unitValue
  simp [derivative_pow]

theorem unitSlope_derivative (S : Finset ℝ) (i t : ℝ) : (unitSlope S i).derivative.eval t =
    (Lagrange.basis S id i).eval t ^ 2 + (t - i) * (2 * (Lagrange.basis S id i).eval t * (Lagrange.basis S id i).derivative.eval t) := by
  unfold unitSlope
  simp [derivative_pow]

theorem unitValue_slope {S : Finset ℝ} {i j : ℝ} (hj : j ∈ S) : (unitValue S i).derivative.eval j = 0 := by
  rw [unitValue_derivative]
  by_cases h : i = j
  · subst h
    rw [basis_self hj]
    ring
  · rw [basis_other h hj]
    ring

theorem unitSlope_slope {S : Finset ℝ} {i j : ℝ} (hj : j ∈ S) : (unitSlope S i).derivative.eval j = if i = j then 1 else 0 := by
  rw [unitSlope_derivative]
  split
  · rename_i h
    subst h
    rw [basis_self hj]
    ring
  · rename_i h
    rw [basis_other h hj]
    ring

theorem basis_natDegree {S : Finset ℝ} {i : ℝ} (hi : i ∈ S) : (Lagrange.basis S id i).natDegree = S.card - 1 :=
  natDegree_eq_of_degree_eq_some (Lagrange.degree_basis (v := id) (fun _ _ _ _ h => h) hi)

theorem hermitePoly_degree {S : Finset ℝ} (e e' : ℝ → ℝ) (hn : 1 ≤ S.card) : (hermitePoly S e e').degree < (2 * S.card : ℕ) := by
  have hb : ∀ i ∈ S, (Lagrange.basis S id i ^ 2).natDegree ≤ 2 * (S.card - 1) := fun i hi => by
    have := natDegree_pow_le (p := Lagrange.basis S id i) (n := 2)
    rw [basis_natDegree hi] at this
    exact this
  have hlin : ∀ a b : ℝ, (1 - C a * (X - C b) : ℝ[X]).natDegree ≤ 1 := fun a b => by
    refine (natDegree_sub_le _ _).trans (max_le (by simp) ?_)
    exact (natDegree_C_mul_le _ _).trans (natDegree_X_sub_C_le b)
  have hN : (hermitePoly S e e').natDegree ≤ 2 * S.card - 1 := by
    unfold hermitePoly
    refine natDegree_sum_le_of_forall_le _ _ fun i hi => ?_
    refine (natDegree_add_le _ _).trans (max_le ?_ ?_)
    · refine (natDegree_C_mul_le _ _).trans (natDegree_mul_le.trans ?_)
      have h1 := hlin (2 * (Lagrange.basis S id i).derivative.eval i) i
      have h2 := hb i hi
      omega
    · refine (natDegree_C_mul_le _ _).trans (natDegree_mul_le.trans ?_)
      have h1 := natDegree_X_sub_C_le i
      have h2 := hb i hi
      omega
  refine degree_le_natDegree.trans_lt ?_
  exact_mod_cast (by omega : (hermitePoly S e e').natDegree < 2 * S.card)

theorem hermitePoly_value {S : Finset ℝ} (e e' : ℝ → ℝ) {j : ℝ} (hj : j ∈ S) : (hermitePoly S e e').eval j = e j := by
  unfold hermitePoly
  rw [eval_finset_sum, sum_eq_single j]
  · simp [unitValue_eval hj, unitSlope_eval hj]
  · intro i _ h
    simp [unitValue_eval hj, unitSlope_eval hj, h]
  · exact fun h => absurd hj h

theorem hermitePoly_slope {S : Finset ℝ} (e e' : ℝ → ℝ) {j : ℝ} (hj : j ∈ S) : (hermitePoly S e e').derivative.eval j = e' j := by
  unfold hermitePoly
  rw [derivative_sum, eval_finset_sum, sum_eq_single j]
  · simp [unitValue_slope hj, unitSlope_slope hj]
  · intro i _ h
    simp [unitValue_slope hj, unitSlope_slope hj, h]
  · exact fun h => absurd hj h

/-- The times are between `A` and `B` and not closer to each other than the fraction `1/κ` of this interval. -/
structure Spread (S : Finset ℝ) (A B κ : ℝ) : Prop where
  order : A < B
  within : ∀ s ∈ S, s ∈ Set.Icc A B
  apart : ∀ s ∈ S, ∀ u ∈ S, s ≠ u → B - A ≤ κ * |s - u|
  one_le : 1 ≤ κ

theorem basis_bounds {S : Finset ℝ} {A B κ : ℝ} (h : Spread S A B κ) {i t : ℝ} (hi : i ∈ S) (ht : t ∈ Set.Icc A B) :
    |(Lagrange.basis S id i).eval t| ≤ κ ^ S.card ∧ (B - A) * |(Lagrange.basis S id i).derivative.eval t| ≤ S.card * κ ^ S.card := by
  have hκ := h.one_le
  have hW : 0 < B - A := sub_pos.2 h.order
  have hinv : ∀ j ∈ S.erase i, (B - A) * |(i - j)⁻¹| ≤ κ := by
    intro j hj
    rw [mem_erase] at hj
    have hne : 0 < |i - j| := abs_pos.2 (sub_ne_zero.2 (Ne.symm hj.1))
    rw [abs_inv, ← div_eq_mul_inv, div_le_iff₀ hne]
    exact h.apart i hi j hj.2 (Ne.symm hj.1)
  have hdiv : ∀ j ∈ S.erase i, |(Lagrange.basisDivisor (id i) (id j)).eval t| ≤ κ := by
    intro j hj
    have hj' := h.within j (mem_of_mem_erase hj)
    unfold Lagrange.basisDivisor
    simp only [id, eval_mul, eval_C, eval_sub, eval_X]
    rw [abs_mul]
    have h1 : |t - j| ≤ B - A := by rw [abs_le]; constructor <;> linarith [ht.1, ht.2, hj'.1, hj'.2]
    have h2 := hinv j hj
    calc |(i - j)⁻¹| * |t - j| ≤ |(i - j)⁻¹| * (B - A) := by gcongr
      _ ≤ κ := by linarith [mul_comm (B - A) |(i - j)⁻¹|]
  have hprod : ∀ T ⊆ S.erase i, |(∏ j ∈ T, Lagrange.basisDivisor (id i) (id j)).eval t| ≤ κ ^ (S.card - 1) := by
    intro T hT
    rw [eval_prod, abs_prod]
    calc ∏ j ∈ T, |(Lagrange.basisDivisor (id i) (id j)).eval t| ≤ ∏ _j ∈ T, κ := prod_le_prod (fun _ _ => abs_nonneg _) fun j hj => hdiv j (hT hj)
      _ = κ ^ T.card := prod_const _
      _ ≤ κ ^ (S.card - 1) := pow_le_pow_right₀ hκ (by have := card_le_card hT; rw [card_erase_of_mem hi] at this; exact this)
  constructor
  · exact (hprod _ (Subset.refl _)).trans (pow_le_pow_right₀ hκ (by omega))
  · unfold Lagrange.basis
    rw [derivative_prod_finset, eval_finset_sum]
    have hterm : ∀ j ∈ S.erase i, (B - A) * |eval t ((∏ k ∈ (S.erase i).erase j, Lagrange.basisDivisor (id i) (id k)) * derivative (Lagrange.basisDivisor (id i) (id j)))| ≤ κ ^ S.card := by
      intro j hj
      have hd : eval t (derivative (Lagrange.basisDivisor (id i) (id j))) = (i - j)⁻¹ := by
        unfold Lagrange.basisDivisor
        simp
      rw [eval_mul, hd, abs_mul]
      have h1 := hprod ((S.erase i).erase j) (erase_subset _ _)
      have h2 := hinv j hj
      have hc : 1 ≤ S.card := card_pos.2 ⟨i, hi⟩
      calc (B - A) * (|eval t (∏ k ∈ (S.erase i).erase j, Lagrange.basisDivisor (id i) (id k))| * |(i - j)⁻¹|)
          = |eval t (∏ k ∈ (S.erase i).erase j, Lagrange.basisDivisor (id i) (id k))| * ((B - A) * |(i - j)⁻¹|) := by ring
        _ ≤ κ ^ (S.card - 1) * κ := by gcongr
        _ = κ ^ S.card := by rw [← pow_succ, Nat.sub_add_cancel hc]
    calc (B - A) * |∑ j ∈ S.erase i, eval t ((∏ k ∈ (S.erase i).erase j, Lagrange.basisDivisor (id i) (id k)) * derivative (Lagrange.basisDivisor (id i) (id j)))|
        ≤ (B - A) * ∑ j ∈ S.erase i, |eval t ((∏ k ∈ (S.erase i).erase j, Lagrange.basisDivisor (id i) (id k)) * derivative (Lagrange.basisDivisor (id i) (id j)))| := by
          gcongr; exact abs_sum_le_sum_abs _ _
      _ = ∑ j ∈ S.erase i, (B - A) * |eval t ((∏ k ∈ (S.erase i).erase j, Lagrange.basisDivisor (id i) (id k)) * derivative (Lagrange.basisDivisor (id i) (id j)))| := mul_sum _ _ _
      _ ≤ ∑ _j ∈ S.erase i, κ ^ S.card := sum_le_sum hterm
      _ = (S.card - 1 : ℕ) * κ ^ S.card := by rw [sum_const, nsmul_eq_mul, card_erase_of_mem hi]
      _ ≤ S.card * κ ^ S.card := by
          have : ((S.card - 1 : ℕ) : ℝ) ≤ S.card := by exact_mod_cast Nat.sub_le _ _
          gcongr

/-- How much the interpolation amplifies the errors of its data. -/
noncomputable def amplification (n : Nat) (κ : ℝ) : ℝ := 8 * n ^ 3 * κ ^ (3 * n)

theorem hermitePoly_bounds {S : Finset ℝ} {A B κ ε ε' : ℝ} (h : Spread S A B κ) {e e' : ℝ → ℝ} (he : ∀ s ∈ S, |e s| ≤ ε) (he' : ∀ s ∈ S, |e' s| ≤ ε')
    (hε : 0 ≤ ε) (hε' : 0 ≤ ε') {t : ℝ} (ht : t ∈ Set.Icc A B) :
    |(hermitePoly S e e').eval t| ≤ amplification S.card κ * (ε + (B - A) * ε') ∧
    (B - A) * |(hermitePoly S e e').derivative.eval t| ≤ amplification S.card κ * (ε + (B - A) * ε') := by
  obtain ⟨W, hW⟩ : ∃ W, W = B - A := ⟨_, rfl⟩
  obtain ⟨n, hn⟩ : ∃ n : ℝ, n = S.card := ⟨_, rfl⟩
  obtain ⟨l, hl⟩ : ∃ l, l = κ ^ S.card := ⟨_, rfl⟩
  have hW0 : 0 < W := by rw [hW]; exact sub_pos.2 h.order
  have hl1 : 1 ≤ l := by rw [hl]; exact one_le_pow₀ h.one_le
  have hn0 : 0 ≤ n := by rw [hn]; positivity
  have hamp : amplification S.card κ = 8 * n ^ 3 * l ^ 3 := by
    unfold amplification
    rw [hn, hl, ← pow_mul, mul_comm S.card 3]
  rw [hamp, ← hW]
  have hone : ∀ i ∈ S, |(unitValue S i).eval t| ≤ 3 * n * l ^ 3 ∧ |(unitSlope S i).eval t| ≤ W * (n * l ^ 3) ∧
      W * |(unitValue S i).derivative.eval t| ≤ 8 * n ^ 2 * l ^ 3 ∧ |(unitSlope S i).derivative.eval t| ≤ 3 * n * l ^ 3 := by
    intro i hi
    have hn1 : 1 ≤ n := by rw [hn]; exact_mod_cast card_pos.2 ⟨i, hi⟩
    obtain ⟨b1, b2⟩ := basis_bounds h hi ht
    obtain ⟨-, b3⟩ := basis_bounds h hi (h.within i hi)
    rw [← hl] at b1
    rw [← hl, ← hn, ← hW] at b2 b3
    have hti : |t - i| ≤ W := by
      have hi' := h.within i hi
      rw [hW, abs_le]
      constructor <;> linarith [ht.1, ht.2, hi'.1, hi'.2]
    obtain ⟨y, hy⟩ : ∃ y, y = (Lagrange.basis S id i).eval t := ⟨_, rfl⟩
    obtain ⟨y', hy'⟩ : ∃ y', y' = (Lagrange.basis S id i).derivative.eval t := ⟨_, rfl⟩
    obtain ⟨m, hm⟩ : ∃ m, m = (Lagrange.basis S id i).derivative.eval i := ⟨_, rfl⟩
    rw [← hy] at b1
    rw [← hy'] at b2
    rw [← hm] at b3
    have hfac : |1 - 2 * m * (t - i)| ≤ 3 * n * l := by
      have h1 : |2 * m * (t - i)| ≤ 2 * (n * l) := by
        rw [abs_mul, abs_mul, abs_two]
        calc 2 * |m| * |t - i| ≤ 2 * |m| * W := by gcongr
          _ = 2 * (W * |m|) := by ring
          _ ≤ 2 * (n * l) := by gcongr
      have h2 := abs_sub (1 : ℝ) (2 * m * (t - i))
      rw [abs_one] at h2
      nlinarith [mul_le_mul hn1 hl1 zero_le_one hn0]
    have hy2 : y ^ 2 ≤ l ^ 2 := by rw [← sq_abs]; gcongr
    have hll : l ^ 2 ≤ l ^ 3 := pow_le_pow_right₀ hl1 (by norm_num)
    have hl3 : 0 ≤ l ^ 3 := by positivity
    have hnl : l ^ 3 ≤ n * l ^ 3 := by nlinarith
    refine ⟨?_, ?_, ?_, ?_⟩
    · have e1 : (unitValue S i).eval t = (1 - 2 * m * (t - i)) * y ^ 2 := by unfold unitValue; simp [hy, hm]
      rw [e1, abs_mul, abs_of_nonneg (sq_nonneg y)]
      calc |1 - 2 * m * (t - i)| * y ^ 2 ≤ 3 * n * l * l ^ 2 := by gcongr
        _ = 3 * n * l ^ 3 := by ring
    · have e1 : (unitSlope S i).eval t = (t - i) * y ^ 2 := by unfold unitSlope; simp [hy]
      rw [e1, abs_mul, abs_of_nonneg (sq_nonneg y)]
      calc |t - i| * y ^ 2 ≤ W * l ^ 2 := by gcongr
        _ ≤ W * (n * l ^ 3) := by gcongr; linarith
    · rw [unitValue_derivative, ← hy, ← hy', ← hm]
      have s1 := abs_add_le (-(2 * m) * y ^ 2) ((1 - 2 * m * (t - i)) * (2 * y * y'))
      have s2 : W * |-(2 * m) * y ^ 2| ≤ 2 * (n * l) * l ^ 2 := by
        rw [abs_mul, abs_neg, abs_mul, abs_two, abs_of_nonneg (sq_nonneg y)]
        calc W * (2 * |m| * y ^ 2) = 2 * (W * |m|) * y ^ 2 := by ring
          _ ≤ 2 * (n * l) * l ^ 2 := by gcongr
      have s3 : W * |(1 - 2 * m * (t - i)) * (2 * y * y')| ≤ 3 * n * l * (2 * l * (n * l)) := by
        rw [abs_mul, abs_mul, abs_mul, abs_two]
        calc W * (|1 - 2 * m * (t - i)| * (2 * |y| * |y'|)) = |1 - 2 * m * (t - i)| * (2 * |y| * (W * |y'|)) := by ring
          _ ≤ 3 * n * l * (2 * l * (n * l)) := by gcongr
      have s4 : n * l ^ 3 ≤ n ^ 2 * l ^ 3 := by
        have : n ≤ n ^ 2 := by nlinarith
        gcongr
      have s5 : W * |-(2 * m) * y ^ 2 + (1 - 2 * m * (t - i)) * (2 * y * y')| ≤
          W * (|-(2 * m) * y ^ 2| + |(1 - 2 * m * (t - i)) * (2 * y * y')|) := by gcongr
      nlinarith
    · rw [unitSlope_derivative, ← hy, ← hy']
      have s1 := abs_add_le (y ^ 2) ((t - i) * (2 * y * y'))
      have s3 : |(t - i) * (2 * y * y')| ≤ 2 * l * (n * l) := by
        rw [abs_mul, abs_mul, abs_mul, abs_two]
        calc |t - i| * (2 * |y| * |y'|) ≤ W * (2 * |y| * |y'|) := by gcongr
          _ = 2 * |y| * (W * |y'|) := by ring
          _ ≤ 2 * l * (n * l) := by gcongr
      rw [abs_of_nonneg (sq_nonneg y)] at s1
      have s4 : n * l ^ 2 ≤ n * l ^ 3 := by gcongr
      nlinarith
  have hcard : (S.card : ℝ) = n := hn.symm
  have hl3 : 0 ≤ l ^ 3 := by positivity
  constructor
  · unfold hermitePoly
    rw [eval_finset_sum]
    calc |∑ i ∈ S, eval t (C (e i) * unitValue S i + C (e' i) * unitSlope S i)|
        ≤ ∑ i ∈ S, |eval t (C (e i) * unitValue S i + C (e' i) * unitSlope S i)| := abs_sum_le_sum_abs _ _
      _ ≤ ∑ _i ∈ S, 3 * n * l ^ 3 * (ε + W * ε') := by
          refine sum_le_sum fun i hi => ?_
          obtain ⟨h1, h2, -, -⟩ := hone i hi
          rw [eval_add, eval_mul, eval_mul, eval_C, eval_C]
          refine (abs_add_le _ _).trans ?_
          rw [abs_mul, abs_mul]
          have a1 : |e i| * |eval t (unitValue S i)| ≤ ε * (3 * n * l ^ 3) := mul_le_mul (he i hi) h1 (abs_nonneg _) hε
          have a2 : |e' i| * |eval t (unitSlope S i)| ≤ ε' * (W * (n * l ^ 3)) := mul_le_mul (he' i hi) h2 (abs_nonneg _) hε'
          have a3 : 0 ≤ ε' * (W * (n * l ^ 3)) := by positivity
          nlinarith
      _ = 3 * n ^ 2 * l ^ 3 * (ε + W * ε') := by rw [sum_const, nsmul_eq_mul, hcard]; ring
      _ ≤ 8 * n ^ 3 * l ^ 3 * (ε + W * ε') := by
          have : 3 * n ^ 2 ≤ 8 * n ^ 3 := by
            rcases S.eq_empty_or_nonempty with hS | hS
            · rw [hn, hS]; simp
            · have hn1 : 1 ≤ n := by rw [hn]; exact_mod_cast card_pos.2 hS
              nlinarith [sq_nonneg n]
          gcongr
  · unfold hermitePoly
    rw [derivative_sum, eval_finset_sum]
    calc W * |∑ i ∈ S, eval t (derivative (C (e i) * unitValue S i + C (e' i) * unitSlope S i))|
        ≤ W * ∑ i ∈ S, |eval t (derivative (C (e i) * unitValue S i + C (e' i) * unitSlope S i))| := by gcongr; exact abs_sum_le_sum_abs _ _
      _ = ∑ i ∈ S, W * |eval t (derivative (C (e i) * unitValue S i + C (e' i) * unitSlope S i))| := mul_sum _ _ _
      _ ≤ ∑ _i ∈ S, 8 * n ^ 2 * l ^ 3 * (ε + W * ε') := by
          refine sum_le_sum fun i hi => ?_
          obtain ⟨-, -, h3, h4⟩ := hone i hi
          have hn1 : 1 ≤ n := by rw [hn]; exact_mod_cast card_pos.2 ⟨i, hi⟩
          rw [derivative_add, derivative_C_mul, derivative_C_mul, eval_add, eval_mul, eval_mul, eval_C, eval_C]
          have a0 := abs_add_le (e i * eval t (derivative (unitValue S i))) (e' i * eval t (derivative (unitSlope S i)))
          rw [abs_mul, abs_mul] at a0
          have a1 : |e i| * (W * |eval t (derivative (unitValue S i))|) ≤ ε * (8 * n ^ 2 * l ^ 3) := mul_le_mul (he i hi) h3 (by positivity) hε
          have a2 : |e' i| * |eval t (derivative (unitSlope S i))| ≤ ε' * (3 * n * l ^ 3) := mul_le_mul (he' i hi) h4 (abs_nonneg _) hε'
          have a3 : ε' * (3 * n * l ^ 3) ≤ ε' * (8 * n ^ 2 * l ^ 3) := by
            have : 3 * n ≤ 8 * n ^ 2 := by nlinarith
            gcongr
          have a4 := mul_le_mul_of_nonneg_left a0 hW0.le
          have a5 := mul_le_mul_of_nonneg_left (a2.trans a3) hW0.le
          nlinarith
      _ = 8 * n ^ 3 * l ^ 3 * (ε + W * ε') := by rw [sum_const, nsmul_eq_mul, hcard]; ring

/-- **The error of the interpolation of inexact data.** -/
theorem hermite_error {F : Nat → ℝ → ℝ} {A B κ M ε ε' : ℝ} {S : Finset ℝ} (hn : 1 ≤ S.card) (h : Spread S A B κ) (hF : Derivs F (2 * S.card) A B)
    (hM : ∀ s ∈ Set.Icc A B, |F (2 * S.card) s| ≤ M) {P : ℝ[X]} (hd : P.degree < (2 * S.card : ℕ)) (hε : 0 ≤ ε) (hε' : 0 ≤ ε')
    (h0 : ∀ s ∈ S, |P.eval s - F 0 s| ≤ ε) (h1 : ∀ s ∈ S, |P.derivative.eval s - F 1 s| ≤ ε') {t : ℝ} (ht : t ∈ Set.Icc A B) :
    |P.eval t - F 0 t| ≤ M * (B - A) ^ (2 * S.card) / (2 * S.card).factorial + amplification S.card κ * (ε + (B - A) * ε') ∧
    (B - A) * |P.derivative.eval t - F 1 t| ≤
      M * (B - A) ^ (2 * S.card) / (2 * S.card - 1).factorial + amplification S.card κ * (ε + (B - A) * ε') := by
  obtain ⟨Q, hQ⟩ : ∃ Q, Q = hermitePoly S (fun s => P.eval s - F 0 s) (fun s => P.derivative.eval s - F 1 s) := ⟨_, rfl⟩
  obtain ⟨q1, q2⟩ := hermitePoly_bounds h h0 h1 hε hε' ht
  rw [← hQ] at q1 q2
  have hW : 0 < B - A := sub_pos.2 h.order
  have hm : Matches (P - Q) S F := by
    refine ⟨?_, ?_, ?_⟩
    · refine (degree_sub_le _ _).trans_lt (max_lt hd ?_)
      rw [hQ]
      exact hermitePoly_degree _ _ hn
    · intro s hs
      rw [eval_sub, hQ, hermitePoly_value _ _ hs]
      ring
    · intro s hs
      rw [derivative_sub, eval_sub, hQ, hermitePoly_slope _ _ hs]
      ring
  constructor
  · obtain ⟨ξ, hξ, e⟩ := hermite_value hF hn h.within hm ht
    have hb : |F 0 t - (P - Q).eval t| ≤ M * (B - A) ^ (2 * S.card) / (2 * S.card).factorial := by
      rw [e, abs_mul, abs_div, abs_prod, abs_of_nonneg (by positivity : (0 : ℝ) ≤ ((2 * S.card).factorial : ℝ))]
      have hp : ∏ s ∈ S, |(t - s) ^ 2| ≤ (B - A) ^ (2 * S.card) := by
        rw [pow_mul, ← prod_const]
        refine prod_le_prod (fun _ _ => abs_nonneg _) fun s hs => ?_
        have hs' := h.within s hs
        have : |t - s| ≤ B - A := by rw [abs_le]; constructor <;> linarith [ht.1, ht.2, hs'.1, hs'.2]
        rw [abs_pow]
        gcongr
      have hf : (0 : ℝ) < (2 * S.card).factorial := by exact_mod_cast (2 * S.card).factorial_pos
      have hM0 : 0 ≤ M := (abs_nonneg _).trans (hM ξ hξ)
      calc |F (2 * S.card) ξ| / (2 * S.card).factorial * ∏ s ∈ S, |(t - s) ^ 2| ≤ M / (2 * S.card).factorial * (B - A) ^ (2 * S.card) := by
            have := hM ξ hξ
            gcongr
        _ = _ := by ring
    have e2 : P.eval t - F 0 t = Q.eval t - (F 0 t - (P - Q).eval t) := by rw [eval_sub]; ring
    rw [e2]
    refine (abs_sub _ _).trans ?_
    linarith
  · have hb := hermite_slope hF hn h.within hM hm ht
    have e2 : P.derivative.eval t - F 1 t = Q.derivative.eval t - (F 1 t - (P - Q).derivative.eval t) := by rw [derivative_sub, eval_sub]; ring
    rw [e2]
    have h3 := abs_sub (Q.derivative.eval t) (F 1 t - (P - Q).derivative.eval t)
    have h4 : (B - A) * |F 1 t - (P - Q).derivative.eval t| ≤ M * (B - A) ^ (2 * S.card) / (2 * S.card - 1).factorial := by
      calc (B - A) * |F 1 t - (P - Q).derivative.eval t| ≤ (B - A) * (M * (B - A) ^ (2 * S.card - 1) / (2 * S.card - 1).factorial) := by gcongr
        _ = M * (B - A) ^ (2 * S.card - 1 + 1) / (2 * S.card - 1).factorial := by rw [pow_succ]; ring
        _ = _ := by rw [Nat.sub_add_cancel (by omega)]
    have h5 := mul_le_mul_of_nonneg_left h3 hW.le
    linarith

end Verif.Traj
