import Mathlib.Analysis.Complex.Basic
import Mathlib.Analysis.Calculus.Deriv.Polynomial
import Mathlib.Analysis.Calculus.FDeriv.Add
import Verif.Gravity.Legendre
import Verif.Gravity.Checked
import Verif.Force.Orbit

/-!
The acceleration of a gravity field is the gradient of its potential (C163).
-/
namespace Verif.Gravity
open Verif.MathU Matrix Polynomial
open Verif.Force (Dual Tracks lin lin_apply lin_congr hdf)
variable {Fr : Type}

/-! ### Specification -/

/-- The normalization of a degree and an order. -/
noncomputable def unit (n m : ℕ) : ℝ :=
  Real.sqrt ((if m = 0 then 1 else 2) * (2 * n + 1) * (n - m).factorial / (n + m).factorial)

/-- A term of the potential in the direction `p / r`: the derivative of order `m` of the Legendre polynomial of degree
`n` at the sine of the latitude, and the harmonic of the longitude. -/
noncomputable def surface (C S : ℕ → ℕ → ℝ) (p : V3) (n m : ℕ) : ℝ :=
  unit n m * (derivative^[m] (legendre n)).eval (p 2 / nrm p) *
    (((C n m : ℂ) - S n m * Complex.I) * (((p 0 / nrm p : ℝ) : ℂ) + (p 1 / nrm p : ℝ) * Complex.I) ^ m).re

/-- Specification: the potential of a gravity field with coefficients `C` and `S`, less the one of the point mass. -/
noncomputable def potential (N M : ℕ) (C S : ℕ → ℕ → ℝ) (mu radius : ℝ) (p : V3) : ℝ :=
  ∑ k ∈ Finset.range N, mu / nrm p * (radius / nrm p) ^ (k + 1) *
    ∑ m ∈ Finset.range (min (k + 1) M + 1), surface C S p (k + 1) m

/-! ### Normalization -/

theorem root_mul {a b c k : ℝ} (ha : 0 ≤ a) (hk : 0 ≤ k) (h : a * b = k ^ 2 * c) :
    Real.sqrt a * Real.sqrt b = Real.sqrt c * k := by
  rw [← Real.sqrt_mul ha, h, Real.sqrt_mul (by positivity), Real.sqrt_sq hk, mul_comm]

/-- The normalization without the factor for the order. -/
noncomputable def nf (n m : ℕ) : ℝ := Real.sqrt ((2 * n + 1) * (n - m).factorial / (n + m).factorial)

theorem nf_diag (n : ℕ) : Real.sqrt (1 + 1 / (2 * ((n + 1 : ℕ) : ℝ))) * nf n n = nf (n + 1) (n + 1) * (2 * n + 1) := by
  refine root_mul (by positivity) (by positivity) ?_
  have h1 : (n + 1 + (n + 1)).factorial = (2 * n + 2) * ((2 * n + 1) * (n + n).factorial) := by
    rw [show n + 1 + (n + 1) = (n + n) + 1 + 1 by omega, Nat.factorial_succ, Nat.factorial_succ]
    ring
  have h2 : ((n + n).factorial : ℝ) ≠ 0 := by exact_mod_cast Nat.factorial_ne_zero _
  rw [h1]
  simp only [Nat.sub_self, Nat.factorial_zero]
  push_cast
  field_simp

theorem nf_off (m : ℕ) : Real.sqrt (2 * m + 3) * nf m m = nf (m + 1) m * (2 * m + 1) := by
  refine root_mul (by positivity) (by positivity) ?_
  have h1 : (m + 1 + m).factorial = (2 * m + 1) * (m + m).factorial := by
    rw [show m + 1 + m = (m + m) + 1 by omega, Nat.factorial_succ]
    ring
  have h2 : ((m + m).factorial : ℝ) ≠ 0 := by exact_mod_cast Nat.factorial_ne_zero _
  rw [h1]
  simp only [Nat.sub_self, Nat.factorial_zero, Nat.add_sub_cancel_left, Nat.factorial_one]
  push_cast
  field_simp
  ring

theorem nf_b (m k : ℕ) : bb (m + k + 2) m * nf (m + k + 1) m = nf (m + k + 2) m * ((2 * (m + k + 2 : ℕ) - 1) / (k + 2)) := by
  have h1 : (m + k + 2 + m).factorial = (2 * m + k + 2) * (m + k + 1 + m).factorial := by
    rw [show m + k + 2 + m = (m + k + 1 + m) + 1 by omega, Nat.factorial_succ]
    ring
  have h2 : ((m + k + 1 + m).factorial : ℝ) ≠ 0 := by exact_mod_cast Nat.factorial_ne_zero _
  have h3 : ((k + 1).factorial : ℝ) ≠ 0 := by exact_mod_cast Nat.factorial_ne_zero _
  have h4 : (0 : ℝ) ≤ 2 * (m + k + 2 : ℕ) - 1 := by push_cast; nlinarith [Nat.cast_nonneg (α := ℝ) m, Nat.cast_nonneg (α := ℝ) k]
  have e : (((m + k + 2 : ℕ) : ℝ) - m) = k + 2 := by push_cast; ring
  unfold bb
  refine root_mul ?_ (by positivity) ?_
  · rw [e]
    positivity
  rw [h1, e, show m + k + 1 - m = k + 1 by omega, show m + k + 2 - m = (k + 1) + 1 by omega, Nat.factorial_succ (k + 1)]
  push_cast
  field_simp
  ring

theorem nf_c (m k : ℕ) : cc (m + k + 2) m * nf (m + k) m = nf (m + k + 2) m * ((2 * m + k + 1) / (k + 2)) := by
  have h1 : (m + k + 2 + m).factorial = (2 * m + k + 2) * ((2 * m + k + 1) * (m + k + m).factorial) := by
    rw [show m + k + 2 + m = (m + k + m) + 1 + 1 by omega, Nat.factorial_succ, Nat.factorial_succ]
    ring
  have h2 : ((m + k + m).factorial : ℝ) ≠ 0 := by exact_mod_cast Nat.factorial_ne_zero _
  have h3 : (k.factorial : ℝ) ≠ 0 := by exact_mod_cast Nat.factorial_ne_zero _
  have e : (((m + k + 2 : ℕ) : ℝ) - m) = k + 2 := by push_cast; ring
  have e2 : (2 * ((m + k + 2 : ℕ) : ℝ) - 3) = 2 * m + 2 * k + 1 := by push_cast; ring
  have e3 : ((m + k + 2 : ℕ) : ℝ) + m - 1 = 2 * m + k + 1 := by push_cast; ring
  have e4 : (k : ℝ) + 2 - 1 = k + 1 := by ring
  unfold cc
  refine root_mul ?_ (by positivity) ?_
  · rw [e, e2, e3, e4]
    positivity
  rw [h1, e, e2, e3, e4, show m + k - m = k by omega, show m + k + 2 - m = k + 1 + 1 by omega, Nat.factorial_succ, Nat.factorial_succ]
  push_cast
  field_simp
  ring

/-- The diagonal of the code. -/
theorem dg_eq (u : ℝ) (n : ℕ) : dg n = nf n n * (assoc n n).eval u := by
  induction n with
  | zero => simp [dg, nf, assoc, legendre_zero]
  | succ n ih =>
    rw [dg, ih, ← mul_assoc, nf_diag, assoc_diag]
    simp only [eval_mul, eval_add, eval_ofNat, eval_natCast, eval_one]
    ring

/-- The recursions of the code compute the derivatives of the Legendre polynomials, normalized. -/
theorem legCol_eq (u : ℝ) (m k : ℕ) : legCol id u m k = nf (m + k) m * (assoc (m + k) m).eval u := by
  induction k using Nat.strong_induction_on with
  | _ k ih =>
    match k, ih with
    | 0, _ => rw [legCol]; exact dg_eq u m
    | 1, _ =>
      have h : legCol id u m 1 = Real.sqrt (2 * m + 3) * u * dg m := by
        rw [legCol]
        by_cases hm : m = 0
        · subst hm; simp [dg, mul_comm]
        · simp [hm]
      rw [h, dg_eq u m, assoc_off]
      simp only [eval_mul, eval_add, eval_ofNat, eval_natCast, eval_one, eval_X]
      calc _ = (Real.sqrt (2 * m + 3) * nf m m) * (u * eval u (assoc m m)) := by ring
        _ = _ := by rw [nf_off]; ring
    | k + 2, ih =>
      have h := congrArg (eval u) (assoc_three (m + k) m)
      simp only [eval_mul, eval_add, eval_sub, eval_ofNat, eval_natCast, eval_one, eval_X] at h
      have hk : (k : ℝ) + 2 ≠ 0 := by positivity
      rw [legCol, ih (k + 1) (by omega), ih k (by omega)]
      simp only [id, ← add_assoc]
      have h' : eval u (assoc (m + k + 2) m) = ((2 * (m + k : ℕ) + 3) * (u * eval u (assoc (m + k + 1) m)) -
          ((m + k : ℕ) + 1 + m) * eval u (assoc (m + k) m)) / (k + 2) := by
        rw [eq_div_iff hk, ← h]
        push_cast
        ring
      calc _ = u * (bb (m + k + 2) m * nf (m + k + 1) m) * eval u (assoc (m + k + 1) m) -
              (cc (m + k + 2) m * nf (m + k) m) * eval u (assoc (m + k) m) := by ring
        _ = _ := by
          rw [nf_b, nf_c, h']
          push_cast
          field_simp
          ring

theorem legA_eq (u : ℝ) (n m : ℕ) : legA id u n m = nf n m * (assoc n m).eval u := by
  unfold legA
  by_cases h : n < m
  · rw [if_pos h, assoc_above n m h]
    simp
  · rw [if_neg h, legCol_eq]
    congr 2 <;> (try congr 1) <;> omega

/-! ### Powers -/

/-- C69: the recursion computes the powers of a complex number. -/
theorem pw_eq (s t : ℝ) (m : ℕ) : ((s : ℂ) + t * Complex.I) ^ m = (pw id s t m).1 + (pw id s t m).2 * Complex.I := by
  induction m with
  | zero => simp [pw]
  | succ m ih =>
    rw [pow_succ, ih, pw]
    push_cast
    linear_combination (((pw id s t m).2 : ℂ) * t) * Complex.I_mul_I

/-- The harmonic of the longitude. -/
noncomputable def har (c v s t : ℝ) (m : ℕ) : ℝ := c * (pw id s t m).1 + v * (pw id s t m).2

theorem har_eq (c v s t : ℝ) (m : ℕ) : (((c : ℂ) - v * Complex.I) * ((s : ℂ) + t * Complex.I) ^ m).re = har c v s t m := by
  rw [pw_eq]
  simp [har]

theorem unit_eq (n m : ℕ) : unit n m = (if m = 0 then 1 else Real.sqrt 2) * nf n m := by
  unfold unit nf
  by_cases h : m = 0
  · simp [h]
  · simp only [h, if_false]
    rw [mul_assoc, mul_div_assoc, Real.sqrt_mul (by norm_num)]

theorem nf_right (n m : ℕ) (h : m < n) : Real.sqrt ((n - m) * (n + m + 1)) * nf n (m + 1) = nf n m := by
  obtain ⟨k, rfl⟩ : ∃ k, n = m + k + 1 := ⟨n - m - 1, by omega⟩
  have e : (((m + k + 1 : ℕ) : ℝ) - m) = k + 1 := by push_cast; ring
  rw [e, nf, root_mul (c := (2 * ((m + k + 1 : ℕ) : ℝ) + 1) * (m + k + 1 - m).factorial / (m + k + 1 + m).factorial) (k := 1)
    (by positivity) (by norm_num) ?_, mul_one, nf]
  have h2 : ((m + k + 1 + m).factorial : ℝ) ≠ 0 := by exact_mod_cast Nat.factorial_ne_zero _
  rw [show m + k + 1 - (m + 1) = k by omega, show m + k + 1 - m = k + 1 by omega, show m + k + 1 + (m + 1) = (m + k + 1 + m) + 1 by omega,
    Nat.factorial_succ, Nat.factorial_succ]
  push_cast
  field_simp

theorem nf_up (n m : ℕ) (h : m ≤ n) :
    Real.sqrt ((2 * n + 1) * (n + m + 2) * (n + m + 1) / (2 * n + 3)) * nf (n + 1) (m + 1) = nf n m := by
  obtain ⟨k, rfl⟩ : ∃ k, n = m + k := ⟨n - m, by omega⟩
  rw [nf, root_mul (c := (2 * ((m + k : ℕ) : ℝ) + 1) * (m + k - m).factorial / (m + k + m).factorial) (k := 1)
    (by positivity) (by norm_num) ?_, mul_one, nf]
  have h2 : ((m + k + m).factorial : ℝ) ≠ 0 := by exact_mod_cast Nat.factorial_ne_zero _
  rw [show m + k + 1 - (m + 1) = m + k - m by omega, show m + k + 1 + (m + 1) = (m + k + m) + 1 + 1 by omega,
    Nat.factorial_succ, Nat.factorial_succ]
  push_cast
  field_simp
  ring

theorem half_unit (m : ℕ) (x h : ℝ) : half m x * (h * Real.sqrt 2) = (if m = 0 then 1 else Real.sqrt 2) * (x * h) := by
  have h2 : Real.sqrt 2 ≠ 0 := by positivity
  unfold half
  by_cases hm : m = 0
  · simp only [hm, if_true]
    field_simp
  · simp only [hm, if_false]
    ring

/-! ### Terms -/

theorem term_z (c v s t u : ℝ) (n m : ℕ) (h : m ≤ n) :
    id (v01 n m) * legA id u n (m + 1) * dK id s t m (id c) (id v) = unit n m * ((assoc n (m + 1)).eval u * har c v s t m) := by
  simp only [id, dK, v01, legA_eq]
  calc _ = half m (Real.sqrt ((n - m) * (n + m + 1))) * ((nf n (m + 1) * eval u (assoc n (m + 1)) * har c v s t m) * Real.sqrt 2) := by
        rw [har]; ring
    _ = (if m = 0 then 1 else Real.sqrt 2) * ((Real.sqrt ((n - m) * (n + m + 1)) * nf n (m + 1)) * eval u (assoc n (m + 1)) * har c v s t m) := by
        rw [half_unit]; ring
    _ = _ := by
        rcases Nat.lt_or_ge m n with h1 | h1
        · rw [nf_right n m h1, unit_eq]; ring
        · rw [assoc_above n (m + 1) (by omega)]; simp

theorem term_w (c v s t u : ℝ) (n m : ℕ) (h : m ≤ n) :
    id (v11 n m) * legA id u (n + 1) (m + 1) * dK id s t m (id c) (id v) = unit n m * ((assoc (n + 1) (m + 1)).eval u * har c v s t m) := by
  simp only [id, dK, v11, legA_eq]
  calc _ = half m (Real.sqrt ((2 * n + 1) * (n + m + 2) * (n + m + 1) / (2 * n + 3))) *
          ((nf (n + 1) (m + 1) * eval u (assoc (n + 1) (m + 1)) * har c v s t m) * Real.sqrt 2) := by
        rw [har]; ring
    _ = (if m = 0 then 1 else Real.sqrt 2) * ((Real.sqrt ((2 * n + 1) * (n + m + 2) * (n + m + 1) / (2 * n + 3)) * nf (n + 1) (m + 1)) *
          eval u (assoc (n + 1) (m + 1)) * har c v s t m) := by
        rw [half_unit]; ring
    _ = _ := by rw [nf_up n m h, unit_eq]; ring

/-- Derivatives of the harmonic with respect to its arguments. -/
noncomputable def har1 (c v s t : ℝ) (m : ℕ) : ℝ := m * har c v s t (m - 1)
noncomputable def har2 (c v s t : ℝ) (m : ℕ) : ℝ := m * har v (-c) s t (m - 1)

theorem term_x (c v s t u : ℝ) (n m : ℕ) :
    id (m : ℝ) * legA id u n m * eK id s t m (id c) (id v) = unit n m * ((assoc n m).eval u * har1 c v s t m) := by
  simp only [id, eK, legA_eq, unit_eq, har1, har]
  by_cases hm : m = 0
  · simp [hm]
  · simp only [hm, if_false]; ring

theorem term_y (c v s t u : ℝ) (n m : ℕ) :
    id (m : ℝ) * legA id u n m * fK id s t m (id c) (id v) = unit n m * ((assoc n m).eval u * har2 c v s t m) := by
  simp only [id, fK, legA_eq, unit_eq, har2, har]
  by_cases hm : m = 0
  · simp [hm]
  · simp only [hm, if_false]; ring

/-! ### Derivatives -/

theorem Tracks_comp {n : ℕ} {x : Fin n → ℝ} {f : (Fin n → ℝ) → ℝ} {a : Dual n} {g : ℝ → ℝ} {g' : ℝ} (hf : Tracks x f a)
    (hg : HasDerivAt g g' (f x)) : Tracks x (fun y => g (f y)) ⟨g (f x), fun j => g' * a.eps j⟩ := by
  refine ⟨rfl, ?_⟩
  have h := hg.comp_hasFDerivAt x hf.2
  refine hdf h (lin_congr fun v => ?_)
  show g' * lin a.eps v = _
  rw [lin_apply]
  simp only [dotProduct, Finset.mul_sum]
  exact Finset.sum_congr rfl fun j _ => by ring

theorem Tracks_sum {n : ℕ} {x : Fin n → ℝ} {f : ℕ → (Fin n → ℝ) → ℝ} {a : ℕ → Dual n} (k : ℕ) (h : ∀ i, i < k → Tracks x (f i) (a i)) :
    Tracks x (fun y => ∑ i ∈ Finset.range k, f i y) ⟨∑ i ∈ Finset.range k, (a i).re, fun j => ∑ i ∈ Finset.range k, (a i).eps j⟩ := by
  induction k with
  | zero => simpa using (show Tracks x (fun _ => (0 : ℝ)) ⟨0, fun _ => 0⟩ from Tracks.ofReal (x := x) 0)
  | succ k ih =>
    have h1 := (ih fun i hi => h i (by omega)).add (h k (by omega))
    simp only [Finset.sum_range_succ]
    exact h1

/-- The norm and its gradient. -/
theorem tr_nrm (p : V3) (h : p ≠ 0) : Tracks p nrm ⟨nrm p, fun j => p j / nrm p⟩ := by
  have h1 := Tracks.norm3 (x := p) (F := id) (v := Dual.vars p) (fun i => Tracks.var i) h
  have h2 : (Dual.norm3 (Dual.vars p)).re = nrm p := h1.1
  have h3 : Dual.norm3 (Dual.vars p) = ⟨nrm p, fun j => p j / nrm p⟩ := by
    ext j
    · exact h2
    · have h4 : (Dual.norm3 (Dual.vars p)).eps j = (∑ i, 2 * p i * (if j = i then 1 else 0)) / (2 * (Dual.norm3 (Dual.vars p)).re) := by
        rw [Fin.sum_univ_three]
        simp [Dual.norm3, Dual.sqrt, Dual.powi, Dual.vars, HAdd.hAdd, Add.add]
      rw [h4, h2]
      simp only [mul_ite, mul_one, mul_zero, Finset.sum_ite_eq, Finset.mem_univ, if_true]
      rw [mul_div_mul_left _ _ (by norm_num)]
  rw [h3] at h1
  exact h1

/-- A component of the direction and its gradient. -/
theorem tr_dir (p : V3) (h : p ≠ 0) (i : Fin 3) :
    Tracks p (fun y => y i / nrm y) ⟨p i / nrm p, fun j => ((if j = i then 1 else 0) - p i / nrm p * (p j / nrm p)) / nrm p⟩ := by
  have h0 : nrm p ≠ 0 := (nrm_pos p h).ne'
  have h1 := (Tracks.var (x := p) i).div (tr_nrm p h) h0
  have e : Dual.vars p i / (⟨nrm p, fun j => p j / nrm p⟩ : Dual 3) =
      ⟨p i / nrm p, fun j => ((if j = i then 1 else 0) - p i / nrm p * (p j / nrm p)) / nrm p⟩ := by
    ext j
    · rfl
    · show ((if j = i then 1 else 0) * nrm p - p i * (p j / nrm p)) / (nrm p * nrm p) = _
      field_simp
  rwa [e] at h1

theorem pw_step (s t : ℝ) (m : ℕ) : pw id s t (m + 1) =
    (s * (pw id s t m).1 - t * (pw id s t m).2, s * (pw id s t m).2 + t * (pw id s t m).1) := rfl

/-- The powers and their gradients. -/
theorem tr_pw {p : V3} {f g : V3 → ℝ} {s t : ℝ} {ds dt : Fin 3 → ℝ} (hf : Tracks p f ⟨s, ds⟩) (hg : Tracks p g ⟨t, dt⟩) (m : ℕ) :
    Tracks p (fun y => (pw id (f y) (g y) m).1) ⟨(pw id s t m).1, fun j => m * ((pw id s t (m - 1)).1 * ds j - (pw id s t (m - 1)).2 * dt j)⟩ ∧
    Tracks p (fun y => (pw id (f y) (g y) m).2) ⟨(pw id s t m).2, fun j => m * ((pw id s t (m - 1)).2 * ds j + (pw id s t (m - 1)).1 * dt j)⟩ := by
  induction m with
  | zero =>
    have h1 := Tracks.ofReal (x := p) 1
    have h0 := Tracks.ofReal (x := p) 0
    have e1 : (Dual.ofReal 1 : Dual 3) = ⟨(pw id s t 0).1, fun j => (0 : ℕ) * ((pw id s t (0 - 1)).1 * ds j - (pw id s t (0 - 1)).2 * dt j)⟩ := by
      ext j <;> simp [Dual.ofReal, pw]
    have e0 : (Dual.ofReal 0 : Dual 3) = ⟨(pw id s t 0).2, fun j => (0 : ℕ) * ((pw id s t (0 - 1)).2 * ds j + (pw id s t (0 - 1)).1 * dt j)⟩ := by
      ext j <;> simp [Dual.ofReal, pw]
    rw [e1] at h1
    rw [e0] at h0
    exact ⟨h1, h0⟩
  | succ m ih =>
    obtain ⟨h1, h2⟩ := ih
    have key1 : m * (s * (pw id s t (m - 1)).1 - t * (pw id s t (m - 1)).2) = m * (pw id s t m).1 := by
      cases m with
      | zero => simp
      | succ m => rw [Nat.add_sub_cancel, pw_step]
    have key2 : m * (s * (pw id s t (m - 1)).2 + t * (pw id s t (m - 1)).1) = m * (pw id s t m).2 := by
      cases m with
      | zero => simp
      | succ m => rw [Nat.add_sub_cancel, pw_step]
    have a1 := (hf.mul h1).sub (hg.mul h2)
    have a2 := (hf.mul h2).add (hg.mul h1)
    rw [Nat.add_sub_cancel]
    refine ⟨⟨?_, hdf a1.2 (congrArg lin (funext fun j => ?_))⟩, ⟨?_, hdf a2.2 (congrArg lin (funext fun j => ?_))⟩⟩
    · show (pw id s t (m + 1)).1 = (pw id (f p) (g p) (m + 1)).1
      rw [← show s = f p from hf.1, ← show t = g p from hg.1]
    · show (s * (m * _) + ds j * _) - (t * (m * _) + dt j * _) = ((m + 1 : ℕ) : ℝ) * _
      push_cast
      linear_combination ds j * key1 - dt j * key2
    · show (pw id s t (m + 1)).2 = (pw id (f p) (g p) (m + 1)).2
      rw [← show s = f p from hf.1, ← show t = g p from hg.1]
    · show (s * (m * _) + ds j * _) + (t * (m * _) + dt j * _) = ((m + 1 : ℕ) : ℝ) * _
      push_cast
      linear_combination ds j * key2 + dt j * key1

/-- The harmonic of the longitude and its gradient. -/
theorem tr_har {p : V3} {f g : V3 → ℝ} {s t : ℝ} {ds dt : Fin 3 → ℝ} (hf : Tracks p f ⟨s, ds⟩) (hg : Tracks p g ⟨t, dt⟩) (c v : ℝ) (m : ℕ) :
    Tracks p (fun y => har c v (f y) (g y) m) ⟨har c v s t m, fun j => har1 c v s t m * ds j + har2 c v s t m * dt j⟩ := by
  obtain ⟨h1, h2⟩ := tr_pw hf hg m
  have h := ((Tracks.ofReal (x := p) c).mul h1).add ((Tracks.ofReal (x := p) v).mul h2)
  refine ⟨?_, hdf h.2 (congrArg lin (funext fun j => ?_))⟩
  · show har c v s t m = har c v (f p) (g p) m
    rw [← show s = f p from hf.1, ← show t = g p from hg.1]
  · show (c * (m * _) + 0 * _) + (v * (m * _) + 0 * _) = _
    simp only [har1, har2, har]
    ring

/-- The relation of Euler for the harmonics. -/
theorem har_euler (c v s t : ℝ) (m : ℕ) : s * har1 c v s t m + t * har2 c v s t m = m * har c v s t m := by
  unfold har1 har2 har
  cases m with
  | zero => simp
  | succ m => rw [Nat.add_sub_cancel, pw_step]; ring

/-- The gradient of a term. -/
theorem tr_term (p : V3) (h : p ≠ 0) (c v mu R : ℝ) (n m : ℕ) :
    Tracks p (fun y => mu / nrm y * (R / nrm y) ^ n * ((assoc n m).eval (y 2 / nrm y) * har c v (y 0 / nrm y) (y 1 / nrm y) m))
      ⟨mu / nrm p * (R / nrm p) ^ n * ((assoc n m).eval (p 2 / nrm p) * har c v (p 0 / nrm p) (p 1 / nrm p) m),
        fun j => mu / nrm p * (R / nrm p) ^ n / nrm p *
          ((if j = 0 then (assoc n m).eval (p 2 / nrm p) * har1 c v (p 0 / nrm p) (p 1 / nrm p) m else 0) +
            (if j = 1 then (assoc n m).eval (p 2 / nrm p) * har2 c v (p 0 / nrm p) (p 1 / nrm p) m else 0) +
            (if j = 2 then (assoc n (m + 1)).eval (p 2 / nrm p) * har c v (p 0 / nrm p) (p 1 / nrm p) m else 0) -
            (assoc (n + 1) (m + 1)).eval (p 2 / nrm p) * har c v (p 0 / nrm p) (p 1 / nrm p) m * (p j / nrm p))⟩ := by
  have h0 : nrm p ≠ 0 := (nrm_pos p h).ne'
  have hH : HasDerivAt (fun u => (assoc n m).eval u) ((assoc n (m + 1)).eval (p 2 / nrm p)) (p 2 / nrm p) := by
    rw [← assoc_succ]
    exact (assoc n m).hasDerivAt _
  have h1 := Tracks_comp (tr_dir p h 2) hH
  have h2 := tr_har (tr_dir p h 0) (tr_dir p h 1) c v m
  have h3 := (((Tracks.ofReal (x := p) mu).div (tr_nrm p h) h0).mul (((Tracks.ofReal (x := p) R).div (tr_nrm p h) h0).powi n)).mul (h1.mul h2)
  refine ⟨rfl, hdf h3.2 (congrArg lin (funext fun j => ?_))⟩
  show (mu / nrm p * (R / nrm p) ^ n) * (_ * (har1 _ _ _ _ _ * _ + har2 _ _ _ _ _ * _) + (_ * _) * _) +
    ((mu / nrm p) * (n * (R / nrm p) ^ (n - 1) * ((0 * nrm p - R * (p j / nrm p)) / (nrm p * nrm p))) +
      ((0 * nrm p - mu * (p j / nrm p)) / (nrm p * nrm p)) * (R / nrm p) ^ n) * (_ * _) = _
  have hup := congrArg (eval (p 2 / nrm p)) (assoc_up n m)
  simp only [eval_mul, eval_add, eval_natCast, eval_one, eval_X] at hup
  have heu := har_euler c v (p 0 / nrm p) (p 1 / nrm p) m
  have hpow : (n : ℝ) * (R / nrm p) ^ (n - 1) * (R / nrm p) = n * (R / nrm p) ^ n := by
    cases n with
    | zero => simp
    | succ n => rw [Nat.add_sub_cancel, pow_succ]; ring
  generalize har c v (p 0 / nrm p) (p 1 / nrm p) m = D at *
  generalize har1 c v (p 0 / nrm p) (p 1 / nrm p) m = E at *
  generalize har2 c v (p 0 / nrm p) (p 1 / nrm p) m = F at *
  have e : (0 * nrm p - R * (p j / nrm p)) / (nrm p * nrm p) = -((R / nrm p) * (p j / nrm p)) / nrm p := by
    field_simp
    ring
  have e' : (0 * nrm p - mu * (p j / nrm p)) / (nrm p * nrm p) = -((mu / nrm p) * (p j / nrm p)) / nrm p := by
    field_simp
    ring
  rw [e, e', hup]
  generalize eval (p 2 / nrm p) (assoc n m) = H at *
  generalize eval (p 2 / nrm p) (assoc n (m + 1)) = H' at *
  clear h1 h2 h3 hH hup e e'
  generalize mu / nrm p = A at *
  generalize (R / nrm p) ^ (n - 1) = Q at *
  generalize (R / nrm p) ^ n = P at *
  generalize R / nrm p = q at *
  fin_cases j
  all_goals
    simp
    generalize p 0 / nrm p = s at *
    generalize p 1 / nrm p = t at *
    generalize p 2 / nrm p = u at *
  · linear_combination (-A * s / nrm p * H * D) * hpow + (-A * P * H * s / nrm p) * heu
  · linear_combination (-A * t / nrm p * H * D) * hpow + (-A * P * H * t / nrm p) * heu
  · linear_combination (-A * u / nrm p * H * D) * hpow + (-A * P * H * u / nrm p) * heu

/-! ### The gradient of the potential -/

theorem accK_eq (f : ℕ → ℝ) (k : ℕ) : accK id f k = ∑ i ∈ Finset.range k, f i := by
  induction k with
  | zero => simp [accK]
  | succ k ih => rw [accK, ih, Finset.sum_range_succ]

theorem sums_eq (M : ℕ) (C S : ℕ → ℕ → ℝ) (s t u : ℝ) (n : ℕ) : sums id M C S s t u n =
    ⟨∑ m ∈ Finset.range (min n M + 1), unit n m * ((assoc n m).eval u * har1 (C n m) (S n m) s t m),
      ∑ m ∈ Finset.range (min n M + 1), unit n m * ((assoc n m).eval u * har2 (C n m) (S n m) s t m),
      ∑ m ∈ Finset.range (min n M + 1), unit n m * ((assoc n (m + 1)).eval u * har (C n m) (S n m) s t m),
      ∑ m ∈ Finset.range (min n M + 1), unit n m * ((assoc (n + 1) (m + 1)).eval u * har (C n m) (S n m) s t m)⟩ := by
  simp only [sums, accK_eq, Four.mk.injEq]
  refine ⟨Finset.sum_congr rfl fun m _ => term_x _ _ _ _ _ _ _, Finset.sum_congr rfl fun m _ => term_y _ _ _ _ _ _ _,
    Finset.sum_congr rfl fun m hm => term_z _ _ _ _ _ _ _ ?_, Finset.sum_congr rfl fun m hm => term_w _ _ _ _ _ _ _ ?_⟩ <;>
  · have := Finset.mem_range.mp hm
    omega

theorem rhoK_eq (mu R r : ℝ) (k : ℕ) : rhoK id mu R r k = mu / r * (R / r) ^ (k + 1) := by
  induction k with
  | zero => simp [rhoK]
  | succ k ih => rw [rhoK, ih, pow_succ (R / r) (k + 1)]; simp only [id]; ring

theorem potential_tracks (N M : ℕ) (C S : ℕ → ℕ → ℝ) (mu R : ℝ) (hR : R ≠ 0) (q : V3) (hq : q ≠ 0) :
    HasFDerivAt (potential N M C S mu R) (lin (pureG id N M C S mu R q (nrm q))) q := by
  have h0 : nrm q ≠ 0 := (nrm_pos q hq).ne'
  have h1 := Tracks_sum (x := q) N fun k _ => Tracks_sum (x := q) (min (k + 1) M + 1) fun m _ =>
    (Tracks.ofReal (x := q) (unit (k + 1) m)).mul (tr_term q hq (C (k + 1) m) (S (k + 1) m) mu R (k + 1) m)
  have h2 := h1.2.congr_of_eventuallyEq (f₁ := potential N M C S mu R) (Filter.Eventually.of_forall fun y => by
    simp only [potential, surface, har_eq, assoc]
    refine Finset.sum_congr rfl fun k _ => ?_
    rw [Finset.mul_sum]
    exact Finset.sum_congr rfl fun m _ => by ring)
  refine hdf h2 (congrArg lin (funext fun j => ?_))
  have hrr : ∀ k, rhoK id mu R (nrm q) (k + 1) / id R = mu / nrm q * (R / nrm q) ^ (k + 1) / nrm q := fun k => by
    rw [rhoK_eq, pow_succ (R / nrm q) (k + 1)]
    simp only [id]
    field_simp
  have hsplit : ∀ (g : ℕ → ℝ) (X Y : ℕ → ℕ → ℝ) (w : ℝ),
      ∑ k ∈ Finset.range N, g k * ∑ m ∈ Finset.range (min (k + 1) M + 1), X k m +
        -(∑ k ∈ Finset.range N, g k * ∑ m ∈ Finset.range (min (k + 1) M + 1), Y k m) * w =
      ∑ k ∈ Finset.range N, ∑ m ∈ Finset.range (min (k + 1) M + 1), g k * (X k m - Y k m * w) := fun g X Y w => by
    rw [neg_mul, Finset.sum_mul, ← sub_eq_add_neg, ← Finset.sum_sub_distrib]
    refine Finset.sum_congr rfl fun k _ => ?_
    rw [mul_assoc, Finset.sum_mul, ← mul_sub, ← Finset.sum_sub_distrib, Finset.mul_sum]
  simp only [pureG, accS_eq, accK_eq, sums_eq, hrr]
  fin_cases j
  all_goals
    simp only [Matrix.cons_val_zero, Matrix.cons_val_one, Matrix.cons_val, Fin.zero_eta, Fin.mk_one, Fin.reduceFinMk]
    rw [hsplit]
    refine Finset.sum_congr rfl fun k _ => Finset.sum_congr rfl fun m _ => ?_
    show unit (k + 1) m * _ + 0 * _ = _
    simp
    ring

end Verif.Gravity
