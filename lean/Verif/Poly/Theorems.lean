import Verif.Poly.Model
import Mathlib.Analysis.Calculus.Deriv.Pow
import Mathlib.Algebra.BigOperators.Group.Finset.Basic
import Mathlib.Tactic.Ring
import Mathlib.Tactic.Linarith
/-!
C66, C67, C107: polynomials.
-/
namespace Verif.Poly
open Finset

/-- The polynomial with the coefficients of a list, by increasing powers. -/
noncomputable def polySum (c : List ℝ) (x : ℝ) : ℝ := ∑ i ∈ range c.length, c.getD i 0 * x ^ i

theorem polySum_cons (a : ℝ) (l : List ℝ) (x : ℝ) : polySum (a :: l) x = a + x * polySum l x := by
  unfold polySum
  rw [List.length_cons, sum_range_succ']
  simp only [List.getD_cons_succ, List.getD_cons_zero, pow_zero, mul_one]
  rw [add_comm, mul_sum]
  congr 1
  exact sum_congr rfl fun i _ => by ring

theorem polySum_nil (x : ℝ) : polySum [] x = 0 := by simp [polySum]

theorem horner_foldr (l : List ℝ) (x : ℝ) :
    (l.foldr (fun v acc => hornerStep x acc v) (0, 0)).1 = polySum l x ∧
    ∃ d, HasDerivAt (polySum l) d x ∧
      (l.foldr (fun v acc => hornerStep x acc v) (0, 0)).2 = polySum l x + x * d := by
  induction l with
  | nil =>
    refine ⟨by simp [polySum], 0, ?_, by simp [polySum]⟩
    have : polySum [] = fun _ => 0 := funext polySum_nil
    rw [this]
    exact hasDerivAt_const x 0
  | cons a l ih =>
    obtain ⟨h1, d, h2, h3⟩ := ih
    rw [List.foldr_cons]
    generalize List.foldr (fun v acc => hornerStep x acc v) (0, 0) l = r at h1 h3 ⊢
    simp only [hornerStep, h1, h3]
    refine ⟨by rw [polySum_cons]; ring, polySum l x + x * d, ?_, by rw [polySum_cons]; ring⟩
    have : polySum (a :: l) = fun y => a + y * polySum l y := funext (polySum_cons a l)
    rw [this]
    have := ((hasDerivAt_id x).mul h2).const_add a
    simpa using this

/-- **C66.** For every list of coefficients (at least one) and every abscissa: the value of the polynomial and
its derivative. -/
theorem eval_spec (c : List ℝ) (hc : c ≠ []) (x : ℝ) :
    ∃ v d, evalNDeriv c x = some (v, d) ∧ v = ∑ i ∈ range c.length, c.getD i 0 * x ^ i ∧
      HasDerivAt (fun y => ∑ i ∈ range c.length, c.getD i 0 * y ^ i) d x := by
  change ∃ v d, evalNDeriv c x = some (v, d) ∧ v = polySum c x ∧ HasDerivAt (polySum c) d x
  match c, hc with
  | [a], _ =>
    refine ⟨a, 0, rfl, by simp [polySum], ?_⟩
    have : polySum [a] = fun _ => a := by funext y; simp [polySum]
    rw [this]
    exact hasDerivAt_const x a
  | c0 :: c1 :: rest, _ =>
    obtain ⟨h1, d, h2, h3⟩ := horner_foldr (c1 :: rest) x
    have hrev : (c1 :: rest).reverse ≠ [] := by simp
    obtain ⟨last, l, hl⟩ := List.exists_cons_of_ne_nil hrev
    have hfold : l.foldl (hornerStep x) (last, last) =
        (c1 :: rest).foldr (fun v acc => hornerStep x acc v) (0, 0) := by
      have e : (c1 :: rest).reverse.foldl (hornerStep x) (0, 0) =
          (c1 :: rest).foldr (fun v acc => hornerStep x acc v) (0, 0) := by
        rw [List.foldl_reverse]
      rw [← e, hl, List.foldl_cons]
      simp [hornerStep]
    refine ⟨x * polySum (c1 :: rest) x + c0, polySum (c1 :: rest) x + x * d, ?_, ?_, ?_⟩
    · simp only [evalNDeriv, hl, hfold, h1, h3]
    · rw [polySum_cons c0]; ring
    · have e : polySum (c0 :: c1 :: rest) = fun y => c0 + y * polySum (c1 :: rest) y := funext (polySum_cons _ _)
      rw [e]
      have := ((hasDerivAt_id x).mul h2).const_add c0
      simpa using this

/-- **C66 (empty).** A polynomial of size zero panics. -/
theorem eval_empty (x : ℝ) : evalNDeriv [] x = none := rfl

/-- **C66 (common polynomials).** `f(x) = a`, `a x + b`, `a x² + b x + c`, and their derivatives. -/
theorem common_eval (a b c x : ℝ) :
    (Common.constant a).eval x = some a ∧ (Common.constant a).deriv x = some 0 ∧
    (Common.linear a b).eval x = some (a * x + b) ∧ (Common.linear a b).deriv x = some a ∧
    (Common.quadratic a b c).eval x = some (a * x ^ 2 + b * x + c) ∧
    (Common.quadratic a b c).deriv x = some (2 * a * x + b) := by
  refine ⟨rfl, rfl, ?_, ?_, ?_, ?_⟩ <;>
    simp [Common.eval, Common.deriv, evalP, derivP, Common.coeffs, evalNDeriv, hornerStep] <;> ring

/-- The degree of a common polynomial. -/
def Common.degree : Common → Nat
  | .constant _ => 0
  | .linear _ _ => 1
  | .quadratic _ _ _ => 2

/-- **C67 (reading).** `coeff_in_order(k)` is the coefficient of the power `k`; orders above the degree are
errors, for reading and for writing. -/
theorem coeff_spec (p : Common) :
    (∀ x, p.eval x = some (∑ k ∈ range (p.degree + 1), (p.coeff k).getD 0 * x ^ k)) ∧
    (∀ k, (p.coeff k).isSome ↔ k ≤ p.degree) ∧
    (∀ v k, (p.withVal v k).isSome ↔ k ≤ p.degree) ∧ (∀ v k, (p.addVal v k).isSome ↔ k ≤ p.degree) := by
  cases p with
  | constant a =>
    refine ⟨fun x => ?_, fun k => ?_, fun v k => ?_, fun v k => ?_⟩
    · rw [(common_eval a 0 0 x).1]; simp [Common.degree, Common.coeff]
    all_goals simp only [Common.coeff, Common.withVal, Common.addVal, Common.degree]
    all_goals by_cases hk : k = 0 <;> simp [hk]
  | linear a b =>
    refine ⟨fun x => ?_, fun k => ?_, fun v k => ?_, fun v k => ?_⟩
    · rw [(common_eval a b 0 x).2.2.1]
      simp [Common.degree, Common.coeff, sum_range_succ]
      ring
    all_goals simp only [Common.coeff, Common.withVal, Common.addVal, Common.degree]
    all_goals
      by_cases h0 : k = 0
      · simp [h0]
      · by_cases h1 : k = 1
        · simp [h1]
        · simp [h0, h1]; omega
  | quadratic a b c =>
    refine ⟨fun x => ?_, fun k => ?_, fun v k => ?_, fun v k => ?_⟩
    · rw [(common_eval a b c x).2.2.2.2.1]
      simp [Common.degree, Common.coeff, sum_range_succ]
      ring
    all_goals simp only [Common.coeff, Common.withVal, Common.addVal, Common.degree]
    all_goals
      by_cases h0 : k = 0
      · simp [h0]
      · by_cases h1 : k = 1
        · simp [h1]
        · by_cases h2 : k = 2
          · simp [h2]
          · simp [h0, h1, h2]; omega

/-- **C67, partial.** What `with_val_in_order` and `add_val_in_order` do: they change the coefficient of the power
`degree - k`, and no other. This is the coefficient of the power `k` only for constants and for the middle
coefficient of a quadratic. -/
theorem with_val_partial (p q : Common) (v : ℝ) (k : Nat) :
    (p.withVal v k = some q → q.degree = p.degree ∧ q.coeff (p.degree - k) = some v ∧
      ∀ j, j ≠ p.degree - k → q.coeff j = p.coeff j) ∧
    (p.addVal v k = some q → q.degree = p.degree ∧
      (∃ c, p.coeff (p.degree - k) = some c ∧ q.coeff (p.degree - k) = some (v + c)) ∧
      ∀ j, j ≠ p.degree - k → q.coeff j = p.coeff j) := by
  cases p with
  | constant a =>
    constructor
    all_goals
      intro h
      by_cases hk : k = 0
      · simp only [Common.withVal, Common.addVal, hk, ne_eq, not_true, if_false, Option.some.injEq] at h
        subst h hk
        simp [Common.degree, Common.coeff]
        try (intro j hj; simp [hj])
      · simp [Common.withVal, Common.addVal, hk] at h
  | linear a b =>
    constructor
    all_goals
      intro h
      by_cases h0 : k = 0
      · simp only [Common.withVal, Common.addVal, h0, if_true, Option.some.injEq] at h
        subst h h0
        simp [Common.degree, Common.coeff]
        try (intro j hj; simp [hj])
      · by_cases h1 : k = 1
        · subst h1
          simp only [Common.withVal, Common.addVal, one_ne_zero, if_true, if_false, Option.some.injEq] at h
          subst h
          simp [Common.degree, Common.coeff]
          try (intro j hj; simp [hj])
        · simp [Common.withVal, Common.addVal, h0, h1] at h
  | quadratic a b c =>
    constructor
    all_goals
      intro h
      by_cases h0 : k = 0
      · simp only [Common.withVal, Common.addVal, h0, if_true, Option.some.injEq] at h
        subst h h0
        simp [Common.degree, Common.coeff]
        try (intro j hj; simp [hj])
      · by_cases h1 : k = 1
        · subst h1
          simp only [Common.withVal, Common.addVal, one_ne_zero, if_true, if_false, Option.some.injEq] at h
          subst h
          simp [Common.degree, Common.coeff]
          try (intro j hj; simp [hj])
        · by_cases h2 : k = 2
          · subst h2
            simp [Common.withVal, Common.addVal] at h
            subst h
            simp [Common.degree, Common.coeff]
            try (intro j hj; simp [hj])
          · simp [Common.withVal, Common.addVal, h0, h1, h2] at h

/-- **C67 refuted.** Setting the constant of a linear or quadratic polynomial sets the coefficient of the
highest power instead: the value read at order zero is the old one. -/
theorem with_val_wrong_order (a b c v : ℝ) :
    (∃ q, (Common.linear a b).withVal v 0 = some q ∧ q.coeff 0 = some b ∧ q.coeff 1 = some v) ∧
    (∃ q, (Common.quadratic a b c).addVal v 0 = some q ∧ q.coeff 0 = some c ∧ q.coeff 2 = some (v + a)) :=
  ⟨⟨_, rfl, rfl, rfl⟩, ⟨_, rfl, rfl, rfl⟩⟩

/-! ### C107: arithmetic of polynomials -/

theorem polySum_append (l m : List ℝ) (x : ℝ) : polySum (l ++ m) x = polySum l x + x ^ l.length * polySum m x := by
  induction l with
  | nil => simp [polySum_nil]
  | cons a l ih =>
    rw [List.cons_append, polySum_cons, ih, polySum_cons, List.length_cons]
    ring

theorem polySum_mapIdx (f : ℝ → ℝ → ℝ) (s : ℝ) (hf : ∀ a b, f a b = a + s * b) :
    ∀ (p1 p2 : List ℝ) (_ : p2.length ≤ p1.length) (x : ℝ),
    polySum (p1.mapIdx fun i c1 => p2[i]?.elim c1 (f c1)) x =
      polySum p1 x + s * polySum p2 x := by
  intro p1
  induction p1 with
  | nil =>
    intro p2 h x
    have : p2 = [] := List.length_eq_zero_iff.1 (by simpa using h)
    subst this
    simp [polySum_nil]
  | cons a p1 ih =>
    intro p2 h x
    rw [List.mapIdx_cons, polySum_cons, polySum_cons]
    cases p2 with
    | nil =>
      have := ih [] (by simp) x
      simp only [List.getElem?_nil, Option.elim_none] at this ⊢
      rw [this, polySum_nil]
      ring
    | cons b p2 =>
      have := ih p2 (by simpa using h) x
      simp only [List.getElem?_cons_zero, List.getElem?_cons_succ, Option.elim_some]
      rw [this, polySum_cons, hf]
      ring

/-- **C107 (sum and difference).** When they do not panic they are the sum and the difference, with the size of
the longer operand. `a + b` panics iff `b` is **shorter**, `a - b` panics iff `b` is longer.
Missing from C107: the condition of the panic of the sum is the converse of the one documented (`add_swapped`). -/
theorem add_sub_spec_partial (p q : List ℝ) :
    (addOp p q = none ↔ q.length < p.length) ∧ (subOp p q = none ↔ p.length < q.length) ∧
    (∀ r, addOp p q = some r → r.length = q.length ∧
      ∀ x, polySum r x = polySum p x + polySum q x) ∧
    (∀ r, subOp p q = some r → r.length = p.length ∧
      ∀ x, polySum r x = polySum p x - polySum q x) := by
  refine ⟨?_, ?_, ?_, ?_⟩
  · unfold addOp addFn
    split <;> simp_all
  · unfold subOp
    split <;> simp_all
  · intro r h
    unfold addOp addFn at h
    split at h
    · cases h
    · next hlt =>
      rw [← Option.some.inj h]
      refine ⟨by simp, fun x => ?_⟩
      rw [polySum_mapIdx (fun a b => a + b) 1 (fun a b => by ring) q p (not_lt.1 hlt) x]
      ring
  · intro r h
    unfold subOp at h
    split at h
    · cases h
    · next hlt =>
      rw [← Option.some.inj h]
      refine ⟨by simp, fun x => ?_⟩
      rw [polySum_mapIdx (fun a b => a - b) (-1) (fun a b => by ring) p q (not_lt.1 hlt) x]
      ring

/-- **C107 refuted (documentation of the sum).** "Add Self and Other, if the size of Self is at least that of Other
(else panic)": the sum of a longer and a shorter polynomial panics, that of a shorter and a longer one
does not. -/
theorem add_swapped : addOp [1, 2] [3] = none ∧ (addOp [3] [1, 2]).isSome := by
  constructor
  · simp [addOp, addFn]
  · simp [addOp, addFn]

/-- **C107 (product with a number, added constant, order).** -/
theorem scale_spec (c : List ℝ) (k x : ℝ) :
    polySum (smulP c k) x = k * polySum c x ∧
    (c ≠ [] → polySum (addConst c k) x = polySum c x + k) ∧
    polySum (fromMostSignificant c) x = ∑ i ∈ range c.length, c.getD i 0 * x ^ (c.length - 1 - i) := by
  refine ⟨?_, ?_, ?_⟩
  · unfold smulP
    induction c with
    | nil => simp [polySum_nil]
    | cons a l ih =>
      rw [List.map_cons, polySum_cons, ih, polySum_cons]
      ring
  · intro hc
    cases c with
    | nil => exact absurd rfl hc
    | cons a l =>
      simp only [addConst]
      rw [polySum_cons, polySum_cons]
      ring
  · unfold fromMostSignificant
    induction c with
    | nil => simp [polySum_nil]
    | cons a l ih =>
      rw [List.reverse_cons, polySum_append, ih, polySum_cons, polySum_nil, List.length_cons, List.length_reverse,
        sum_range_succ']
      simp only [List.getD_cons_succ, List.getD_cons_zero, mul_zero, add_zero, Nat.add_sub_cancel, Nat.sub_zero]
      congr 1
      · refine sum_congr rfl fun i hi => ?_
        have : l.length - 1 - i = l.length - (i + 1) := by omega
        rw [this]
      · ring

/-- `zero_power` and `zero_below_tolerance`. -/
theorem zero_spec (c : List ℝ) (i j : Nat) (tol : ℝ) :
    (zeroPower c i)[j]? = (if j = i then c[j]?.map (fun _ => 0) else c[j]?) ∧
    (zeroBelow c tol)[j]? = c[j]?.map (fun a => if |a| < tol then 0 else a) := by
  constructor
  · unfold zeroPower
    rw [List.getElem?_set]
    by_cases h : i = j
    · subst h
      by_cases hl : i < c.length
      · simp [hl]
      · simp [hl]
    · simp [h, Ne.symm h]
  · unfold zeroBelow
    rw [List.getElem?_map]

/-! ### Examples -/

example := eval_spec [1, 2, 3, 4] (by simp) 2
example := (with_val_partial (.quadratic 1 2 3) _ 5 1).1 rfl
example := (add_sub_spec_partial [1] [2, 3]).2.2.1 _ rfl

example := (scale_spec [1, 2, 3] 4 2).2.1 (by simp)

end Verif.Poly
