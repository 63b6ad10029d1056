import Mathlib.Analysis.Calculus.Deriv.Mul
import Mathlib.Analysis.Calculus.Deriv.Add
import Mathlib.Data.Real.Basic
/-!
Model of nyx-core/src/polyfit/polynomial.rs. Coefficients are reals, the arrays of a static size are lists.
-/
namespace Verif.Poly

/-- One iteration of the loop of `eval_n_deriv`. polyfit/polynomial.rs:67-70. -/
def hornerStep (x : ℝ) (acc : ℝ × ℝ) (val : ℝ) : ℝ × ℝ := (acc.1 * x + val, acc.2 * x + (acc.1 * x + val))

/-- `Polynomial::eval_n_deriv`; `none` is the panic of an empty array. polyfit/polynomial.rs:58-75. -/
def evalNDeriv (c : List ℝ) (x : ℝ) : Option (ℝ × ℝ) :=
  match c with
  | [] => none
  | [a] => some (a, 0)
  | c0 :: rest =>
    match rest.reverse with
    | [] => none
    | last :: l =>
      let r := l.foldl (hornerStep x) (last, last)
      some (x * r.1 + c0, r.2)

/-- `Polynomial::eval` and `Polynomial::deriv`. polyfit/polynomial.rs:48-55. -/
def evalP (c : List ℝ) (x : ℝ) : Option ℝ := (evalNDeriv c x).map (·.1)
def derivP (c : List ℝ) (x : ℝ) : Option ℝ := (evalNDeriv c x).map (·.2)

/-- `Polynomial::from_most_significant`. polyfit/polynomial.rs:35-40. -/
def fromMostSignificant (c : List ℝ) : List ℝ := c.reverse

/-- The products with a number. polyfit/polynomial.rs:145-177. -/
def smulP (c : List ℝ) (k : ℝ) : List ℝ := c.map (· * k)

/-- `AddAssign<f64>`. polyfit/polynomial.rs:179-183. -/
def addConst : List ℝ → ℝ → List ℝ
  | [], _ => []
  | c0 :: l, k => (c0 + k) :: l

/-- The function `add`; `none` is a panic. polyfit/polynomial.rs:197-212. -/
def addFn (p1 p2 : List ℝ) : Option (List ℝ) :=
  if p1.length < p2.length then none
  else some (p1.mapIdx fun i c1 => p2[i]?.elim c1 (c1 + ·))

/-- The operator `+`: the arguments are swapped. polyfit/polynomial.rs:215-220. -/
def addOp (self other : List ℝ) : Option (List ℝ) := addFn other self

/-- The function `sub` and the operator `-`. polyfit/polynomial.rs:223-245. -/
def subOp (p1 p2 : List ℝ) : Option (List ℝ) :=
  if p1.length < p2.length then none
  else some (p1.mapIdx fun i c1 => p2[i]?.elim c1 (c1 - ·))

/-- `zero_power`. polyfit/polynomial.rs:85-89. -/
def zeroPower (c : List ℝ) (i : Nat) : List ℝ := c.set i 0

/-- `zero_below_tolerance`. polyfit/polynomial.rs:92-98. -/
noncomputable def zeroBelow (c : List ℝ) (tol : ℝ) : List ℝ := c.map fun a => if |a| < tol then 0 else a

/-- `CommonPolynomial`. polyfit/polynomial.rs:248-263. -/
inductive Common where
  | constant (a : ℝ)
  | linear (a b : ℝ)
  | quadratic (a b c : ℝ)

/-- The coefficients given to `Polynomial`. polyfit/polynomial.rs:266-292. -/
def Common.coeffs : Common → List ℝ
  | .constant a => [a]
  | .linear a b => [b, a]
  | .quadratic a b c => [c, b, a]

/-- `CommonPolynomial::eval`, `CommonPolynomial::deriv`. polyfit/polynomial.rs:266-292. -/
def Common.eval (p : Common) (x : ℝ) : Option ℝ := evalP p.coeffs x
def Common.deriv (p : Common) (x : ℝ) : Option ℝ := derivP p.coeffs x

/-- `coeff_in_order`; `none` is an error. polyfit/polynomial.rs:294-315. -/
def Common.coeff : Common → Nat → Option ℝ
  | .constant a, k => if k = 0 then some a else none
  | .linear a b, k => if k = 0 then some b else if k = 1 then some a else none
  | .quadratic a b c, k => if k = 0 then some c else if k = 1 then some b else if k = 2 then some a else none

/-- `with_val_in_order`. polyfit/polynomial.rs:317-339. -/
def Common.withVal : Common → ℝ → Nat → Option Common
  | .constant _, v, k => if k ≠ 0 then none else some (.constant v)
  | .linear a b, v, k => if k = 0 then some (.linear v b) else if k = 1 then some (.linear a v) else none
  | .quadratic a b c, v, k =>
    if k = 0 then some (.quadratic v b c) else if k = 1 then some (.quadratic a v c)
    else if k = 2 then some (.quadratic a b v) else none

/-- `add_val_in_order`. polyfit/polynomial.rs:341-379. -/
def Common.addVal : Common → ℝ → Nat → Option Common
  | .constant a, v, k => if k ≠ 0 then none else some (.constant (v + a))
  | .linear a b, v, k => if k = 0 then some (.linear (v + a) b) else if k = 1 then some (.linear a (v + b)) else none
  | .quadratic a b c, v, k =>
    if k = 0 then some (.quadratic (v + a) b c) else if k = 1 then some (.quadratic a (v + b) c)
    else if k = 2 then some (.quadratic a b (v + c)) else none

end Verif.Poly
