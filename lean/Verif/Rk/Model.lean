import Mathlib.Algebra.Module.Basic
import Mathlib.Data.Rat.Defs
import Mathlib.Algebra.Order.Field.Rat
/-!
Model of one Runge Kutta step: nyx-core/src/propagators/instance.rs (`derive`) and the coefficients in
nyx-core/src/propagators/rk_methods/.

Floating point numbers are rational numbers, a coefficient such as `1.0 / 12.0` is the exact fraction;
the state vector is an element of any module over the rationals.
-/
namespace Verif.Rk

/-- Outcome of a call: a value, an error of the dynamics, or an index out of bounds. -/
inductive Res (α : Type) where
  | ok (a : α)
  | err
  | panic

/-- The operator `?` of Rust. -/
def Res.bind {α β : Type} (r : Res α) (f : α → Res β) : Res β :=
  match r with
  | .ok a => f a
  | .err => .err
  | .panic => .panic

/-- The constants of a method: `RK::{ORDER, STAGES, A_COEFFS, B_COEFFS}`. The coefficients `a` are
stored row after row, `B` has the weights followed by those of the embedded formula.
propagators/rk_methods/mod.rs:38-62. -/
structure Tab where
  order : Nat
  stages : Nat
  A : List ℚ
  B : List ℚ

variable {V : Type} [AddCommGroup V] [Module ℚ V]

/-- The inner loop, over the stages known so far: `ci`, `wi` and `a_idx`. instance.rs:382-387. -/
def inner (A : List ℚ) : List V → ℚ × V × Nat → Res (ℚ × V × Nat)
  | [], acc => .ok acc
  | kj :: ks, acc =>
    match A[acc.2.2]? with
    | none => .panic
    | some a => inner A ks (acc.1 + a, acc.2.1 + a • kj, acc.2.2 + 1)

/-- The equations of motion: offset in seconds from the start of the step and state vector; `none` is an
error. `ctx` and the almanac are fixed during a step, hence part of the function. -/
abbrev Eom (V : Type) : Type := ℚ → V → Option V

/-- The loop over the stages after the first: `n` of them remain, `ks` are known, `idx` is `a_idx`.
instance.rs:376-400. -/
def stageLoop (A : List ℚ) (f : Eom V) (x : V) (h : ℚ) : Nat → List V → Nat → Res (List V)
  | 0, ks, _ => .ok ks
  | n + 1, ks, idx =>
    (inner A ks (0, 0, idx)).bind fun r =>
      match f (r.1 * h) (x + h • r.2.1) with
      | none => .err
      | some k => stageLoop A f x h n (ks ++ [k]) r.2.2

/-- The loop on the stages that computes the next state and the error estimate (not with a fixed
step). instance.rs:402-414. -/
def finish (B : List ℚ) (stages : Nat) (fixed : Bool) (h : ℚ) : List V → Nat → V × V → Res (V × V)
  | [], _, acc => .ok acc
  | k :: ks, i, acc =>
    match B[i]? with
    | none => .panic
    | some b =>
      if fixed then finish B stages fixed h ks (i + 1) (acc.1 + (h * b) • k, acc.2)
      else
        match B[i + stages]? with
        | none => .panic
        | some b' =>
          finish B stages fixed h ks (i + 1) (acc.1 + (h * b) • k, acc.2 + (h * (b - b')) • k)

/-- One attempt of `derive`: next state and error estimate. instance.rs:369-414. -/
def rkStep (tab : Tab) (f : Eom V) (fixed : Bool) (x : V) (h : ℚ) : Res (V × V) :=
  match f 0 x with
  | none => .err
  | some k0 =>
    (stageLoop tab.A f x h (tab.stages - 1) [k0] 0).bind fun ks =>
      finish tab.B tab.stages fixed h ks 0 (x, 0)

/-! ### The shipped methods -/

/-- `SQRT6`, the decimal number of the source. rk_methods/rk.rs:83. -/
def sqrt6 : ℚ := 2.449489742783178

/-- `CashKarp45`. propagators/rk_methods/rk.rs:21-58. -/
def cashKarp45 : Tab where
  order := 5
  stages := 6
  A := [
    1 / 5, 3 / 40, 9 / 40, 3 / 10, -9 / 10, 6 / 5, -11 / 54, 5 / 2, -70 / 27, 35 / 27,
    1631 / 55296, 175 / 512, 575 / 13824, 44275 / 110592, 253 / 4096]
  B := [
    37 / 378, 0, 250 / 621, 125 / 594, 0, 512 / 1771, 2825 / 27648, 0, 18575 / 48384,
    13525 / 55296, 277 / 14336, 1 / 4]

/-- `RK4Fixed`. propagators/rk_methods/rk.rs:60-81. -/
def rk4 : Tab where
  order := 4
  stages := 4
  A := [
    0.5, 0, 0.5, 0, 0, 1]
  B := [
    1 / 6, 1 / 3, 1 / 3, 1 / 6, 1 / 6, 1 / 3, 1 / 3, 1 / 6]

/-- `RK89`. propagators/rk_methods/rk.rs:85-252. -/
def rk89 : Tab where
  order := 9
  stages := 16
  A := [
    1 / 12, 1 / 27, 2 / 27, 1 / 24, 0, 1 / 8, (4 + 94 * sqrt6) / 375, 0,
    (-94 - 84 * sqrt6) / 125, (328 + 208 * sqrt6) / 375, (9 - sqrt6) / 150, 0, 0,
    (312 + 32 * sqrt6) / 1425, (69 + 29 * sqrt6) / 570, (927 - 347 * sqrt6) / 1250, 0, 0,
    (-16248 + 7328 * sqrt6) / 9375, (-489 + 179 * sqrt6) / 3750, (14268 - 5798 * sqrt6) / 9375,
    2 / 27, 0, 0, 0, 0, (16 - sqrt6) / 54, (16 + sqrt6) / 54, 19 / 256, 0, 0, 0, 0,
    (118 - 23 * sqrt6) / 512, (118 + 23 * sqrt6) / 512, -9 / 256, 11 / 144, 0, 0, 0, 0,
    (266 - sqrt6) / 864, (266 + sqrt6) / 864, -1 / 16, -8 / 27, (5034 - 271 * sqrt6) / 61440, 0,
    0, 0, 0, 0, (7859 - 1626 * sqrt6) / 10240, (-2232 + 813 * sqrt6) / 20480,
    (-594 + 271 * sqrt6) / 960, (657 - 813 * sqrt6) / 5120, (5996 - 3794 * sqrt6) / 405, 0, 0, 0,
    0, (-4342 - 338 * sqrt6) / 9, (154922 - 40458 * sqrt6) / 135, (-4176 + 3794 * sqrt6) / 45,
    (-340864 + 242816 * sqrt6) / 405, (26304 - 15176 * sqrt6) / 45, -26624 / 81,
    (3793 + 2168 * sqrt6) / 103680, 0, 0, 0, 0, (4042 + 2263 * sqrt6) / 13824,
    (-231278 + 40717 * sqrt6) / 69120, (7947 - 2168 * sqrt6) / 11520, (1048 - 542 * sqrt6) / 405,
    (-1383 + 542 * sqrt6) / 720, 2624 / 1053, 3 / 1664, -137 / 1296, 0, 0, 0, 0,
    (5642 - 337 * sqrt6) / 864, (5642 + 337 * sqrt6) / 864, -299 / 48, 184 / 81, -44 / 9,
    -5120 / 1053, -11 / 468, 16 / 9, (33617 - 2168 * sqrt6) / 518400, 0, 0, 0, 0,
    (-3846 + 31 * sqrt6) / 13824, (155338 - 52807 * sqrt6) / 345600,
    (-12537 + 2168 * sqrt6) / 57600, (92 + 542 * sqrt6) / 2025, (-1797 - 542 * sqrt6) / 3600,
    320 / 567, -1 / 1920, 4 / 105, 0, (-36487 - 30352 * sqrt6) / 279600, 0, 0, 0, 0,
    (-29666 - 4499 * sqrt6) / 7456, (2779182 - 615973 * sqrt6) / 186400,
    (-94329 + 91056 * sqrt6) / 93200, (-232192 + 121408 * sqrt6) / 17475,
    (101226 - 22764 * sqrt6) / 5825, -169984 / 9087, -87 / 30290, 492 / 1165, 0, 1260 / 233]
  B := [
    23 / 525, 0, 0, 0, 0, 0, 0, 171 / 1400, 86 / 525, 93 / 280, -2048 / 6825, -3 / 18200,
    39 / 175, 0, 9 / 25, 233 / 4200, 23 / 525 + 7 / 400, 0, 0, 0, 0, 0, 0, 171 / 1400 - 63 / 200,
    86 / 525 + 14 / 25, 93 / 280 - 21 / 20, -2048 / 6825 + 1024 / 975, -3 / 18200 + 21 / 36400,
    39 / 175 + 3 / 25, 9 / 280, 0, 0]

/-- `Dormand45`. propagators/rk_methods/dormand.rs:21-66. -/
def dormand45 : Tab where
  order := 5
  stages := 7
  A := [
    1 / 5, 3 / 40, 9 / 40, 44 / 45, -56 / 15, 32 / 9, 19372 / 6561, -25360 / 2187, 64448 / 6561,
    -212 / 729, 9017 / 3168, -355 / 33, 46732 / 5247, 49 / 176, -5103 / 18656, 35 / 384, 0,
    500 / 1113, 125 / 192, -2187 / 6784, 11 / 84]
  B := [
    35 / 384, 0, 500 / 1113, 125 / 192, -2187 / 6784, 11 / 84, 0, 5179 / 57600, 0, 7571 / 16695,
    393 / 640, -92097 / 339200, 187 / 2100, 1 / 40]

/-- `Dormand78`. propagators/rk_methods/dormand.rs:68-184. -/
def dormand78 : Tab where
  order := 8
  stages := 13
  A := [
    1 / 18, 1 / 48, 1 / 16, 1 / 32, 0, 3 / 32, 5 / 16, 0, -75 / 64, 75 / 64, 3 / 80, 0, 0,
    3 / 16, 3 / 20, 29443841 / 614563906, 0, 0, 77736538 / 692538347, -28693883 / 1125000000,
    23124283 / 1800000000, 16016141 / 946692911, 0, 0, 61564180 / 158732637,
    22789713 / 633445777, 545815736 / 2771057229, -180193667 / 1043307555, 39632708 / 573591083,
    0, 0, -433636366 / 683701615, -421739975 / 2616292301, 100302831 / 723423059,
    790204164 / 839813087, 800635310 / 3783071287, 246121993 / 1340847787, 0, 0,
    -37695042795 / 15268766246, -309121744 / 1061227803, -12992083 / 490766935,
    6005943493 / 2108947869, 393006217 / 1396673457, 123872331 / 1001029789,
    -1028468189 / 846180014, 0, 0, 8478235783 / 508512852, 1311729495 / 1432422823,
    -10304129995 / 1701304382, -48777925059 / 3047939560, 15336726248 / 1032824649,
    -45442868181 / 3398467696, 3065993473 / 597172653, 185892177 / 718116043, 0, 0,
    -3185094517 / 667107341, -477755414 / 1098053517, -703635378 / 230739211,
    5731566787 / 1027545527, 5232866602 / 850066563, -4093664535 / 808688257,
    3962137247 / 1805957418, 65686358 / 487910083, 403863854 / 491063109, 0, 0,
    -5068492393 / 434740067, -411421997 / 543043805, 652783627 / 914296604,
    11173962825 / 925320556, -13158990841 / 6184727034, 3936647629 / 1978049680,
    -160528059 / 685178525, 248638103 / 1413531060, 0]
  B := [
    14005451 / 335480064, 0, 0, 0, 0, -59238493 / 1068277825, 181606767 / 758867731,
    561292985 / 797845732, -1041891430 / 1371343529, 760417239 / 1151165299,
    118820643 / 751138087, -528747749 / 2220607170, 0.25, 13451932 / 455176623, 0, 0, 0, 0,
    -808719846 / 976000145, 1757004468 / 5645159321, 656045339 / 265891186,
    -3867574721 / 1518517206, 465885868 / 322736535, 53011238 / 667516719, 2 / 45, 0]

/-- `Verner56`. propagators/rk_methods/verner.rs:21-79. -/
def verner56 : Tab where
  order := 6
  stages := 8
  A := [
    1 / 6, 4 / 75, 16 / 75, 5 / 6, -8 / 3, 5 / 2, -165 / 64, 55 / 6, -425 / 64, 85 / 96,
    -8263 / 15000, 124 / 75, -643 / 680, -81 / 250, 2484 / 10625, 3501 / 1720, -300 / 43,
    297275 / 52632, -319 / 2322, 24068 / 84065, 3850 / 26703, 12 / 5, -8, 4015 / 612, -11 / 36,
    88 / 255, 0, 0]
  B := [
    3 / 40, 0, 875 / 2244, 23 / 72, 264 / 1955, 125 / 11592, 43 / 616, 0, 13 / 160, 0,
    2375 / 5984, 5 / 16, 12 / 85, 0, 0, 3 / 44]

/-- `IntegratorMethod`. rk_methods/mod.rs:67-82. -/
inductive Method where
  | rungeKutta89
  | dormandPrince78
  | dormandPrince45
  | rungeKutta4
  | cashKarp45
  | verner56
  deriving DecidableEq

/-- `order`, `stages`, `a_coeffs`, `b_coeffs`. rk_methods/mod.rs:84-136. -/
def Method.tab : Method → Tab
  | .rungeKutta89 => rk89
  | .dormandPrince78 => dormand78
  | .dormandPrince45 => dormand45
  | .rungeKutta4 => rk4
  | .cashKarp45 => Rk.cashKarp45
  | .verner56 => Rk.verner56

end Verif.Rk
