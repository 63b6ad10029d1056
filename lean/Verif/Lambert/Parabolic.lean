import Mathlib.Analysis.SpecialFunctions.Log.Deriv
import Mathlib.Analysis.SpecialFunctions.Trigonometric.DerivHyp
import Mathlib.Analysis.Complex.ExponentialBounds
import Mathlib.Analysis.SpecialFunctions.Trigonometric.Series
import Verif.Lambert.GoodingLoop
/-!
Near the parabola the solver of Gooding replaces the functions `c2` and `c3` by their values at zero, and the flight
on the orbit that it returns does not last the time asked for.
-/
namespace Verif.Lambert
open Matrix
open Verif.MathU (V3 nrm atan2 dot3 nrm_sq nrm_nonneg ext3 cross0 cross1 cross2)

/-- On a hyperbola the time between two states is determined by them. -/
theorem Reaches.time_eq {μ : ℝ} (hμ : 0 < μ) {r1 v1 r2 v2 : V3} {T : ℝ} (h : Reaches μ r1 v1 r2 v2 T)
    {k : ℝ} (hk : 0 < k) (hE : energy μ r1 v1 = k ^ 2 / 2) :
    T = (r2 ⬝ᵥ v2 / k ^ 2 - μ / k ^ 3 * Real.log (μ + k ^ 2 * nrm r2 + k * (r2 ⬝ᵥ v2))) -
      (r1 ⬝ᵥ v1 / k ^ 2 - μ / k ^ 3 * Real.log (μ + k ^ 2 * nrm r1 + k * (r1 ⬝ᵥ v1))) := by
  obtain ⟨hT, ρ, ν, h0, h1, h2, h3, hd'⟩ := h
  have en : ∀ t ∈ Set.Icc 0 T, energy μ (ρ t) (ν t) = k ^ 2 / 2 := by
    intro t ht
    rcases ht.1.eq_or_lt with e | e
    · rw [← e, h0, h1, hE]
    · have : Reaches μ r1 v1 (ρ t) (ν t) t :=
        ⟨e, ρ, ν, h0, h1, rfl, rfl, fun s hs => hd' s ⟨hs.1, hs.2.trans ht.2⟩⟩
      rw [(this.conserved hμ).2.2, hE]
  have key : ∀ t ∈ Set.Icc 0 T, HasDerivAt (fun t => (ρ t ⬝ᵥ ν t / k ^ 2 -
      μ / k ^ 3 * Real.log (μ + k ^ 2 * nrm (ρ t) + k * (ρ t ⬝ᵥ ν t))) - t) 0 t := by
    intro t ht
    obtain ⟨hne, dr, dv⟩ := hd' t ht
    have pn : 0 < nrm (ρ t) := Verif.MathU.nrm_pos _ hne
    have dn := hasDerivAt_nrm dr hne
    have ds := hasDerivAt_dot dr dv
    have e := en t ht
    have hvv : ν t ⬝ᵥ ν t = k ^ 2 + 2 * μ / nrm (ρ t) := by
      rw [energy] at e; field_simp at e ⊢; linarith
    have hs' : ν t ⬝ᵥ ν t + ρ t ⬝ᵥ ((-μ / nrm (ρ t) ^ 3) • ρ t) = k ^ 2 + μ / nrm (ρ t) := by
      rw [dotProduct_smul, smul_eq_mul, hvv, ← nrm_sq (ρ t)]; field_simp; ring
    rw [hs'] at ds
    have hpos : 0 < μ + k ^ 2 * nrm (ρ t) + k * (ρ t ⬝ᵥ ν t) := by
      have hc := dot_le (ρ t) (ν t)
      have hv2 : nrm (ν t) ^ 2 = k ^ 2 + 2 * μ / nrm (ρ t) := by rw [← hvv, ← nrm_sq]; ring
      rw [mul_pow, hv2] at hc
      have hc' : (ρ t ⬝ᵥ ν t) ^ 2 ≤ k ^ 2 * nrm (ρ t) ^ 2 + 2 * μ * nrm (ρ t) := by
        refine hc.trans (le_of_eq ?_); field_simp
      have : (k * (ρ t ⬝ᵥ ν t)) ^ 2 < (μ + k ^ 2 * nrm (ρ t)) ^ 2 := by
        have := mul_le_mul_of_nonneg_left hc' (sq_nonneg k)
        nlinarith [sq_pos_of_pos hμ]
      have := abs_lt_of_sq_lt_sq this (by positivity)
      linarith [neg_abs_le (k * (ρ t ⬝ᵥ ν t))]
    have dl := (((dn.const_mul (k ^ 2)).const_add μ).add (ds.const_mul k)).log hpos.ne'
    refine hd (((ds.div_const (k ^ 2)).sub (dl.const_mul (μ / k ^ 3))).sub (hasDerivAt_id t)) ?_
    have e1 : (k ^ 2 * (ρ t ⬝ᵥ ν t / nrm (ρ t)) + k * (k ^ 2 + μ / nrm (ρ t))) /
        (μ + k ^ 2 * nrm (ρ t) + k * (ρ t ⬝ᵥ ν t)) = k / nrm (ρ t) := by
      rw [div_eq_div_iff hpos.ne' pn.ne']
      field_simp
      ring
    simp only [Pi.add_apply]
    rw [e1]
    field_simp
    ring
  have := const_on hT.le key
  simp only [h0, h1, h2, h3] at this
  linarith

/-- On a hyperbola there is only one time at which a state is reached. -/
theorem Reaches.time_unique {μ : ℝ} (hμ : 0 < μ) {r1 v1 r2 v2 : V3} {T T' : ℝ} (hE : 0 < energy μ r1 v1)
    (h : Reaches μ r1 v1 r2 v2 T) (h' : Reaches μ r1 v1 r2 v2 T') : T' = T := by
  have hk : 0 < Real.sqrt (2 * energy μ r1 v1) := Real.sqrt_pos.2 (by linarith)
  have e : energy μ r1 v1 = Real.sqrt (2 * energy μ r1 v1) ^ 2 / 2 := by rw [Real.sq_sqrt (by linarith)]; ring
  rw [h.time_eq hμ hk e, h'.time_eq hμ hk e]

/-! ### The hyperbolic functions -/

theorem anti_zero {f f' : ℝ → ℝ} (h : ∀ x, HasDerivAt f (f' x) x) {u : ℝ} (hu : 0 ≤ u)
    (hn : ∀ x ∈ Set.Icc 0 u, f' x ≤ 0) : f u ≤ f 0 := by
  have hc : ContinuousOn f (Set.Icc 0 u) := fun x _ => (h x).continuousAt.continuousWithinAt
  refine antitoneOn_of_deriv_nonpos (convex_Icc 0 u) hc
    (fun x _ => (h x).differentiableAt.differentiableWithinAt) (fun x hx => ?_)
    (Set.left_mem_Icc.2 hu) (Set.right_mem_Icc.2 hu) hu
  rw [(h x).deriv]
  exact hn x (interior_subset hx)

theorem sinh_gap {u : ℝ} (hu : 0 ≤ u) (hc : Real.cosh u ≤ 3 / 2) :
    Real.sinh (2 * u) - 2 * u ≤ 4 / 3 * Real.sinh u ^ 3 - 1 / 5 * Real.sinh u ^ 5 := by
  have hd' : ∀ x, HasDerivAt (fun x => 2 * Real.sinh x * Real.cosh x - 2 * x - (4 / 3 * Real.sinh x ^ 3 - 1 / 5 * Real.sinh x ^ 5))
      (-(Real.sinh x ^ 2 * (Real.cosh x - 1) * (4 - (Real.cosh x + 1) * Real.cosh x))) x := by
    intro x
    refine hd (((((Real.hasDerivAt_sinh x).const_mul 2).mul (Real.hasDerivAt_cosh x)).sub
      ((hasDerivAt_id x).const_mul 2)).sub ((((Real.hasDerivAt_sinh x).pow 3).const_mul (4 / 3)).sub
        (((Real.hasDerivAt_sinh x).pow 5).const_mul (1 / 5)))) ?_
    have := Real.cosh_sq x
    have e : Real.cosh x ^ 2 = Real.sinh x ^ 2 + 1 := this
    simp only [Nat.cast_ofNat, Nat.reduceSub]
    generalize Real.cosh x = c at *
    generalize Real.sinh x = s at *
    linear_combination (2 - s ^ 2 * c) * e
  have := anti_zero hd' hu (fun x hx => by
    have h1 := Real.one_le_cosh x
    have h2 : Real.cosh x ≤ 3 / 2 := le_trans (Real.cosh_le_cosh.2 (by
      rw [abs_of_nonneg hx.1, abs_of_nonneg hu]; exact hx.2)) hc
    have h3 : 0 ≤ 4 - (Real.cosh x + 1) * Real.cosh x := by nlinarith
    have : 0 ≤ Real.sinh x ^ 2 * (Real.cosh x - 1) * (4 - (Real.cosh x + 1) * Real.cosh x) :=
      mul_nonneg (mul_nonneg (sq_nonneg _) (by linarith)) h3
    linarith)
  simp only [Real.sinh_zero, Real.cosh_zero] at this
  rw [Real.sinh_two_mul]
  norm_num at this
  linarith

theorem sinh_le_cube {u : ℝ} (hu : 0 ≤ u) : Real.sinh (2 * u) - 2 * u ≤ 4 / 3 * Real.sinh u ^ 3 := by
  have hd' : ∀ x, HasDerivAt (fun x => 2 * Real.sinh x * Real.cosh x - 2 * x - 4 / 3 * Real.sinh x ^ 3)
      (-(4 * Real.sinh x ^ 2 * (Real.cosh x - 1))) x := by
    intro x
    refine hd (((((Real.hasDerivAt_sinh x).const_mul 2).mul (Real.hasDerivAt_cosh x)).sub
      ((hasDerivAt_id x).const_mul 2)).sub (((Real.hasDerivAt_sinh x).pow 3).const_mul (4 / 3))) ?_
    have e : Real.cosh x ^ 2 = Real.sinh x ^ 2 + 1 := Real.cosh_sq x
    simp only [Nat.cast_ofNat, Nat.reduceSub]
    generalize Real.cosh x = c at *
    generalize Real.sinh x = s at *
    linear_combination 2 * e
  have := anti_zero hd' hu (fun x hx => by
    have h1 := Real.one_le_cosh x
    have : 0 ≤ 4 * Real.sinh x ^ 2 * (Real.cosh x - 1) := mul_nonneg (by positivity) (by linarith)
    linarith)
  simp only [Real.sinh_zero, Real.cosh_zero] at this
  rw [Real.sinh_two_mul]
  norm_num at this
  linarith

/-- The exact functions for a negative `phi`, by half of the root of its opposite. -/
theorem stumpff_half_angle {u : ℝ} (hu : 0 < u) :
    IsStumpff (-(4 * u ^ 2)) (Real.sinh u ^ 2 / (2 * u ^ 2)) ((Real.sinh (2 * u) - 2 * u) / (8 * u ^ 3)) := by
  have hs : Real.sqrt (- -(4 * u ^ 2)) = 2 * u := by
    rw [neg_neg, show 4 * u ^ 2 = (2 * u) ^ 2 by ring, Real.sqrt_sq (by positivity)]
  refine Or.inr (Or.inr ⟨by have := sq_pos_of_pos hu; linarith, ?_, ?_⟩)
  · rw [hs, Real.cosh_two_mul, Real.cosh_sq]
    field_simp
    ring
  · rw [hs]; congr 1; ring

theorem IsStumpff.unique {φ c2 c3 d2 d3 : ℝ} (h : IsStumpff φ c2 c3) (h' : IsStumpff φ d2 d3) : c2 = d2 ∧ c3 = d3 := by
  rcases h with ⟨a, b, c⟩ | ⟨a, b, c⟩ | ⟨a, b, c⟩ <;> rcases h' with ⟨a', b', c'⟩ | ⟨a', b', c'⟩ | ⟨a', b', c'⟩ <;>
    first
    | exact ⟨b.trans b'.symm, c.trans c'.symm⟩
    | (exfalso; linarith)

/-- `y` for a negative `phi`. -/
theorem yOf_hyp (a n1 n2 : ℝ) {u : ℝ} (hu : 0 < u) :
    yOf a n1 n2 (-(4 * u ^ 2)) (Real.sinh u ^ 2 / (2 * u ^ 2)) ((Real.sinh (2 * u) - 2 * u) / (8 * u ^ 3)) =
      n1 + n2 - a * Real.sqrt 2 * Real.cosh u := by
  have hs : 0 < Real.sinh u := Real.sinh_pos_iff.2 hu
  have h2 : 0 < Real.sqrt 2 := by positivity
  have h22 : Real.sqrt 2 ^ 2 = 2 := Real.sq_sqrt (by norm_num)
  have e : Real.sqrt (Real.sinh u ^ 2 / (2 * u ^ 2)) = Real.sinh u / (Real.sqrt 2 * u) := by
    rw [Real.sqrt_eq_iff_mul_self_eq (by positivity) (by positivity)]
    field_simp
    rw [h22]
  rw [yOf, e, Real.sinh_two_mul]
  field_simp
  ring

/-- The time for a negative `phi`. -/
theorem timeOf_hyp (mu a : ℝ) {y u : ℝ} (hy : 0 ≤ y) (hu : 0 < u) :
    timeOf mu a (Real.sinh u ^ 2 / (2 * u ^ 2)) ((Real.sinh (2 * u) - 2 * u) / (8 * u ^ 3)) y =
      (Real.sqrt 2 / 4 * Real.sqrt y ^ 3 * ((Real.sinh (2 * u) - 2 * u) / Real.sinh u ^ 3) + a * Real.sqrt y) / Real.sqrt mu := by
  have hs : 0 < Real.sinh u := Real.sinh_pos_iff.2 hu
  have h2 : 0 < Real.sqrt 2 := by positivity
  have h22 : Real.sqrt 2 ^ 2 = 2 := Real.sq_sqrt (by norm_num)
  have e : Real.sqrt (y / (Real.sinh u ^ 2 / (2 * u ^ 2))) = Real.sqrt y * (Real.sqrt 2 * u) / Real.sinh u := by
    rw [Real.sqrt_eq_iff_mul_self_eq (by positivity) (by positivity)]
    field_simp
    rw [h22, Real.sq_sqrt hy]
  rw [timeOf, e]
  congr 2
  field_simp
  generalize Real.sqrt 2 = r at *
  linear_combination (4 * Real.sqrt y ^ 3 * (Real.sinh (u * 2) - 2 * u)) * h22

/-- The time with the values of `c2` and `c3` at zero. -/
theorem timeOf_par (mu a : ℝ) {y : ℝ} (hy : 0 ≤ y) :
    timeOf mu a (1 / 2) (1 / 6) y = (Real.sqrt 2 / 3 * Real.sqrt y ^ 3 + a * Real.sqrt y) / Real.sqrt mu := by
  have h22 : Real.sqrt 2 ^ 2 = 2 := Real.sq_sqrt (by norm_num)
  have e : Real.sqrt (y / (1 / 2)) = Real.sqrt y * Real.sqrt 2 := by
    rw [← Real.sqrt_mul hy]; congr 1; ring
  rw [timeOf, e]
  congr 2
  generalize Real.sqrt 2 = r at *
  linear_combination (1 / 6 * r * Real.sqrt y ^ 3) * h22

/-! ### A transfer near the parabola -/

/-- The `phi` of the round numbered `j`, as long as the time of flight is too short. -/
noncomputable def halved (j : Nat) : ℝ := -(4 * Real.pi ^ 2) / 2 ^ j

/-- A sixth of the opposite of the `phi` with which the loop ends. -/
noncomputable def parQ : ℝ := 4 * Real.pi ^ 2 / 2 ^ 19 / 6

/-- The square root of the `y` with which the loop ends. -/
noncomputable def parW : ℝ := Real.sqrt (365 - 28 * parQ)

/-- The time of flight with which the loop ends, without the units. -/
noncomputable def parP : ℝ := parW ^ 3 / 3 + 14 * parW

/-- The gravitational parameter, such that the loop ends with a time of flight of one million seconds. -/
noncomputable def parMu : ℝ := (Real.sqrt 2 * parP / 10 ^ 6) ^ 2

/-- The transfer, of a quarter of a turn, from the distance 1 to the distance 392, in one million seconds. -/
noncomputable def parInput : Input :=
  ⟨⟨![1, 0, 0], 0, 0, ⟨(0, 0), some parMu⟩⟩, ⟨![0, 392, 0], 0, 10 ^ 15, ⟨(0, 0), some parMu⟩⟩⟩

theorem parQ_bounds : 1 / 10 ^ 5 < parQ ∧ parQ < 3 / 2 / 10 ^ 5 := by
  have := pi_sq_bounds
  unfold parQ
  constructor
  · rw [lt_div_iff₀ (by norm_num), lt_div_iff₀ (by positivity)]; norm_num; linarith
  · rw [div_lt_iff₀ (by norm_num), div_lt_iff₀ (by positivity)]; norm_num; linarith

theorem parW_sq : parW ^ 2 = 365 - 28 * parQ := Real.sq_sqrt (by linarith [parQ_bounds.2])

theorem parW_bounds : 19 < parW ∧ parW < 20 := by
  have h := parQ_bounds
  unfold parW
  constructor
  · rw [Real.lt_sqrt (by norm_num)]; linarith
  · rw [Real.sqrt_lt' (by norm_num)]; linarith

theorem parP_bounds : 2000 < parP ∧ parP < 3000 := by
  obtain ⟨h1, h2⟩ := parW_bounds
  unfold parP
  have a1 : 19 ^ 3 < parW ^ 3 := pow_lt_pow_left₀ h1 (by norm_num) (by norm_num)
  have a2 : parW ^ 3 < 20 ^ 3 := pow_lt_pow_left₀ h2 (by linarith) (by norm_num)
  constructor <;> linarith

theorem parMu_sqrt : Real.sqrt parMu = Real.sqrt 2 * parP / 10 ^ 6 := by
  have := parP_bounds
  exact Real.sqrt_sq (by have : 0 < parP := by linarith
                         positivity)

theorem parMu_pos : 0 < parMu := by
  have := parP_bounds
  have : 0 < parP := by linarith
  unfold parMu
  positivity

/-- The times without units: greater with a greater root of `y`. -/
theorem par_gap {w w' : ℝ} (h0 : 0 ≤ w) (h : w ^ 2 + 14 * parQ ≤ w' ^ 2) (h' : 0 ≤ w') (h20 : w' ≤ 20) :
    1 / 10 ^ 5 < (w' ^ 3 / 3 + 14 * w') - (w ^ 3 / 3 + 14 * w) := by
  have hq := parQ_bounds.1
  have hlt : w ≤ w' := by
    by_contra hc
    push Not at hc
    have := pow_le_pow_left₀ h' hc.le 2
    linarith
  have h3 : w ^ 3 ≤ w' ^ 3 := pow_le_pow_left₀ h0 hlt 3
  have : 14 * parQ ≤ (w' - w) * 40 := by
    calc 14 * parQ ≤ (w' - w) * (w' + w) := by linarith [sq_sub_sq w' w, mul_comm (w' - w) (w' + w)]
      _ ≤ (w' - w) * 40 := mul_le_mul_of_nonneg_left (by linarith) (by linarith)
  linarith

/-- The times in seconds: `14 √2` is the constant `A`. -/
theorem par_time {p : ℝ} : Real.sqrt 2 * p / Real.sqrt parMu = 10 ^ 6 * (p / parP) := by
  have := parP_bounds
  have h0 : parP ≠ 0 := by linarith
  have h2 : Real.sqrt 2 ≠ 0 := by positivity
  rw [parMu_sqrt]
  field_simp

theorem par_less {p : ℝ} (h : 1 / 10 ^ 5 < parP - p) : 10 ^ 6 * (p / parP) < 10 ^ 6 - 1 / 10 ^ 3 := by
  have := parP_bounds
  have h0 : 0 < parP := by linarith
  have : p / parP < 1 - 1 / 10 ^ 9 := by
    rw [div_lt_iff₀ h0]; nlinarith
  linarith

theorem par_more {p : ℝ} (h : 1 / 10 ^ 5 < p - parP) : 10 ^ 6 + 1 / 10 ^ 3 < 10 ^ 6 * (p / parP) := by
  have := parP_bounds
  have h0 : 0 < parP := by linarith
  have : 1 + 1 / 10 ^ 9 < p / parP := by
    rw [lt_div_iff₀ h0]; nlinarith
  linarith

theorem cosh_lt_14 {u : ℝ} (h : u ^ 2 < 5) : Real.cosh u < 14 := by
  refine lt_of_le_of_lt (Real.cosh_le_exp_half_sq u) ?_
  refine lt_of_lt_of_le (Real.exp_lt_exp.2 (show u ^ 2 / 2 < 5 / 2 by linarith)) ?_
  have h1 := Real.exp_one_lt_d9
  have h2 : Real.exp (5 / 2) ^ 2 = Real.exp 1 ^ 5 := by
    rw [← Real.exp_nat_mul, ← Real.exp_nat_mul]; norm_num
  have h3 : Real.exp 1 ^ 5 < 14 ^ 2 := by
    refine lt_trans (pow_lt_pow_left₀ h1 (Real.exp_pos 1).le (by norm_num)) (by norm_num)
  rw [← h2] at h3
  exact (lt_of_pow_lt_pow_left₀ 2 (by norm_num) h3).le

/-- One of the rounds with the exact functions: the time is too short. -/
theorem par_exact {phi : ℝ} (h1 : phi ≤ -(12 * parQ)) (h2 : -(2 * Real.pi ^ 2) ≤ phi) (hs : phi < -(1 / 10 ^ 4)) :
    0 ≤ yOf (14 * Real.sqrt 2) 1 392 phi (stumpff phi).1 (stumpff phi).2 ∧
    timeOf parMu (14 * Real.sqrt 2) (stumpff phi).1 (stumpff phi).2
      (yOf (14 * Real.sqrt 2) 1 392 phi (stumpff phi).1 (stumpff phi).2) < 10 ^ 6 - 1 / 10 ^ 3 := by
  have hq := parQ_bounds
  have hpos : 0 < -phi := by
    have : (0 : ℝ) < 1 / 10 ^ 4 := by norm_num
    linarith
  obtain ⟨u, hu, rfl⟩ : ∃ u : ℝ, 0 < u ∧ phi = -(4 * u ^ 2) :=
    ⟨Real.sqrt (-phi) / 2, by have := Real.sqrt_pos.2 hpos; positivity, by
      rw [div_pow, Real.sq_sqrt hpos.le]; ring⟩
  have hex := stumpff_exact (φ := -(4 * u ^ 2)) (Or.inl (by rw [abs_neg, abs_of_pos (by positivity)]; linarith))
  obtain ⟨e2, e3⟩ := hex.unique (stumpff_half_angle hu)
  rw [e2, e3, yOf_hyp _ _ _ hu]
  have h22 : Real.sqrt 2 ^ 2 = 2 := Real.sq_sqrt (by norm_num)
  have hy : (1 : ℝ) + 392 - 14 * Real.sqrt 2 * Real.sqrt 2 * Real.cosh u = 393 - 28 * Real.cosh u := by
    linear_combination (-14 * Real.cosh u) * h22
  rw [hy]
  have hc := cosh_lt_14 (u := u) (by have := pi_sq_bounds.2; linarith)
  have hy0 : 0 ≤ 393 - 28 * Real.cosh u := by linarith
  refine ⟨hy0, ?_⟩
  rw [timeOf_hyp _ _ hy0 hu]
  have hsq : Real.sqrt (393 - 28 * Real.cosh u) ^ 2 = 393 - 28 * Real.cosh u := Real.sq_sqrt hy0
  have hw : 0 ≤ Real.sqrt (393 - 28 * Real.cosh u) := Real.sqrt_nonneg _
  generalize Real.sqrt (393 - 28 * Real.cosh u) = w at *
  have hsh : 0 < Real.sinh u := Real.sinh_pos_iff.2 hu
  have hr : (Real.sinh (2 * u) - 2 * u) / Real.sinh u ^ 3 ≤ 4 / 3 := by
    rw [div_le_iff₀ (by positivity)]; exact sinh_le_cube hu.le
  have hch := cosh_ge u hu.le
  have hle : (Real.sqrt 2 / 4 * w ^ 3 * ((Real.sinh (2 * u) - 2 * u) / Real.sinh u ^ 3) + 14 * Real.sqrt 2 * w) /
      Real.sqrt parMu ≤ Real.sqrt 2 * (w ^ 3 / 3 + 14 * w) / Real.sqrt parMu := by
    have hm : 0 < Real.sqrt parMu := Real.sqrt_pos.2 parMu_pos
    refine div_le_div_of_nonneg_right ?_ hm.le
    have := mul_le_mul_of_nonneg_left hr (show 0 ≤ Real.sqrt 2 / 4 * w ^ 3 by positivity)
    linarith
  refine lt_of_le_of_lt hle ?_
  rw [par_time]
  refine par_less (par_gap hw ?_ (by linarith [parW_bounds.1]) parW_bounds.2.le)
  rw [hsq, parW_sq]
  linarith

/-- A round in which `y` is not negative. -/
theorem goodStep_nonneg {mu a n1 n2 tof : ℝ} {s : Iter} (h : 0 ≤ yOf a n1 n2 s.phi s.c2 s.c3) :
    ∃ s', goodStep mu a n1 n2 tof s = .ok s' ∧ s'.y = yOf a n1 n2 s.phi s.c2 s.c3 ∧
      s'.cur = timeOf mu a s.c2 s.c3 (yOf a n1 n2 s.phi s.c2 s.c3) ∧
      (s'.cur < tof → s'.lower = s.phi ∧ s'.upper = s.upper) ∧ (¬ s'.cur < tof → s'.lower = s.lower ∧ s'.upper = s.phi) ∧
      s'.phi = (s'.upper + s'.lower) / 2 ∧ s'.c2 = (stumpff s'.phi).1 ∧ s'.c3 = (stumpff s'.phi).2 ∧
      s'.seen = (s.phi, s.c2, s.c3) := by
  have h1 : ¬ (0 < a ∧ yOf a n1 n2 s.phi s.c2 s.c3 < 0) := fun e => absurd e.2 (not_lt.2 h)
  have hc : chooseY a n1 n2 s = (s.phi, yOf a n1 n2 s.phi s.c2 s.c3) := by simp only [chooseY, if_neg h1]
  refine ⟨_, by simp only [goodStep, hc, if_neg h1]; rfl, rfl, rfl, ?_, ?_, rfl, rfl, rfl, rfl⟩
  · intro e
    exact ⟨if_pos e, if_pos e⟩
  · intro e
    exact ⟨if_neg e, if_neg e⟩

theorem halved_succ (j : Nat) : halved (j + 1) = halved j / 2 := by
  unfold halved; rw [pow_succ]; field_simp; ring

theorem halved_19 : halved 19 = -(6 * parQ) := by unfold halved parQ; ring

theorem halved_le {j : Nat} (h1 : 1 ≤ j) (h : j ≤ 18) : halved j ≤ -(12 * parQ) ∧ -(2 * Real.pi ^ 2) ≤ halved j := by
  have h0 : 0 < 4 * Real.pi ^ 2 := by positivity
  have e : halved 18 = -(12 * parQ) := by unfold halved parQ; ring
  have e' : halved 1 = -(2 * Real.pi ^ 2) := by unfold halved; ring
  rw [← e, ← e']
  unfold halved
  rw [neg_div, neg_div, neg_div]
  have a1 : (2 : ℝ) ^ j ≤ 2 ^ 18 := pow_le_pow_right₀ (by norm_num) h
  have a2 : (2 : ℝ) ^ 1 ≤ 2 ^ j := pow_le_pow_right₀ (by norm_num) h1
  exact ⟨neg_le_neg (div_le_div_of_nonneg_left h0.le (by positivity) a1),
    neg_le_neg (div_le_div_of_nonneg_left h0.le (by norm_num) a2)⟩

/-- What holds before the round numbered `j`. -/
structure Halving (j : Nat) (s : Iter) : Prop where
  upper : s.upper = 0
  phi : s.phi = halved j
  c2 : s.c2 = (stumpff s.phi).1
  c3 : s.c3 = (stumpff s.phi).2
  far : |s.cur - 10 ^ 6| > 1 / 10 ^ 4

theorem halving_loop : ∀ (d j : Nat), j + d = 19 → 1 ≤ j → ∀ (k : Nat) (s : Iter), Halving j s →
    ∃ s', goodLoop parMu (14 * Real.sqrt 2) 1 392 (10 ^ 6) (k + d + 1) s = .ok s' ∧ s'.y = 365 - 28 * parQ ∧
      s'.seen.2 = stumpff s'.seen.1
  | 0, j, hj, _, k, s, h => by
    have hq := parQ_bounds
    obtain rfl : j = 19 := by omega
    have hphi : s.phi = -(6 * parQ) := by rw [h.phi, halved_19]
    have hst : stumpff s.phi = (1 / 2, 1 / 6) := by
      apply stumpff_small
      rw [hphi, abs_neg, abs_of_pos (by linarith)]
      intro e; linarith
    have e2 : s.c2 = 1 / 2 := by rw [h.c2, hst]
    have e3 : s.c3 = 1 / 6 := by rw [h.c3, hst]
    have hy : yOf (14 * Real.sqrt 2) 1 392 s.phi s.c2 s.c3 = 365 - 28 * parQ := by
      have h22 : Real.sqrt 2 ^ 2 = 2 := Real.sq_sqrt (by norm_num)
      have hp : 0 < Real.sqrt 2 := by positivity
      have hh : Real.sqrt (1 / 2) = 1 / Real.sqrt 2 := by rw [Real.sqrt_div zero_le_one, Real.sqrt_one]
      rw [hphi, e2, e3, yOf, hh]
      field_simp
      linear_combination (-14 * (1 + parQ)) * h22
    obtain ⟨s', hs, y', cur', -, -, -, -, -, seen'⟩ := goodStep_nonneg (mu := parMu) (tof := 10 ^ 6) (s := s) (a := 14 * Real.sqrt 2)
      (n1 := 1) (n2 := 392) (by rw [hy]; linarith)
    rw [hy] at y' cur'
    refine ⟨s', ?_, y', by rw [seen', hst, e2, e3]⟩
    have hcur : s'.cur = 10 ^ 6 := by
      rw [cur', e2, e3, timeOf_par _ _ (by linarith)]
      have : Real.sqrt 2 / 3 * Real.sqrt (365 - 28 * parQ) ^ 3 + 14 * Real.sqrt 2 * Real.sqrt (365 - 28 * parQ) =
          Real.sqrt 2 * parP := by unfold parP parW; ring
      rw [this, par_time, div_self (by linarith [parP_bounds.1]), mul_one]
    rw [goodLoop, if_pos h.far]
    show (goodStep parMu (14 * Real.sqrt 2) 1 392 (10 ^ 6) s).bind _ = _
    rw [hs]
    show goodLoop parMu (14 * Real.sqrt 2) 1 392 (10 ^ 6) k s' = _
    rw [goodLoop.eq_def]
    exact if_neg (by rw [hcur]; norm_num)
  | d + 1, j, hj, h1, k, s, h => by
    have hq := parQ_bounds
    obtain ⟨b1, b2⟩ := halved_le h1 (by omega)
    have hs4 : halved j < -(1 / 10 ^ 4) := by linarith
    obtain ⟨y0, t0⟩ := par_exact b1 b2 hs4
    rw [← h.phi, ← h.c2, ← h.c3] at y0 t0
    obtain ⟨s', hs, -, cur', hl, -, p, c2, c3, -⟩ := goodStep_nonneg (mu := parMu) (tof := 10 ^ 6) y0
    rw [← cur'] at t0
    obtain ⟨l1, l2⟩ := hl (lt_trans t0 (by norm_num))
    have hM : Halving (j + 1) s' := by
      refine ⟨l2.trans h.upper, ?_, c2, c3, ?_⟩
      · rw [p, l1, l2, h.upper, h.phi, halved_succ, zero_add]
      · rw [gt_iff_lt, lt_abs]
        right
        have : (1 : ℝ) / 10 ^ 4 < 1 / 10 ^ 3 := by norm_num
        linarith
    obtain ⟨s'', hl'', hy''⟩ := halving_loop d (j + 1) (by omega) (by omega) k s' hM
    refine ⟨s'', ?_, hy''⟩
    rw [goodLoop, if_pos h.far]
    show (goodStep parMu (14 * Real.sqrt 2) 1 392 (10 ^ 6) s).bind (goodLoop parMu (14 * Real.sqrt 2) 1 392 (10 ^ 6) (k + d + 1)) = _
    rw [hs, Res.bind]
    exact hl''

theorem par_loop : ∃ s', goodLoop parMu (14 * Real.sqrt 2) 1 392 (10 ^ 6) 1001 Iter.start = .ok s' ∧ s'.y = 365 - 28 * parQ ∧
    s'.seen.2 = stumpff s'.seen.1 := by
  have hq := parQ_bounds
  have hy : yOf (14 * Real.sqrt 2) 1 392 Iter.start.phi Iter.start.c2 Iter.start.c3 = 365 := by
    have h22 : Real.sqrt 2 ^ 2 = 2 := Real.sq_sqrt (by norm_num)
    have hp : 0 < Real.sqrt 2 := by positivity
    have hh : Real.sqrt (1 / 2) = 1 / Real.sqrt 2 := by rw [Real.sqrt_div zero_le_one, Real.sqrt_one]
    show yOf (14 * Real.sqrt 2) 1 392 0 (1 / 2) (1 / 6) = 365
    rw [yOf, hh]
    field_simp
    linear_combination (-84) * h22
  obtain ⟨s', hs, -, cur', -, hl, p, c2, c3, -⟩ := goodStep_nonneg (mu := parMu) (tof := 10 ^ 6) (s := Iter.start)
    (a := 14 * Real.sqrt 2) (n1 := 1) (n2 := 392) (by rw [hy]; norm_num)
  have hcur : 10 ^ 6 + 1 / 10 ^ 3 < s'.cur := by
    rw [cur', hy]
    show _ < timeOf parMu (14 * Real.sqrt 2) (1 / 2) (1 / 6) 365
    rw [timeOf_par _ _ (by norm_num)]
    have : Real.sqrt 2 / 3 * Real.sqrt 365 ^ 3 + 14 * Real.sqrt 2 * Real.sqrt 365 =
        Real.sqrt 2 * (Real.sqrt 365 ^ 3 / 3 + 14 * Real.sqrt 365) := by ring
    rw [this, par_time]
    refine par_more (par_gap (by linarith [parW_bounds.1]) ?_ (Real.sqrt_nonneg _) ?_)
    · rw [parW_sq, Real.sq_sqrt (by norm_num)]; linarith
    · rw [Real.sqrt_le_left (by norm_num)]; norm_num
  have hn : ¬ s'.cur < 10 ^ 6 := by
    have : (0 : ℝ) < 1 / 10 ^ 3 := by norm_num
    intro h; linarith
  obtain ⟨l1, l2⟩ := hl hn
  have hM : Halving 1 s' := by
    have l2' : s'.upper = 0 := l2
    have l1' : s'.lower = -4 * Real.pi ^ 2 := l1
    refine ⟨l2', ?_, c2, c3, ?_⟩
    · rw [p, l1', l2', halved]; ring
    · rw [gt_iff_lt, lt_abs]
      left
      have : (1 : ℝ) / 10 ^ 4 < 1 / 10 ^ 3 := by norm_num
      linarith
  obtain ⟨s'', hl'', hy''⟩ := halving_loop 18 1 rfl le_rfl 981 s' hM
  refine ⟨s'', ?_, hy''⟩
  have h0 : |Iter.start.cur - 10 ^ 6| > (1 / 10 ^ 4 : ℝ) := by
    show |(0 : ℝ) - 10 ^ 6| > 1 / 10 ^ 4
    norm_num
  rw [goodLoop, if_pos h0]
  show (goodStep parMu (14 * Real.sqrt 2) 1 392 (10 ^ 6) Iter.start).bind (goodLoop parMu (14 * Real.sqrt 2) 1 392 (10 ^ 6) 1000) = _
  rw [hs, Res.bind]
  exact hl''

theorem nrm_392 : nrm (![0, 392, 0] : V3) = 392 := by
  have : nrm (![0, 392, 0] : V3) = Real.sqrt ((![0, 392, 0] : V3) ⬝ᵥ ![0, 392, 0]) := rfl
  rw [this, dot3]; simp

theorem par_a : goodA 1 (![1, 0, 0] : V3) ![0, 392, 0] = 14 * Real.sqrt 2 := by
  rw [goodA, nrm_e0, nrm_392, dot3]
  have : (1 * 392 * (1 + ((![1, 0, 0] : V3) 0 * (![0, 392, 0] : V3) 0 + (![1, 0, 0] : V3) 1 * (![0, 392, 0] : V3) 1 +
      (![1, 0, 0] : V3) 2 * (![0, 392, 0] : V3) 2) / (1 * 392)) : ℝ) = 14 ^ 2 * 2 := by simp; norm_num
  rw [this, Real.sqrt_mul (by norm_num), Real.sqrt_sq (by norm_num), one_mul]

theorem par_cross : (![1, 0, 0] : V3) ⨯₃ ![0, 392, 0] ≠ 0 := by
  intro h
  have := congrFun h 2
  rw [cross2] at this
  simp at this

/-- **C143 (refuted).** The flight on the orbit that `gooding` returns can last more than a second less than the time
asked for: the last round has a `phi` of less than 1e-4, for which `c2` and `c3` are replaced by their values at
zero. The time of the flight is unique. -/
theorem gooding_solves_false : ∃ sol v1 v2 T, gooding parInput .shortWay = .ok sol ∧ sol.vInit = some v1 ∧
    sol.vFinal = some v2 ∧ Reaches parMu ![1, 0, 0] v1 ![0, 392, 0] v2 T ∧ T < parInput.tof - 1 ∧
    ∀ T', Reaches parMu ![1, 0, 0] v1 ![0, 392, 0] v2 T' → T' = T := by
  have hq := parQ_bounds
  have htof : parInput.tof = 10 ^ 6 := by
    show (((10 ^ 15 : Int) - 0 : Int) : ℝ) / 10 ^ 9 = 10 ^ 6
    norm_num
  obtain ⟨s, hl, hy, -⟩ := par_loop
  have h22 : Real.sqrt 2 ^ 2 = 2 := Real.sq_sqrt (by norm_num)
  have hp2 : 0 < Real.sqrt 2 := by positivity
  have ha0 : (14 * Real.sqrt 2 : ℝ) ≠ 0 := by positivity
  have hyp : 0 < 365 - 28 * parQ := by linarith
  obtain ⟨v1, v2, ev, e1, e2⟩ := goodVelocities_some parMu_pos ha0 hyp ![1, 0, 0] ![0, 392, 0]
  have hg : gooding parInput .shortWay = .ok ⟨some v1, some v2, s.phi, parInput⟩ := by
    have h1 : parInput.mu = .ok parMu := rfl
    have h2 : ¬ tooClose (goodA 1 parInput.initial.pos parInput.final.pos) parInput.initial.pos parInput.final.pos := by
      show ¬ tooClose (goodA 1 ![1, 0, 0] ![0, 392, 0]) (![1, 0, 0] : V3) ![0, 392, 0]
      rw [par_a]
      rintro ⟨-, h⟩
      rw [abs_of_pos (by positivity)] at h
      have : 1 ≤ Real.sqrt 2 := by rw [Real.one_le_sqrt]; norm_num
      have h' : (1 : ℝ) / 10 ^ 4 < 1 := by norm_num
      linarith
    have h3 : goodLoop parMu (goodA 1 parInput.initial.pos parInput.final.pos) (nrm parInput.initial.pos)
        (nrm parInput.final.pos) parInput.tof 1001 Iter.start = .ok s := by
      rw [htof]
      show goodLoop parMu (goodA 1 ![1, 0, 0] ![0, 392, 0]) (nrm ![1, 0, 0]) (nrm ![0, 392, 0]) _ 1001 Iter.start = .ok s
      rw [par_a, nrm_e0, nrm_392]
      exact hl
    have h4 : goodVelocities parMu (goodA 1 parInput.initial.pos parInput.final.pos) s.y parInput.initial.pos
        parInput.final.pos = (some v1, some v2) := by
      show goodVelocities parMu (goodA 1 ![1, 0, 0] ![0, 392, 0]) s.y ![1, 0, 0] ![0, 392, 0] = _
      rw [par_a, hy]
      exact ev
    simp only [gooding, h1, Res.bind, Kind.direction]
    rw [if_neg h2, h3]
    simp only [h4]
  -- the orbit
  obtain ⟨u, hu, hcu⟩ : ∃ u : ℝ, 0 < u ∧ Real.cosh u = 1 + parQ := by
    have h1 : Real.cosh 0 ≤ 1 + parQ := by rw [Real.cosh_zero]; linarith
    have h2 : 1 + parQ ≤ Real.cosh 1 := by
      have := cosh_ge 1 zero_le_one
      linarith
    obtain ⟨u, hu, e⟩ := intermediate_value_Icc zero_le_one Real.continuous_cosh.continuousOn ⟨h1, h2⟩
    refine ⟨u, lt_of_le_of_ne hu.1 ?_, e⟩
    intro h
    rw [← h, Real.cosh_zero] at e
    linarith
  have hsh : 0 < Real.sinh u := Real.sinh_pos_iff.2 hu
  have hsh2 : 2 * parQ ≤ Real.sinh u ^ 2 := by
    have := Real.cosh_sq u
    rw [hcu] at this
    nlinarith [sq_nonneg parQ]
  have hyo : 365 - 28 * parQ = yOf (14 * Real.sqrt 2) (nrm (![1, 0, 0] : V3)) (nrm (![0, 392, 0] : V3)) (-(4 * u ^ 2))
      (Real.sinh u ^ 2 / (2 * u ^ 2)) ((Real.sinh (2 * u) - 2 * u) / (8 * u ^ 3)) := by
    rw [yOf_hyp _ _ _ hu, nrm_e0, nrm_392, hcu]
    linear_combination (14 * (1 + parQ)) * h22
  have hdot : (![1, 0, 0] : V3) ⬝ᵥ ![0, 392, 0] = 0 := by rw [dot3]; simp
  have hr := velocities_reach parMu_pos ha0 hyp (show 0 < Real.sinh u ^ 2 / (2 * u ^ 2) by positivity) par_cross
    (by rw [nrm_e0, nrm_392, hdot, mul_pow, h22]; norm_num) (stumpff_half_angle hu) hyo e1 e2
  refine ⟨_, v1, v2, _, hg, rfl, rfl, hr, ?_, fun T' h' => Reaches.time_unique parMu_pos ?_ hr h'⟩
  · rw [htof, timeOf_hyp _ _ hyp.le hu]
    have hgap := sinh_gap hu.le (by rw [hcu]; linarith)
    have hr' : (Real.sinh (2 * u) - 2 * u) / Real.sinh u ^ 3 ≤ 4 / 3 - 1 / 5 * (2 * parQ) := by
      rw [div_le_iff₀ (by positivity)]
      have := mul_le_mul_of_nonneg_right hsh2 (show 0 ≤ Real.sinh u ^ 3 by positivity)
      nlinarith
    obtain ⟨w1, w2⟩ := parW_bounds
    have hle : Real.sqrt 2 / 4 * parW ^ 3 * ((Real.sinh (2 * u) - 2 * u) / Real.sinh u ^ 3) + 14 * Real.sqrt 2 * parW ≤
        Real.sqrt 2 * (parP - parW ^ 3 / 10 * parQ) := by
      have hw : 0 < parW := by linarith
      have := mul_le_mul_of_nonneg_left hr' (show 0 ≤ Real.sqrt 2 / 4 * parW ^ 3 by positivity)
      unfold parP
      linarith
    have hm : 0 < Real.sqrt parMu := Real.sqrt_pos.2 parMu_pos
    refine lt_of_le_of_lt (div_le_div_of_nonneg_right hle hm.le) ?_
    rw [par_time]
    obtain ⟨p1, p2⟩ := parP_bounds
    have hp : 0 < parP := by linarith
    have a1 : (19 : ℝ) ^ 3 < parW ^ 3 := pow_lt_pow_left₀ w1 (by norm_num) (by norm_num)
    have a2 : (19 : ℝ) ^ 3 / 10 * (1 / 10 ^ 5) < parW ^ 3 / 10 * parQ :=
      mul_lt_mul'' (by linarith) hq.1 (by norm_num) (by norm_num)
    have : (parP - parW ^ 3 / 10 * parQ) / parP < 1 - 1 / 10 ^ 6 := by
      rw [div_lt_iff₀ hp]
      have : (1 - 1 / 10 ^ 6) * parP = parP - parP / 10 ^ 6 := by ring
      rw [this]
      have : parP / 10 ^ 6 < 3000 / 10 ^ 6 := by linarith
      norm_num at a2 this ⊢
      linarith
    linarith
  · have hg2 : (14 * Real.sqrt 2 * Real.sqrt ((365 - 28 * parQ) / parMu)) ^ 2 = 392 * (365 - 28 * parQ) / parMu := by
      rw [mul_pow, mul_pow, h22, Real.sq_sqrt (div_pos hyp parMu_pos).le]; ring
    have hvv := congrArg (fun v => v ⬝ᵥ v) e1
    simp only [dotProduct_smul, smul_dotProduct, smul_eq_mul, nrm_e0] at hvv
    have hrhs : ((![0, 392, 0] : V3) - (1 - (365 - 28 * parQ) / 1) • ![1, 0, 0]) ⬝ᵥ
        (![0, 392, 0] - (1 - (365 - 28 * parQ) / 1) • ![1, 0, 0]) = 392 ^ 2 + (364 - 28 * parQ) ^ 2 := by
      rw [dot3]
      simp only [Pi.sub_apply, Pi.smul_apply, smul_eq_mul]
      simp
      ring
    rw [hrhs] at hvv
    have hv : v1 ⬝ᵥ v1 = (392 ^ 2 + (364 - 28 * parQ) ^ 2) * parMu / (392 * (365 - 28 * parQ)) := by
      have : (14 * Real.sqrt 2 * Real.sqrt ((365 - 28 * parQ) / parMu)) ^ 2 * (v1 ⬝ᵥ v1) = 392 ^ 2 + (364 - 28 * parQ) ^ 2 := by
        rw [← hvv]; ring
      rw [hg2] at this
      have hm := parMu_pos
      rw [← this]
      field_simp
    have hm := parMu_pos
    rw [energy, hv, nrm_e0, div_one]
    have : (392 ^ 2 + (364 - 28 * parQ) ^ 2) * parMu / (392 * (365 - 28 * parQ)) / 2 - parMu =
        parMu * (((28 + 28 * parQ) ^ 2 - 28 ^ 2) / (784 * (365 - 28 * parQ))) := by
      field_simp
      ring
    rw [this]
    have : 0 < (28 + 28 * parQ) ^ 2 - 28 ^ 2 := by nlinarith [sq_nonneg parQ]
    positivity

/-! ### How far the time can be off -/

theorem sinh_gap_le {u : ℝ} (hu : 0 ≤ u) :
    4 / 3 * Real.sinh u ^ 3 - 2 / 5 * Real.sinh u ^ 5 ≤ Real.sinh (2 * u) - 2 * u := by
  have hd' : ∀ x, HasDerivAt (fun x => 4 / 3 * Real.sinh x ^ 3 - 2 / 5 * Real.sinh x ^ 5 - (2 * Real.sinh x * Real.cosh x - 2 * x))
      (-(Real.sinh x ^ 2 * (Real.cosh x - 1) * (2 * (Real.cosh x + 1) * Real.cosh x - 4))) x := by
    intro x
    refine hd (((((Real.hasDerivAt_sinh x).pow 3).const_mul (4 / 3)).sub
        (((Real.hasDerivAt_sinh x).pow 5).const_mul (2 / 5))).sub
        ((((Real.hasDerivAt_sinh x).const_mul 2).mul (Real.hasDerivAt_cosh x)).sub ((hasDerivAt_id x).const_mul 2))) ?_
    have e : Real.cosh x ^ 2 = Real.sinh x ^ 2 + 1 := Real.cosh_sq x
    simp only [Nat.cast_ofNat, Nat.reduceSub]
    generalize Real.cosh x = c at *
    generalize Real.sinh x = s at *
    linear_combination (-2 + 2 * s ^ 2 * c) * e
  have := anti_zero hd' hu (fun x hx => by
    have h1 := Real.one_le_cosh x
    have : 0 ≤ Real.sinh x ^ 2 * (Real.cosh x - 1) * (2 * (Real.cosh x + 1) * Real.cosh x - 4) :=
      mul_nonneg (mul_nonneg (sq_nonneg _) (by linarith)) (by nlinarith)
    linarith)
  simp only [Real.sinh_zero, Real.cosh_zero] at this
  rw [Real.sinh_two_mul]
  norm_num at this
  linarith

theorem sin_gap {u : ℝ} (hu : 0 ≤ u) (hp : u ≤ Real.pi) (hc : 9 / 10 ≤ Real.cos u) :
    4 / 3 * Real.sin u ^ 3 ≤ 2 * u - Real.sin (2 * u) ∧
      2 * u - Real.sin (2 * u) ≤ 4 / 3 * Real.sin u ^ 3 + 1 / 2 * Real.sin u ^ 5 := by
  have hcos : ∀ x ∈ Set.Icc 0 u, 9 / 10 ≤ Real.cos x := fun x hx =>
    hc.trans (Real.cos_le_cos_of_nonneg_of_le_pi hx.1 hp hx.2)
  constructor
  · have hd' : ∀ x, HasDerivAt (fun x => 4 / 3 * Real.sin x ^ 3 - (2 * x - 2 * Real.sin x * Real.cos x))
        (-(4 * Real.sin x ^ 2 * (1 - Real.cos x))) x := by
      intro x
      refine hd ((((Real.hasDerivAt_sin x).pow 3).const_mul (4 / 3)).sub (((hasDerivAt_id x).const_mul 2).sub
        (((Real.hasDerivAt_sin x).const_mul 2).mul (Real.hasDerivAt_cos x)))) ?_
      have e := Real.sin_sq_add_cos_sq x
      simp only [Nat.cast_ofNat, Nat.reduceSub]
      generalize Real.cos x = c at *
      generalize Real.sin x = s at *
      linear_combination 2 * e
    have := anti_zero hd' hu (fun x hx => by
      have : 0 ≤ 4 * Real.sin x ^ 2 * (1 - Real.cos x) := mul_nonneg (by positivity) (by linarith [Real.cos_le_one x])
      linarith)
    simp only [Real.sin_zero, Real.cos_zero] at this
    rw [Real.sin_two_mul]
    norm_num at this
    linarith
  · have hd' : ∀ x, HasDerivAt (fun x => (2 * x - 2 * Real.sin x * Real.cos x) - (4 / 3 * Real.sin x ^ 3 + 1 / 2 * Real.sin x ^ 5))
        (-(Real.sin x ^ 2 * (1 - Real.cos x) * (5 / 2 * (1 + Real.cos x) * Real.cos x - 4))) x := by
      intro x
      refine hd ((((hasDerivAt_id x).const_mul 2).sub
        (((Real.hasDerivAt_sin x).const_mul 2).mul (Real.hasDerivAt_cos x))).sub
        ((((Real.hasDerivAt_sin x).pow 3).const_mul (4 / 3)).add (((Real.hasDerivAt_sin x).pow 5).const_mul (1 / 2)))) ?_
      have e := Real.sin_sq_add_cos_sq x
      simp only [Nat.cast_ofNat, Nat.reduceSub]
      generalize Real.cos x = c at *
      generalize Real.sin x = s at *
      linear_combination (-2 - 5 / 2 * s ^ 2 * c) * e
    have := anti_zero hd' hu (fun x hx => by
      have h1 := hcos x hx
      have : 0 ≤ Real.sin x ^ 2 * (1 - Real.cos x) * (5 / 2 * (1 + Real.cos x) * Real.cos x - 4) :=
        mul_nonneg (mul_nonneg (sq_nonneg _) (by linarith [Real.cos_le_one x])) (by nlinarith)
      linarith)
    simp only [Real.sin_zero, Real.cos_zero] at this
    rw [Real.sin_two_mul]
    norm_num at this
    linarith

theorem stumpff_half_angle' {u : ℝ} (hu : 0 < u) :
    IsStumpff (4 * u ^ 2) (Real.sin u ^ 2 / (2 * u ^ 2)) ((2 * u - Real.sin (2 * u)) / (8 * u ^ 3)) := by
  have hs : Real.sqrt (4 * u ^ 2) = 2 * u := by
    rw [show 4 * u ^ 2 = (2 * u) ^ 2 by ring, Real.sqrt_sq (by positivity)]
  refine Or.inl ⟨by positivity, ?_, ?_⟩
  · rw [hs, Real.cos_two_mul, Real.cos_sq']
    field_simp
    ring
  · rw [hs]; congr 1; ring

theorem yOf_ell (a n1 n2 : ℝ) {u : ℝ} (hu : 0 < u) (hs : 0 < Real.sin u) :
    yOf a n1 n2 (4 * u ^ 2) (Real.sin u ^ 2 / (2 * u ^ 2)) ((2 * u - Real.sin (2 * u)) / (8 * u ^ 3)) =
      n1 + n2 - a * Real.sqrt 2 * Real.cos u := by
  have h2 : 0 < Real.sqrt 2 := by positivity
  have h22 : Real.sqrt 2 ^ 2 = 2 := Real.sq_sqrt (by norm_num)
  have e : Real.sqrt (Real.sin u ^ 2 / (2 * u ^ 2)) = Real.sin u / (Real.sqrt 2 * u) := by
    rw [Real.sqrt_eq_iff_mul_self_eq (by positivity) (by positivity)]
    field_simp
    rw [h22]
  rw [yOf, e, Real.sin_two_mul]
  field_simp
  ring

theorem timeOf_ell (mu a : ℝ) {y u : ℝ} (hy : 0 ≤ y) (hu : 0 < u) (hs : 0 < Real.sin u) :
    timeOf mu a (Real.sin u ^ 2 / (2 * u ^ 2)) ((2 * u - Real.sin (2 * u)) / (8 * u ^ 3)) y =
      (Real.sqrt 2 / 4 * Real.sqrt y ^ 3 * ((2 * u - Real.sin (2 * u)) / Real.sin u ^ 3) + a * Real.sqrt y) / Real.sqrt mu := by
  have h2 : 0 < Real.sqrt 2 := by positivity
  have h22 : Real.sqrt 2 ^ 2 = 2 := Real.sq_sqrt (by norm_num)
  have e : Real.sqrt (y / (Real.sin u ^ 2 / (2 * u ^ 2))) = Real.sqrt y * (Real.sqrt 2 * u) / Real.sin u := by
    rw [Real.sqrt_eq_iff_mul_self_eq (by positivity) (by positivity)]
    field_simp
    rw [h22, Real.sq_sqrt hy]
  rw [timeOf, e]
  congr 2
  field_simp
  generalize Real.sqrt 2 = r at *
  linear_combination (4 * Real.sqrt y ^ 3 * (2 * u - Real.sin (u * 2))) * h22

theorem yOf_par (a n1 n2 phi : ℝ) : yOf a n1 n2 phi (1 / 2) (1 / 6) = n1 + n2 - a * Real.sqrt 2 * (1 - phi / 6) := by
  have h22 : Real.sqrt 2 ^ 2 = 2 := Real.sq_sqrt (by norm_num)
  have hp : 0 < Real.sqrt 2 := by positivity
  have hh : Real.sqrt (1 / 2) = 1 / Real.sqrt 2 := by rw [Real.sqrt_div zero_le_one, Real.sqrt_one]
  rw [yOf, hh]
  field_simp
  ring

/-- With the values of `c2` and `c3` at zero for a small `phi`, the motion reaches the second position in a time which
differs from the computed one by at most `phi / 8` times its first term. -/
theorem near_reach {mu a phi y : ℝ} (hmu : 0 < mu) (ha : a ≠ 0) (hy : 0 < y) {r1 r2 : V3}
    (hc : r1 ⨯₃ r2 ≠ 0) (ha2 : a ^ 2 = nrm r1 * nrm r2 + r1 ⬝ᵥ r2) (h0 : phi ≠ 0) (h4 : |phi| ≤ 1 / 10 ^ 4)
    (hyo : y = yOf a (nrm r1) (nrm r2) phi (1 / 2) (1 / 6)) {v1 v2 : V3}
    (h1 : (a * Real.sqrt (y / mu)) • v1 = r2 - (1 - y / nrm r1) • r1)
    (h2 : (a * Real.sqrt (y / mu)) • v2 = (1 - y / nrm r2) • r2 - r1) :
    ∃ T, Reaches mu r1 v1 r2 v2 T ∧
      |T - timeOf mu a (1 / 2) (1 / 6) y| ≤ |phi| / 8 * (Real.sqrt 2 / 3 * Real.sqrt y ^ 3 / Real.sqrt mu) := by
  have hm : 0 < Real.sqrt mu := Real.sqrt_pos.2 hmu
  have hw : 0 < Real.sqrt y := Real.sqrt_pos.2 hy
  have hp2 : 0 < Real.sqrt 2 := by positivity
  rw [yOf_par] at hyo
  -- the difference of the times from the one of the ratios
  have diff : ∀ R : ℝ, |R - 4 / 3| ≤ |phi| / 6 →
      |(Real.sqrt 2 / 4 * Real.sqrt y ^ 3 * R + a * Real.sqrt y) / Real.sqrt mu - timeOf mu a (1 / 2) (1 / 6) y| ≤
        |phi| / 8 * (Real.sqrt 2 / 3 * Real.sqrt y ^ 3 / Real.sqrt mu) := by
    intro R hR
    rw [timeOf_par _ _ hy.le]
    have e : (Real.sqrt 2 / 4 * Real.sqrt y ^ 3 * R + a * Real.sqrt y) / Real.sqrt mu -
        (Real.sqrt 2 / 3 * Real.sqrt y ^ 3 + a * Real.sqrt y) / Real.sqrt mu =
        (Real.sqrt 2 / 4 * Real.sqrt y ^ 3 / Real.sqrt mu) * (R - 4 / 3) := by
      field_simp; ring
    rw [e, abs_mul, abs_of_pos (by positivity)]
    refine le_trans (mul_le_mul_of_nonneg_left hR (by positivity)) (le_of_eq ?_)
    field_simp
    ring
  rcases lt_or_gt_of_ne h0 with hn | hp
  · rw [abs_of_neg hn] at h4 diff ⊢
    obtain ⟨u, hu, hcu⟩ : ∃ u : ℝ, 0 < u ∧ Real.cosh u = 1 - phi / 6 := by
      have h1 : Real.cosh 0 ≤ 1 - phi / 6 := by rw [Real.cosh_zero]; linarith
      have h2 : 1 - phi / 6 ≤ Real.cosh 1 := by
        have := cosh_ge 1 zero_le_one
        have : (1 : ℝ) / 10 ^ 4 < 1 := by norm_num
        linarith
      obtain ⟨u, hu, e⟩ := intermediate_value_Icc zero_le_one Real.continuous_cosh.continuousOn ⟨h1, h2⟩
      refine ⟨u, lt_of_le_of_ne hu.1 ?_, e⟩
      intro h
      rw [← h, Real.cosh_zero] at e
      linarith
    have hsh : 0 < Real.sinh u := Real.sinh_pos_iff.2 hu
    have hr := velocities_reach hmu ha hy (show 0 < Real.sinh u ^ 2 / (2 * u ^ 2) by positivity) hc ha2
      (stumpff_half_angle hu) (by rw [yOf_hyp _ _ _ hu, hcu]; exact hyo) h1 h2
    refine ⟨_, hr, ?_⟩
    rw [timeOf_hyp _ _ hy.le hu]
    refine diff _ ?_
    have g1 := sinh_gap_le hu.le
    have g2 := sinh_le_cube hu.le
    have hs3 : 0 < Real.sinh u ^ 3 := by positivity
    have hsq : Real.sinh u ^ 2 = -phi / 3 + (phi / 6) ^ 2 := by
      have := Real.cosh_sq u
      rw [hcu] at this
      linear_combination -this
    have hsm : 2 / 5 * Real.sinh u ^ 2 ≤ -phi / 6 := by
      rw [hsq]
      norm_num at h4
      nlinarith
    rw [abs_le]
    constructor
    · rw [neg_le_sub_iff_le_add, ← sub_le_iff_le_add, le_div_iff₀ hs3]
      have := mul_le_mul_of_nonneg_right hsm hs3.le
      nlinarith
    · have : (Real.sinh (2 * u) - 2 * u) / Real.sinh u ^ 3 ≤ 4 / 3 := by rw [div_le_iff₀ hs3]; exact g2
      linarith
  · rw [abs_of_pos hp] at h4 diff ⊢
    have hpi := Real.pi_gt_three
    obtain ⟨u, hu, hu1, hcu⟩ : ∃ u : ℝ, 0 < u ∧ u ≤ 1 ∧ Real.cos u = 1 - phi / 6 := by
      have h1 : 1 - phi / 6 ≤ Real.cos 0 := by rw [Real.cos_zero]; linarith
      have h2 : Real.cos 1 ≤ 1 - phi / 6 := by
        have h3 := Real.cos_one_le
        have : (1 : ℝ) / 10 ^ 4 < 1 / 10 := by norm_num
        linarith
      obtain ⟨u, hu, e⟩ := intermediate_value_Icc' zero_le_one Real.continuous_cos.continuousOn ⟨h2, h1⟩
      refine ⟨u, lt_of_le_of_ne hu.1 ?_, hu.2, e⟩
      intro h
      rw [← h, Real.cos_zero] at e
      linarith
    have hsh : 0 < Real.sin u := Real.sin_pos_of_pos_of_lt_pi hu (by linarith)
    have hr := velocities_reach hmu ha hy (show 0 < Real.sin u ^ 2 / (2 * u ^ 2) by positivity) hc ha2
      (stumpff_half_angle' hu) (by rw [yOf_ell _ _ _ hu hsh, hcu]; exact hyo) h1 h2
    refine ⟨_, hr, ?_⟩
    rw [timeOf_ell _ _ hy.le hu hsh]
    refine diff _ ?_
    obtain ⟨g1, g2⟩ := sin_gap hu.le (by linarith) (by rw [hcu]; norm_num at h4; linarith)
    have hs3 : 0 < Real.sin u ^ 3 := by positivity
    have hsm : 1 / 2 * Real.sin u ^ 2 ≤ phi / 6 := by
      have := Real.sin_sq_add_cos_sq u
      rw [hcu] at this
      nlinarith [sq_nonneg phi]
    rw [abs_le]
    constructor
    · have : 4 / 3 ≤ (2 * u - Real.sin (2 * u)) / Real.sin u ^ 3 := by rw [le_div_iff₀ hs3]; exact g1
      linarith
    · rw [sub_le_iff_le_add, div_le_iff₀ hs3]
      have := mul_le_mul_of_nonneg_right hsm hs3.le
      nlinarith

/-- **C143.** Unless the `phi` of the last round was moved because of a negative `y`, the flight reaches the second
position with the second velocity; with a positive `A` (less than half a turn) the time is the one asked for up to
0.1 ms and a part in 80000 of the sum of both. Missing: the exact time (`gooding_solves_false`), and the rounds in
which `phi` was moved. -/
theorem gooding_near_partial {inp : Input} {kind : Kind} {mu dm : ℝ} {sol : Solution} {s : Iter}
    (hm : inp.initial.frame.mu = some mu) (hmu : 0 < mu) (hc : inp.initial.pos ⨯₃ inp.final.pos ≠ 0)
    (htof : 1 / 10 ^ 4 < |inp.tof|) (hk : kind.direction inp.final.pos inp.initial.pos = .ok dm)
    (hl : goodLoop mu (goodA dm inp.initial.pos inp.final.pos) (nrm inp.initial.pos) (nrm inp.final.pos) inp.tof 1001
      Iter.start = .ok s) (hx : s.seen.2 = stumpff s.seen.1) (h : gooding inp kind = .ok sol) :
    ∃ v1 v2 T, sol.vInit = some v1 ∧ sol.vFinal = some v2 ∧ Reaches mu inp.initial.pos v1 inp.final.pos v2 T ∧
      |T - inp.tof| ≤ 1 / 10 ^ 4 + 1 / 80000 * (Real.sqrt (2 * s.y) ^ 3 / 6 / Real.sqrt mu) ∧
      (0 < dm → |T - inp.tof| ≤ 1 / 10 ^ 4 + 1 / 80000 * (inp.tof + 1 / 10 ^ 4)) := by
  have h1 : inp.initial.pos ≠ 0 := fun e => hc (by rw [e]; simp)
  have h2 : inp.final.pos ≠ 0 := fun e => hc (by rw [e]; simp)
  have n1 := Verif.MathU.nrm_pos _ h1
  have n2 := Verif.MathU.nrm_pos _ h2
  have hmu' : inp.mu = .ok mu := by rw [Input.mu, hm]
  have hdm : dm ^ 2 = 1 := by rcases direction_cases hk with h | h <;> rw [h] <;> norm_num
  simp only [gooding, hmu', hk, Res.bind] at h
  split_ifs at h with ht
  rw [hl] at h
  injection h with h
  rcases goodLoop_spec (mu := mu) (tof := inp.tof) (geometry_of hdm n1 n2) 1001 Iter.start Inv.start
    (Or.inr (by show 1 / 10 ^ 4 < |0 - inp.tof|; rw [zero_sub, abs_neg]; exact htof)) with hl' | ⟨s', hl', hd, hs⟩
  · rw [hl] at hl'; cases hl'
  · rw [hl] at hl'
    injection hl' with hl'
    subst hl'
    obtain ⟨a0, a1, a2⟩ := goodA_sign hc (direction_cases hk)
    have hy := hd.y_pos hs htof
    obtain ⟨v1, v2, ev, e1, e2⟩ := goodVelocities_some hmu a0 hy inp.initial.pos inp.final.pos
    have hsm : 0 < Real.sqrt mu := Real.sqrt_pos.2 hmu
    have hF : Real.sqrt (2 * s.y) ^ 3 / 6 / Real.sqrt mu = Real.sqrt 2 / 3 * Real.sqrt s.y ^ 3 / Real.sqrt mu := by
      have h22 : Real.sqrt 2 ^ 2 = 2 := Real.sq_sqrt (by norm_num)
      rw [Real.sqrt_mul (by norm_num)]
      congr 1
      linear_combination (Real.sqrt 2 * Real.sqrt s.y ^ 3 / 6) * h22
    have hF0 : 0 ≤ Real.sqrt 2 / 3 * Real.sqrt s.y ^ 3 / Real.sqrt mu := by positivity
    -- the two cases
    obtain ⟨T, hT, hTc⟩ : ∃ T, Reaches mu inp.initial.pos v1 inp.final.pos v2 T ∧
        (T = s.cur ∨ s.seen.2 = (1 / 2, 1 / 6) ∧
          |T - s.cur| ≤ 1 / 80000 * (Real.sqrt 2 / 3 * Real.sqrt s.y ^ 3 / Real.sqrt mu)) := by
      by_cases hsmall : 1 / 10 ^ 4 < |s.seen.1| ∨ s.seen.1 = 0
      · refine ⟨s.cur, ?_, Or.inl rfl⟩
        rw [hd.cur]
        have := stumpff_exact hsmall
        rw [← hx] at this
        exact velocities_reach hmu a0 hy hd.c2 hc a2 this hd.eq e1 e2
      · push Not at hsmall
        have hx' : s.seen.2 = (1 / 2, 1 / 6) := by rw [hx, stumpff_small (not_lt.2 hsmall.1)]
        have heq := hd.eq
        rw [hx'] at heq
        obtain ⟨T, hT, hb⟩ := near_reach hmu a0 hy hc a2 hsmall.2 hsmall.1 heq e1 e2
        refine ⟨T, hT, Or.inr ⟨hx', ?_⟩⟩
        rw [hd.cur, hx']
        refine hb.trans (mul_le_mul_of_nonneg_right ?_ hF0)
        have := hsmall.1
        norm_num at this ⊢
        linarith
    have htri : |T - inp.tof| ≤ |s.cur - inp.tof| + |T - s.cur| := by
      have := abs_add_le (s.cur - inp.tof) (T - s.cur)
      rwa [show s.cur - inp.tof + (T - s.cur) = T - inp.tof by ring] at this
    have hab : |T - s.cur| ≤ 1 / 80000 * (Real.sqrt 2 / 3 * Real.sqrt s.y ^ 3 / Real.sqrt mu) := by
      rcases hTc with e | ⟨-, e⟩
      · rw [e, sub_self, abs_zero]; positivity
      · exact e
    refine ⟨v1, v2, T, by rw [← h, ev], by rw [← h, ev], hT, by rw [hF]; linarith, fun hpos => ?_⟩
    rcases hTc with e | ⟨e, hb⟩
    · have : T - s.cur = 0 := by rw [e, sub_self]
      rw [this, abs_zero] at htri
      have h3 := (abs_le.1 hs).2
      have h4 : 0 < s.cur := by rw [← e]; exact hT.1
      have : (0 : ℝ) ≤ 1 / 80000 * (inp.tof + 1 / 10 ^ 4) := by
        refine mul_nonneg (by norm_num) ?_
        linarith
      linarith
    · have hcur := hd.cur
      rw [e, timeOf_par _ _ hy.le] at hcur
      have hA : 0 < goodA dm inp.initial.pos inp.final.pos := by
        have : 0 ≤ goodA dm inp.initial.pos inp.final.pos := mul_nonneg hpos.le (Real.sqrt_nonneg _)
        exact lt_of_le_of_ne this (Ne.symm a0)
      have hle : Real.sqrt 2 / 3 * Real.sqrt s.y ^ 3 / Real.sqrt mu ≤ s.cur := by
        rw [hcur]
        refine div_le_div_of_nonneg_right ?_ hsm.le
        have : 0 ≤ goodA dm inp.initial.pos inp.final.pos * Real.sqrt s.y := by positivity
        linarith
      have h3 := (abs_le.1 hs).2
      have : 1 / 80000 * (Real.sqrt 2 / 3 * Real.sqrt s.y ^ 3 / Real.sqrt mu) ≤ 1 / 80000 * (inp.tof + 1 / 10 ^ 4) :=
        mul_le_mul_of_nonneg_left (by linarith) (by norm_num)
      linarith

/-- The hypotheses are met by the transfer above. -/
example : ∃ sol v1 v2 T, gooding parInput .shortWay = .ok sol ∧ sol.vInit = some v1 ∧ sol.vFinal = some v2 ∧
    Reaches parMu ![1, 0, 0] v1 ![0, 392, 0] v2 T ∧ |T - parInput.tof| ≤ 1 / 10 ^ 4 + 1 / 80000 * (parInput.tof + 1 / 10 ^ 4) := by
  obtain ⟨sol, -, -, -, e, -⟩ := gooding_solves_false
  obtain ⟨s, hl, -, hx⟩ := par_loop
  have htof : parInput.tof = 10 ^ 6 := by
    show (((10 ^ 15 : Int) - 0 : Int) : ℝ) / 10 ^ 9 = 10 ^ 6
    norm_num
  have hl' : goodLoop parMu (goodA 1 parInput.initial.pos parInput.final.pos) (nrm parInput.initial.pos)
      (nrm parInput.final.pos) parInput.tof 1001 Iter.start = .ok s := by
    rw [htof]
    show goodLoop parMu (goodA 1 ![1, 0, 0] ![0, 392, 0]) (nrm ![1, 0, 0]) (nrm ![0, 392, 0]) _ 1001 Iter.start = .ok s
    rw [par_a, nrm_e0, nrm_392]
    exact hl
  obtain ⟨v1, v2, T, a1, a2, a3, -, a4⟩ := gooding_near_partial (kind := .shortWay) rfl parMu_pos par_cross
    (by rw [htof]; norm_num) rfl hl' hx e
  exact ⟨sol, v1, v2, T, e, a1, a2, a3, a4 one_pos⟩

end Verif.Lambert
