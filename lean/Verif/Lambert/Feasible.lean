import Verif.Lambert.Deriv
import Mathlib.Analysis.SpecialFunctions.Trigonometric.Bounds
import Mathlib.Analysis.Real.Pi.Bounds
/-!
Which numbers of revolutions the solver of Izzo accepts and refuses.
-/
namespace Verif.Lambert
open Matrix

/-- The time of flight of an ellipse exceeds that of its revolutions on the least ellipse, stretched by its size. -/
theorem flight_above {l x : ℝ} (hl : l ^ 2 < 1) (h1 : -1 < x) (h2 : x < 1) (m : Nat) :
    m * Real.pi < flight l m x * Real.sqrt (1 - x ^ 2) ^ 3 ∧ m * Real.pi < flight l m x := by
  have hq : 0 < 1 - x ^ 2 := by nlinarith
  have hsq : Real.sqrt (1 - x ^ 2) ^ 2 = 1 - x ^ 2 := Real.sq_sqrt hq.le
  have hqp := Real.sqrt_pos.2 hq
  have hy2 := computeY_sq (x := x) hl.le
  have he := eta_pos (x := x) hl
  obtain ⟨e1, e2, e3, e4⟩ := psi_elliptic h1 h2 hy2 he
  have hps : computePsi x (computeY x l) l = Real.arccos (x * computeY x l + l * (1 - x ^ 2)) := by
    rw [computePsi, if_neg (not_lt.2 h2.le), if_pos h2]
  have hfl : flight l m x = ((computePsi x (computeY x l) l + m * Real.pi) / Real.sqrt (1 - x ^ 2) - x +
      l * computeY x l) / (1 - x ^ 2) := by
    rw [flight, if_pos h2, hps]; rfl
  generalize computePsi x (computeY x l) l = psi at *
  generalize computeY x l = y at *
  generalize hs : Real.sqrt (1 - x ^ 2) = q at *
  have hlt := Real.sin_lt e3
  have hc : x * y - l * q ^ 2 ≤ 1 := by nlinarith [sq_nonneg (x - y), sq_nonneg (q + l * q)]
  have hk : q * (x - l * y) = q * (y - l * x) * (x * y - l * q ^ 2) := by
    linear_combination (q * l * y) * hsq - (q * x) * hy2 - (q * l ^ 2 * x) * hsq
  have hle : q * (x - l * y) ≤ q * (y - l * x) := by
    rw [hk]; exact mul_le_of_le_one_right (by positivity) hc
  have heq : flight l m x * q ^ 3 = psi + m * Real.pi - q * (x - l * y) := by
    rw [hfl, ← hsq]; field_simp; ring
  have hp := Real.pi_pos
  have hmp : 0 ≤ m * Real.pi := by positivity
  have hA : m * Real.pi < flight l m x * q ^ 3 := by rw [heq]; linarith
  refine ⟨hA, lt_of_lt_of_le hA ?_⟩
  have hq1 : q ≤ 1 := by nlinarith
  have hf0 : 0 ≤ flight l m x := by
    by_contra hn
    have := mul_neg_of_neg_of_pos (not_le.1 hn) (pow_pos hqp 3)
    linarith
  exact mul_le_of_le_one_right hf0 (pow_le_one₀ hqp.le hq1)

/-- Every time above that of some ellipse is reached by an ellipse with the same number of revolutions. -/
theorem flight_onto {l x0 t : ℝ} (hl : l ^ 2 < 1) (h1 : -1 < x0) (h2 : x0 < 1) {m : Nat} (hm : 0 < m)
    (ht : flight l m x0 ≤ t) : ∃ x, x0 ≤ x ∧ x < 1 ∧ flight l m x = t := by
  have hmp : (1 : ℝ) ≤ m := by exact_mod_cast hm
  have hp := Real.pi_gt_three
  have ht0 : 0 < t := by have := (flight_above hl h1 h2 m).2; nlinarith
  -- a point near 1 with a longer flight
  obtain ⟨b, hb0, hb1, hbt⟩ : ∃ b, x0 ≤ b ∧ b < 1 ∧ t ≤ flight l m b := by
    have hd : 0 < 1 / (2 * (1 + t)) := by positivity
    refine ⟨max x0 (max 0 (1 - 1 / (2 * (1 + t)))), le_max_left _ _, max_lt h2 (max_lt one_pos (by linarith)), ?_⟩
    generalize hbd : max x0 (max 0 (1 - 1 / (2 * (1 + t)))) = b
    have hb0 : 0 ≤ b := by rw [← hbd]; exact le_max_of_le_right (le_max_left _ _)
    have hb2 : 1 - 1 / (2 * (1 + t)) ≤ b := by rw [← hbd]; exact le_max_of_le_right (le_max_right _ _)
    have hb1 : b < 1 := by rw [← hbd]; exact max_lt h2 (max_lt one_pos (by linarith))
    have hA := (flight_above hl (by linarith) hb1 m).1
    have hq : 0 < 1 - b ^ 2 := by nlinarith
    have hsq : Real.sqrt (1 - b ^ 2) ^ 2 = 1 - b ^ 2 := Real.sq_sqrt hq.le
    have hqp := Real.sqrt_pos.2 hq
    generalize Real.sqrt (1 - b ^ 2) = q at *
    by_contra hn
    have hn := not_le.1 hn
    have hq1 : q ≤ 1 := by nlinarith
    have h3 : q ^ 3 ≤ q ^ 2 := by nlinarith [sq_nonneg q]
    have h4 : q ^ 2 * (1 + t) ≤ 1 := by
      have : (1 - b) * (2 * (1 + t)) ≤ 1 := by
        have := mul_le_mul_of_nonneg_right (show 1 - b ≤ 1 / (2 * (1 + t)) by linarith) (show 0 ≤ 2 * (1 + t) by linarith)
        rwa [one_div, inv_mul_cancel₀ (by positivity)] at this
      rw [hsq]
      nlinarith
    have h5 : flight l m b * q ^ 3 ≤ t * q ^ 3 := mul_le_mul_of_nonneg_right hn.le (by positivity)
    have h6 : t * q ^ 3 ≤ t * q ^ 2 := mul_le_mul_of_nonneg_left h3 ht0.le
    nlinarith [sq_nonneg q]
  have hcont : ContinuousOn (flight l m) (Set.Icc x0 b) := fun z hz =>
    (flight_deriv hl (by linarith [hz.1]) (by linarith [hz.2] : z < 1).ne m).continuousAt.continuousWithinAt
  obtain ⟨x, hx, hxt⟩ := intermediate_value_Icc hb0 hcont ⟨ht, hbt⟩
  exact ⟨x, hx.1, lt_of_le_of_lt hx.2 hb1, hxt⟩

/-- The time of flight of the least ellipse. -/
theorem flight_zero (l : ℝ) (m : Nat) :
    flight l m 0 = Real.arccos l + l * Real.sqrt (1 - l ^ 2) + m * Real.pi := by
  rw [flight, if_pos one_pos]
  norm_num
  ring

theorem flight_zero_lt {l : ℝ} (hl : l ^ 2 < 1) (m : Nat) : flight l m 0 < (m + 1) * Real.pi := by
  rw [flight_zero]
  have h1 := abs_lt_of_sq_lt_sq (by rwa [one_pow] : l ^ 2 < 1 ^ 2) one_pos.le
  rw [abs_lt] at h1
  have hs : Real.sin (Real.arccos l) = Real.sqrt (1 - l ^ 2) := Real.sin_arccos l
  have hle : l * Real.sqrt (1 - l ^ 2) < Real.pi - Real.arccos l := by
    have hpos : 0 < Real.pi - Real.arccos l := by
      have : Real.arccos l < Real.pi := by
        rw [← Real.arccos_neg_one]
        exact Real.arccos_lt_arccos le_rfl h1.1 h1.2.le
      linarith
    have h2 := Real.sin_lt hpos
    rw [Real.sin_pi_sub, hs] at h2
    have h3 : l * Real.sqrt (1 - l ^ 2) ≤ Real.sqrt (1 - l ^ 2) :=
      mul_le_of_le_one_left (Real.sqrt_nonneg _) h1.2.le
    linarith
  linarith

theorem floor_revs {t : ℝ} {k : Nat} (h1 : k * Real.pi ≤ t) (h2 : t < (k + 1) * Real.pi) : ⌊t / Real.pi⌋.toNat = k := by
  have hp := Real.pi_pos
  have : ⌊t / Real.pi⌋ = (k : Int) := by
    rw [Int.floor_eq_iff, le_div_iff₀ hp, div_lt_iff₀ hp]
    push_cast
    exact ⟨h1, h2⟩
  rw [this]; rfl

theorem floor_bounds {t : ℝ} (h0 : 0 ≤ t) :
    (⌊t / Real.pi⌋.toNat : ℝ) * Real.pi ≤ t ∧ t < (⌊t / Real.pi⌋.toNat + 1) * Real.pi := by
  have hp := Real.pi_pos
  have hnn : 0 ≤ ⌊t / Real.pi⌋ := Int.floor_nonneg.2 (by positivity)
  have hc : ((⌊t / Real.pi⌋.toNat : Nat) : ℝ) = (⌊t / Real.pi⌋ : ℝ) := by
    exact_mod_cast congrArg (fun z : Int => (z : ℝ)) (Int.toNat_of_nonneg hnn)
  rw [hc, ← le_div_iff₀ hp, ← div_lt_iff₀ hp]
  exact ⟨Int.floor_le _, Int.lt_floor_add_one _⟩

/-- The value that the code takes for the least time of flight is that of some `x`: zero if `l` is near 1, and what
Halley's iteration ends with otherwise. -/
theorem computeTMin_spec {l : ℝ} (hl : l ^ 2 < 1) {m n : Nat} (hm : 0 < m) {a r tm : ℝ}
    (h : computeTMin l m a r n = .ok (some tm)) :
    ∃ x0, -1 < x0 ∧ x0 ≠ 1 ∧ tm = flight l m x0 ∧
      (|l - 1| < 1 / 10 ^ 9 ∧ x0 = 0 ∨
        1 / 10 ^ 9 ≤ |l - 1| ∧ halley (1 / 10) (flight l m (1 / 10)) l a r n = .ok x0) := by
  have hx1 : ∀ x res, tofEquation x 0 l m = some res → x ≠ 1 := by
    rintro x res h rfl
    rw [tofEquation, tofEquationY, if_neg (by omega), tofClosed, if_neg (by norm_num), if_pos rfl] at h
    cases h
  rw [computeTMin] at h
  split_ifs at h with h1 h2
  · rw [Res.ok.injEq] at h
    have h3 := tofEquation_eq hl (hx1 _ _ h) h
    exact ⟨0, h3.1, hx1 _ _ h, by rw [h3.2, sub_zero], .inl ⟨h1, rfl⟩⟩
  · omega
  · cases h3 : tofEquation (1 / 10) 0 l m with
    | none => rw [h3] at h; cases h
    | some ti =>
      rw [h3] at h
      have h4 := tofEquation_eq hl (hx1 _ _ h3) h3
      rw [sub_zero] at h4
      dsimp only at h
      cases h5 : halley (1 / 10) ti l a r n with
      | ok x =>
        rw [h5, Res.bind, Res.ok.injEq] at h
        have h6 := tofEquation_eq hl (hx1 _ _ h) h
        exact ⟨x, h6.1, hx1 _ _ h, by rw [h6.2, sub_zero], .inr ⟨not_lt.1 h1, by rw [← h4.2]; exact h5⟩⟩
      | fault e => rw [h5] at h; cases h
      | panic => rw [h5] at h; cases h

theorem tofEquation_closed {l x : ℝ} {m : Nat} (hm : 0 < m) (h1 : -1 < x) (h2 : x ≠ 1) :
    tofEquation x 0 l m = some (flight l m x) := by
  rw [tofEquation, tofEquationY, if_neg (by omega), tofClosed_eq m h1 h2]
  simp

theorem iterate_fault {a r : ℝ} {n : Nat} (step : ℝ → Option (Res ℝ))
    (hs : ∀ p i j, step p ≠ some (.fault (.notFeasible i j))) {i j : Nat} :
    ∀ (c : Nat) (p : ℝ), iterate step a r n c p ≠ .fault (.notFeasible i j)
  | 0, _ => by rw [iterate]; intro h; cases h
  | c + 1, p => by
    rw [iterate]
    cases h : step p with
    | none => intro h; cases h
    | some v =>
      cases v with
      | ok x =>
        dsimp only
        split_ifs
        · intro h; cases h
        · exact iterate_fault step hs c x
      | fault e =>
        intro h2
        simp only [Res.fault.injEq] at h2
        subst h2
        exact hs _ _ _ h
      | panic => intro h; cases h

theorem householderStep_fault {t l p : ℝ} {m i j : Nat} : householderStep t l m p ≠ some (.fault (.notFeasible i j)) := by
  rw [householderStep]
  dsimp only
  split
  · intro h; cases h
  · split_ifs <;> intro h <;> cases h

theorem halleyStep_fault {t l p : ℝ} {i j : Nat} : halleyStep p t l ≠ some (.fault (.notFeasible i j)) := by
  rw [halleyStep]
  dsimp only
  split_ifs <;> intro h <;> cases h

theorem computeTMin_fault {l a r : ℝ} {m n i j : Nat} (h : computeTMin l m a r n = .fault (.notFeasible i j)) : False := by
  rw [computeTMin] at h
  split_ifs at h
  cases h3 : tofEquation (1 / 10) 0 l m with
  | none => rw [h3] at h; cases h
  | some ti =>
    rw [h3] at h
    dsimp only at h
    cases h5 : halley (1 / 10) ti l a r n with
    | ok x => rw [h5] at h; cases h
    | fault e =>
      rw [h5, Res.bind, Res.fault.injEq] at h
      subst h
      exact iterate_fault _ (fun p i j => halleyStep_fault) _ _ h5
    | panic => rw [h5] at h; cases h

/-- **What a refusal means, in part.** If a number of revolutions is refused, either no ellipse has that number of
revolutions in the time asked for, or it is the integral number of half periods of the time asked for, and the time
is below that of the `x` which the code takes for the least one. In the latter case nothing is possible if that `x`
is indeed the least one. -/
theorem revs_refused_partial {l t : ℝ} (hl : |l| < 1) (ht0 : 0 ≤ t) (ht : t < 2 ^ 32 * Real.pi) {m n k : Nat} {a r : ℝ}
    {low : Bool} (h : findXY l t m n a r low = .fault (.notFeasible m k)) :
    k < m ∧ ((∀ x, -1 < x → x < 1 → flight l m x ≠ t) ∨
      (k + 1 = m ∧ m * Real.pi ≤ t ∧ ∃ x0, -1 < x0 ∧ x0 ≠ 1 ∧ t < flight l m x0 ∧
        (|l - 1| < 1 / 10 ^ 9 ∧ x0 = 0 ∨
          1 / 10 ^ 9 ≤ |l - 1| ∧ halley (1 / 10) (flight l m (1 / 10)) l a r n = .ok x0))) := by
  have hl2 : l ^ 2 < 1 := by rwa [sq_lt_one_iff_abs_lt_one]
  obtain ⟨hM1, hM2⟩ := floor_bounds ht0
  have hp := Real.pi_pos
  have hMlt : ⌊t / Real.pi⌋.toNat < 2 ^ 32 := by
    have : (⌊t / Real.pi⌋.toNat : ℝ) * Real.pi < 2 ^ 32 * Real.pi := lt_of_le_of_lt hM1 ht
    have := lt_of_mul_lt_mul_right this hp.le
    exact_mod_cast this
  have hmin : min ⌊t / Real.pi⌋.toNat (2 ^ 32 - 1) = ⌊t / Real.pi⌋.toNat := min_eq_left (by omega)
  have hbig : ∀ j : Nat, ⌊t / Real.pi⌋.toNat < j → ∀ x, -1 < x → x < 1 → flight l j x ≠ t := by
    intro j hj x h1 h2 h3
    have h4 := (flight_above hl2 h1 h2 j).2
    have h5 : ((⌊t / Real.pi⌋.toNat : ℝ) + 1) * Real.pi ≤ j * Real.pi :=
      mul_le_mul_of_nonneg_right (by exact_mod_cast hj) hp.le
    linarith
  rw [findXY, if_pos hl] at h
  cases hr : maxRevs l t a r n with
  | fault e =>
    rw [hr] at h
    simp only [Res.bind, Res.fault.injEq] at h
    subst h
    rw [maxRevs] at hr
    exfalso
    revert hr
    simp only [hmin]
    split_ifs
    · cases hc : computeTMin l ⌊t / Real.pi⌋.toNat a r n with
      | ok v =>
        cases v with
        | none => simp [Res.bind]
        | some tm => simp only [Res.bind]; split_ifs <;> simp
      | panic => intro h; cases h
      | fault e =>
        intro h
        simp only [Res.bind, Res.fault.injEq] at h
        subst h
        exact computeTMin_fault hc
    · intro h; cases h
  | panic => rw [hr] at h; cases h
  | ok mM =>
    rw [hr] at h
    simp only [Res.bind] at h
    split_ifs at h with hlt
    · have hk : mM = k := by
        rw [Res.fault.injEq, Fault.notFeasible.injEq] at h; exact h.2
      subst hk
      refine ⟨hlt, ?_⟩
      by_cases hmM : ⌊t / Real.pi⌋.toNat < m
      · exact .inl (hbig m hmM)
      refine .inr ?_
      simp only [maxRevs, hmin] at hr
      split_ifs at hr with hc
      · cases hct : computeTMin l ⌊t / Real.pi⌋.toNat a r n with
        | ok v =>
          rw [hct] at hr
          cases v with
          | none => simp only [Res.bind, Res.ok.injEq] at hr; omega
          | some tm =>
            simp only [Res.bind] at hr
            split_ifs at hr with htm
            · rw [Res.ok.injEq] at hr
              have hme : ⌊t / Real.pi⌋.toNat = m := by omega
              rw [hme] at hct hM1
              obtain ⟨x0, g1, g2, g3, g4⟩ := computeTMin_spec hl2 (by omega) hct
              exact ⟨by omega, hM1, x0, g1, g2, by rw [← g3]; exact htm, g4⟩
            · rw [Res.ok.injEq] at hr; omega
        | fault e => rw [hct] at hr; cases hr
        | panic => rw [hct] at hr; cases hr
      · rw [Res.ok.injEq] at hr; omega
    · cases hh : householder (initialGuess t l m low) t l m a r n with
      | ok x => rw [hh] at h; cases h
      | panic => rw [hh] at h; cases h
      | fault e =>
        rw [hh] at h
        simp only [Res.bind, Res.fault.injEq] at h
        subst h
        exact absurd hh (iterate_fault _ (fun p m k => householderStep_fault) _ _)

/-- **What an acceptance means, in part.** If a number of revolutions is not above the bound that the code computes, an
ellipse with that number of revolutions does take the time asked for, unless the number is the integral number of half
periods, the time is below that of the least ellipse, and Halley's iteration left the ellipses. -/
theorem revs_bound_partial {l t : ℝ} (hl : |l| < 1) (ht0 : 0 ≤ t) (ht : t < 2 ^ 32 * Real.pi) {m n : Nat} (hm : 0 < m)
    {a r : ℝ} {mM : Nat} (hr : maxRevs l t a r n = .ok mM) (hle : m ≤ mM) :
    (∃ x, -1 < x ∧ x < 1 ∧ flight l m x = t) ∨
      (m * Real.pi ≤ t ∧ t < flight l m 0 ∧ 1 / 10 ^ 9 ≤ |l - 1| ∧
        ∃ x0, halley (1 / 10) (flight l m (1 / 10)) l a r n = .ok x0 ∧ (x0 ≤ -1 ∨ 1 ≤ x0)) := by
  have hl2 : l ^ 2 < 1 := by rwa [sq_lt_one_iff_abs_lt_one]
  obtain ⟨hM1, hM2⟩ := floor_bounds ht0
  have hp := Real.pi_pos
  have hMlt : ⌊t / Real.pi⌋.toNat < 2 ^ 32 := by
    have : (⌊t / Real.pi⌋.toNat : ℝ) * Real.pi < 2 ^ 32 * Real.pi := lt_of_le_of_lt hM1 ht
    have := lt_of_mul_lt_mul_right this hp.le
    exact_mod_cast this
  have hmin : min ⌊t / Real.pi⌋.toNat (2 ^ 32 - 1) = ⌊t / Real.pi⌋.toNat := min_eq_left (by omega)
  have hon : ∀ x0, -1 < x0 → x0 < 1 → flight l m x0 ≤ t → ∃ x, -1 < x ∧ x < 1 ∧ flight l m x = t := by
    intro x0 h1 h2 h3
    obtain ⟨x, g1, g2, g3⟩ := flight_onto hl2 h1 h2 hm h3
    exact ⟨x, lt_of_lt_of_le h1 g1, g2, g3⟩
  by_cases h00 : flight l m 0 ≤ t
  · exact .inl (hon 0 (by norm_num) one_pos h00)
  have hmM : m = ⌊t / Real.pi⌋.toNat ∧ mM = m := by
    have h1 : mM ≤ ⌊t / Real.pi⌋.toNat := by
      simp only [maxRevs, hmin] at hr
      split_ifs at hr with hc
      · cases hct : computeTMin l ⌊t / Real.pi⌋.toNat a r n with
        | ok v =>
          rw [hct] at hr
          cases v with
          | none => simp only [Res.bind, Res.ok.injEq] at hr; omega
          | some tm =>
            simp only [Res.bind] at hr
            split_ifs at hr <;> rw [Res.ok.injEq] at hr <;> omega
        | fault e => rw [hct] at hr; cases hr
        | panic => rw [hct] at hr; cases hr
      · rw [Res.ok.injEq] at hr; omega
    have h2 : ¬ m < ⌊t / Real.pi⌋.toNat := by
      intro hlt
      have h3 := flight_zero_lt hl2 m
      have h4 : ((m : ℝ) + 1) * Real.pi ≤ ⌊t / Real.pi⌋.toNat * Real.pi :=
        mul_le_mul_of_nonneg_right (by exact_mod_cast hlt) hp.le
      linarith
    omega
  obtain ⟨hm1, hm2⟩ := hmM
  simp only [maxRevs, hmin] at hr
  simp only [← hm1] at hr
  rw [if_pos ⟨by rw [← flight_zero]; exact not_le.1 h00, hm⟩] at hr
  rw [← hm1] at hM1
  by_cases h9 : |l - 1| < 1 / 10 ^ 9
  · rw [computeTMin, if_pos h9, tofEquation_closed hm (by norm_num) (by norm_num)] at hr
    simp only [Res.bind] at hr
    rw [if_pos (not_le.1 h00), Res.ok.injEq] at hr
    omega
  · rw [computeTMin, if_neg h9, if_neg (by omega), tofEquation_closed hm (by norm_num) (by norm_num)] at hr
    dsimp only at hr
    cases hh : halley (1 / 10) (flight l m (1 / 10)) l a r n with
    | fault e => rw [hh] at hr; cases hr
    | panic => rw [hh] at hr; cases hr
    | ok x0 =>
      by_cases hin : -1 < x0 ∧ x0 < 1
      · rw [hh] at hr
        simp only [Res.bind] at hr
        rw [tofEquation_closed hm hin.1 hin.2.ne] at hr
        dsimp only at hr
        split_ifs at hr with htm
        · rw [Res.ok.injEq] at hr; omega
        · exact .inl (hon x0 hin.1 hin.2 (not_lt.1 htm))
      · refine .inr ⟨hM1, not_le.1 h00, not_lt.1 h9, x0, rfl, ?_⟩
        by_contra hn
        rw [not_or, not_le, not_le] at hn
        exact hin hn

/-- **Solutions with revolutions exist, in part.** The same for a solution that is returned. -/
theorem revs_accepted_partial {l t : ℝ} (hl : |l| < 1) (ht0 : 0 ≤ t) (ht : t < 2 ^ 32 * Real.pi) {m n : Nat} (hm : 0 < m)
    {a r : ℝ} {low : Bool} {xy : ℝ × ℝ} (h : findXY l t m n a r low = .ok xy) :
    (∃ x, -1 < x ∧ x < 1 ∧ flight l m x = t) ∨
      (m * Real.pi ≤ t ∧ t < flight l m 0 ∧ 1 / 10 ^ 9 ≤ |l - 1| ∧
        ∃ x0, halley (1 / 10) (flight l m (1 / 10)) l a r n = .ok x0 ∧ (x0 ≤ -1 ∨ 1 ≤ x0)) := by
  rw [findXY, if_pos hl] at h
  cases hr : maxRevs l t a r n with
  | fault e => rw [hr] at h; cases h
  | panic => rw [hr] at h; cases h
  | ok mM =>
    rw [hr] at h
    simp only [Res.bind] at h
    split_ifs at h with hlt
    exact revs_bound_partial hl ht0 ht hm hr (not_lt.1 hlt)

/-- A possible transfer is refused whenever the time of flight is not stationary at the value that the code takes for
the least one. -/
theorem refused_feasible {l : ℝ} (hl : |l| < 1) {m n : Nat} (hm : 0 < m) (hm2 : m < 2 ^ 32) {a r x0 tm : ℝ} {low : Bool}
    (h1 : -1 < x0) (h2 : x0 < 1) (htm : computeTMin l m a r n = .ok (some tm)) (hx0 : tm = flight l m x0)
    (hle : tm ≤ flight l m 0) (hd : ¬ HasDerivAt (flight l m) 0 x0) :
    ∃ x t, -1 < x ∧ x < 1 ∧ flight l m x = t ∧ findXY l t m n a r low = .fault (.notFeasible m (m - 1)) := by
  have hl2 : l ^ 2 < 1 := by rwa [sq_lt_one_iff_abs_lt_one]
  obtain ⟨x, g1, g2, g3⟩ : ∃ x, -1 < x ∧ x < 1 ∧ flight l m x < flight l m x0 := by
    by_contra hn
    have hder := flight_deriv hl2 h1 h2.ne m
    have hloc : IsLocalMin (flight l m) x0 := by
      filter_upwards [Ioo_mem_nhds h1 h2] with z hz
      by_contra hc
      exact hn ⟨z, hz.1, hz.2, not_le.1 hc⟩
    rw [hloc.hasDerivAt_eq_zero hder] at hder
    exact hd hder
  refine ⟨x, _, g1, g2, rfl, ?_⟩
  have hA := (flight_above hl2 g1 g2 m).2
  have hB := flight_zero_lt hl2 m
  rw [findXY, if_pos hl]
  have hf := floor_revs hA.le (by rw [← hx0] at g3; linarith)
  have hr : maxRevs l (flight l m x) a r n = .ok (m - 1) := by
    simp only [maxRevs, hf, min_eq_left (show m ≤ 2 ^ 32 - 1 by omega)]
    rw [← flight_zero, if_pos ⟨by rw [← hx0] at g3; linarith, hm⟩, htm]
    simp only [Res.bind]
    rw [if_pos (by rw [hx0]; exact g3)]
  rw [hr]
  simp only [Res.bind]
  rw [if_pos (by omega)]

/-- **Possible transfers are refused.** For positions near to each other, whatever the number of revolutions and the
tolerances, there is a time of flight that an ellipse takes and that is refused. -/
theorem revs_refused_false {l : ℝ} (hl : l < 1) (hl9 : 1 - l < 1 / 10 ^ 9) {m : Nat} (hm : 0 < m) (hm2 : m < 2 ^ 32)
    (n : Nat) (a r : ℝ) (low : Bool) :
    ∃ x t, -1 < x ∧ x < 1 ∧ flight l m x = t ∧ findXY l t m n a r low = .fault (.notFeasible m (m - 1)) := by
  have hl1 : |l| < 1 := abs_lt.2 ⟨by linarith, hl⟩
  have hl2 : l ^ 2 < 1 := by rwa [sq_lt_one_iff_abs_lt_one]
  refine refused_feasible hl1 hm hm2 (x0 := 0) (by norm_num) one_pos (tm := flight l m 0) ?_ rfl le_rfl ?_
  · rw [computeTMin, if_pos (by rw [abs_lt]; constructor <;> linarith),
      tofEquation_closed hm (by norm_num) (by norm_num)]
  · intro h
    have h2 := h.unique (flight_deriv hl2 (by norm_num) (by norm_num) m)
    norm_num [tofP] at h2

example := revs_refused_false (l := 1 - 1 / 10 ^ 10) (by norm_num) (by norm_num) (m := 3) (by norm_num) (by norm_num)

/-- One revolution is allowed, and no more, in the time of the least ellipse of one revolution, for which the least
time is not computed. -/
theorem maxRevs_one {l : ℝ} (hl : |l| < 1) (n : Nat) (a r : ℝ) : maxRevs l (flight l 1 0) a r n = .ok 1 := by
  have hl2 : l ^ 2 < 1 := by rwa [sq_lt_one_iff_abs_lt_one]
  have hA := (flight_above hl2 (x := 0) (by norm_num) one_pos 1).2
  have hB := flight_zero_lt hl2 1
  have hf := floor_revs hA.le hB
  simp only [maxRevs, hf, min_eq_left (show 1 ≤ 2 ^ 32 - 1 by omega)]
  rw [← flight_zero, if_neg (by simp)]

theorem two_revs_refused {l : ℝ} (hl : |l| < 1) (n : Nat) (a r : ℝ) (low : Bool) :
    findXY l (flight l 1 0) 2 n a r low = .fault (.notFeasible 2 1) := by
  rw [findXY, if_pos hl, maxRevs_one hl]
  simp only [Res.bind]
  rw [if_pos (by norm_num)]

theorem flight_one_range {l : ℝ} (hl : |l| < 1) : 0 ≤ flight l 1 0 ∧ flight l 1 0 < 2 ^ 32 * Real.pi := by
  have hl2 : l ^ 2 < 1 := by rwa [sq_lt_one_iff_abs_lt_one]
  have hA := (flight_above hl2 (x := 0) (by norm_num) one_pos 1).2
  have hB := flight_zero_lt hl2 1
  push_cast at hA hB
  have := Real.pi_pos
  constructor <;> nlinarith

example (n : Nat) (a r : ℝ) (low : Bool) := revs_refused_partial (l := 1 / 2) (by norm_num [abs_of_pos])
  (flight_one_range (by norm_num [abs_of_pos])).1 (flight_one_range (by norm_num [abs_of_pos])).2
  (two_revs_refused (l := 1 / 2) (by norm_num [abs_of_pos]) n a r low)

example (n : Nat) (a r : ℝ) := revs_bound_partial (l := 1 / 2) (by norm_num [abs_of_pos])
  (flight_one_range (by norm_num [abs_of_pos])).1 (flight_one_range (by norm_num [abs_of_pos])).2 one_pos
  (maxRevs_one (l := 1 / 2) (by norm_num [abs_of_pos]) n a r) le_rfl

theorem den_bound (T f d1 d2 : ℝ) (t1 : 23 ≤ T) (t2 : T ≤ 31.4) (f1 : 0 ≤ f) (f2 : f ≤ 10.4) (h1 : d1 = -(20 / 3) * T - 50 / 9)
    (h2 : d2 = (25 / 9) * (3 * T - 4 * d1)) :
    d1 * (d1 ^ 2 - f * d2) + (25 / 9) * (-(28 / 5) * d2 + 8 * d1) * f ^ 2 / 6 ≤ -150 := by
  have k1 : d1 ≤ -150 := by rw [h1]; linarith
  have k2 : 0 ≤ d2 := by rw [h2]; linarith
  have k3 : 10.4 * d2 + 1 ≤ d1 ^ 2 := by rw [h2, h1]; nlinarith
  clear h1 h2
  have k4 : f * d2 ≤ 10.4 * d2 := mul_le_mul_of_nonneg_right f2 k2
  have k5 : 1 ≤ d1 ^ 2 - f * d2 := by linarith
  have k6 : 150 * 1 ≤ -d1 * (d1 ^ 2 - f * d2) := mul_le_mul (by linarith) k5 zero_le_one (by linarith)
  have k7 : (25 / 9) * (-(28 / 5) * d2 + 8 * d1) ≤ 0 := by linarith
  have k8 := mul_nonneg (neg_nonneg.2 k7) (sq_nonneg f)
  linarith

theorem one_rev_found : ∃ a xy, findXY 0 (27 * Real.pi / 4) 1 1 a 0 false = .ok xy := by
  have hp1 := Real.pi_gt_d2
  have hp2 := Real.pi_lt_d2
  have hp0 := Real.pi_pos
  have hmr : ∀ a, maxRevs 0 (27 * Real.pi / 4) a 0 1 = .ok 6 := by
    intro a
    have hf : ⌊27 * Real.pi / 4 / Real.pi⌋ = 6 := by
      rw [show 27 * Real.pi / 4 / Real.pi = 27 / 4 by field_simp]
      rw [Int.floor_eq_iff]
      norm_num
    simp only [maxRevs, hf]
    rw [if_neg]
    · rfl
    · rw [show min (Int.toNat 6) (2 ^ 32 - 1) = 6 by rfl]
      rintro ⟨h, -⟩
      rw [Real.arccos_zero] at h
      push_cast at h
      linarith
  have hg : initialGuess (27 * Real.pi / 4) 0 1 false = -4 / 5 := by
    rw [initialGuess, if_neg one_ne_zero]
    have e1 : ((((1 : ℕ) : ℝ) * Real.pi + Real.pi) / (8 * (27 * Real.pi / 4))) ^ (2 / 3 : ℝ) = 1 / 9 := by
      rw [show (((1 : ℕ) : ℝ) * Real.pi + Real.pi) / (8 * (27 * Real.pi / 4)) = (1 / 3) ^ 3 by push_cast; field_simp; norm_num,
        ← Real.rpow_natCast, ← Real.rpow_mul (by norm_num)]
      norm_num
    have e2 : (1 : ℝ) ≤ (8 * (27 * Real.pi / 4) / (((1 : ℕ) : ℝ) * Real.pi)) ^ (2 / 3 : ℝ) := by
      refine Real.one_le_rpow ?_ (by norm_num)
      rw [show 8 * (27 * Real.pi / 4) / (((1 : ℕ) : ℝ) * Real.pi) = 54 by push_cast; field_simp; norm_num]
      norm_num
    simp only [e1]
    set u := (8 * (27 * Real.pi / 4) / (((1 : ℕ) : ℝ) * Real.pi)) ^ (2 / 3 : ℝ)
    have e3 : 0 ≤ (u - 1) / (u + 1) := div_nonneg (by linarith) (by linarith)
    rw [if_neg (by simp), min_eq_left (by norm_num; linarith)]
    norm_num
  obtain ⟨p, hp⟩ : ∃ p, householderStep (27 * Real.pi / 4) 0 1 (-4 / 5) = some (.ok p) := by
    have hy : computeY (-4 / 5) 0 = 1 := by simp [computeY]
    have hsq : Real.sqrt |1 - (-4 / 5 : ℝ) ^ 2| = 3 / 5 := by
      rw [show |1 - (-4 / 5 : ℝ) ^ 2| = (3 / 5) ^ 2 by norm_num]
      exact Real.sqrt_sq (by norm_num)
    have hpsi : computePsi (-4 / 5) 1 0 = Real.arccos (-4 / 5) := by
      rw [computePsi, if_neg (by norm_num), if_pos (by norm_num)]
      norm_num
    have c1 : Real.pi / 2 ≤ Real.arccos (-4 / 5) := by
      rw [← Real.arccos_zero]
      exact Real.arccos_le_arccos (by norm_num)
    have c2 := Real.arccos_le_pi (-4 / 5)
    rw [householderStep]
    simp only [hy]
    rw [tofEquationY, if_neg (by norm_num), tofClosed, if_neg (by norm_num), if_neg (by norm_num), hpsi, hsq]
    simp only [Option.map_some]
    rw [if_neg (by norm_num)]
    set T := ((Real.arccos (-4 / 5) + ((1 : ℕ) : ℝ) * Real.pi) / (3 / 5) - (-4 / 5) + 0 * 1) / (1 - (-4 / 5 : ℝ) ^ 2) with hT
    have hT' : T = (Real.arccos (-4 / 5) + Real.pi) * (125 / 27) + 20 / 9 := by rw [hT]; push_cast; ring
    have t1 : 23 ≤ T := by rw [hT']; linarith
    have t2 : T ≤ 31.4 := by rw [hT']; linarith
    rw [if_neg]
    · exact ⟨_, rfl⟩
    rw [sub_add_cancel]
    set f := T - 27 * Real.pi / 4 with hf
    have f1 : 0 ≤ f := by rw [hf]; linarith
    have f2 : f ≤ 10.4 := by rw [hf]; linarith
    have g1 : tofP (-4 / 5) 1 T 0 = -(20 / 3) * T - 50 / 9 := by rw [tofP]; ring
    have g2 : tofP2 (-4 / 5) 1 T (-(20 / 3) * T - 50 / 9) 0 = (25 / 9) * (3 * T - 4 * (-(20 / 3) * T - 50 / 9)) := by rw [tofP2]; ring
    rw [g1, g2]
    have g3 : ∀ d1 d2 : ℝ, tofP3 (-4 / 5) 1 d1 d2 0 = (25 / 9) * (-(28 / 5) * d2 + 8 * d1) := by intro d1 d2; rw [tofP3]; ring
    rw [g3]
    have k := den_bound T f _ _ t1 t2 f1 f2 rfl rfl
    rw [not_lt, abs_of_nonpos (by linarith)]
    have : (1 : ℝ) / 10 ^ 14 ≤ 150 := by norm_num
    linarith
  refine ⟨|p - -4 / 5| + 1, (p, computeY p 0), ?_⟩
  rw [findXY, if_pos (by simp), hmr]
  simp only [Res.bind]
  rw [if_neg (by norm_num), hg, householder, iterate, hp]
  simp only
  rw [if_pos (by linarith)]

example := revs_accepted_partial (l := 0) (by simp) (by positivity) (by nlinarith [Real.pi_pos]) one_pos one_rev_found.choose_spec.choose_spec

end Verif.Lambert
