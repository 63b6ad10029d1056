import Verif.Lambert.Parabolic
/-!
Long way transfers near the parabola, which the solver of Gooding does not find.
-/
namespace Verif.Lambert
open Matrix
open Verif.MathU (V3 nrm atan2 dot3 nrm_sq nrm_nonneg ext3 cross0 cross1 cross2)

theorem sinh_ratio {u : ℝ} (hu : 0 ≤ u) :
    (Real.sinh (2 * u) - 2 * u) * (1 + Real.cosh u) ≤ 8 / 3 * Real.sinh u ^ 3 := by
  have hG' : ∀ x, HasDerivAt (fun x => 4 * Real.sinh x - 2 * Real.sinh x * Real.cosh x - 2 * x)
      (-(4 * Real.cosh x * (Real.cosh x - 1))) x := by
    intro x
    refine hd (((((Real.hasDerivAt_sinh x).const_mul 4).sub
      (((Real.hasDerivAt_sinh x).const_mul 2).mul (Real.hasDerivAt_cosh x)))).sub ((hasDerivAt_id x).const_mul 2)) ?_
    have e : Real.cosh x ^ 2 = Real.sinh x ^ 2 + 1 := Real.cosh_sq x
    generalize Real.cosh x = c at *
    generalize Real.sinh x = s at *
    linear_combination (2 : ℝ) * e
  have hG : ∀ x, 0 ≤ x → 0 ≤ 2 * Real.sinh x * Real.cosh x - 4 * Real.sinh x + 2 * x := by
    intro x hx
    have := anti_zero hG' hx (fun z _ => by
      have := Real.one_le_cosh z
      have : 0 ≤ 4 * Real.cosh z * (Real.cosh z - 1) := mul_nonneg (by linarith) (by linarith)
      linarith)
    simp only [Real.sinh_zero, Real.cosh_zero] at this
    norm_num at this
    linarith
  have hF : ∀ x, HasDerivAt (fun x => (2 * Real.sinh x * Real.cosh x - 2 * x) * (1 + Real.cosh x) - 8 / 3 * Real.sinh x ^ 3)
      (-(Real.sinh x * (2 * Real.sinh x * Real.cosh x - 4 * Real.sinh x + 2 * x))) x := by
    intro x
    refine hd (((((((Real.hasDerivAt_sinh x).const_mul 2).mul (Real.hasDerivAt_cosh x)).sub
      ((hasDerivAt_id x).const_mul 2))).mul ((Real.hasDerivAt_cosh x).const_add 1)).sub
      (((Real.hasDerivAt_sinh x).pow 3).const_mul (8 / 3))) ?_
    have e : Real.cosh x ^ 2 = Real.sinh x ^ 2 + 1 := Real.cosh_sq x
    simp only [Nat.cast_ofNat, Nat.reduceSub, Pi.sub_apply, Pi.mul_apply, id]
    generalize Real.cosh x = c at *
    generalize Real.sinh x = s at *
    linear_combination (2 + 2 * c) * e
  have := anti_zero hF hu (fun x hx => by
    have := mul_nonneg (Real.sinh_nonneg_iff.2 hx.1) (hG x hx.1)
    linarith)
  simp only [Real.sinh_zero, Real.cosh_zero] at this
  rw [Real.sinh_two_mul]
  norm_num at this
  linarith

/-- The root of `y` on the parabola. -/
noncomputable def winW : ℝ := Real.sqrt 181

/-- The time of flight on the parabola, without the units. -/
noncomputable def winP : ℝ := winW ^ 3 / 3 - 9 * winW

/-- The gravitational parameter for which the flight on the parabola lasts a million and one seconds. -/
noncomputable def winMu : ℝ := (Real.sqrt 2 * winP / (10 ^ 6 + 1)) ^ 2

/-- The transfer, the long way round (three quarters of a turn), from the distance 1 to the distance 162, in one
million seconds. -/
noncomputable def winInput : Input :=
  ⟨⟨![1, 0, 0], 0, 0, ⟨(0, 0), some winMu⟩⟩, ⟨![0, 162, 0], 0, 10 ^ 15, ⟨(0, 0), some winMu⟩⟩⟩

theorem winW_sq : winW ^ 2 = 181 := Real.sq_sqrt (by norm_num)

theorem winW_bounds : 13 < winW ∧ winW < 14 := by
  unfold winW
  constructor
  · rw [Real.lt_sqrt (by norm_num)]; norm_num
  · rw [Real.sqrt_lt' (by norm_num)]; norm_num

theorem winP_eq : winP = (181 / 3 - 9) * winW := by
  unfold winP; linear_combination (winW / 3) * winW_sq

theorem winP_bounds : 600 < winP ∧ winP < 800 := by
  have := winW_bounds
  rw [winP_eq]
  constructor <;> linarith

theorem winMu_sqrt : Real.sqrt winMu = Real.sqrt 2 * winP / (10 ^ 6 + 1) := by
  have := winP_bounds
  exact Real.sqrt_sq (by have : 0 < winP := by linarith
                         positivity)

theorem winMu_pos : 0 < winMu := by
  have := winP_bounds
  have : 0 < winP := by linarith
  unfold winMu
  positivity

theorem win_time {p : ℝ} : Real.sqrt 2 * p / Real.sqrt winMu = (10 ^ 6 + 1) * (p / winP) := by
  have := winP_bounds
  have h0 : winP ≠ 0 := by linarith
  have h2 : Real.sqrt 2 ≠ 0 := by positivity
  rw [winMu_sqrt]
  field_simp

/-- Greater roots of `y` give greater times with the functions at zero. -/
theorem win_par {w : ℝ} (h : winW ≤ w) : winP ≤ w ^ 3 / 3 - 9 * w := by
  have := winW_bounds
  have h1 : w ^ 3 / 3 - 9 * w - winP = (w - winW) * ((w ^ 2 + w * winW + winW ^ 2) / 3 - 9) := by unfold winP; ring
  have h2 : 0 ≤ (w - winW) * ((w ^ 2 + w * winW + winW ^ 2) / 3 - 9) := mul_nonneg (by linarith) (by nlinarith)
  linarith

/-- The time with the functions at zero is too long, for every negative `phi`. -/
theorem win_small {phi : ℝ} (h : phi ≤ 0) :
    0 ≤ yOf (-(9 * Real.sqrt 2)) 1 162 phi (1 / 2) (1 / 6) ∧
    10 ^ 6 + 1 ≤ timeOf winMu (-(9 * Real.sqrt 2)) (1 / 2) (1 / 6) (yOf (-(9 * Real.sqrt 2)) 1 162 phi (1 / 2) (1 / 6)) := by
  have h22 : Real.sqrt 2 ^ 2 = 2 := Real.sq_sqrt (by norm_num)
  have hy : yOf (-(9 * Real.sqrt 2)) 1 162 phi (1 / 2) (1 / 6) = 181 - 3 * phi := by
    rw [yOf_par]; linear_combination (9 * (1 - phi / 6)) * h22
  rw [hy]
  refine ⟨by linarith, ?_⟩
  rw [timeOf_par _ _ (by linarith)]
  have e : Real.sqrt 2 / 3 * Real.sqrt (181 - 3 * phi) ^ 3 + -(9 * Real.sqrt 2) * Real.sqrt (181 - 3 * phi) =
      Real.sqrt 2 * (Real.sqrt (181 - 3 * phi) ^ 3 / 3 - 9 * Real.sqrt (181 - 3 * phi)) := by ring
  rw [e, win_time]
  have hp := winP_bounds
  have : 1 ≤ (Real.sqrt (181 - 3 * phi) ^ 3 / 3 - 9 * Real.sqrt (181 - 3 * phi)) / winP := by
    rw [le_div_iff₀ (by linarith), one_mul]
    exact win_par (Real.sqrt_le_sqrt (by linarith))
  linarith

/-- The exact time for a negative `phi`. -/
theorem win_exact_eq {u : ℝ} (hu : 0 < u) :
    yOf (-(9 * Real.sqrt 2)) 1 162 (-(4 * u ^ 2)) (Real.sinh u ^ 2 / (2 * u ^ 2)) ((Real.sinh (2 * u) - 2 * u) / (8 * u ^ 3)) =
      163 + 18 * Real.cosh u ∧
    timeOf winMu (-(9 * Real.sqrt 2)) (Real.sinh u ^ 2 / (2 * u ^ 2)) ((Real.sinh (2 * u) - 2 * u) / (8 * u ^ 3))
      (163 + 18 * Real.cosh u) = (10 ^ 6 + 1) * ((Real.sqrt (163 + 18 * Real.cosh u) ^ 3 / 4 *
        ((Real.sinh (2 * u) - 2 * u) / Real.sinh u ^ 3) - 9 * Real.sqrt (163 + 18 * Real.cosh u)) / winP) := by
  have h22 : Real.sqrt 2 ^ 2 = 2 := Real.sq_sqrt (by norm_num)
  refine ⟨by rw [yOf_hyp _ _ _ hu]; linear_combination (9 * Real.cosh u) * h22, ?_⟩
  have hc := Real.cosh_pos u
  rw [timeOf_hyp _ _ (by positivity) hu, ← win_time]
  congr 1
  ring

/-- The exact time is too short, unless `phi` is closer to zero than 1e-4. -/
theorem win_exact {u : ℝ} (hu : 1 / 200 ≤ u) (hc : Real.cosh u ≤ 14) :
    (10 ^ 6 + 1) * ((Real.sqrt (163 + 18 * Real.cosh u) ^ 3 / 4 *
        ((Real.sinh (2 * u) - 2 * u) / Real.sinh u ^ 3) - 9 * Real.sqrt (163 + 18 * Real.cosh u)) / winP) < 10 ^ 6 - 1 := by
  have hu0 : 0 < u := by linarith
  have hch := cosh_ge u hu0.le
  have hsh : 0 < Real.sinh u := Real.sinh_pos_iff.2 hu0
  have hsq : Real.sqrt (163 + 18 * Real.cosh u) ^ 2 = 163 + 18 * Real.cosh u := Real.sq_sqrt (by have := Real.cosh_pos u; positivity)
  have hr := sinh_ratio hu0.le
  obtain ⟨x, hx⟩ : ∃ x, Real.cosh u = 1 + x := ⟨Real.cosh u - 1, by ring⟩
  have hx0 : 1 / 80000 ≤ x := by nlinarith
  have hR : (Real.sinh (2 * u) - 2 * u) / Real.sinh u ^ 3 ≤ 8 / 3 / (2 + x) := by
    rw [div_le_div_iff₀ (by positivity) (by linarith)]
    rw [hx] at hr
    linarith
  obtain ⟨b1, b2⟩ := winW_bounds
  have hWw : winW ≤ Real.sqrt (163 + 18 * Real.cosh u) := Real.sqrt_le_sqrt (by rw [hx]; linarith)
  generalize Real.sqrt (163 + 18 * Real.cosh u) = w at *
  rw [hx] at hsq hc
  have hw0 : 0 < w := by linarith
  -- the growth of the root
  have hw3 : w ^ 3 ≤ winW ^ 3 * (1 + x / 5) := by
    refine le_of_sq_le_sq ?_ (by have : 0 < winW := by linarith
                                 positivity)
    have e1 : (w ^ 3) ^ 2 = (181 + 18 * x) ^ 3 := by
      calc (w ^ 3) ^ 2 = (w ^ 2) ^ 3 := by ring
        _ = _ := by rw [hsq]; ring
    have e2 : (winW ^ 3 * (1 + x / 5)) ^ 2 = 181 ^ 3 * (1 + x / 5) ^ 2 := by
      calc (winW ^ 3 * (1 + x / 5)) ^ 2 = (winW ^ 2) ^ 3 * (1 + x / 5) ^ 2 := by ring
        _ = _ := by rw [winW_sq]
    rw [e1, e2]
    have : 0 ≤ x * (13 - x) := mul_nonneg (by linarith) (by linarith)
    nlinarith [mul_nonneg this (show (0:ℝ) ≤ x by linarith)]
  have hterm : w ^ 3 / 4 * ((Real.sinh (2 * u) - 2 * u) / Real.sinh u ^ 3) ≤ winW ^ 3 / 3 * (1 - 3 / 10 ^ 6) := by
    have hW3 : 0 < winW ^ 3 := by have : 0 < winW := by linarith
                                  positivity
    calc w ^ 3 / 4 * ((Real.sinh (2 * u) - 2 * u) / Real.sinh u ^ 3) ≤ w ^ 3 / 4 * (8 / 3 / (2 + x)) :=
          mul_le_mul_of_nonneg_left hR (by positivity)
      _ ≤ winW ^ 3 * (1 + x / 5) / 4 * (8 / 3 / (2 + x)) :=
          mul_le_mul_of_nonneg_right (by linarith) (by positivity)
      _ = winW ^ 3 / 3 * ((2 + 2 * x / 5) / (2 + x)) := by field_simp; ring
      _ ≤ winW ^ 3 / 3 * (1 - 3 / 10 ^ 6) := by
          refine mul_le_mul_of_nonneg_left ?_ (by positivity)
          rw [div_le_iff₀ (by linarith)]
          nlinarith
  obtain ⟨p1, p2⟩ := winP_bounds
  have hp : 0 < winP := by linarith
  have hW3 : winP ≤ winW ^ 3 / 3 := by unfold winP; linarith
  have : (w ^ 3 / 4 * ((Real.sinh (2 * u) - 2 * u) / Real.sinh u ^ 3) - 9 * w) / winP ≤ 1 - 3 / 10 ^ 6 := by
    rw [div_le_iff₀ hp]
    have : winW ^ 3 / 3 - 9 * winW = winP := rfl
    nlinarith
  linarith

theorem win_bounds_abs {t : ℝ} (h : t < 10 ^ 6 - 1 ∨ 10 ^ 6 + 1 ≤ t) : |t - 10 ^ 6| > 1 / 10 ^ 4 := by
  have h4 : (1 : ℝ) / 10 ^ 4 < 1 := by norm_num
  rw [gt_iff_lt, lt_abs]
  rcases h with h | h
  · right; linarith
  · left; linarith

/-- The rounds with the exact functions. -/
theorem win_big {phi : ℝ} (hs : 1 / 10 ^ 4 < -phi) (h1 : -(2 * Real.pi ^ 2) ≤ phi) :
    0 ≤ yOf (-(9 * Real.sqrt 2)) 1 162 phi (stumpff phi).1 (stumpff phi).2 ∧
    timeOf winMu (-(9 * Real.sqrt 2)) (stumpff phi).1 (stumpff phi).2
      (yOf (-(9 * Real.sqrt 2)) 1 162 phi (stumpff phi).1 (stumpff phi).2) < 10 ^ 6 - 1 := by
  have hpos : 0 < -phi := lt_trans (by norm_num) hs
  obtain ⟨u, hu, rfl⟩ : ∃ u : ℝ, 0 < u ∧ phi = -(4 * u ^ 2) :=
    ⟨Real.sqrt (-phi) / 2, by have := Real.sqrt_pos.2 hpos; positivity, by
      rw [div_pow, Real.sq_sqrt hpos.le]; ring⟩
  have hex := stumpff_exact (φ := -(4 * u ^ 2)) (Or.inl (by rw [abs_neg, abs_of_pos (by positivity)]; linarith))
  obtain ⟨e2, e3⟩ := hex.unique (stumpff_half_angle hu)
  obtain ⟨k1, k2⟩ := win_exact_eq hu
  rw [e2, e3, k1, k2]
  have hc := cosh_lt_14 (u := u) (by have := pi_sq_bounds.2; linarith)
  refine ⟨by have := Real.cosh_pos u; positivity, win_exact ?_ hc.le⟩
  by_contra hlt
  push Not at hlt
  have : u ^ 2 < (1 / 200) ^ 2 := pow_lt_pow_left₀ hlt hu.le (by norm_num)
  norm_num at this hs
  linarith

/-- In every round of the transfer the time is too short or too long. -/
theorem win_time_off {phi : ℝ} (h0 : phi ≤ 0) (h1 : -(2 * Real.pi ^ 2) ≤ phi) :
    0 ≤ yOf (-(9 * Real.sqrt 2)) 1 162 phi (stumpff phi).1 (stumpff phi).2 ∧
    |timeOf winMu (-(9 * Real.sqrt 2)) (stumpff phi).1 (stumpff phi).2
      (yOf (-(9 * Real.sqrt 2)) 1 162 phi (stumpff phi).1 (stumpff phi).2) - 10 ^ 6| > 1 / 10 ^ 4 := by
  by_cases hs : 1 / 10 ^ 4 < |phi|
  · rw [abs_of_nonpos h0] at hs
    obtain ⟨k1, k2⟩ := win_big hs h1
    exact ⟨k1, win_bounds_abs (Or.inl k2)⟩
  · rw [stumpff_small hs]
    obtain ⟨k1, k2⟩ := win_small h0
    exact ⟨k1, win_bounds_abs (Or.inr k2)⟩

/-- What holds before every round but the first two. -/
structure Below (s : Iter) : Prop where
  lower : -(2 * Real.pi ^ 2) ≤ s.lower ∧ s.lower ≤ 0
  upper : -(2 * Real.pi ^ 2) ≤ s.upper ∧ s.upper ≤ 0
  phi : s.phi = (s.upper + s.lower) / 2
  c2 : s.c2 = (stumpff s.phi).1
  c3 : s.c3 = (stumpff s.phi).2
  far : |s.cur - 10 ^ 6| > 1 / 10 ^ 4

theorem below_loop : ∀ (k : Nat) (s : Iter), Below s →
    goodLoop winMu (-(9 * Real.sqrt 2)) 1 162 (10 ^ 6) k s = .fault (.maxIter 1000)
  | 0, s, h => by rw [goodLoop.eq_def]; exact if_pos h.far
  | k + 1, s, h => by
    have hp : s.phi ≤ 0 ∧ -(2 * Real.pi ^ 2) ≤ s.phi := by
      rw [h.phi]
      constructor
      · linarith [h.lower.2, h.upper.2]
      · linarith [h.lower.1, h.upper.1]
    obtain ⟨y0, t0⟩ := win_time_off hp.1 hp.2
    rw [← h.c2, ← h.c3] at y0 t0
    obtain ⟨s', hs, -, cur', hl, hu, p, c2, c3, -⟩ := goodStep_nonneg (mu := winMu) (tof := 10 ^ 6) y0
    rw [← cur'] at t0
    have hB : Below s' := by
      by_cases hc : s'.cur < 10 ^ 6
      · obtain ⟨l1, l2⟩ := hl hc
        exact ⟨by rw [l1]; exact ⟨hp.2, hp.1⟩, by rw [l2]; exact h.upper, p, c2, c3, t0⟩
      · obtain ⟨l1, l2⟩ := hu hc
        exact ⟨by rw [l1]; exact h.lower, by rw [l2]; exact ⟨hp.2, hp.1⟩, p, c2, c3, t0⟩
    rw [goodLoop, if_pos h.far]
    show (goodStep winMu (-(9 * Real.sqrt 2)) 1 162 (10 ^ 6) s).bind (goodLoop winMu (-(9 * Real.sqrt 2)) 1 162 (10 ^ 6) k) = _
    rw [hs]
    exact below_loop k s' hB

theorem win_loop : goodLoop winMu (-(9 * Real.sqrt 2)) 1 162 (10 ^ 6) 1001 Iter.start = .fault (.maxIter 1000) := by
  have hpi := pi_sq_bounds
  -- the first round
  obtain ⟨y0, t0⟩ := win_small le_rfl
  obtain ⟨s, hs, -, cur, -, hu, p, c2, c3, -⟩ := goodStep_nonneg (mu := winMu) (tof := 10 ^ 6) (s := Iter.start)
    (a := -(9 * Real.sqrt 2)) (n1 := 1) (n2 := 162) y0
  have t1 : 10 ^ 6 + 1 ≤ s.cur := by rw [cur]; exact t0
  obtain ⟨l1, l2⟩ := hu (by intro h; linarith)
  have l1' : s.lower = -4 * Real.pi ^ 2 := l1
  have l2' : s.upper = 0 := l2
  have p' : s.phi = -(2 * Real.pi ^ 2) := by rw [p, l1', l2']; ring
  have f1 := win_bounds_abs (Or.inr t1)
  -- the second round
  obtain ⟨y1, t2⟩ := win_big (phi := s.phi) (by rw [p', neg_neg]; norm_num; linarith) (by rw [p'])
  rw [← c2, ← c3] at y1 t2
  obtain ⟨s', hs', -, cur', hl', -, q, d2, d3, -⟩ := goodStep_nonneg (mu := winMu) (tof := 10 ^ 6) y1
  rw [← cur'] at t2
  obtain ⟨m1, m2⟩ := hl' (by linarith)
  have hB : Below s' := by
    refine ⟨?_, ?_, q, d2, d3, win_bounds_abs (Or.inl t2)⟩
    · rw [m1, p']; constructor <;> linarith
    · rw [m2, l2']; constructor <;> linarith
  have h0 : |Iter.start.cur - 10 ^ 6| > (1 / 10 ^ 4 : ℝ) := by
    show |(0 : ℝ) - 10 ^ 6| > 1 / 10 ^ 4
    norm_num
  rw [goodLoop, if_pos h0]
  show (goodStep winMu (-(9 * Real.sqrt 2)) 1 162 (10 ^ 6) Iter.start).bind (goodLoop winMu (-(9 * Real.sqrt 2)) 1 162 (10 ^ 6) 1000) = _
  rw [hs]
  show goodLoop winMu (-(9 * Real.sqrt 2)) 1 162 (10 ^ 6) 1000 s = _
  rw [goodLoop, if_pos f1]
  show (goodStep winMu (-(9 * Real.sqrt 2)) 1 162 (10 ^ 6) s).bind (goodLoop winMu (-(9 * Real.sqrt 2)) 1 162 (10 ^ 6) 999) = _
  rw [hs']
  exact below_loop 999 s' hB

theorem nrm_162 : nrm (![0, 162, 0] : V3) = 162 := by
  have : nrm (![0, 162, 0] : V3) = Real.sqrt ((![0, 162, 0] : V3) ⬝ᵥ ![0, 162, 0]) := rfl
  rw [this, dot3]; simp

theorem win_a : goodA (-1) (![1, 0, 0] : V3) ![0, 162, 0] = -(9 * Real.sqrt 2) := by
  rw [goodA, nrm_e0, nrm_162, dot3]
  have : (1 * 162 * (1 + ((![1, 0, 0] : V3) 0 * (![0, 162, 0] : V3) 0 + (![1, 0, 0] : V3) 1 * (![0, 162, 0] : V3) 1 +
      (![1, 0, 0] : V3) 2 * (![0, 162, 0] : V3) 2) / (1 * 162)) : ℝ) = 9 ^ 2 * 2 := by simp; norm_num
  rw [this, Real.sqrt_mul (by norm_num), Real.sqrt_sq (by norm_num)]
  ring

theorem win_cross : (![1, 0, 0] : V3) ⨯₃ ![0, 162, 0] ≠ 0 := by
  intro h
  have := congrFun h 2
  rw [cross2] at this
  simp at this

/-- There is a transfer in the time asked for. -/
theorem win_exists : ∃ v1 v2, Reaches winMu ![1, 0, 0] v1 ![0, 162, 0] v2 (10 ^ 6) ∧
    ((![1, 0, 0] : V3) ⨯₃ v1) 2 < 0 := by
  obtain ⟨p1, p2⟩ := winP_bounds
  have hp : 0 < winP := by linarith
  let F : ℝ → ℝ := fun u => (10 ^ 6 + 1) * ((Real.sqrt (163 + 18 * Real.cosh u) ^ 3 / 4 *
        ((Real.sinh (2 * u) - 2 * u) / Real.sinh u ^ 3) - 9 * Real.sqrt (163 + 18 * Real.cosh u)) / winP)
  have hhi : F (1 / 200) ≤ 10 ^ 6 := by
    have := win_exact (u := 1 / 200) le_rfl (cosh_lt_14 (by norm_num)).le
    have : F (1 / 200) < 10 ^ 6 - 1 := this
    linarith
  -- close to the parabola
  obtain ⟨e, he0, he1, hec⟩ : ∃ e : ℝ, 0 < e ∧ e ≤ 1 / 200 ∧ Real.cosh e ≤ 1 + 1 / 10 ^ 10 := by
    have h1 : Real.cosh 0 ≤ 1 + 1 / 10 ^ 10 := by rw [Real.cosh_zero]; norm_num
    have h2 : 1 + 1 / 10 ^ 10 ≤ Real.cosh (1 / 200) := by
      have := cosh_ge (1 / 200) (by norm_num)
      norm_num at this ⊢
      linarith
    obtain ⟨u, hu, e⟩ := intermediate_value_Icc (show (0 : ℝ) ≤ 1 / 200 by norm_num) Real.continuous_cosh.continuousOn ⟨h1, h2⟩
    refine ⟨u, lt_of_le_of_ne hu.1 ?_, hu.2, e.le⟩
    intro h
    rw [← h, Real.cosh_zero] at e
    norm_num at e
  have hlo : 10 ^ 6 ≤ F e := by
    have hsh : 0 < Real.sinh e := Real.sinh_pos_iff.2 he0
    have hg := sinh_gap_le he0.le
    have h1c := Real.one_le_cosh e
    have hs2 : Real.sinh e ^ 2 ≤ 3 / 10 ^ 10 := by
      have := Real.cosh_sq e
      have h2 : Real.cosh e ^ 2 ≤ (1 + 1 / 10 ^ 10) ^ 2 := pow_le_pow_left₀ (by linarith) hec 2
      norm_num at h2 ⊢
      linarith
    have hR : 4 / 3 - 2 / 5 * (3 / 10 ^ 10) ≤ (Real.sinh (2 * e) - 2 * e) / Real.sinh e ^ 3 := by
      rw [le_div_iff₀ (by positivity)]
      have := mul_le_mul_of_nonneg_right hs2 (show 0 ≤ Real.sinh e ^ 3 by positivity)
      nlinarith
    have hsq : Real.sqrt (163 + 18 * Real.cosh e) ^ 2 = 163 + 18 * Real.cosh e := Real.sq_sqrt (by linarith)
    have hWw : winW ≤ Real.sqrt (163 + 18 * Real.cosh e) := Real.sqrt_le_sqrt (by linarith)
    have hw14 : Real.sqrt (163 + 18 * Real.cosh e) ≤ 14 := by
      rw [Real.sqrt_le_left (by norm_num)]
      norm_num at hec ⊢
      linarith
    show 10 ^ 6 ≤ (10 ^ 6 + 1) * ((Real.sqrt (163 + 18 * Real.cosh e) ^ 3 / 4 *
        ((Real.sinh (2 * e) - 2 * e) / Real.sinh e ^ 3) - 9 * Real.sqrt (163 + 18 * Real.cosh e)) / winP)
    generalize Real.sqrt (163 + 18 * Real.cosh e) = w at *
    have hw0 : 0 ≤ w := by linarith [winW_bounds.1]
    have hpar := win_par hWw
    have hw3 : w ^ 3 ≤ 14 ^ 3 := pow_le_pow_left₀ hw0 hw14 3
    have hm := mul_le_mul_of_nonneg_left hR (show 0 ≤ w ^ 3 / 4 by positivity)
    have hbig : winP * (1 - 1 / 10 ^ 8) ≤ w ^ 3 / 4 * ((Real.sinh (2 * e) - 2 * e) / Real.sinh e ^ 3) - 9 * w := by
      norm_num at hm ⊢
      nlinarith
    have : 1 - 1 / 10 ^ 8 ≤ (w ^ 3 / 4 * ((Real.sinh (2 * e) - 2 * e) / Real.sinh e ^ 3) - 9 * w) / winP := by
      rw [le_div_iff₀ hp]; linarith
    norm_num at this ⊢
    linarith
  have hcont : ContinuousOn F (Set.Icc e (1 / 200)) := by
    have hc1 : Continuous fun u => Real.sqrt (163 + 18 * Real.cosh u) :=
      (continuous_const.add (continuous_const.mul Real.continuous_cosh)).sqrt
    have hc2 : Continuous fun u => Real.sinh (2 * u) - 2 * u :=
      (Real.continuous_sinh.comp (continuous_const.mul continuous_id)).sub (continuous_const.mul continuous_id)
    have hc3 : ContinuousOn (fun u => (Real.sinh (2 * u) - 2 * u) / Real.sinh u ^ 3) (Set.Icc e (1 / 200)) := by
      refine hc2.continuousOn.div (Real.continuous_sinh.pow 3).continuousOn fun u hu => ?_
      have : 0 < Real.sinh u := Real.sinh_pos_iff.2 (lt_of_lt_of_le he0 hu.1)
      positivity
    exact continuousOn_const.mul (((((hc1.pow 3).div_const 4).continuousOn.mul hc3).sub
      (continuous_const.mul hc1).continuousOn).div_const winP)
  obtain ⟨u, hu, hF⟩ := intermediate_value_Icc' he1 hcont ⟨hhi, hlo⟩
  have hu0 : 0 < u := lt_of_lt_of_le he0 hu.1
  obtain ⟨k1, k2⟩ := win_exact_eq hu0
  have hy : 0 < 163 + 18 * Real.cosh u := by have := Real.cosh_pos u; positivity
  have ha0 : -(9 * Real.sqrt 2) ≠ 0 := by
    have : 0 < Real.sqrt 2 := by positivity
    intro h; linarith
  obtain ⟨v1, v2, -, e1, e2⟩ := goodVelocities_some winMu_pos ha0 hy ![1, 0, 0] ![0, 162, 0]
  have hsh : 0 < Real.sinh u := Real.sinh_pos_iff.2 hu0
  have h22 : Real.sqrt 2 ^ 2 = 2 := Real.sq_sqrt (by norm_num)
  have hdot : (![1, 0, 0] : V3) ⬝ᵥ ![0, 162, 0] = 0 := by rw [dot3]; simp
  have ha2 : (-(9 * Real.sqrt 2)) ^ 2 = nrm (![1, 0, 0] : V3) * nrm (![0, 162, 0] : V3) + (![1, 0, 0] : V3) ⬝ᵥ ![0, 162, 0] := by
    rw [nrm_e0, nrm_162, hdot, neg_sq, mul_pow, h22]; norm_num
  have hr := velocities_reach winMu_pos ha0 hy (show 0 < Real.sinh u ^ 2 / (2 * u ^ 2) by positivity) win_cross ha2
    (stumpff_half_angle hu0) (by rw [nrm_e0, nrm_162, k1]) e1 e2
  rw [k2] at hr
  refine ⟨v1, v2, ?_, ?_⟩
  · have : F u = 10 ^ 6 := hF
    rw [← this]
    exact hr
  · have hk := (velocities_conic winMu_pos ha0 hy win_cross ha2 e1 e2).1
    have := congrFun hk 2
    rw [Pi.smul_apply, cross2 ![1, 0, 0] ![0, 162, 0], smul_eq_mul] at this
    have hs : 0 < Real.sqrt ((163 + 18 * Real.cosh u) / winMu) := Real.sqrt_pos.2 (div_pos hy winMu_pos)
    have h2p : 0 < Real.sqrt 2 := by positivity
    have hneg : -(9 * Real.sqrt 2) * Real.sqrt ((163 + 18 * Real.cosh u) / winMu) < 0 := by
      have := mul_pos h2p hs
      nlinarith
    by_contra hge
    push Not at hge
    have h3 := mul_nonpos_of_nonpos_of_nonneg hneg.le hge
    rw [this] at h3
    norm_num at h3

/-- **C231 (refuted).** A transfer of less than a turn, in the direction asked for and in the time asked for, exists,
but `gooding` gives up after a thousand rounds: the time of flight of the last exact functions is too short, and the
one of the functions at zero, used for every closer `phi`, is too long. -/
theorem gooding_window : (∃ v1 v2, Reaches winMu winInput.initial.pos v1 winInput.final.pos v2 winInput.tof ∧
      (winInput.initial.pos ⨯₃ v1) 2 < 0) ∧ gooding winInput .longWay = .fault (.maxIter 1000) := by
  have htof : winInput.tof = 10 ^ 6 := by
    show (((10 ^ 15 : Int) - 0 : Int) : ℝ) / 10 ^ 9 = 10 ^ 6
    norm_num
  rw [htof]
  refine ⟨win_exists, ?_⟩
  have h1 : winInput.mu = .ok winMu := rfl
  have h2 : ¬ tooClose (goodA (-1) winInput.initial.pos winInput.final.pos) winInput.initial.pos winInput.final.pos := by
    show ¬ tooClose (goodA (-1) ![1, 0, 0] ![0, 162, 0]) (![1, 0, 0] : V3) ![0, 162, 0]
    rw [win_a]
    rintro ⟨-, h⟩
    rw [abs_neg, abs_of_pos (by positivity)] at h
    have : 1 ≤ Real.sqrt 2 := by rw [Real.one_le_sqrt]; norm_num
    have h' : (1 : ℝ) / 10 ^ 4 < 1 := by norm_num
    linarith
  have h3 : goodLoop winMu (goodA (-1) winInput.initial.pos winInput.final.pos) (nrm winInput.initial.pos)
      (nrm winInput.final.pos) winInput.tof 1001 Iter.start = .fault (.maxIter 1000) := by
    rw [htof]
    show goodLoop winMu (goodA (-1) ![1, 0, 0] ![0, 162, 0]) (nrm ![1, 0, 0]) (nrm ![0, 162, 0]) _ 1001 Iter.start = _
    rw [win_a, nrm_e0, nrm_162]
    exact win_loop
  simp only [gooding, h1, Res.bind, Kind.direction]
  rw [if_neg h2, h3]

end Verif.Lambert
