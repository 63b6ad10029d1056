import Verif.Lambert.Moved
/-!
The solver of Gooding never returns a fast transfer of more than half a turn: `phi` stays above `-4π²`, where the time of
flight is not below a fraction of `√((r1 + r2)³ / mu)`.
-/
namespace Verif.Lambert
open Matrix
open Verif.MathU (V3 nrm atan2 dot3 nrm_sq nrm_nonneg ext3 cross0 cross1 cross2)

/-! ### The hyperbolic functions -/

theorem mul_cosh_le {x : ℝ} (hx : 0 ≤ x) : x * Real.cosh x ≤ (1 + x ^ 2 / 3) * Real.sinh x := by
  have h1 : ∀ x, HasDerivAt (fun x => x * Real.cosh x - (1 + x ^ 2 / 3) * Real.sinh x)
      (-(x / 3 * (x * Real.cosh x - Real.sinh x))) x := by
    intro x
    refine hd (((hasDerivAt_id x).mul (Real.hasDerivAt_cosh x)).sub
      (((((hasDerivAt_id x).pow 2).div_const 3).const_add 1).mul (Real.hasDerivAt_sinh x))) ?_
    simp only [id, Nat.cast_ofNat, Nat.reduceSub, Pi.pow_apply, Pi.div_apply]
    ring
  have := anti_zero h1 hx (fun z hz => by
    have := mul_nonneg (show 0 ≤ z / 3 by linarith [hz.1]) (sub_nonneg.2 (sinh_le_mul_cosh hz.1))
    linarith)
  simp only [Real.sinh_zero, zero_mul, mul_zero, sub_zero] at this
  linarith

theorem cosh_half (u : ℝ) : Real.cosh u = 1 + 2 * Real.sinh (u / 2) ^ 2 := by
  have := Real.cosh_two_mul (u / 2)
  rw [show 2 * (u / 2) = u by ring] at this
  rw [this]
  linarith [Real.cosh_sq (u / 2)]

theorem sinh_half (u : ℝ) : Real.sinh u = 2 * Real.sinh (u / 2) * Real.cosh (u / 2) := by
  have := Real.sinh_two_mul (u / 2)
  rwa [show 2 * (u / 2) = u by ring] at this

theorem sinh_sub_ge {u : ℝ} (h0 : 0 ≤ u) (h : u ≤ Real.pi) : u * (Real.cosh u - 1) ≤ 5 * (Real.sinh u - u) := by
  have h1 : ∀ x, HasDerivAt (fun x => x * (Real.cosh x - 1) - 5 * (Real.sinh x - x))
      (-(4 * (Real.cosh x - 1) - x * Real.sinh x)) x := by
    intro x
    refine hd (((hasDerivAt_id x).mul ((Real.hasDerivAt_cosh x).sub_const 1)).sub
      (((Real.hasDerivAt_sinh x).sub (hasDerivAt_id x)).const_mul 5)) ?_
    simp only [id]
    ring
  have := anti_zero h1 h0 (fun z hz => by
    have hz0 : 0 ≤ z := hz.1
    have hzp : z ≤ Real.pi := le_trans hz.2 h
    have hs : 0 ≤ Real.sinh (z / 2) := Real.sinh_nonneg_iff.2 (by linarith)
    have h2 := mul_cosh_le (x := z / 2) (by linarith)
    have h3 : (z / 2) ^ 2 / 3 ≤ 1 := by
      have := Real.pi_lt_d4
      nlinarith
    have h4 : z / 2 * Real.cosh (z / 2) ≤ 2 * Real.sinh (z / 2) := by nlinarith
    have h5 := mul_le_mul_of_nonneg_left h4 hs
    rw [cosh_half z, sinh_half z]
    nlinarith)
  simp only [Real.sinh_zero, Real.cosh_zero] at this
  norm_num at this
  linarith

theorem sinh_le_five {u : ℝ} (h0 : 0 ≤ u) (h : u ≤ Real.pi) : Real.sinh u ≤ 431 / 100 * u := by
  have h1 := three_sinh_le (u := u / 2) (by linarith)
  have h2 := cosh_half_pi (v := u / 2) (by linarith) (by linarith)
  have h3 : 0 ≤ Real.sinh (u / 2) := Real.sinh_nonneg_iff.2 (by linarith)
  have h4 : Real.sinh (u / 2) ≤ u / 2 * (473 / 300) := by nlinarith
  have h5 := Real.cosh_pos (u / 2)
  rw [sinh_half]
  have := mul_le_mul h4 h2 h5.le (by linarith)
  linarith

/-! ### The time of flight of more than half a turn -/

/-- The square root times the time for a negative `phi`, in terms of half the angle, when `a` is `-b`. -/
theorem hyp_factor {n b u : ℝ} (hu : 0 < u) :
    Real.sqrt 2 / 4 * (n + b * Real.sqrt 2 * Real.cosh u) * ((Real.sinh (2 * u) - 2 * u) / Real.sinh u ^ 3) - b =
      Real.sqrt 2 / 4 * n * ((Real.sinh (2 * u) - 2 * u) / Real.sinh u ^ 3) -
        b * ((u * Real.cosh u - Real.sinh u) / Real.sinh u ^ 3) := by
  have hs : 0 < Real.sinh u := Real.sinh_pos_iff.2 hu
  have h22 : Real.sqrt 2 ^ 2 = 2 := Real.sq_sqrt (by norm_num)
  have hc := Real.cosh_sq u
  have key : Real.cosh u * ((Real.sinh (2 * u) - 2 * u) / Real.sinh u ^ 3) / 2 - 1 =
      -((u * Real.cosh u - Real.sinh u) / Real.sinh u ^ 3) := by
    rw [Real.sinh_two_mul]
    field_simp
    linear_combination Real.sinh u * hc
  linear_combination b * key + (b * Real.cosh u * ((Real.sinh (2 * u) - 2 * u) / Real.sinh u ^ 3) / 4) * h22

/-- From below, when `√2 b ≤ n` and `phi` is above `-4π²`. -/
theorem hyp_factor_ge {n b u : ℝ} (hu : 0 < u) (hup : u ≤ Real.pi) (hn : 0 < n) (hbn : b * Real.sqrt 2 ≤ n) :
    n / 32 ≤ Real.sqrt 2 / 4 * (n + b * Real.sqrt 2 * Real.cosh u) * ((Real.sinh (2 * u) - 2 * u) / Real.sinh u ^ 3) - b := by
  have hs : 0 < Real.sinh u := Real.sinh_pos_iff.2 hu
  have hc := Real.cosh_sq u
  have hc1 : 0 < Real.cosh u - 1 := by have := Real.one_lt_cosh.2 hu.ne'; linarith
  have h22 : Real.sqrt 2 ^ 2 = 2 := Real.sq_sqrt (by norm_num)
  have hp2 : 0 < Real.sqrt 2 := by positivity
  have hb2 : Real.sqrt 2 ≤ 1415 / 1000 := by rw [Real.sqrt_le_left (by norm_num)]; norm_num
  rw [hyp_factor hu]
  have hK : 0 ≤ (u * Real.cosh u - Real.sinh u) / Real.sinh u ^ 3 :=
    div_nonneg (by linarith [sinh_le_mul_cosh hu.le]) (by positivity)
  have hb' : b ≤ n * Real.sqrt 2 / 2 := by nlinarith
  have h1 := mul_le_mul_of_nonneg_right hb' hK
  have key : Real.sqrt 2 / 4 * n * ((Real.sinh (2 * u) - 2 * u) / Real.sinh u ^ 3) -
      n * Real.sqrt 2 / 2 * ((u * Real.cosh u - Real.sinh u) / Real.sinh u ^ 3) =
      n * Real.sqrt 2 / 2 * ((Real.sinh u - u) / (Real.sinh u * (Real.cosh u - 1))) := by
    have h0 : Real.sinh u ^ 3 = Real.sinh u * (Real.cosh u - 1) * (Real.cosh u + 1) := by
      linear_combination -Real.sinh u * hc
    have h0' : Real.cosh u + 1 ≠ 0 := by linarith
    rw [Real.sinh_two_mul, h0]
    field_simp
    ring
  have h2 : (1 : ℝ) / 22 ≤ (Real.sinh u - u) / (Real.sinh u * (Real.cosh u - 1)) := by
    rw [le_div_iff₀ (by positivity)]
    have a1 := sinh_sub_ge hu.le hup
    have a2 := mul_le_mul_of_nonneg_right (sinh_le_five hu.le hup) hc1.le
    have a3 := mul_pos hu hc1
    linarith
  have h3 := mul_le_mul_of_nonneg_left h2 (show 0 ≤ n * Real.sqrt 2 / 2 by positivity)
  have h4 : 141 / 100 ≤ Real.sqrt 2 := by rw [Real.le_sqrt (by norm_num) (by norm_num)]; norm_num
  have h5 := mul_le_mul_of_nonneg_left h4 hn.le
  linarith

/-- From above: it is small for a `phi` far below zero. -/
theorem hyp_factor_le {n b u : ℝ} (hu : 0 < u) (hn : 0 < n) (hb : 0 ≤ b) :
    Real.sqrt 2 / 4 * (n + b * Real.sqrt 2 * Real.cosh u) * ((Real.sinh (2 * u) - 2 * u) / Real.sinh u ^ 3) - b ≤
      n * (Real.cosh u / Real.sinh u ^ 2) := by
  have hs : 0 < Real.sinh u := Real.sinh_pos_iff.2 hu
  have hb2 : Real.sqrt 2 ≤ 2 := by rw [Real.sqrt_le_left (by norm_num)]; norm_num
  have hp2 : 0 < Real.sqrt 2 := by positivity
  rw [hyp_factor hu]
  have hK : 0 ≤ (u * Real.cosh u - Real.sinh u) / Real.sinh u ^ 3 :=
    div_nonneg (by linarith [sinh_le_mul_cosh hu.le]) (by positivity)
  have h1 : (Real.sinh (2 * u) - 2 * u) / Real.sinh u ^ 3 ≤ 2 * (Real.cosh u / Real.sinh u ^ 2) := by
    rw [div_le_iff₀ (by positivity), Real.sinh_two_mul,
      show 2 * (Real.cosh u / Real.sinh u ^ 2) * Real.sinh u ^ 3 = 2 * Real.sinh u * Real.cosh u by field_simp]
    linarith
  have h2 := mul_le_mul_of_nonneg_left h1 (show 0 ≤ Real.sqrt 2 / 4 * n by positivity)
  have h3 : 0 ≤ n * (Real.cosh u / Real.sinh u ^ 2) := by have := Real.cosh_pos u; positivity
  have h4 := mul_le_mul_of_nonneg_right hb2 h3
  have h5 := mul_nonneg hb hK
  nlinarith

/-- The time of a round for a negative `phi` or zero, when the turn is more than half of one. -/
theorem long_time {mu a n1 n2 phi : ℝ} (g : Geometry a n1 n2) (ha : a < 0) (hphi : phi ≤ 0)
    (hlow : -(4 * Real.pi ^ 2) < phi) :
    0 ≤ yOf a n1 n2 phi (stumpff phi).1 (stumpff phi).2 ∧
    Real.sqrt (n1 + n2) ^ 3 / 32 / Real.sqrt mu ≤
      timeOf mu a (stumpff phi).1 (stumpff phi).2 (yOf a n1 n2 phi (stumpff phi).1 (stumpff phi).2) := by
  have h22 : Real.sqrt 2 ^ 2 = 2 := Real.sq_sqrt (by norm_num)
  have hp2 : 0 < Real.sqrt 2 := by positivity
  have hn : 0 < n1 + n2 := add_pos g.pos1 g.pos2
  have hb : 0 ≤ -a := by linarith
  have hbn : -a * Real.sqrt 2 ≤ n1 + n2 := by
    refine le_of_sq_le_sq ?_ hn.le
    have := g.sqrt_two
    rw [mul_pow, h22]
    linarith
  have hN2 : Real.sqrt (n1 + n2) ^ 2 = n1 + n2 := Real.sq_sqrt hn.le
  have hN0 : 0 ≤ Real.sqrt (n1 + n2) := Real.sqrt_nonneg _
  have fin : ∀ y R : ℝ, n1 + n2 ≤ y → (n1 + n2) / 32 ≤ Real.sqrt 2 / 4 * y * R - -a →
      Real.sqrt (n1 + n2) ^ 3 / 32 / Real.sqrt mu ≤
        (Real.sqrt 2 / 4 * Real.sqrt y ^ 3 * R + a * Real.sqrt y) / Real.sqrt mu := by
    intro y R hy hR
    refine div_le_div_of_nonneg_right ?_ (Real.sqrt_nonneg _)
    have hy2 : Real.sqrt y ^ 2 = y := Real.sq_sqrt (by linarith)
    have e1 : Real.sqrt 2 / 4 * Real.sqrt y ^ 3 * R + a * Real.sqrt y =
        Real.sqrt y * (Real.sqrt 2 / 4 * y * R - -a) := by
      rw [← hy2, Real.sqrt_sq (Real.sqrt_nonneg _)]; ring
    have e2 : Real.sqrt (n1 + n2) ^ 3 / 32 = Real.sqrt (n1 + n2) * ((n1 + n2) / 32) := by
      linear_combination Real.sqrt (n1 + n2) / 32 * hN2
    rw [e1, e2]
    exact mul_le_mul (Real.sqrt_le_sqrt hy) hR (by positivity) (Real.sqrt_nonneg _)
  by_cases hs : 1 / 10 ^ 4 < |phi|
  · have hpos : 0 < -phi := by
      rcases eq_or_lt_of_le hphi with h | h
      · rw [h, abs_zero] at hs; norm_num at hs
      · linarith
    obtain ⟨u, hu, rfl⟩ : ∃ u : ℝ, 0 < u ∧ phi = -(4 * u ^ 2) :=
      ⟨Real.sqrt (-phi) / 2, by have := Real.sqrt_pos.2 hpos; positivity, by
        rw [div_pow, Real.sq_sqrt hpos.le]; ring⟩
    obtain ⟨e2, e3⟩ := (stumpff_exact (φ := -(4 * u ^ 2)) (Or.inl hs)).unique (stumpff_half_angle hu)
    have hup : u ≤ Real.pi := by
      refine le_of_lt (lt_of_pow_lt_pow_left₀ 2 Real.pi_pos.le ?_)
      linarith
    rw [e2, e3, yOf_hyp _ _ _ hu]
    have hc := Real.cosh_pos u
    have hyn : n1 + n2 ≤ n1 + n2 - a * Real.sqrt 2 * Real.cosh u := by
      have := mul_nonneg (mul_nonneg hb hp2.le) hc.le
      linarith
    refine ⟨by linarith, ?_⟩
    rw [timeOf_hyp _ _ (by linarith) hu]
    refine fin _ _ hyn ?_
    have := hyp_factor_ge hu hup hn hbn
    rwa [show n1 + n2 + -a * Real.sqrt 2 * Real.cosh u = n1 + n2 - a * Real.sqrt 2 * Real.cosh u by ring] at this
  · rw [stumpff_small hs]
    show 0 ≤ yOf a n1 n2 phi (1 / 2) (1 / 6) ∧ _ ≤ timeOf mu a (1 / 2) (1 / 6) (yOf a n1 n2 phi (1 / 2) (1 / 6))
    rw [yOf_par]
    have hge : n1 + n2 + -a * Real.sqrt 2 ≤ n1 + n2 - a * Real.sqrt 2 * (1 - phi / 6) := by
      have := mul_nonneg (mul_nonneg hb hp2.le) (show 0 ≤ -phi / 6 by linarith)
      linarith
    have hyn : n1 + n2 ≤ n1 + n2 - a * Real.sqrt 2 * (1 - phi / 6) := by
      have := mul_nonneg hb hp2.le
      linarith
    refine ⟨by linarith, ?_⟩
    rw [timeOf_par _ _ (by linarith)]
    have := fin _ (4 / 3) hyn ?_
    · rwa [show Real.sqrt 2 / 4 * Real.sqrt (n1 + n2 - a * Real.sqrt 2 * (1 - phi / 6)) ^ 3 * (4 / 3) =
        Real.sqrt 2 / 3 * Real.sqrt (n1 + n2 - a * Real.sqrt 2 * (1 - phi / 6)) ^ 3 by ring] at this
    · have h1 := mul_le_mul_of_nonneg_left hge (show 0 ≤ Real.sqrt 2 / 3 by positivity)
      have h4 : 141 / 100 ≤ Real.sqrt 2 := by rw [Real.le_sqrt (by norm_num) (by norm_num)]; norm_num
      have h5 := mul_le_mul_of_nonneg_right h4 hn.le
      have h6 := mul_le_mul_of_nonneg_left hbn hp2.le
      nlinarith

/-! ### The rounds -/

/-- What holds before every round: no time was too short. -/
structure Falling (s : Iter) : Prop where
  lower : s.lower = -4 * Real.pi ^ 2
  phi : -4 * Real.pi ^ 2 < s.phi ∧ s.phi ≤ 0
  c2 : s.c2 = (stumpff s.phi).1
  c3 : s.c3 = (stumpff s.phi).2

theorem Falling.start : Falling Iter.start := by
  have e : stumpff 0 = (1 / 2, 1 / 6) := stumpff_small (by rw [abs_zero]; norm_num)
  refine ⟨rfl, ⟨?_, le_rfl⟩, ?_, ?_⟩
  · show -4 * Real.pi ^ 2 < 0
    have := Real.pi_pos
    nlinarith
  · show 1 / 2 = (stumpff 0).1; rw [e]
  · show 1 / 6 = (stumpff 0).2; rw [e]

theorem Falling.step {mu a n1 n2 tof : ℝ} (g : Geometry a n1 n2) (ha : a < 0) (ht : tof + 1 / 10 ^ 4 <
    Real.sqrt (n1 + n2) ^ 3 / 32 / Real.sqrt mu) {s : Iter} (h : Falling s) :
    ∃ s', goodStep mu a n1 n2 tof s = .ok s' ∧ Falling s' ∧ 1 / 10 ^ 4 < |s'.cur - tof| := by
  obtain ⟨hy, hT⟩ := long_time (mu := mu) g ha h.phi.2 (by linarith [h.phi.1])
  have hc : chooseY a n1 n2 s = (s.phi, yOf a n1 n2 s.phi s.c2 s.c3) := by
    simp only [chooseY]
    rw [if_neg (fun hn => by linarith [hn.1])]
  rw [← h.c2, ← h.c3] at hT
  have hcur : ¬ timeOf mu a s.c2 s.c3 (yOf a n1 n2 s.phi s.c2 s.c3) < tof := by
    have : (0 : ℝ) < 1 / 10 ^ 4 := by norm_num
    linarith
  refine ⟨⟨s.lower, s.phi, (s.phi + s.lower) / 2, (stumpff ((s.phi + s.lower) / 2)).1, (stumpff ((s.phi + s.lower) / 2)).2,
    timeOf mu a s.c2 s.c3 (yOf a n1 n2 s.phi s.c2 s.c3), yOf a n1 n2 s.phi s.c2 s.c3, (s.phi, s.c2, s.c3)⟩, ?_, ?_, ?_⟩
  · simp only [goodStep, hc]
    rw [if_neg (fun hn => by linarith [hn.1])]
    simp only [if_neg hcur]
  · have hl := h.lower
    have hpi : 0 < Real.pi ^ 2 := by positivity
    refine ⟨hl, ⟨?_, ?_⟩, rfl, rfl⟩
    · show -4 * Real.pi ^ 2 < (s.phi + s.lower) / 2
      linarith [h.phi.1]
    · show (s.phi + s.lower) / 2 ≤ 0
      linarith [h.phi.2]
  · show 1 / 10 ^ 4 < |timeOf mu a s.c2 s.c3 (yOf a n1 n2 s.phi s.c2 s.c3) - tof|
    refine lt_of_lt_of_le ?_ (le_abs_self _)
    linarith

theorem Falling.loop {mu a n1 n2 tof : ℝ} (g : Geometry a n1 n2) (ha : a < 0) (ht : tof + 1 / 10 ^ 4 <
    Real.sqrt (n1 + n2) ^ 3 / 32 / Real.sqrt mu) : ∀ (k : Nat) (s : Iter), Falling s → 1 / 10 ^ 4 < |s.cur - tof| →
      goodLoop mu a n1 n2 tof k s = .fault (.maxIter 1000)
  | 0, s, _, hs => by rw [goodLoop, if_pos hs]
  | k + 1, s, h, hs => by
    obtain ⟨s', e, h', hs'⟩ := h.step g ha ht
    rw [goodLoop, if_pos hs, e]
    exact Falling.loop g ha ht k s' h' hs'

/-! ### The transfers exist -/

/-- Every time below the bound is the one of a transfer of more than half a turn. -/
theorem long_exists {mu T : ℝ} (hmu : 0 < mu) (hT : 0 < T) {r1 r2 : V3} (hc : r1 ⨯₃ r2 ≠ 0)
    (ht : T ≤ Real.sqrt (nrm r1 + nrm r2) ^ 3 / 32 / Real.sqrt mu) :
    ∃ (v1 v2 : V3) (k : ℝ), Reaches mu r1 v1 r2 v2 T ∧ k < 0 ∧ r1 ⨯₃ v1 = k • (r1 ⨯₃ r2) := by
  obtain ⟨p1, p2⟩ := nrm_ne_zero_of_cross hc
  obtain ⟨a0, a1, a2⟩ := goodA_sign (dm := -1) hc (Or.inr rfl)
  have g := geometry_of (dm := -1) (by norm_num) p1 p2
  generalize goodA (-1) r1 r2 = a at *
  have ha : a < 0 := by linarith
  have h22 : Real.sqrt 2 ^ 2 = 2 := Real.sq_sqrt (by norm_num)
  have hp2 : 0 < Real.sqrt 2 := by positivity
  have hn : 0 < nrm r1 + nrm r2 := add_pos p1 p2
  have hb : 0 ≤ -a := by linarith
  have hbn : -a * Real.sqrt 2 ≤ nrm r1 + nrm r2 := by
    refine le_of_sq_le_sq ?_ hn.le
    have := g.sqrt_two
    rw [mul_pow, h22]
    linarith
  have hsm : 0 < Real.sqrt mu := Real.sqrt_pos.2 hmu
  let Y : ℝ → ℝ := fun u => nrm r1 + nrm r2 - a * Real.sqrt 2 * Real.cosh u
  let F : ℝ → ℝ := fun u => (Real.sqrt 2 / 4 * Real.sqrt (Y u) ^ 3 * ((Real.sinh (2 * u) - 2 * u) / Real.sinh u ^ 3) +
    a * Real.sqrt (Y u)) / Real.sqrt mu
  have hY : ∀ u, nrm r1 + nrm r2 ≤ Y u := fun u => by
    have := mul_nonneg (mul_nonneg hb hp2.le) (Real.cosh_pos u).le
    show nrm r1 + nrm r2 ≤ nrm r1 + nrm r2 - a * Real.sqrt 2 * Real.cosh u
    linarith
  have hlo : T ≤ F 1 := by
    refine ht.trans ?_
    have h1 := (long_time (mu := mu) (phi := -(4 * (1 : ℝ) ^ 2)) g ha (by norm_num) (by
      have := Real.pi_gt_three
      nlinarith)).2
    obtain ⟨e2, e3⟩ := (stumpff_exact (φ := -(4 * (1 : ℝ) ^ 2)) (Or.inl (by rw [abs_neg, abs_of_pos] <;> norm_num))).unique
      (stumpff_half_angle one_pos)
    rw [e2, e3, yOf_hyp _ _ _ one_pos, timeOf_hyp _ _ (le_trans hn.le (hY 1)) one_pos] at h1
    exact h1
  -- far below
  obtain ⟨C, hC⟩ : ∃ C, C = 10 + 8 * (nrm r1 + nrm r2) ^ 3 / (mu * T ^ 2) := ⟨_, rfl⟩
  have hC10 : 10 ≤ C := by
    have : 0 ≤ 8 * (nrm r1 + nrm r2) ^ 3 / (mu * T ^ 2) := by positivity
    linarith
  obtain ⟨U, hU1, hUc⟩ : ∃ U : ℝ, 1 ≤ U ∧ Real.cosh U = C := by
    have g1 : Real.cosh 1 ≤ C := by
      have := Real.cosh_le_exp_half_sq 1
      have h2 : Real.exp (1 ^ 2 / 2) ≤ Real.exp 1 := Real.exp_le_exp.2 (by norm_num)
      have := Real.exp_one_lt_d9
      linarith
    have g2 : C ≤ Real.cosh C := by
      have := cosh_ge C (by linarith)
      nlinarith [sq_nonneg (C - 1)]
    obtain ⟨u, hu, e⟩ := intermediate_value_Icc (show (1 : ℝ) ≤ C by linarith) Real.continuous_cosh.continuousOn ⟨g1, g2⟩
    exact ⟨u, hu.1, e⟩
  have hhi : F U ≤ T := by
    have hU0 : 0 < U := by linarith
    have hs2 : Real.sinh U ^ 2 = (C - 1) * (C + 1) := by
      have := Real.cosh_sq U
      rw [hUc] at this
      linarith
    have h1 := hyp_factor_le hU0 hn hb
    rw [show nrm r1 + nrm r2 + -a * Real.sqrt 2 * Real.cosh U = Y U by
      show _ = nrm r1 + nrm r2 - a * Real.sqrt 2 * Real.cosh U; ring, hUc, hs2] at h1
    have hYU : Y U ≤ (nrm r1 + nrm r2) * (1 + C) := by
      show nrm r1 + nrm r2 - a * Real.sqrt 2 * Real.cosh U ≤ _
      rw [hUc]
      have := mul_le_mul_of_nonneg_right hbn (show 0 ≤ C by linarith)
      linarith
    have hyp : 0 ≤ Y U := le_trans hn.le (hY U)
    have hy2 : Real.sqrt (Y U) ^ 2 = Y U := Real.sq_sqrt hyp
    have e1 : Real.sqrt 2 / 4 * Real.sqrt (Y U) ^ 3 * ((Real.sinh (2 * U) - 2 * U) / Real.sinh U ^ 3) + a * Real.sqrt (Y U) =
        Real.sqrt (Y U) * (Real.sqrt 2 / 4 * Y U * ((Real.sinh (2 * U) - 2 * U) / Real.sinh U ^ 3) - -a) := by
      linear_combination (Real.sqrt 2 / 4 * Real.sqrt (Y U) * ((Real.sinh (2 * U) - 2 * U) / Real.sinh U ^ 3)) * hy2
    show (Real.sqrt 2 / 4 * Real.sqrt (Y U) ^ 3 * ((Real.sinh (2 * U) - 2 * U) / Real.sinh U ^ 3) + a * Real.sqrt (Y U)) /
      Real.sqrt mu ≤ T
    rw [e1, div_le_iff₀ hsm]
    refine (mul_le_mul_of_nonneg_left h1 (Real.sqrt_nonneg _)).trans ?_
    refine le_of_sq_le_sq ?_ (by positivity)
    rw [mul_pow, mul_pow, mul_pow T, hy2, Real.sq_sqrt hmu.le]
    have hD : C / ((C - 1) * (C + 1)) ≤ 10 / 9 / (C + 1) := by
      rw [div_le_div_iff₀ (by nlinarith) (by linarith)]
      nlinarith
    have hD0 : 0 ≤ C / ((C - 1) * (C + 1)) := div_nonneg (by linarith) (by nlinarith)
    have hD2 := pow_le_pow_left₀ hD0 hD 2
    have hC1 : 0 < C + 1 := by linarith
    have h3 : Y U * ((nrm r1 + nrm r2) ^ 2 * (C / ((C - 1) * (C + 1))) ^ 2) ≤
        (nrm r1 + nrm r2) * (1 + C) * ((nrm r1 + nrm r2) ^ 2 * (10 / 9 / (C + 1)) ^ 2) :=
      mul_le_mul hYU (mul_le_mul_of_nonneg_left hD2 (by positivity)) (by positivity) (by positivity)
    refine h3.trans ?_
    have e4 : (nrm r1 + nrm r2) * (1 + C) * ((nrm r1 + nrm r2) ^ 2 * (10 / 9 / (C + 1)) ^ 2) =
        100 / 81 * (nrm r1 + nrm r2) ^ 3 / (C + 1) := by field_simp; ring
    rw [e4, div_le_iff₀ hC1]
    have e5 : T ^ 2 * mu * (C + 1) = 11 * (T ^ 2 * mu) + 8 * (nrm r1 + nrm r2) ^ 3 := by
      rw [hC]; field_simp; ring
    rw [e5]
    have : 0 < T ^ 2 * mu := by positivity
    have : 0 < (nrm r1 + nrm r2) ^ 3 := by positivity
    linarith
  have hcont : ContinuousOn F (Set.Icc 1 U) := by
    have hc1 : Continuous fun u => Real.sqrt (Y u) :=
      (continuous_const.sub (continuous_const.mul Real.continuous_cosh)).sqrt
    have hc2 : Continuous fun u => Real.sinh (2 * u) - 2 * u :=
      (Real.continuous_sinh.comp (continuous_const.mul continuous_id)).sub (continuous_const.mul continuous_id)
    have hc3 : ContinuousOn (fun u => (Real.sinh (2 * u) - 2 * u) / Real.sinh u ^ 3) (Set.Icc 1 U) := by
      refine hc2.continuousOn.div (Real.continuous_sinh.pow 3).continuousOn fun u hu => ?_
      have : 0 < Real.sinh u := Real.sinh_pos_iff.2 (lt_of_lt_of_le one_pos hu.1)
      positivity
    exact ((((continuous_const.mul (hc1.pow 3)).continuousOn.mul hc3).add
      (continuous_const.mul hc1).continuousOn).div_const _)
  obtain ⟨u, hu, hF⟩ := intermediate_value_Icc' hU1 hcont ⟨hhi, hlo⟩
  have hu0 : 0 < u := lt_of_lt_of_le one_pos hu.1
  have hy : 0 < Y u := lt_of_lt_of_le hn (hY u)
  obtain ⟨v1, v2, -, e1, e2⟩ := goodVelocities_some hmu a0 hy r1 r2
  have hsh : 0 < Real.sinh u := Real.sinh_pos_iff.2 hu0
  have hr := velocities_reach hmu a0 hy (show 0 < Real.sinh u ^ 2 / (2 * u ^ 2) by positivity) hc a2
    (stumpff_half_angle hu0) (by rw [yOf_hyp _ _ _ hu0]) e1 e2
  rw [timeOf_hyp _ _ hy.le hu0] at hr
  have hk := (velocities_conic hmu a0 hy hc a2 e1 e2).1
  have hq : a * Real.sqrt (Y u / mu) < 0 := mul_neg_of_neg_of_pos ha (Real.sqrt_pos.2 (div_pos hy hmu))
  refine ⟨v1, v2, (a * Real.sqrt (Y u / mu))⁻¹, ?_, inv_lt_zero.2 hq, ?_⟩
  · rw [← hF]; exact hr
  · rw [← hk, smul_smul, inv_mul_cancel₀ hq.ne, one_smul]

/-- **C231 (refuted).** For all positions that are not aligned with the center and all times below a fraction of
`√((r1 + r2)³ / mu)`, a transfer of more than half a turn, opposite to the short way, exists, but `gooding` never finds
one: no `phi` above `-4π²` has such a short time. -/
theorem gooding_fast_false {inp : Input} {kind : Kind} {mu : ℝ} (hm : inp.initial.frame.mu = some mu) (hmu : 0 < mu)
    (hc : inp.initial.pos ⨯₃ inp.final.pos ≠ 0) (hk : kind.direction inp.final.pos inp.initial.pos = .ok (-1))
    (h0 : 1 / 10 ^ 4 < inp.tof)
    (ht : inp.tof + 1 / 10 ^ 4 < Real.sqrt (nrm inp.initial.pos + nrm inp.final.pos) ^ 3 / 32 / Real.sqrt mu) :
    (∃ (v1 v2 : V3) (k : ℝ), Reaches mu inp.initial.pos v1 inp.final.pos v2 inp.tof ∧ k < 0 ∧
      inp.initial.pos ⨯₃ v1 = k • (inp.initial.pos ⨯₃ inp.final.pos)) ∧
    ∀ sol, gooding inp kind ≠ .ok sol := by
  have hp : (0 : ℝ) < 1 / 10 ^ 4 := by norm_num
  refine ⟨long_exists hmu (by linarith) hc (by linarith), fun sol hsol => ?_⟩
  obtain ⟨p1, p2⟩ := nrm_ne_zero_of_cross hc
  obtain ⟨-, a1, -⟩ := goodA_sign (dm := -1) hc (Or.inr rfl)
  have g := geometry_of (dm := -1) (by norm_num) p1 p2
  have hmu' : inp.mu = .ok mu := by rw [Input.mu, hm]
  simp only [gooding, hmu', hk, Res.bind] at hsol
  split_ifs at hsol with hcl
  have hst : 1 / 10 ^ 4 < |Iter.start.cur - inp.tof| := by
    show 1 / 10 ^ 4 < |0 - inp.tof|
    rw [zero_sub, abs_neg]
    exact lt_of_lt_of_le h0 (le_abs_self _)
  rw [Falling.loop g (by linarith) ht 1001 Iter.start Falling.start hst] at hsol
  cases hsol

/-- A quarter of a turn at the distance 1 the other way round, with the gravitational parameter 1/10000, in one second. -/
example : ∀ sol, gooding (quarter 1000000000 (1 / 10 ^ 4)) .longWay ≠ .ok sol := by
  have htof : (quarter 1000000000 (1 / 10 ^ 4)).tof = 1 := by
    show (((1000000000 : Int) - 0 : Int) : ℝ) / 10 ^ 9 = 1
    norm_num
  refine (gooding_fast_false (kind := .longWay) rfl (by norm_num) quarter_cross rfl (by rw [htof]; norm_num) ?_).2
  rw [htof]
  show 1 + 1 / 10 ^ 4 < Real.sqrt (nrm (![1, 0, 0] : V3) + nrm ![0, 1, 0]) ^ 3 / 32 / Real.sqrt (1 / 10 ^ 4)
  rw [nrm_e0, nrm_e1, show Real.sqrt (1 / 10 ^ 4) = 1 / 100 by
    rw [show (1 : ℝ) / 10 ^ 4 = (1 / 100) ^ 2 by norm_num, Real.sqrt_sq (by norm_num)]]
  have h4 : 141 / 100 ≤ Real.sqrt (1 + 1) := by rw [Real.le_sqrt (by norm_num) (by norm_num)]; norm_num
  have := pow_le_pow_left₀ (by norm_num) h4 3
  norm_num at this ⊢
  linarith

end Verif.Lambert
