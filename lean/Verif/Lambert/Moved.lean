import Verif.Lambert.Window
/-!
The rounds of the solver of Gooding in which `phi` is moved because of a negative `y`, while `c2` and `c3` stay those of
the `phi` before: how far the time of flight is off.
-/
namespace Verif.Lambert
open Matrix
open Verif.MathU (V3 nrm atan2 dot3 nrm_sq nrm_nonneg ext3 cross0 cross1 cross2)

/-! ### The hyperbolic functions -/

theorem sinh_le_mul_cosh {u : ℝ} (hu : 0 ≤ u) : Real.sinh u ≤ u * Real.cosh u := by
  have hd' : ∀ x, HasDerivAt (fun x => Real.sinh x - x * Real.cosh x) (-(x * Real.sinh x)) x := by
    intro x
    refine hd ((Real.hasDerivAt_sinh x).sub ((hasDerivAt_id x).mul (Real.hasDerivAt_cosh x))) ?_
    simp only [id]
    ring
  have := anti_zero hd' hu (fun x hx => by
    have := mul_nonneg hx.1 (Real.sinh_nonneg_iff.2 hx.1)
    linarith)
  simp only [Real.sinh_zero, zero_mul, sub_zero] at this
  linarith

theorem sinh_sub_le {u : ℝ} (hu : 0 ≤ u) : Real.sinh u - u ≤ u ^ 2 / 6 * Real.sinh u := by
  have h1 : ∀ x, HasDerivAt (fun x => Real.cosh x - 1 - x / 3 * Real.sinh x - x ^ 2 / 6 * Real.cosh x)
      (-(x ^ 2 / 6 * Real.sinh x + 2 / 3 * (x * Real.cosh x - Real.sinh x))) x := by
    intro x
    refine hd ((((Real.hasDerivAt_cosh x).sub_const 1).sub (((hasDerivAt_id x).div_const 3).mul (Real.hasDerivAt_sinh x))).sub
      ((((hasDerivAt_id x).pow 2).div_const 6).mul (Real.hasDerivAt_cosh x))) ?_
    simp only [id, Nat.cast_ofNat, Nat.reduceSub, Pi.pow_apply, Pi.div_apply]
    ring
  have h2 : ∀ x, 0 ≤ x → Real.cosh x - 1 - x / 3 * Real.sinh x - x ^ 2 / 6 * Real.cosh x ≤ 0 := by
    intro x hx
    have := anti_zero h1 hx (fun z hz => by
      have a1 := sinh_le_mul_cosh hz.1
      have a2 := mul_nonneg (show 0 ≤ z ^ 2 / 6 by positivity) (Real.sinh_nonneg_iff.2 hz.1)
      linarith)
    simp only [Real.sinh_zero, Real.cosh_zero] at this
    norm_num at this
    linarith
  have h3 : ∀ x, HasDerivAt (fun x => Real.sinh x - x - x ^ 2 / 6 * Real.sinh x)
      (Real.cosh x - 1 - x / 3 * Real.sinh x - x ^ 2 / 6 * Real.cosh x) x := by
    intro x
    refine hd (((Real.hasDerivAt_sinh x).sub (hasDerivAt_id x)).sub
      ((((hasDerivAt_id x).pow 2).div_const 6).mul (Real.hasDerivAt_sinh x))) ?_
    simp only [id, Nat.cast_ofNat, Nat.reduceSub, Pi.pow_apply, Pi.div_apply]
    ring
  have := anti_zero h3 hu (fun x hx => h2 x hx.1)
  simp only [Real.sinh_zero] at this
  norm_num at this
  linarith

theorem three_sinh_le {u : ℝ} (hu : 0 ≤ u) : 3 * Real.sinh u ≤ u * (2 + Real.cosh u) := by
  have h1 : ∀ x, HasDerivAt (fun x => 2 * Real.cosh x - 2 - x * Real.sinh x)
      (-(x * Real.cosh x - Real.sinh x)) x := by
    intro x
    refine hd ((((Real.hasDerivAt_cosh x).const_mul 2).sub_const 2).sub ((hasDerivAt_id x).mul (Real.hasDerivAt_sinh x))) ?_
    simp only [id]
    ring
  have h2 : ∀ x, 0 ≤ x → 2 * Real.cosh x - 2 - x * Real.sinh x ≤ 0 := by
    intro x hx
    have := anti_zero h1 hx (fun z hz => by linarith [sinh_le_mul_cosh hz.1])
    simp only [Real.sinh_zero, Real.cosh_zero] at this
    norm_num at this
    linarith
  have h3 : ∀ x, HasDerivAt (fun x => 3 * Real.sinh x - x * (2 + Real.cosh x))
      (2 * Real.cosh x - 2 - x * Real.sinh x) x := by
    intro x
    refine hd (((Real.hasDerivAt_sinh x).const_mul 3).sub ((hasDerivAt_id x).mul ((Real.hasDerivAt_cosh x).const_add 2))) ?_
    simp only [id]
    ring
  have := anti_zero h3 hu (fun x hx => h2 x hx.1)
  simp only [Real.sinh_zero] at this
  norm_num at this
  linarith

theorem cosh_half_pi {v : ℝ} (h0 : 0 ≤ v) (h : v ≤ Real.pi / 2) : Real.cosh v ≤ 273 / 100 := by
  have h1 : Real.cosh v = 2 * Real.cosh (v / 2) ^ 2 - 1 := by
    have := Real.cosh_two_mul (v / 2)
    rw [show 2 * (v / 2) = v by ring] at this
    rw [this]
    linarith [Real.cosh_sq (v / 2)]
  have h2 := Real.cosh_le_exp_half_sq (v / 2)
  have h3 : Real.cosh (v / 2) ^ 2 ≤ Real.exp (13 / 21) := by
    have hc : 0 ≤ Real.cosh (v / 2) := (Real.cosh_pos _).le
    refine (pow_le_pow_left₀ hc h2 2).trans ?_
    rw [← Real.exp_nat_mul]
    refine Real.exp_le_exp.2 ?_
    have hpi := Real.pi_lt_d4
    have hpi0 := Real.pi_pos
    have : v ^ 2 ≤ (3.1416 / 2) ^ 2 := pow_le_pow_left₀ h0 (by linarith) 2
    norm_num at this ⊢
    nlinarith
  have h4 : Real.exp (13 / 21) ≤ 1865 / 1000 := by
    have e : Real.exp (13 / 21) ^ 21 = Real.exp 1 ^ 13 := by
      rw [← Real.exp_nat_mul, ← Real.exp_nat_mul]; norm_num
    have h5 : Real.exp 1 ^ 13 < (1865 / 1000) ^ 21 :=
      lt_trans (pow_lt_pow_left₀ Real.exp_one_lt_d9 (Real.exp_pos 1).le (by norm_num)) (by norm_num)
    rw [← e] at h5
    exact (lt_of_pow_lt_pow_left₀ 21 (by norm_num) h5).le
  rw [h1]
  linarith

theorem sinh_two_sub_le {u : ℝ} (h0 : 0 ≤ u) (h : u ≤ Real.pi) :
    Real.sinh (2 * u) - 2 * u ≤ 2 * (141 / 100) * u ^ 2 * Real.sinh u := by
  have h1 := three_sinh_le (u := u / 2) (by linarith)
  have h2 := cosh_half_pi (v := u / 2) (by linarith) (by linarith)
  have h3 : 0 ≤ Real.sinh (u / 2) := Real.sinh_nonneg_iff.2 (by linarith)
  have h4 : Real.sinh (u / 2) ≤ u / 2 * (473 / 300) := by nlinarith
  have h5 : Real.cosh u = 1 + 2 * Real.sinh (u / 2) ^ 2 := by
    have := Real.cosh_two_mul (u / 2)
    rw [show 2 * (u / 2) = u by ring] at this
    rw [this]
    linarith [Real.cosh_sq (u / 2)]
  have h6 : Real.cosh u ≤ 1 + u ^ 2 * (1243 / 1000) := by
    rw [h5]
    have := pow_le_pow_left₀ h3 h4 2
    nlinarith [sq_nonneg u]
  have h7 := sinh_sub_le h0
  have h8 : 0 ≤ Real.sinh u := Real.sinh_nonneg_iff.2 h0
  rw [Real.sinh_two_mul]
  have := mul_le_mul_of_nonneg_left h6 h8
  have := mul_nonneg (sq_nonneg u) h8
  nlinarith

/-- The ratio of the functions for a negative `phi` of the solver. -/
theorem stumpff_ratio {φ : ℝ} (h : φ < 0) (h' : -(4 * Real.pi ^ 2) < φ) :
    (stumpff φ).2 / Real.sqrt (stumpff φ).1 ≤ 1 / 2 ∧
    ∃ R, 0 ≤ R ∧ R ≤ 4 / 3 ∧ ∀ mu a y : ℝ, 0 ≤ y → timeOf mu a (stumpff φ).1 (stumpff φ).2 y =
      (Real.sqrt 2 / 4 * Real.sqrt y ^ 3 * R + a * Real.sqrt y) / Real.sqrt mu := by
  have h22 : Real.sqrt 2 ^ 2 = 2 := Real.sq_sqrt (by norm_num)
  have hp2 : 0 < Real.sqrt 2 := by positivity
  have hb : Real.sqrt 2 < 1415 / 1000 := by
    rw [Real.sqrt_lt' (by norm_num)]; norm_num
  have hb' : 141 / 100 < Real.sqrt 2 := by
    rw [Real.lt_sqrt (by norm_num)]; norm_num
  by_cases hs : 1 / 10 ^ 4 < |φ|
  · have hpos : 0 < -φ := by linarith
    obtain ⟨u, hu, rfl⟩ : ∃ u : ℝ, 0 < u ∧ φ = -(4 * u ^ 2) :=
      ⟨Real.sqrt (-φ) / 2, by have := Real.sqrt_pos.2 hpos; positivity, by
        rw [div_pow, Real.sq_sqrt hpos.le]; ring⟩
    have hex := stumpff_exact (φ := -(4 * u ^ 2)) (Or.inl hs)
    obtain ⟨e2, e3⟩ := hex.unique (stumpff_half_angle hu)
    have hsh : 0 < Real.sinh u := Real.sinh_pos_iff.2 hu
    have hup : u ≤ Real.pi := by
      refine le_of_lt (lt_of_pow_lt_pow_left₀ 2 Real.pi_pos.le ?_)
      linarith
    have e : Real.sqrt (Real.sinh u ^ 2 / (2 * u ^ 2)) = Real.sinh u / (Real.sqrt 2 * u) := by
      rw [Real.sqrt_eq_iff_mul_self_eq (by positivity) (by positivity)]
      field_simp
      rw [h22]
    have hgap : 0 ≤ Real.sinh (2 * u) - 2 * u := by
      have := Real.self_le_sinh_iff.2 (show 0 ≤ 2 * u by linarith)
      linarith
    refine ⟨?_, (Real.sinh (2 * u) - 2 * u) / Real.sinh u ^ 3, by positivity, ?_, ?_⟩
    · rw [e2, e3, e]
      have h1 := sinh_two_sub_le hu.le hup
      rw [show (Real.sinh (2 * u) - 2 * u) / (8 * u ^ 3) / (Real.sinh u / (Real.sqrt 2 * u)) =
        (Real.sinh (2 * u) - 2 * u) * Real.sqrt 2 / (8 * u ^ 2 * Real.sinh u) by field_simp, div_le_iff₀ (by positivity)]
      have h2 := mul_le_mul_of_nonneg_right h1 hp2.le
      refine h2.trans ?_
      have h3 : 0 < u ^ 2 * Real.sinh u := by positivity
      have h4 : 2 * (141 / 100) * Real.sqrt 2 ≤ 4 := by linarith
      have := mul_le_mul_of_nonneg_right h4 h3.le
      linarith
    · rw [div_le_iff₀ (by positivity)]; exact sinh_le_cube hu.le
    · intro mu a y hy
      rw [e2, e3, timeOf_hyp _ _ hy hu]
  · rw [stumpff_small hs]
    refine ⟨?_, 4 / 3, by norm_num, le_rfl, ?_⟩
    · have hh : Real.sqrt (1 / 2) = 1 / Real.sqrt 2 := by rw [Real.sqrt_div zero_le_one, Real.sqrt_one]
      show 1 / 6 / Real.sqrt (1 / 2) ≤ 1 / 2
      rw [hh]
      field_simp
      linarith
    · intro mu a y hy
      show timeOf mu a (1 / 2) (1 / 6) y = _
      rw [timeOf_par _ _ hy]
      congr 2
      ring

/-- The flight on the orbit of any `y` for which `(n1 + n2 - y) / (√2 a)` is at least 19/20. -/
theorem conic_reach {mu a y : ℝ} (hmu : 0 < mu) (ha : 0 < a) (hy : 0 < y) {r1 r2 : V3}
    (hc : r1 ⨯₃ r2 ≠ 0) (ha2 : a ^ 2 = nrm r1 * nrm r2 + r1 ⬝ᵥ r2)
    (hq : 19 / 20 * (a * Real.sqrt 2) ≤ nrm r1 + nrm r2 - y) {v1 v2 : V3}
    (h1 : (a * Real.sqrt (y / mu)) • v1 = r2 - (1 - y / nrm r1) • r1)
    (h2 : (a * Real.sqrt (y / mu)) • v2 = (1 - y / nrm r2) • r2 - r1) :
    ∃ R, 0 ≤ R ∧ R ≤ 7 / 5 ∧ Reaches mu r1 v1 r2 v2
      ((Real.sqrt 2 / 4 * Real.sqrt y ^ 3 * R + a * Real.sqrt y) / Real.sqrt mu) := by
  have hp2 : 0 < Real.sqrt 2 := by positivity
  have has : 0 < a * Real.sqrt 2 := by positivity
  obtain ⟨q, hqe⟩ : ∃ q, q = (nrm r1 + nrm r2 - y) / (a * Real.sqrt 2) := ⟨_, rfl⟩
  have hq9 : 19 / 20 ≤ q := by rw [hqe, le_div_iff₀ has]; exact hq
  have hyq : y = nrm r1 + nrm r2 - a * Real.sqrt 2 * q := by rw [hqe]; field_simp; ring
  rcases lt_trichotomy 1 q with h | h | h
  · obtain ⟨u, hu, hcu⟩ : ∃ u : ℝ, 0 < u ∧ Real.cosh u = q := by
      have g1 : Real.cosh 0 ≤ q := by rw [Real.cosh_zero]; exact h.le
      have g2 : q ≤ Real.cosh q := by
        have := cosh_ge q (by linarith)
        nlinarith [sq_nonneg (q - 1)]
      obtain ⟨u, hu, e⟩ := intermediate_value_Icc (show (0 : ℝ) ≤ q by linarith) Real.continuous_cosh.continuousOn ⟨g1, g2⟩
      refine ⟨u, lt_of_le_of_ne hu.1 ?_, e⟩
      intro h'
      rw [← h', Real.cosh_zero] at e
      linarith
    have hsh : 0 < Real.sinh u := Real.sinh_pos_iff.2 hu
    have hr := velocities_reach hmu ha.ne' hy (show 0 < Real.sinh u ^ 2 / (2 * u ^ 2) by positivity) hc ha2
      (stumpff_half_angle hu) (by rw [yOf_hyp _ _ _ hu, hcu]; exact hyq) h1 h2
    rw [timeOf_hyp _ _ hy.le hu] at hr
    refine ⟨_, ?_, ?_, hr⟩
    · have := Real.self_le_sinh_iff.2 (show 0 ≤ 2 * u by linarith)
      exact div_nonneg (by linarith) (by positivity)
    · refine le_trans (b := 4 / 3) ?_ (by norm_num)
      rw [div_le_iff₀ (by positivity)]; exact sinh_le_cube hu.le
  · have hyo : y = yOf a (nrm r1) (nrm r2) 0 (1 / 2) (1 / 6) := by
      rw [yOf_par]
      rw [← h] at hyq
      linarith
    have hr := velocities_reach hmu ha.ne' hy (show (0 : ℝ) < 1 / 2 by norm_num) hc ha2
      (Or.inr (Or.inl ⟨rfl, rfl, rfl⟩)) hyo h1 h2
    rw [timeOf_par _ _ hy.le] at hr
    refine ⟨4 / 3, by norm_num, by norm_num, ?_⟩
    rwa [show Real.sqrt 2 / 4 * Real.sqrt y ^ 3 * (4 / 3) = Real.sqrt 2 / 3 * Real.sqrt y ^ 3 by ring]
  · have hpi := Real.pi_gt_three
    obtain ⟨u, hu, hu1, hcu⟩ : ∃ u : ℝ, 0 < u ∧ u ≤ 1 ∧ Real.cos u = q := by
      have g1 : q ≤ Real.cos 0 := by rw [Real.cos_zero]; exact h.le
      have g2 : Real.cos 1 ≤ q := by
        have h3 := Real.cos_one_le
        linarith
      obtain ⟨u, hu, e⟩ := intermediate_value_Icc' zero_le_one Real.continuous_cos.continuousOn ⟨g2, g1⟩
      refine ⟨u, lt_of_le_of_ne hu.1 ?_, hu.2, e⟩
      intro h'
      rw [← h', Real.cos_zero] at e
      linarith
    have hsh : 0 < Real.sin u := Real.sin_pos_of_pos_of_lt_pi hu (by linarith)
    have hr := velocities_reach hmu ha.ne' hy (show 0 < Real.sin u ^ 2 / (2 * u ^ 2) by positivity) hc ha2
      (stumpff_half_angle' hu) (by rw [yOf_ell _ _ _ hu hsh, hcu]; exact hyq) h1 h2
    rw [timeOf_ell _ _ hy.le hu hsh] at hr
    obtain ⟨g1, g2⟩ := sin_gap hu.le (by linarith) (by rw [hcu]; linarith)
    have hs3 : 0 < Real.sin u ^ 3 := by positivity
    have hsm : Real.sin u ^ 2 ≤ 1 / 10 := by
      have := Real.sin_sq_add_cos_sq u
      rw [hcu] at this
      nlinarith
    refine ⟨_, ?_, ?_, hr⟩
    · refine div_nonneg ?_ hs3.le
      linarith
    · rw [div_le_iff₀ hs3]
      have := mul_le_mul_of_nonneg_right hsm hs3.le
      nlinarith

/-! ### The bound -/

/-- After `phi` has been moved, `y` is less than the step of the last move. -/
theorem push_small {a n1 n2 c2 c3 : ℝ} (ha : 0 < a) (hc2 : 0 < c2) (hc3 : 0 < c3) : ∀ (k : Nat) (phi y : ℝ),
    y < 0 → y = yOf a n1 n2 phi c2 c3 → (push a n1 n2 c2 c3 k phi y).2 < a / 10 * (c3 / Real.sqrt c2)
  | 0, phi, y, h, _ => by
    have : 0 < a / 10 * (c3 / Real.sqrt c2) := by
      have := Real.sqrt_pos.2 hc2
      positivity
    exact lt_trans h this
  | k + 1, phi, y, h, e => by
    rw [push]
    by_cases hy : 0 ≤ yOf a n1 n2 (phi + 1 / 10) c2 c3
    · simp only [if_pos hy]
      have : yOf a n1 n2 (phi + 1 / 10) c2 c3 = yOf a n1 n2 phi c2 c3 + a / 10 * (c3 / Real.sqrt c2) := by
        simp only [yOf]
        ring
      rw [this, ← e]
      linarith
    · simp only [if_neg hy]
      exact push_small ha hc2 hc3 k _ _ (not_le.1 hy) rfl

/-- What is known of the functions of a round: they are those of the `phi` of the round, or `y` is small. -/
def Small (a : ℝ) (s : Iter) : Prop :=
  s.seen.2 = stumpff s.seen.1 ∨ 0 < a ∧ ∃ φ, -(4 * Real.pi ^ 2) < φ ∧ φ < 0 ∧ s.seen.2 = stumpff φ ∧
    s.y < a / 10 * ((stumpff φ).2 / Real.sqrt (stumpff φ).1)

theorem goodStep_small {mu a n1 n2 tof : ℝ} (g : Geometry a n1 n2) {s s' : Iter} (hi : Inv s)
    (e : goodStep mu a n1 n2 tof s = .ok s') : Small a s' := by
  have hc := hi.c
  have e2 : s.c2 = (stumpff s.phi).1 := by rw [← hc]
  have e3 : s.c3 = (stumpff s.phi).2 := by rw [← hc]
  obtain ⟨p2, p3⟩ := stumpff_pos hi.phi.2
  have hseen : s'.seen = ((chooseY a n1 n2 s).1, s.c2, s.c3) ∧ s'.y = (chooseY a n1 n2 s).2 := by
    simp only [goodStep] at e
    split_ifs at e
    · injection e with e
      rw [← e]
      exact ⟨rfl, rfl⟩
    · injection e with e
      rw [← e]
      exact ⟨rfl, rfl⟩
  by_cases h : 0 < a ∧ yOf a n1 n2 s.phi s.c2 s.c3 < 0
  · right
    have hphi : s.phi < 0 := by
      by_contra hp
      have := stumpff_le (not_lt.1 hp)
      rw [← e2, ← e3] at this
      rw [← e2] at p2
      linarith [y_nonneg g p2 this, h.2]
    refine ⟨h.1, s.phi, by linarith [hi.phi.1], hphi, by rw [hseen.1]; exact hc, ?_⟩
    rw [hseen.2, ← e2, ← e3]
    rw [← e2] at p2
    rw [← e3] at p3
    simp only [chooseY, if_pos h]
    exact push_small h.1 p2 p3 500 _ _ h.2 rfl
  · left
    rw [hseen.1]
    simp only [chooseY, if_neg h]
    exact hc

theorem goodLoop_small {mu a n1 n2 tof : ℝ} (g : Geometry a n1 n2) :
    ∀ (k : Nat) (s s' : Iter), Inv s → (Small a s ∨ 1 / 10 ^ 4 < |s.cur - tof|) →
      goodLoop mu a n1 n2 tof k s = .ok s' → Small a s'
  | k, s, s', hi, hs, e => by
    by_cases h : |s.cur - tof| > 1 / 10 ^ 4
    · match k with
      | 0 => rw [goodLoop, if_pos h] at e; cases e
      | k + 1 =>
        obtain ⟨s1, e1, hi', -⟩ := goodStep_spec (mu := mu) (tof := tof) g hi
        rw [goodLoop, if_pos h, e1] at e
        exact goodLoop_small g k s1 s' hi' (Or.inl (goodStep_small g hi e1)) e
    · have e' : goodLoop mu a n1 n2 tof k s = .ok s := by cases k <;> rw [goodLoop, if_neg h]
      rw [e'] at e
      injection e with e
      rw [← e]
      exact hs.resolve_right h

/-- **C143.** Whatever the round in which the solver stops, the flight on the orbit that it returns reaches the second
position with the second velocity. With less than half a turn, the time is the one asked for up to 0.1 ms and a part in
40 of the sum of both. With more than half a turn, it is the one asked for up to 0.1 ms and a part in 50000 of the time
`√((n1 + n2)³ / mu)`. Missing: the exact time, refuted by `gooding_solves_false` and `gooding_moved_false`. -/
theorem gooding_time_partial {inp : Input} {kind : Kind} {mu dm : ℝ} {sol : Solution}
    (hm : inp.initial.frame.mu = some mu) (hmu : 0 < mu) (hc : inp.initial.pos ⨯₃ inp.final.pos ≠ 0)
    (htof : 1 / 10 ^ 4 < |inp.tof|) (hk : kind.direction inp.final.pos inp.initial.pos = .ok dm)
    (h : gooding inp kind = .ok sol) :
    ∃ v1 v2 T, sol.vInit = some v1 ∧ sol.vFinal = some v2 ∧ Reaches mu inp.initial.pos v1 inp.final.pos v2 T ∧
      (0 < dm → |T - inp.tof| ≤ 1 / 10 ^ 4 + 1 / 40 * (inp.tof + 1 / 10 ^ 4)) ∧
      (dm < 0 → |T - inp.tof| ≤
        1 / 10 ^ 4 + 1 / 50000 * (Real.sqrt (nrm inp.initial.pos + nrm inp.final.pos) ^ 3 / Real.sqrt mu)) := by
  have h1 : inp.initial.pos ≠ 0 := fun e => hc (by rw [e]; simp)
  have h2 : inp.final.pos ≠ 0 := fun e => hc (by rw [e]; simp)
  have n1 := Verif.MathU.nrm_pos _ h1
  have n2 := Verif.MathU.nrm_pos _ h2
  have hmu' : inp.mu = .ok mu := by rw [Input.mu, hm]
  have hdir := direction_cases hk
  have hdm : dm ^ 2 = 1 := by rcases hdir with h | h <;> rw [h] <;> norm_num
  simp only [gooding, hmu', hk, Res.bind] at h
  split_ifs at h with ht
  have g := geometry_of hdm n1 n2
  have hst : 1 / 10 ^ 4 < |Iter.start.cur - inp.tof| := by
    show 1 / 10 ^ 4 < |0 - inp.tof|; rw [zero_sub, abs_neg]; exact htof
  rcases goodLoop_spec (mu := mu) (tof := inp.tof) g 1001 Iter.start Inv.start (Or.inr hst) with hl | ⟨s, hl, hd, hs⟩
  · rw [hl] at h; cases h
  have hsmall := goodLoop_small g 1001 Iter.start s Inv.start (Or.inr hst) hl
  obtain ⟨a0, a1, a2⟩ := goodA_sign hc hdir
  have hy := hd.y_pos hs htof
  have hsm : 0 < Real.sqrt mu := Real.sqrt_pos.2 hmu
  have h3 := abs_le.1 hs
  rw [hl] at h
  injection h with h
  obtain ⟨v1, v2, ev, e1, e2⟩ := goodVelocities_some hmu a0 hy inp.initial.pos inp.final.pos
  have hw : 0 < Real.sqrt s.y := Real.sqrt_pos.2 hy
  have hw2 : Real.sqrt s.y ^ 2 = s.y := Real.sq_sqrt hy.le
  have hp2 : 0 < Real.sqrt 2 := by positivity
  have h22 : Real.sqrt 2 ^ 2 = 2 := Real.sq_sqrt (by norm_num)
  have hb : Real.sqrt 2 < 1415 / 1000 := by
    rw [Real.sqrt_lt' (by norm_num)]; norm_num
  have hb' : 141 / 100 < Real.sqrt 2 := by
    rw [Real.lt_sqrt (by norm_num)]; norm_num
  have hN : 0 < nrm inp.initial.pos + nrm inp.final.pos := by linarith
  have hK : 0 ≤ Real.sqrt (nrm inp.initial.pos + nrm inp.final.pos) ^ 3 / Real.sqrt mu := by positivity
  have hApos : 0 < dm → 0 < goodA dm inp.initial.pos inp.final.pos := fun hp => (pos_iff_pos_of_mul_pos a1).1 hp
  have hcur : 0 < dm → 0 < s.cur := fun hp => by
    have hA := hApos hp
    have := hd.c2
    have := hd.c3
    rw [hd.cur, timeOf]
    positivity
  have htri : ∀ T, |T - inp.tof| ≤ |s.cur - inp.tof| + |T - s.cur| := fun T => by
    have := abs_add_le (s.cur - inp.tof) (T - s.cur)
    rwa [show s.cur - inp.tof + (T - s.cur) = T - inp.tof by ring] at this
  -- it is enough to bound the difference with the time of the last round
  suffices hT : ∃ T, Reaches mu inp.initial.pos v1 inp.final.pos v2 T ∧ (0 < dm → |T - s.cur| ≤ 1 / 40 * s.cur) ∧
      (dm < 0 → |T - s.cur| ≤
        1 / 50000 * (Real.sqrt (nrm inp.initial.pos + nrm inp.final.pos) ^ 3 / Real.sqrt mu)) by
    obtain ⟨T, t1, t2, t3⟩ := hT
    refine ⟨v1, v2, T, by rw [← h, ev], by rw [← h, ev], t1, fun hp => ?_, fun hn => ?_⟩
    · have := htri T
      have := t2 hp
      linarith [h3.2]
    · have := htri T
      have := t3 hn
      linarith
  rcases hsmall with hx | ⟨ha, φ, hφ1, hφ2, hx, hys⟩
  · by_cases hsm' : 1 / 10 ^ 4 < |s.seen.1| ∨ s.seen.1 = 0
    · refine ⟨s.cur, ?_, fun hp => ?_, fun hn => ?_⟩
      · rw [hd.cur]
        have := stumpff_exact hsm'
        rw [← hx] at this
        exact velocities_reach hmu a0 hy hd.c2 hc a2 this hd.eq e1 e2
      · have := hcur hp
        rw [sub_self, abs_zero]
        positivity
      · rw [sub_self, abs_zero]
        positivity
    · push Not at hsm'
      have hx' : s.seen.2 = (1 / 2, 1 / 6) := by rw [hx, stumpff_small (not_lt.2 hsm'.1)]
      have heq := hd.eq
      rw [hx'] at heq
      obtain ⟨T, hT, hTb⟩ := near_reach hmu a0 hy hc a2 hsm'.2 hsm'.1 heq e1 e2
      have hce := hd.cur
      rw [hx'] at hce
      rw [← hce] at hTb
      have hsn := hsm'.1
      have hF : |T - s.cur| ≤ 1 / 80000 * (Real.sqrt 2 / 3 * Real.sqrt s.y ^ 3 / Real.sqrt mu) :=
        hTb.trans (mul_le_mul_of_nonneg_right (by norm_num at hsn ⊢; linarith) (by positivity))
      refine ⟨T, hT, fun hp => hF.trans ?_, fun hn => hF.trans ?_⟩
      · have hA := hApos hp
        have hle : Real.sqrt 2 / 3 * Real.sqrt s.y ^ 3 / Real.sqrt mu ≤ s.cur := by
          rw [hce, timeOf_par _ _ hy.le]
          refine div_le_div_of_nonneg_right ?_ hsm.le
          have : 0 ≤ goodA dm inp.initial.pos inp.final.pos * Real.sqrt s.y := by positivity
          linarith
        have := hcur hp
        linarith
      · rw [yOf_par] at heq
        have hAs : -goodA dm inp.initial.pos inp.final.pos * Real.sqrt 2 ≤ nrm inp.initial.pos + nrm inp.final.pos := by
          refine le_of_sq_le_sq ?_ hN.le
          have := g.sqrt_two
          rw [mul_pow, h22]
          linarith
        have hA0 : 0 ≤ -goodA dm inp.initial.pos inp.final.pos := by nlinarith
        have hy2 : s.y ≤ (201 / 100) * (nrm inp.initial.pos + nrm inp.final.pos) := by
          have hph : 1 - s.seen.1 / 6 ≤ 101 / 100 := by
            have := (abs_le.1 hsn).1
            norm_num at this
            linarith
          have := mul_le_mul_of_nonneg_left hph (mul_nonneg hA0 hp2.le)
          rw [heq]
          linarith
        have hsq : Real.sqrt s.y ≤ 1418 / 1000 * Real.sqrt (nrm inp.initial.pos + nrm inp.final.pos) := by
          have e : Real.sqrt ((1418 / 1000) ^ 2 * (nrm inp.initial.pos + nrm inp.final.pos)) =
              1418 / 1000 * Real.sqrt (nrm inp.initial.pos + nrm inp.final.pos) := by
            rw [Real.sqrt_mul (by norm_num), Real.sqrt_sq (by norm_num)]
          rw [← e]
          refine Real.sqrt_le_sqrt (hy2.trans (mul_le_mul_of_nonneg_right (by norm_num) hN.le))
        have hcube : Real.sqrt 2 / 3 * Real.sqrt s.y ^ 3 ≤ 8 / 5 * Real.sqrt (nrm inp.initial.pos + nrm inp.final.pos) ^ 3 := by
          have c1 := pow_le_pow_left₀ hw.le hsq 3
          rw [mul_pow] at c1
          have c2 : 0 ≤ Real.sqrt (nrm inp.initial.pos + nrm inp.final.pos) ^ 3 := by positivity
          have c3 : Real.sqrt s.y ^ 3 ≤ 2852 / 1000 * Real.sqrt (nrm inp.initial.pos + nrm inp.final.pos) ^ 3 :=
            c1.trans (mul_le_mul_of_nonneg_right (by norm_num) c2)
          have c4 : Real.sqrt 2 / 3 ≤ 472 / 1000 := by linarith
          refine (mul_le_mul c4 c3 (by positivity) (by norm_num)).trans ?_
          nlinarith
        have := div_le_div_of_nonneg_right hcube hsm.le
        rw [mul_div_assoc (8 / 5 : ℝ)] at this
        linarith
  · obtain ⟨hrat, R, hR0, hR1, hRt⟩ := stumpff_ratio hφ2 hφ1
    set a := goodA dm inp.initial.pos inp.final.pos with hadef
    have hy20 : s.y < a / 20 := by
      have := mul_le_mul_of_nonneg_left hrat (show 0 ≤ a / 10 by positivity)
      linarith
    have hAs : a * Real.sqrt 2 ≤ nrm inp.initial.pos + nrm inp.final.pos := by
      refine le_of_sq_le_sq ?_ hN.le
      have := g.sqrt_two
      rw [mul_pow, h22]
      linarith
    obtain ⟨R', hR0', hR1', hT⟩ := conic_reach hmu ha hy hc a2 (by nlinarith) e1 e2
    have hce := hd.cur
    rw [hx, hRt mu a s.y hy.le] at hce
    refine ⟨_, hT, fun _ => ?_, fun hn => ?_⟩
    · rw [hce, ← sub_div, abs_div, abs_of_pos hsm, ← mul_div_assoc]
      refine div_le_div_of_nonneg_right ?_ hsm.le
      have hw3 : Real.sqrt s.y ^ 3 = s.y * Real.sqrt s.y := by
        linear_combination Real.sqrt s.y * hw2
      have hX : Real.sqrt 2 / 4 * Real.sqrt s.y ^ 3 ≤ 354 / 1000 * (a / 20 * Real.sqrt s.y) := by
        rw [hw3]
        refine mul_le_mul (by linarith) (mul_le_mul_of_nonneg_right hy20.le hw.le) (by positivity) (by norm_num)
      have hX0 : 0 ≤ Real.sqrt 2 / 4 * Real.sqrt s.y ^ 3 := by positivity
      have haw : 0 ≤ a * Real.sqrt s.y := by positivity
      generalize Real.sqrt 2 / 4 * Real.sqrt s.y ^ 3 = X at *
      have e : X * R' + a * Real.sqrt s.y - (X * R + a * Real.sqrt s.y) = X * (R' - R) := by ring
      rw [e, abs_mul, abs_of_nonneg hX0]
      have hd' : |R' - R| ≤ 7 / 5 := abs_le.2 ⟨by linarith, by linarith⟩
      have := mul_le_mul_of_nonneg_left hd' hX0
      have := mul_nonneg hX0 hR0
      linarith
    · nlinarith

/-! ### A transfer found in such a round -/

/-- The functions of the `phi` of the second round. -/
noncomputable def movC2 : ℝ := (stumpff (-(2 * Real.pi ^ 2))).1
noncomputable def movC3 : ℝ := (stumpff (-(2 * Real.pi ^ 2))).2

theorem mov_c : 20948 / 10000 < movC2 ∧ movC2 < 2108 / 1000 ∧ 4321 / 10000 < movC3 ∧ movC3 < 4352 / 10000 := by
  have p1 := Real.pi_gt_d6
  have p2 := Real.pi_lt_d6
  have hp1 : 1973919 / 100000 < 2 * Real.pi ^ 2 := by nlinarith
  have hp2 : 2 * Real.pi ^ 2 < 1973922 / 100000 := by nlinarith
  have hex := stumpff_exact (φ := -(2 * Real.pi ^ 2)) (Or.inl (by
    rw [abs_neg, abs_of_pos (by positivity)]
    norm_num
    linarith))
  rcases hex with ⟨h, -⟩ | ⟨h, -⟩ | ⟨-, e2, e3⟩
  · linarith
  · linarith
  rw [neg_neg] at e2 e3
  have hz2 : Real.sqrt (2 * Real.pi ^ 2) ^ 2 = 2 * Real.pi ^ 2 := Real.sq_sqrt (by positivity)
  have hz0 : 0 < Real.sqrt (2 * Real.pi ^ 2) := Real.sqrt_pos.2 (by positivity)
  obtain ⟨z, hz⟩ : ∃ z, z = Real.sqrt (2 * Real.pi ^ 2) := ⟨_, rfl⟩
  rw [← hz] at e2 e3 hz2 hz0
  have hz1 : 44428 / 10000 < z := by nlinarith
  have hz3 : z < 44429 / 10000 := by nlinarith
  have hE1 : 847 / 10 < Real.exp z := by
    refine lt_of_lt_of_le ?_ (Real.exp_le_exp.2 (show (111 / 25 : ℝ) ≤ z by linarith))
    have e : Real.exp (111 / 25) ^ 25 = Real.exp 1 ^ 111 := by
      rw [← Real.exp_nat_mul, ← Real.exp_nat_mul]; norm_num
    refine lt_of_pow_lt_pow_left₀ 25 (Real.exp_pos _).le ?_
    rw [e]
    exact lt_trans (by norm_num) (pow_lt_pow_left₀ Real.exp_one_gt_d9 (by norm_num) (by norm_num))
  have hE2 : Real.exp z < 852 / 10 := by
    refine lt_of_le_of_lt (Real.exp_le_exp.2 (show z ≤ (40 / 9 : ℝ) by linarith)) ?_
    have e : Real.exp (40 / 9) ^ 9 = Real.exp 1 ^ 40 := by
      rw [← Real.exp_nat_mul, ← Real.exp_nat_mul]; norm_num
    refine lt_of_pow_lt_pow_left₀ 9 (by norm_num) ?_
    rw [e]
    exact lt_trans (pow_lt_pow_left₀ Real.exp_one_lt_d9 (Real.exp_pos 1).le (by norm_num)) (by norm_num)
  have hm0 : 0 < Real.exp (-z) := Real.exp_pos _
  have hm1 : Real.exp (-z) < 119 / 10000 := by
    have : Real.exp (-z) * Real.exp z = 1 := by rw [← Real.exp_add]; simp
    nlinarith
  have hc := Real.cosh_eq z
  have hs := Real.sinh_eq z
  have hz33 : z ^ 3 = 2 * Real.pi ^ 2 * z := by rw [← hz2]; ring
  refine ⟨?_, ?_, ?_, ?_⟩
  · rw [movC2, e2, hc, ← neg_div_neg_eq (1 - (Real.exp z + Real.exp (-z)) / 2), neg_neg, lt_div_iff₀ (by positivity)]
    linarith
  · rw [movC2, e2, hc, ← neg_div_neg_eq (1 - (Real.exp z + Real.exp (-z)) / 2), neg_neg, div_lt_iff₀ (by positivity)]
    linarith
  · rw [movC3, e3, hs, hz33, lt_div_iff₀ (by positivity)]
    nlinarith
  · rw [movC3, e3, hs, hz33, div_lt_iff₀ (by positivity)]
    nlinarith

/-- `y` after 154 moves of `phi`. -/
noncomputable def movY : ℝ := yOf 1 1 1 (-(2 * Real.pi ^ 2) + 154 / 10) movC2 movC3

theorem movRoot : 14473 / 10000 < Real.sqrt movC2 ∧ Real.sqrt movC2 < 1452 / 1000 := by
  obtain ⟨h1, h2, -, -⟩ := mov_c
  exact ⟨Real.lt_sqrt_of_sq_lt (by norm_num; linarith), by rw [Real.sqrt_lt' (by norm_num)]; norm_num; linarith⟩

theorem mov_y : 4 / 1000 < movY ∧ movY < 2 / 100 ∧ yOf 1 1 1 (-(2 * Real.pi ^ 2) + 153 / 10) movC2 movC3 < 0 := by
  have p1 := Real.pi_gt_d6
  have p2 := Real.pi_lt_d6
  have hp1 : 1973919 / 100000 < 2 * Real.pi ^ 2 := by nlinarith
  have hp2 : 2 * Real.pi ^ 2 < 1973922 / 100000 := by nlinarith
  obtain ⟨-, -, h3, h4⟩ := mov_c
  obtain ⟨r1, r2⟩ := movRoot
  have hr : 0 < Real.sqrt movC2 := by linarith
  unfold movY yOf
  generalize Real.sqrt movC2 = C at *
  generalize movC3 = d at *
  generalize 2 * Real.pi ^ 2 = q at *
  refine ⟨?_, ?_, ?_⟩
  · have : 1 * ((-q + 154 / 10) * d - 1) / C = -(((q - 154 / 10) * d + 1) / C) := by ring
    rw [this]
    have : ((q - 154 / 10) * d + 1) / C < 1996 / 1000 := by rw [div_lt_iff₀ hr]; nlinarith
    linarith
  · have : 1 * ((-q + 154 / 10) * d - 1) / C = -(((q - 154 / 10) * d + 1) / C) := by ring
    rw [this]
    have : 198 / 100 < ((q - 154 / 10) * d + 1) / C := by rw [lt_div_iff₀ hr]; nlinarith
    linarith
  · have : 1 * ((-q + 153 / 10) * d - 1) / C = -(((q - 153 / 10) * d + 1) / C) := by ring
    rw [this]
    have : 2 < ((q - 153 / 10) * d + 1) / C := by rw [lt_div_iff₀ hr]; nlinarith
    linarith

/-- The time of flight of the last round, without the units. -/
noncomputable def movP : ℝ := Real.sqrt (movY / movC2) ^ 3 * movC3 + 1 * Real.sqrt movY

/-- The gravitational parameter for which the time of the last round is a million seconds. -/
noncomputable def movMu : ℝ := (movP / 10 ^ 6) ^ 2

theorem movW : 6 / 100 < Real.sqrt movY ∧ Real.sqrt movY < 142 / 1000 := by
  obtain ⟨h1, h2, -⟩ := mov_y
  exact ⟨Real.lt_sqrt_of_sq_lt (by norm_num; linarith), by rw [Real.sqrt_lt' (by norm_num)]; norm_num; linarith⟩

theorem movP_eq : movP = Real.sqrt movY ^ 3 * (movC3 / Real.sqrt movC2 ^ 3) + Real.sqrt movY := by
  have := movRoot.1
  rw [movP, Real.sqrt_div (by linarith [mov_y.1])]
  field_simp

theorem mov_ratio : 0 < movC3 / Real.sqrt movC2 ^ 3 ∧ movC3 / Real.sqrt movC2 ^ 3 < 15 / 100 := by
  obtain ⟨-, -, h3, h4⟩ := mov_c
  have hr := movRoot.1
  have h5 : (14473 / 10000 : ℝ) ^ 3 < Real.sqrt movC2 ^ 3 := pow_lt_pow_left₀ hr (by norm_num) (by norm_num)
  have h6 : 0 < Real.sqrt movC2 ^ 3 := lt_trans (by norm_num) h5
  refine ⟨div_pos (by linarith) h6, ?_⟩
  rw [div_lt_iff₀ h6]
  norm_num at h5
  linarith

theorem movP_bounds : 0 < movP ∧ movP < 15 / 100 := by
  obtain ⟨w1, w2⟩ := movW
  obtain ⟨r1, r2⟩ := mov_ratio
  rw [movP_eq]
  have h3 : 0 < Real.sqrt movY ^ 3 := by positivity
  have h4 : Real.sqrt movY ^ 3 < (142 / 1000) ^ 3 := pow_lt_pow_left₀ w2 (by linarith) (by norm_num)
  have h5 : Real.sqrt movY ^ 3 * (movC3 / Real.sqrt movC2 ^ 3) < (142 / 1000) ^ 3 * (15 / 100) :=
    mul_lt_mul'' h4 r2 h3.le r1.le
  norm_num at h5
  exact ⟨by positivity, by linarith⟩

theorem movMu_sqrt : Real.sqrt movMu = movP / 10 ^ 6 := by
  have := movP_bounds.1
  rw [movMu, Real.sqrt_sq (by positivity)]

theorem movMu_pos : 0 < movMu := by
  have := movP_bounds.1
  unfold movMu
  positivity

/-- The moves of `phi` up to the first for which `y` is not negative. -/
theorem push_eq (a n1 n2 c2 c3 : ℝ) (f : Nat) : ∀ (k : Nat) (phi y : ℝ),
    (∀ i : Nat, i < k → yOf a n1 n2 (phi + (i + 1 : ℕ) / 10) c2 c3 < 0) →
    0 ≤ yOf a n1 n2 (phi + (k + 1 : ℕ) / 10) c2 c3 →
    push a n1 n2 c2 c3 (f + k + 1) phi y = (phi + (k + 1 : ℕ) / 10, yOf a n1 n2 (phi + (k + 1 : ℕ) / 10) c2 c3)
  | 0, phi, y, _, h => by
    rw [Nat.cast_add, Nat.cast_zero, Nat.cast_one, zero_add] at h ⊢
    rw [push]
    simp only [if_pos h]
  | k + 1, phi, y, h, h' => by
    have h0 := h 0 (Nat.succ_pos k)
    rw [Nat.cast_add, Nat.cast_zero, Nat.cast_one, zero_add] at h0
    have e : ∀ i : Nat, phi + 1 / 10 + ((i + 1 : ℕ) : ℝ) / 10 = phi + ((i + 1 + 1 : ℕ) : ℝ) / 10 := by
      intro i; push_cast; ring
    rw [push]
    simp only [if_neg (not_le.2 h0)]
    rw [← e] at h' ⊢
    refine push_eq a n1 n2 c2 c3 f k (phi + 1 / 10) _ (fun i hi => ?_) h'
    rw [e]
    exact h (i + 1) (by omega)

theorem mov_loop : ∃ s, goodLoop movMu 1 1 1 (10 ^ 6) 1001 Iter.start = .ok s ∧ s.y = movY := by
  obtain ⟨pp, pl⟩ := movP_bounds
  have hb : Real.sqrt 2 < 1415 / 1000 := by
    rw [Real.sqrt_lt' (by norm_num)]; norm_num
  have hy : yOf 1 1 1 Iter.start.phi Iter.start.c2 Iter.start.c3 = 2 - Real.sqrt 2 := by
    show yOf 1 1 1 0 (1 / 2) (1 / 6) = 2 - Real.sqrt 2
    rw [yOf_par]
    ring
  obtain ⟨s', hs, -, cur', -, hl, p, c2, c3, -⟩ := goodStep_nonneg (mu := movMu) (tof := 10 ^ 6) (s := Iter.start)
    (a := 1) (n1 := 1) (n2 := 1) (by rw [hy]; linarith)
  have hcur : 2 * 10 ^ 6 < s'.cur := by
    rw [cur', hy]
    show _ < timeOf movMu 1 (1 / 2) (1 / 6) (2 - Real.sqrt 2)
    rw [timeOf_par _ _ (by linarith), movMu_sqrt, lt_div_iff₀ (by positivity)]
    have h1 : 7 / 10 < Real.sqrt (2 - Real.sqrt 2) := Real.lt_sqrt_of_sq_lt (by norm_num; linarith)
    have h2 : 0 ≤ Real.sqrt 2 / 3 * Real.sqrt (2 - Real.sqrt 2) ^ 3 := by positivity
    have h3 : 2 * 10 ^ 6 * (movP / 10 ^ 6) = 2 * movP := by ring
    rw [h3]
    linarith
  have hn : ¬ s'.cur < 10 ^ 6 := by intro h; linarith
  obtain ⟨l1, l2⟩ := hl hn
  have l2' : s'.upper = 0 := l2
  have l1' : s'.lower = -4 * Real.pi ^ 2 := l1
  have hphi : s'.phi = -(2 * Real.pi ^ 2) := by rw [p, l1', l2']; ring
  have hc2 : s'.c2 = movC2 := by rw [c2, hphi]; rfl
  have hc3 : s'.c3 = movC3 := by rw [c3, hphi]; rfl
  obtain ⟨y1, y2, y3⟩ := mov_y
  obtain ⟨k1, k2, k3, k4⟩ := mov_c
  have hr := movRoot.1
  have hmono : ∀ p q : ℝ, p ≤ q → yOf 1 1 1 p movC2 movC3 ≤ yOf 1 1 1 q movC2 movC3 := by
    intro p q hpq
    unfold yOf
    have h0 : 0 < Real.sqrt movC2 := by linarith
    have := mul_le_mul_of_nonneg_right hpq (show 0 ≤ movC3 by linarith)
    have : 1 * (p * movC3 - 1) / Real.sqrt movC2 ≤ 1 * (q * movC3 - 1) / Real.sqrt movC2 :=
      div_le_div_of_nonneg_right (by linarith) h0.le
    linarith
  have hneg : yOf 1 1 1 s'.phi s'.c2 s'.c3 < 0 := by
    rw [hphi, hc2, hc3]
    exact lt_of_le_of_lt (hmono _ _ (by linarith)) y3
  have hpush : push 1 1 1 movC2 movC3 500 (-(2 * Real.pi ^ 2)) (yOf 1 1 1 (-(2 * Real.pi ^ 2)) movC2 movC3) =
      (-(2 * Real.pi ^ 2) + 154 / 10, movY) := by
    have e154 : (((153 + 1 : ℕ) : ℝ)) = 154 := by norm_num
    have := push_eq 1 1 1 movC2 movC3 346 153 (-(2 * Real.pi ^ 2)) (yOf 1 1 1 (-(2 * Real.pi ^ 2)) movC2 movC3)
      (fun i hi => lt_of_le_of_lt (hmono _ _ (by
        have : ((i + 1 : ℕ) : ℝ) ≤ 153 := by exact_mod_cast hi
        linarith)) y3) (by rw [e154]; exact le_trans (by norm_num) y1.le)
    rw [e154] at this
    exact this
  have hch : chooseY 1 1 1 s' = (-(2 * Real.pi ^ 2) + 154 / 10, movY) := by
    have hcond : (0 : ℝ) < 1 ∧ yOf 1 1 1 s'.phi s'.c2 s'.c3 < 0 := ⟨one_pos, hneg⟩
    simp only [chooseY, if_pos hcond]
    rw [hphi, hc2, hc3]
    exact hpush
  have hf : ¬ ((0 : ℝ) < 1 ∧ (chooseY 1 1 1 s').2 < 0) := by
    rintro ⟨-, h⟩
    rw [hch] at h
    have h' : movY < 0 := h
    linarith
  have hcur2 : timeOf movMu 1 movC2 movC3 movY = 10 ^ 6 := by
    have : timeOf movMu 1 movC2 movC3 movY = movP / Real.sqrt movMu := rfl
    rw [this, movMu_sqrt]
    field_simp
  obtain ⟨s2, hs2, hcs2, hys2⟩ : ∃ s2, goodStep movMu 1 1 1 (10 ^ 6) s' = .ok s2 ∧ s2.cur = 10 ^ 6 ∧ s2.y = movY := by
    refine ⟨_, by simp only [goodStep, if_neg hf]; rfl, ?_, ?_⟩
    · show timeOf movMu 1 s'.c2 s'.c3 (chooseY 1 1 1 s').2 = 10 ^ 6
      rw [hch, hc2, hc3]
      exact hcur2
    · show (chooseY 1 1 1 s').2 = movY
      rw [hch]
  refine ⟨s2, ?_, hys2⟩
  have h0 : |Iter.start.cur - 10 ^ 6| > (1 / 10 ^ 4 : ℝ) := by
    show |(0 : ℝ) - 10 ^ 6| > 1 / 10 ^ 4
    norm_num
  have h1 : |s'.cur - 10 ^ 6| > (1 / 10 ^ 4 : ℝ) := by
    rw [gt_iff_lt, lt_abs]
    left
    have : (1 : ℝ) / 10 ^ 4 < 10 ^ 6 := by norm_num
    linarith
  have h2 : ¬ |s2.cur - 10 ^ 6| > (1 / 10 ^ 4 : ℝ) := by rw [hcs2, sub_self, abs_zero]; norm_num
  rw [goodLoop, if_pos h0]
  show (goodStep movMu 1 1 1 (10 ^ 6) Iter.start).bind (goodLoop movMu 1 1 1 (10 ^ 6) 1000) = _
  rw [hs, Res.bind, goodLoop, if_pos h1]
  show (goodStep movMu 1 1 1 (10 ^ 6) s').bind (goodLoop movMu 1 1 1 (10 ^ 6) 999) = _
  rw [hs2, Res.bind, goodLoop, if_neg h2]

/-- **C143 (refuted).** A quarter of a turn at the distance 1, in one million seconds: the second round moves `phi` 154
times because of a negative `y`, keeps the functions of the `phi` before, and is accepted. The flight on the orbit
returned lasts more than five hundred seconds longer than the time asked for. The time of the flight is unique. -/
theorem gooding_moved_false : ∃ sol v1 v2 T, gooding (quarter (10 ^ 15) movMu) .shortWay = .ok sol ∧
    sol.vInit = some v1 ∧ sol.vFinal = some v2 ∧ Reaches movMu ![1, 0, 0] v1 ![0, 1, 0] v2 T ∧
    (quarter (10 ^ 15) movMu).tof + 500 < T ∧ ∀ T', Reaches movMu ![1, 0, 0] v1 ![0, 1, 0] v2 T' → T' = T := by
  have htof : (quarter (10 ^ 15) movMu).tof = 10 ^ 6 := by
    show (((10 ^ 15 : Int) - 0 : Int) : ℝ) / 10 ^ 9 = 10 ^ 6
    norm_num
  obtain ⟨s, hl, hys⟩ := mov_loop
  obtain ⟨y1, y2, -⟩ := mov_y
  have hyp : 0 < movY := by linarith
  have h22 : Real.sqrt 2 ^ 2 = 2 := Real.sq_sqrt (by norm_num)
  have hp2 : 0 < Real.sqrt 2 := by positivity
  have hb' : 141 / 100 < Real.sqrt 2 := by
    rw [Real.lt_sqrt (by norm_num)]; norm_num
  have hb : Real.sqrt 2 < 1415 / 1000 := by
    rw [Real.sqrt_lt' (by norm_num)]; norm_num
  obtain ⟨v1, v2, ev, e1, e2⟩ := goodVelocities_some movMu_pos one_ne_zero hyp ![1, 0, 0] ![0, 1, 0]
  have hg : gooding (quarter (10 ^ 15) movMu) .shortWay = .ok ⟨some v1, some v2, s.phi, quarter (10 ^ 15) movMu⟩ := by
    have h1 : (quarter (10 ^ 15) movMu).mu = .ok movMu := rfl
    have h2 : ¬ tooClose (goodA 1 (quarter (10 ^ 15) movMu).initial.pos (quarter (10 ^ 15) movMu).final.pos)
        (quarter (10 ^ 15) movMu).initial.pos (quarter (10 ^ 15) movMu).final.pos := by
      show ¬ tooClose (goodA 1 ![1, 0, 0] ![0, 1, 0]) (![1, 0, 0] : V3) ![0, 1, 0]
      rw [quarter_a]
      exact quarter_close
    have h3 : goodLoop movMu (goodA 1 (quarter (10 ^ 15) movMu).initial.pos (quarter (10 ^ 15) movMu).final.pos)
        (nrm (quarter (10 ^ 15) movMu).initial.pos) (nrm (quarter (10 ^ 15) movMu).final.pos)
        (quarter (10 ^ 15) movMu).tof 1001 Iter.start = .ok s := by
      rw [htof]
      show goodLoop movMu (goodA 1 ![1, 0, 0] ![0, 1, 0]) (nrm ![1, 0, 0]) (nrm ![0, 1, 0]) _ 1001 Iter.start = .ok s
      rw [quarter_a, nrm_e0, nrm_e1]
      exact hl
    have h4 : goodVelocities movMu (goodA 1 (quarter (10 ^ 15) movMu).initial.pos (quarter (10 ^ 15) movMu).final.pos) s.y
        (quarter (10 ^ 15) movMu).initial.pos (quarter (10 ^ 15) movMu).final.pos = (some v1, some v2) := by
      show goodVelocities movMu (goodA 1 ![1, 0, 0] ![0, 1, 0]) s.y ![1, 0, 0] ![0, 1, 0] = _
      rw [quarter_a, hys]
      exact ev
    simp only [gooding, h1, Res.bind, Kind.direction]
    rw [if_neg h2, h3]
    simp only [h4]
  -- the orbit
  obtain ⟨q, hq⟩ : ∃ q, q = (2 - movY) / Real.sqrt 2 := ⟨_, rfl⟩
  have hqs : q * Real.sqrt 2 = 2 - movY := by rw [hq]; field_simp
  have hq1 : 1 < q := by rw [hq, lt_div_iff₀ hp2]; linarith
  have hq2 : q ^ 2 ≤ 2 := by
    have h1 : (q * Real.sqrt 2) ^ 2 = (2 - movY) ^ 2 := by rw [hqs]
    rw [mul_pow, h22] at h1
    nlinarith
  obtain ⟨u, hu, hcu⟩ : ∃ u : ℝ, 0 < u ∧ Real.cosh u = q := by
    have g1 : Real.cosh 0 ≤ q := by rw [Real.cosh_zero]; exact hq1.le
    have g2 : q ≤ Real.cosh q := by
      have := cosh_ge q (by linarith)
      nlinarith [sq_nonneg (q - 1)]
    obtain ⟨u, hu, e⟩ := intermediate_value_Icc (show (0 : ℝ) ≤ q by linarith) Real.continuous_cosh.continuousOn ⟨g1, g2⟩
    refine ⟨u, lt_of_le_of_ne hu.1 ?_, e⟩
    intro h'
    rw [← h', Real.cosh_zero] at e
    linarith
  have hsh : 0 < Real.sinh u := Real.sinh_pos_iff.2 hu
  have hsh2 : Real.sinh u ^ 2 ≤ 1 := by
    have := Real.cosh_sq u
    rw [hcu] at this
    linarith
  have hyo : movY = yOf 1 (nrm (![1, 0, 0] : V3)) (nrm (![0, 1, 0] : V3)) (-(4 * u ^ 2))
      (Real.sinh u ^ 2 / (2 * u ^ 2)) ((Real.sinh (2 * u) - 2 * u) / (8 * u ^ 3)) := by
    rw [yOf_hyp _ _ _ hu, nrm_e0, nrm_e1, hcu]
    linarith
  have hdot : (![1, 0, 0] : V3) ⬝ᵥ ![0, 1, 0] = 0 := by rw [dot3]; simp
  have hr := velocities_reach movMu_pos one_ne_zero hyp (show 0 < Real.sinh u ^ 2 / (2 * u ^ 2) by positivity) quarter_cross
    (by rw [nrm_e0, nrm_e1, hdot]; norm_num) (stumpff_half_angle hu) hyo e1 e2
  refine ⟨_, v1, v2, _, hg, rfl, rfl, hr, ?_, fun T' h' => Reaches.time_unique movMu_pos ?_ hr h'⟩
  · obtain ⟨pp, pl⟩ := movP_bounds
    obtain ⟨r1, r2⟩ := mov_ratio
    obtain ⟨w1, w2⟩ := movW
    rw [htof, timeOf_hyp _ _ hyp.le hu, movMu_sqrt, lt_div_iff₀ (by positivity)]
    have hR : 4 / 3 - 2 / 5 ≤ (Real.sinh (2 * u) - 2 * u) / Real.sinh u ^ 3 := by
      rw [le_div_iff₀ (by positivity)]
      have := sinh_gap_le hu.le
      have := mul_le_mul_of_nonneg_right hsh2 (show 0 ≤ Real.sinh u ^ 3 by positivity)
      nlinarith
    have e : (10 ^ 6 + 500) * (movP / 10 ^ 6) = movP + movP / 2000 := by ring
    rw [e]
    have hw2 : Real.sqrt movY ^ 2 = movY := Real.sq_sqrt hyp.le
    have hw3 : Real.sqrt movY ^ 3 = movY * Real.sqrt movY := by linear_combination Real.sqrt movY * hw2
    have hP := movP_eq
    have hX : 0 < Real.sqrt movY ^ 3 := by positivity
    have hXl : 4 / 1000 * Real.sqrt movY ≤ Real.sqrt movY ^ 3 := by
      rw [hw3]; exact mul_le_mul_of_nonneg_right y1.le (by linarith)
    have hXu : Real.sqrt movY ^ 3 ≤ 2 / 100 * Real.sqrt movY := by
      rw [hw3]; exact mul_le_mul_of_nonneg_right y2.le (by linarith)
    have t1 : 32 / 100 ≤ Real.sqrt 2 / 4 * ((Real.sinh (2 * u) - 2 * u) / Real.sinh u ^ 3) := by nlinarith
    have t2 := mul_le_mul_of_nonneg_left t1 hX.le
    have t3 := mul_le_mul_of_nonneg_left r2.le hX.le
    rw [hP]
    generalize (Real.sinh (2 * u) - 2 * u) / Real.sinh u ^ 3 = R at *
    generalize movC3 / Real.sqrt movC2 ^ 3 = ρ at *
    have t4 : Real.sqrt 2 / 4 * Real.sqrt movY ^ 3 * R = Real.sqrt movY ^ 3 * (Real.sqrt 2 / 4 * R) := by ring
    rw [t4]
    linarith
  · have hm := movMu_pos
    have hg2 : (1 * Real.sqrt (movY / movMu)) ^ 2 = movY / movMu := by
      rw [one_mul, Real.sq_sqrt (div_pos hyp movMu_pos).le]
    have hvv := congrArg (fun v => v ⬝ᵥ v) e1
    simp only [dotProduct_smul, smul_dotProduct, smul_eq_mul, nrm_e0] at hvv
    have hrhs : ((![0, 1, 0] : V3) - (1 - movY / 1) • ![1, 0, 0]) ⬝ᵥ
        (![0, 1, 0] - (1 - movY / 1) • ![1, 0, 0]) = 1 + (1 - movY) ^ 2 := by
      rw [dot3]
      simp only [Pi.sub_apply, Pi.smul_apply, smul_eq_mul]
      simp
      ring
    rw [hrhs] at hvv
    have hv : v1 ⬝ᵥ v1 = (1 + (1 - movY) ^ 2) * movMu / movY := by
      have : (1 * Real.sqrt (movY / movMu)) ^ 2 * (v1 ⬝ᵥ v1) = 1 + (1 - movY) ^ 2 := by
        rw [← hvv]; ring
      rw [hg2] at this
      rw [← this]
      field_simp
    rw [energy, hv, nrm_e0, div_one]
    have : (1 + (1 - movY) ^ 2) * movMu / movY / 2 - movMu = movMu * ((2 - 4 * movY + movY ^ 2) / (2 * movY)) := by
      field_simp
      ring
    rw [this]
    have : 0 < 2 - 4 * movY + movY ^ 2 := by nlinarith
    positivity

/-- The hypotheses of the bound are met by this transfer: the flight does not last more than a fortieth longer. -/
example : ∃ sol v1 v2 T, gooding (quarter (10 ^ 15) movMu) .shortWay = .ok sol ∧ sol.vInit = some v1 ∧
    sol.vFinal = some v2 ∧ Reaches movMu ![1, 0, 0] v1 ![0, 1, 0] v2 T ∧
    |T - (quarter (10 ^ 15) movMu).tof| ≤ 1 / 10 ^ 4 + 1 / 40 * ((quarter (10 ^ 15) movMu).tof + 1 / 10 ^ 4) := by
  obtain ⟨sol, -, -, -, e, -⟩ := gooding_moved_false
  have htof : (quarter (10 ^ 15) movMu).tof = 10 ^ 6 := by
    show (((10 ^ 15 : Int) - 0 : Int) : ℝ) / 10 ^ 9 = 10 ^ 6
    norm_num
  obtain ⟨v1, v2, T, a1, a2, a3, a4, -⟩ := gooding_time_partial (kind := .shortWay) (dm := 1) rfl movMu_pos quarter_cross
    (by rw [htof]; norm_num) rfl e
  exact ⟨sol, v1, v2, T, e, a1, a2, a3, a4 one_pos⟩

end Verif.Lambert
