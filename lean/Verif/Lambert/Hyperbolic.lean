import Verif.Lambert.Elliptic
import Verif.Lambert.Fast
/-!
The solver of Gooding finds the hyperbolic transfers away from the parabola, unless they are too fast or `y` can be
negative.
-/
namespace Verif.Lambert
open Matrix
open Verif.MathU (V3 nrm atan2 dot3 nrm_sq nrm_nonneg ext3 cross0 cross1 cross2)

/-! ### Bisection -/

/-- What is needed of the times of the rounds with `phi` up to zero: near zero they are too long, elsewhere they are
those of a function with the Lipschitz constant `L`, which crosses the time asked for. -/
structure HypBisects (mu a n1 n2 tof L : ℝ) (Te : ℝ → ℝ) : Prop where
  y : ∀ phi, -(4 * Real.pi ^ 2) < phi → phi ≤ 0 → 0 ≤ yOf a n1 n2 phi (stumpff phi).1 (stumpff phi).2
  near : ∀ phi, -(1 / 10 ^ 4) ≤ phi → phi ≤ 0 → tof + 1 / 10 ^ 4 < roundTime mu a n1 n2 phi
  exact : ∀ phi, -(4 * Real.pi ^ 2) < phi → phi < -(1 / 10 ^ 4) → roundTime mu a n1 n2 phi = Te phi
  lip : ∀ p q, -(4 * Real.pi ^ 2) ≤ p → p ≤ q → q ≤ -(1 / 10 ^ 4) → |Te q - Te p| ≤ L * (q - p)
  start : Te (-(4 * Real.pi ^ 2)) ≤ tof - 1 / 10 ^ 4
  stop : tof + 1 / 10 ^ 4 ≤ Te (-(1 / 10 ^ 4))
  Lpos : 0 ≤ L
  Lle : L * (4 * Real.pi ^ 2 / 2 ^ 999) < 1 / 10 ^ 4

/-- What holds before a round, after `k` halvings. -/
structure HypBracket (tof : ℝ) (Te : ℝ → ℝ) (k : Nat) (s : Iter) : Prop where
  lower : -(4 * Real.pi ^ 2) ≤ s.lower ∧ s.lower < -(1 / 10 ^ 4) ∧ Te s.lower < tof
  upper : s.upper ≤ 0 ∧ (s.upper < -(1 / 10 ^ 4) → tof ≤ Te s.upper)
  width : s.upper - s.lower = 4 * Real.pi ^ 2 / 2 ^ k
  phi : s.phi = (s.upper + s.lower) / 2
  c2 : s.c2 = (stumpff s.phi).1
  c3 : s.c3 = (stumpff s.phi).2
  seen : |s.cur - tof| ≤ 1 / 10 ^ 4 → LastExact s

theorem HypBracket.range {tof : ℝ} {Te : ℝ → ℝ} {k : Nat} {s : Iter} (b : HypBracket tof Te k s) :
    -(4 * Real.pi ^ 2) < s.phi ∧ s.phi ≤ 0 ∧ s.lower < s.phi ∧ s.phi < s.upper := by
  have hpi : 0 < Real.pi ^ 2 := by positivity
  have hw : 0 < 4 * Real.pi ^ 2 / 2 ^ k := by positivity
  have h1 := b.width
  have h2 := b.lower.1
  have h3 := b.upper.1
  rw [b.phi]
  refine ⟨?_, ?_, ?_, ?_⟩ <;> linarith

/-- After the last halving the time is close enough. -/
theorem HypBracket.close {mu a n1 n2 tof L : ℝ} {Te : ℝ → ℝ} (h : HypBisects mu a n1 n2 tof L Te) {s : Iter}
    (b : HypBracket tof Te 999 s) : s.phi < -(1 / 10 ^ 4) ∧ |Te s.phi - tof| ≤ 1 / 10 ^ 4 := by
  obtain ⟨p1, p2, p3, p4⟩ := b.range
  obtain ⟨l1, l2, l3⟩ := b.lower
  have hw := b.width
  have hL := h.Lle
  have hL0 := h.Lpos
  generalize 4 * Real.pi ^ 2 / 2 ^ 999 = W at *
  have hu : s.upper < -(1 / 10 ^ 4) := by
    by_contra hge
    have hge' := not_lt.1 hge
    have h1 := (abs_le.1 (h.lip s.lower (-(1 / 10 ^ 4)) l1 l2.le le_rfl)).2
    have h2 : L * (-(1 / 10 ^ 4) - s.lower) ≤ L * W := mul_le_mul_of_nonneg_left (by linarith) hL0
    have := h.stop
    linarith
  refine ⟨by linarith, ?_⟩
  have k1 := (abs_le.1 (h.lip s.lower s.phi l1 p3.le (by linarith))).2
  have k2 := (abs_le.1 (h.lip s.phi s.upper p1.le p4.le hu.le)).2
  have k3 : L * (s.phi - s.lower) ≤ L * W := mul_le_mul_of_nonneg_left (by linarith) hL0
  have k4 : L * (s.upper - s.phi) ≤ L * W := mul_le_mul_of_nonneg_left (by linarith) hL0
  have k5 := b.upper.2 hu
  rw [abs_le]
  constructor <;> linarith

/-- A round keeps the bracket. -/
theorem HypBracket.next {mu a n1 n2 tof L : ℝ} {Te : ℝ → ℝ} (h : HypBisects mu a n1 n2 tof L Te) {k : Nat} {s : Iter}
    (b : HypBracket tof Te k s) : ∃ s', goodStep mu a n1 n2 tof s = .ok s' ∧ s'.cur = roundTime mu a n1 n2 s.phi ∧
      HypBracket tof Te (k + 1) s' := by
  obtain ⟨p1, p2, p3, p4⟩ := b.range
  have y0 := h.y s.phi p1 p2
  rw [← b.c2, ← b.c3] at y0
  obtain ⟨s', hs, -, cur, hl, hu, p, c2, c3, seen⟩ := goodStep_nonneg (mu := mu) (tof := tof) y0
  have cur' : s'.cur = roundTime mu a n1 n2 s.phi := by rw [cur, b.c2, b.c3]; rfl
  have hw := b.width
  have hphi := b.phi
  have hpow : 4 * Real.pi ^ 2 / 2 ^ (k + 1) = 4 * Real.pi ^ 2 / 2 ^ k / 2 := by rw [div_div, ← pow_succ]
  have hp4 : (0 : ℝ) < 1 / 10 ^ 4 := by norm_num
  have hseen : |s'.cur - tof| ≤ 1 / 10 ^ 4 → LastExact s' := by
    intro hc
    by_cases hal : s.phi < -(1 / 10 ^ 4)
    · have := stumpff_exact (φ := s.phi) (Or.inl (by rw [abs_of_neg (by linarith)]; linarith))
      rw [LastExact, seen, b.c2, b.c3]
      exact this
    · have := h.near s.phi (not_lt.1 hal) p2
      rw [← cur'] at this
      have := (abs_le.1 hc).2
      linarith
  refine ⟨s', hs, cur', ?_⟩
  by_cases hc : s'.cur < tof
  · obtain ⟨l1, l2⟩ := hl hc
    have hal : s.phi < -(1 / 10 ^ 4) := by
      by_contra hge
      have := h.near s.phi (not_lt.1 hge) p2
      rw [← cur'] at this
      linarith
    refine ⟨by rw [l1]; exact ⟨p1.le, hal, by rw [← h.exact s.phi p1 hal, ← cur']; exact hc⟩, by rw [l2]; exact b.upper,
      by rw [l1, l2, hpow]; linarith, p, c2, c3, hseen⟩
  · obtain ⟨l1, l2⟩ := hu hc
    refine ⟨by rw [l1]; exact b.lower, ?_, by rw [l1, l2, hpow]; linarith, p, c2, c3, hseen⟩
    rw [l2]
    exact ⟨p2, fun hal => by rw [← h.exact s.phi p1 hal, ← cur']; exact not_lt.1 hc⟩

theorem hyp_bracket_loop {mu a n1 n2 tof L : ℝ} {Te : ℝ → ℝ} (h : HypBisects mu a n1 n2 tof L Te) :
    ∀ (j k : Nat) (s : Iter), k + (j + 1) = 1000 → HypBracket tof Te k s →
      ∃ s', goodLoop mu a n1 n2 tof (j + 1) s = .ok s' ∧ LastExact s'
  | j, k, s, hk, b => by
    by_cases hfar : |s.cur - tof| > 1 / 10 ^ 4
    · obtain ⟨s', hs, cur, b'⟩ := b.next h
      rw [goodLoop, if_pos hfar]
      show ∃ t, (goodStep mu a n1 n2 tof s).bind (goodLoop mu a n1 n2 tof j) = .ok t ∧ LastExact t
      rw [hs]
      show ∃ t, goodLoop mu a n1 n2 tof j s' = .ok t ∧ LastExact t
      match j, hk with
      | 0, hk =>
        obtain rfl : k = 999 := by omega
        obtain ⟨c1, c2⟩ := b.close h
        have hc : |s'.cur - tof| ≤ 1 / 10 ^ 4 := by
          rw [cur, h.exact s.phi b.range.1 c1]; exact c2
        refine ⟨s', ?_, b'.seen hc⟩
        rw [goodLoop.eq_def]
        exact if_neg (not_lt.2 hc)
      | j + 1, hk => exact hyp_bracket_loop h j (k + 1) s' (by omega) b'
    · refine ⟨s, ?_, b.seen (not_lt.1 hfar)⟩
      rw [goodLoop.eq_def]
      exact if_neg hfar

/-- The loop ends with the exact functions. -/
theorem HypBisects.loop {mu a n1 n2 tof L : ℝ} {Te : ℝ → ℝ} (h : HypBisects mu a n1 n2 tof L Te)
    (ht : 1 / 10 ^ 4 < |tof|) : ∃ s, goodLoop mu a n1 n2 tof 1001 Iter.start = .ok s ∧ LastExact s := by
  have hpi := pi_sq_bounds.1
  have hst : stumpff 0 = (1 / 2, 1 / 6) := stumpff_small (by norm_num)
  have hp4 : (0 : ℝ) < 1 / 10 ^ 4 := by norm_num
  have y0 : 0 ≤ yOf a n1 n2 Iter.start.phi Iter.start.c2 Iter.start.c3 := by
    have := h.y 0 (by linarith) le_rfl
    rw [hst] at this
    exact this
  obtain ⟨s, hs, -, cur, -, hu, p, c2, c3, -⟩ := goodStep_nonneg (mu := mu) (tof := tof) y0
  have cur' : s.cur = roundTime mu a n1 n2 0 := by rw [cur, roundTime, hst]; rfl
  have hne := h.near 0 (by linarith) le_rfl
  rw [← cur'] at hne
  obtain ⟨l1, l2⟩ := hu (by linarith)
  have l1' : s.lower = -(4 * Real.pi ^ 2) := by rw [l1]; show -4 * Real.pi ^ 2 = _; ring
  have l2' : s.upper = 0 := l2
  have b : HypBracket tof Te 0 s := by
    refine ⟨?_, ?_, by rw [l1', l2']; simp, p, c2, c3, fun hc => ?_⟩
    · rw [l1']
      refine ⟨le_rfl, ?_, by linarith [h.start]⟩
      norm_num
      linarith
    · rw [l2']
      exact ⟨le_rfl, fun e => by linarith⟩
    · have := (abs_le.1 hc).2
      linarith
  have h0 : |Iter.start.cur - tof| > (1 / 10 ^ 4 : ℝ) := by
    show |(0 : ℝ) - tof| > 1 / 10 ^ 4
    rw [zero_sub, abs_neg]; exact ht
  rw [goodLoop, if_pos h0]
  show ∃ t, (goodStep mu a n1 n2 tof Iter.start).bind (goodLoop mu a n1 n2 tof 1000) = .ok t ∧ LastExact t
  rw [hs]
  exact hyp_bracket_loop h 999 0 s rfl b

/-! ### The time of flight on hyperbolas -/

/-- The time of flight on the hyperbola with half the difference of hyperbolic anomalies `u`. -/
noncomputable def hypTime (mu a n u : ℝ) : ℝ :=
  (Real.sqrt 2 / 4 * Real.sqrt (n - a * Real.sqrt 2 * Real.cosh u) ^ 3 * ((Real.sinh (2 * u) - 2 * u) / Real.sinh u ^ 3) +
    a * Real.sqrt (n - a * Real.sqrt 2 * Real.cosh u)) / Real.sqrt mu

theorem cosh_le_cosh_pi {u : ℝ} (h0 : 0 ≤ u) (h : u ≤ Real.pi) : Real.cosh u ≤ Real.cosh Real.pi := by
  rw [Real.cosh_le_cosh, abs_of_nonneg h0, abs_of_pos Real.pi_pos]
  exact h

theorem cosh_pi_le : Real.cosh Real.pi ≤ 14 := by
  have h := cosh_half_pi (v := Real.pi / 2) (by positivity) le_rfl
  have h1 := Real.cosh_two_mul (Real.pi / 2)
  rw [show 2 * (Real.pi / 2) = Real.pi by ring] at h1
  have h2 := Real.cosh_sq (Real.pi / 2)
  have h3 := pow_le_pow_left₀ (Real.cosh_pos (Real.pi / 2)).le h 2
  norm_num at h3
  linarith

/-- `y` is between `m` and `20 n`. -/
theorem hyp_y {a n m : ℝ} (ha : |a| * Real.sqrt 2 ≤ n) (hm : m ≤ n) (hroom : 0 < a → m + a * Real.sqrt 2 * Real.cosh Real.pi ≤ n)
    {c : ℝ} (h0 : 0 ≤ c) (h : c ≤ Real.cosh Real.pi) :
    m ≤ n - a * Real.sqrt 2 * c ∧ n - a * Real.sqrt 2 * c ≤ 20 * n := by
  have h2 : 0 ≤ Real.sqrt 2 := Real.sqrt_nonneg 2
  have hc := cosh_pi_le
  rcases lt_or_ge 0 a with hp | hp
  · have h3 := hroom hp
    have h4 := mul_le_mul_of_nonneg_left h (show 0 ≤ a * Real.sqrt 2 by positivity)
    have h5 := mul_nonneg (show 0 ≤ a * Real.sqrt 2 by positivity) h0
    have h6 : 0 ≤ n := le_trans (by positivity) ha
    constructor <;> linarith
  · rw [abs_of_nonpos hp] at ha
    have h3 : 0 ≤ -a * Real.sqrt 2 := mul_nonneg (by linarith) h2
    have h4 := mul_nonneg h3 h0
    have h5 := mul_le_mul_of_nonneg_left (h.trans hc) h3
    constructor <;> linarith

/-- The derivative of the time of flight is bounded. -/
theorem hyp_deriv {mu a n m : ℝ} (hmu : 1 / 10 ^ 10 ≤ mu) (hn : n ≤ 10 ^ 13) (ha : |a| * Real.sqrt 2 ≤ n) (hm : m ≤ n)
    (hroom : 0 < a → m + a * Real.sqrt 2 * Real.cosh Real.pi ≤ n) (hm0 : 1 / 10 ^ 20 ≤ m) {u : ℝ} (hu : 1 / 200 ≤ u)
    (hup : u ≤ Real.pi) : ∃ D, HasDerivAt (hypTime mu a n) D u ∧ |D| ≤ 10 ^ 100 := by
  have hu0 : 0 < u := by linarith
  have hmp : 0 < m := lt_of_lt_of_le (by norm_num) hm0
  have hc0 := Real.cosh_pos u
  have hc14 : Real.cosh u ≤ 14 := (cosh_le_cosh_pi hu0.le hup).trans cosh_pi_le
  obtain ⟨y1, y2⟩ := hyp_y ha hm hroom hc0.le (cosh_le_cosh_pi hu0.le hup)
  have hs200 : 1 / 200 ≤ Real.sinh u := hu.trans (Real.self_le_sinh_iff.2 hu0.le)
  have hs0 : 0 < Real.sinh u := by linarith
  have hs14 : Real.sinh u ≤ 14 := by
    have := Real.sinh_lt_cosh u
    linarith
  have h2 : 1 ≤ Real.sqrt 2 := by rw [Real.one_le_sqrt]; norm_num
  have h2' : Real.sqrt 2 ≤ 2 := by rw [Real.sqrt_le_left (by norm_num)]; norm_num
  have hy0 : 0 < n - a * Real.sqrt 2 * Real.cosh u := by linarith
  -- the parts
  have dy : HasDerivAt (fun u => n - a * Real.sqrt 2 * Real.cosh u) (-(a * Real.sqrt 2 * Real.sinh u)) u :=
    hd (((Real.hasDerivAt_cosh u).const_mul (a * Real.sqrt 2)).const_sub n) (by ring)
  have dw := dy.sqrt hy0.ne'
  have d2 : HasDerivAt (fun u : ℝ => 2 * u) 2 u := hd ((hasDerivAt_id u).const_mul 2) (by norm_num)
  have dG := (d2.sinh.sub d2).div ((Real.hasDerivAt_sinh u).pow 3) (pow_ne_zero 3 hs0.ne')
  have dE := ((((dw.pow 3).const_mul (Real.sqrt 2 / 4)).mul dG).add (dw.const_mul a)).div_const (Real.sqrt mu)
  refine ⟨_, dE, ?_⟩
  -- their sizes
  have hw0 : 1 / 10 ^ 10 ≤ Real.sqrt (n - a * Real.sqrt 2 * Real.cosh u) := by
    refine Real.le_sqrt_of_sq_le ?_
    norm_num at hm0 ⊢
    linarith
  have hw1 : Real.sqrt (n - a * Real.sqrt 2 * Real.cosh u) ≤ 10 ^ 8 := by
    rw [Real.sqrt_le_left (by norm_num)]
    norm_num at hn ⊢
    linarith
  have hsm : 1 / 10 ^ 5 ≤ Real.sqrt mu := by
    refine Real.le_sqrt_of_sq_le ?_
    norm_num at hmu ⊢
    linarith
  have ha' : |a| ≤ 10 ^ 13 := by
    have := mul_le_mul_of_nonneg_left h2 (abs_nonneg a)
    linarith
  have hw' : |-(a * Real.sqrt 2 * Real.sinh u) / (2 * Real.sqrt (n - a * Real.sqrt 2 * Real.cosh u))| ≤ 10 ^ 25 := by
    rw [abs_div, abs_of_pos (show 0 < 2 * Real.sqrt (n - a * Real.sqrt 2 * Real.cosh u) by positivity),
      div_le_iff₀ (by positivity), abs_neg, abs_mul, abs_mul, abs_of_pos (show 0 < Real.sqrt 2 by positivity), abs_of_pos hs0]
    have h3 : |a| * Real.sqrt 2 * Real.sinh u ≤ |a| * Real.sqrt 2 * 14 := mul_le_mul_of_nonneg_left hs14 (by positivity)
    have h4 : (10 : ℝ) ^ 25 * (2 * (1 / 10 ^ 10)) ≤ 10 ^ 25 * (2 * Real.sqrt (n - a * Real.sqrt 2 * Real.cosh u)) :=
      mul_le_mul_of_nonneg_left (by linarith) (by positivity)
    norm_num at h4 hn ⊢
    linarith
  have hs3 : (1 : ℝ) / 10 ^ 7 ≤ Real.sinh u ^ 3 := by
    have := pow_le_pow_left₀ (by norm_num) hs200 3
    norm_num at this ⊢
    linarith
  have hs3' : Real.sinh u ^ 3 ≤ 14 ^ 3 := pow_le_pow_left₀ hs0.le hs14 3
  have hs2' : Real.sinh u ^ 2 ≤ 14 ^ 2 := pow_le_pow_left₀ hs0.le hs14 2
  have hs2u : Real.sinh (2 * u) ≤ 392 := by
    rw [Real.sinh_two_mul]
    nlinarith
  have hnum0 : 0 ≤ Real.sinh (2 * u) - 2 * u := by
    have := Real.self_le_sinh_iff.2 (show 0 ≤ 2 * u by linarith)
    linarith
  have hnum : |Real.sinh (2 * u) - 2 * u| ≤ 392 := by
    rw [abs_of_nonneg hnum0]; linarith
  have hG : |(Real.sinh (2 * u) - 2 * u) / Real.sinh u ^ 3| ≤ 10 ^ 10 := by
    rw [abs_div, abs_of_pos (show 0 < Real.sinh u ^ 3 by positivity), div_le_iff₀ (by positivity)]
    have : (10 : ℝ) ^ 10 * (1 / 10 ^ 7) ≤ 10 ^ 10 * Real.sinh u ^ 3 := mul_le_mul_of_nonneg_left hs3 (by positivity)
    norm_num at this ⊢
    linarith
  have hc2u : Real.cosh (2 * u) ≤ 392 := by
    have e1 := Real.cosh_two_mul u
    have e2 : Real.cosh u ^ 2 ≤ 14 ^ 2 := pow_le_pow_left₀ hc0.le hc14 2
    rw [e1]
    norm_num at e2 hs2'
    linarith
  have hG' : |((Real.cosh (2 * u) * 2 - 2) * Real.sinh u ^ 3 - (Real.sinh (2 * u) - 2 * u) *
      (3 * Real.sinh u ^ 2 * Real.cosh u)) / (Real.sinh u ^ 3) ^ 2| ≤ 10 ^ 21 := by
    rw [abs_div, abs_of_pos (show 0 < (Real.sinh u ^ 3) ^ 2 by positivity), div_le_iff₀ (by positivity)]
    have k1 : |(Real.cosh (2 * u) * 2 - 2) * Real.sinh u ^ 3| ≤ 784 * 14 ^ 3 := by
      rw [abs_mul, abs_of_pos (show 0 < Real.sinh u ^ 3 by positivity)]
      refine mul_le_mul ?_ hs3' (by positivity) (by norm_num)
      have := Real.one_le_cosh (2 * u)
      rw [abs_of_nonneg (by linarith)]
      linarith
    have k2 : |(Real.sinh (2 * u) - 2 * u) * (3 * Real.sinh u ^ 2 * Real.cosh u)| ≤ 392 * (3 * 14 ^ 2 * 14) := by
      rw [abs_mul]
      refine mul_le_mul hnum ?_ (abs_nonneg _) (by norm_num)
      rw [abs_of_pos (by positivity)]
      gcongr
    have k3 := abs_sub ((Real.cosh (2 * u) * 2 - 2) * Real.sinh u ^ 3) ((Real.sinh (2 * u) - 2 * u) * (3 * Real.sinh u ^ 2 * Real.cosh u))
    have k4 : ((1 : ℝ) / 10 ^ 7) ^ 2 ≤ (Real.sinh u ^ 3) ^ 2 := pow_le_pow_left₀ (by norm_num) hs3 2
    have k5 : (10 : ℝ) ^ 21 * ((1 : ℝ) / 10 ^ 7) ^ 2 ≤ 10 ^ 21 * (Real.sinh u ^ 3) ^ 2 :=
      mul_le_mul_of_nonneg_left k4 (by positivity)
    have k6 : (784 : ℝ) * 14 ^ 3 + 392 * (3 * 14 ^ 2 * 14) ≤ 10 ^ 21 * (1 / 10 ^ 7) ^ 2 := by norm_num
    exact k3.trans ((add_le_add k1 k2).trans (k6.trans k5))
  simp only [Pi.sub_apply, Pi.pow_apply, Pi.div_apply, Nat.cast_ofNat, Nat.reduceSub]
  rw [abs_div, abs_of_pos (show 0 < Real.sqrt mu by linarith), div_le_iff₀ (by linarith)]
  have hw0' : 0 < Real.sqrt (n - a * Real.sqrt 2 * Real.cosh u) := Real.sqrt_pos.2 hy0
  generalize Real.sqrt (n - a * Real.sqrt 2 * Real.cosh u) = w at *
  generalize -(a * Real.sqrt 2 * Real.sinh u) / (2 * w) = w' at *
  generalize (Real.sinh (2 * u) - 2 * u) / Real.sinh u ^ 3 = G at *
  generalize ((Real.cosh (2 * u) * 2 - 2) * Real.sinh u ^ 3 - (Real.sinh (2 * u) - 2 * u) *
      (3 * Real.sinh u ^ 2 * Real.cosh u)) / (Real.sinh u ^ 3) ^ 2 = G' at *
  have hr : Real.sqrt 2 / 4 ≤ 1 / 2 := by linarith
  have hr0 : 0 < Real.sqrt 2 / 4 := by positivity
  generalize Real.sqrt 2 / 4 = r at *
  have hP : |r * (3 * w ^ 2 * w') * G| ≤ 10 ^ 60 := by
    rw [abs_mul, abs_mul, abs_mul, abs_mul, abs_of_pos hr0, abs_of_pos (show (0 : ℝ) < 3 by norm_num),
      abs_of_pos (show 0 < w ^ 2 by positivity)]
    have e1 : w ^ 2 ≤ (10 ^ 8) ^ 2 := pow_le_pow_left₀ hw0'.le hw1 2
    calc r * (3 * w ^ 2 * |w'|) * |G| ≤ 1 / 2 * (3 * (10 ^ 8) ^ 2 * 10 ^ 25) * 10 ^ 10 := by
          gcongr
      _ ≤ 10 ^ 60 := by norm_num
  have hQ : |r * w ^ 3 * G'| ≤ 10 ^ 60 := by
    rw [abs_mul, abs_mul, abs_of_pos hr0, abs_of_pos (show 0 < w ^ 3 by positivity)]
    calc r * w ^ 3 * |G'| ≤ 1 / 2 * (10 ^ 8) ^ 3 * 10 ^ 21 := by
          gcongr
      _ ≤ 10 ^ 60 := by norm_num
  have hR : |a * w'| ≤ 10 ^ 60 := by
    rw [abs_mul]
    calc |a| * |w'| ≤ 10 ^ 13 * 10 ^ 25 := by gcongr
      _ ≤ 10 ^ 60 := by norm_num
  have hS : (10 : ℝ) ^ 100 * (1 / 10 ^ 5) ≤ 10 ^ 100 * Real.sqrt mu := mul_le_mul_of_nonneg_left hsm (by positivity)
  have hT := abs_add_le (r * (3 * w ^ 2 * w') * G + r * w ^ 3 * G') (a * w')
  have hU := abs_add_le (r * (3 * w ^ 2 * w') * G) (r * w ^ 3 * G')
  have hV : (10 : ℝ) ^ 60 + 10 ^ 60 + 10 ^ 60 ≤ 10 ^ 100 * (1 / 10 ^ 5) := by norm_num
  exact hT.trans ((add_le_add (hU.trans (add_le_add hP hQ)) hR).trans (hV.trans hS))

/-- The time of flight as a function of `phi` has a Lipschitz constant. -/
theorem hyp_lip {mu a n m : ℝ} (hmu : 1 / 10 ^ 10 ≤ mu) (hn : n ≤ 10 ^ 13) (ha : |a| * Real.sqrt 2 ≤ n) (hm : m ≤ n)
    (hroom : 0 < a → m + a * Real.sqrt 2 * Real.cosh Real.pi ≤ n) (hm0 : 1 / 10 ^ 20 ≤ m) {p q : ℝ}
    (hp : 1 / 10 ^ 4 ≤ p) (hpq : p ≤ q) (hq : q ≤ 4 * Real.pi ^ 2) :
    |hypTime mu a n (Real.sqrt q / 2) - hypTime mu a n (Real.sqrt p / 2)| ≤ 10 ^ 102 * (q - p) := by
  have hpi := Real.pi_gt_three
  have hp0 : 1 / 10 ^ 2 ≤ Real.sqrt p := Real.le_sqrt_of_sq_le (by norm_num at hp ⊢; linarith)
  have hq0 : Real.sqrt q ≤ 2 * Real.pi := by
    rw [Real.sqrt_le_left (by linarith)]
    linarith
  have hpq' : Real.sqrt p ≤ Real.sqrt q := Real.sqrt_le_sqrt hpq
  have hD : ∀ u ∈ Set.Icc (Real.sqrt p / 2) (Real.sqrt q / 2), ∃ D, HasDerivAt (hypTime mu a n) D u ∧ |D| ≤ 10 ^ 100 :=
    fun u hu => hyp_deriv hmu hn ha hm hroom hm0 (by have := hu.1; norm_num at hp0; linarith) (by have := hu.2; linarith)
  choose! D hD1 hD2 using hD
  have key := (convex_Icc (Real.sqrt p / 2) (Real.sqrt q / 2)).norm_image_sub_le_of_norm_hasDerivWithin_le
    (f := hypTime mu a n) (f' := D) (C := 10 ^ 100) (fun u hu => (hD1 u hu).hasDerivWithinAt)
    (fun u hu => by rw [Real.norm_eq_abs]; exact hD2 u hu)
    (Set.left_mem_Icc.2 (by linarith)) (Set.right_mem_Icc.2 (by linarith))
  rw [Real.norm_eq_abs, Real.norm_eq_abs, abs_of_nonneg (show 0 ≤ Real.sqrt q / 2 - Real.sqrt p / 2 by linarith)] at key
  refine key.trans ?_
  have e : (Real.sqrt q - Real.sqrt p) * (Real.sqrt q + Real.sqrt p) = q - p := by
    have e1 := Real.mul_self_sqrt (show 0 ≤ p by norm_num at hp; linarith)
    have e2 := Real.mul_self_sqrt (show 0 ≤ q by norm_num at hp; linarith)
    linarith
  have h1 : (Real.sqrt q - Real.sqrt p) * (1 / 50) ≤ q - p := by
    rw [← e]
    refine mul_le_mul_of_nonneg_left ?_ (by linarith)
    norm_num at hp0
    linarith
  have h2 : Real.sqrt q / 2 - Real.sqrt p / 2 ≤ 100 * (q - p) := by linarith
  calc (10 : ℝ) ^ 100 * (Real.sqrt q / 2 - Real.sqrt p / 2) ≤ 10 ^ 100 * (100 * (q - p)) :=
        mul_le_mul_of_nonneg_left h2 (by positivity)
    _ = 10 ^ 102 * (q - p) := by ring

/-- A bound of the times of the rounds close to the parabola, slightly less than the time of flight on the parabola,
which is the one with `Y = n - a √2`. -/
noncomputable def parabolaTime (mu a n : ℝ) : ℝ :=
  let Y := n - a * Real.sqrt 2 - |a| * Real.sqrt 2 / 60000
  (Real.sqrt 2 / 3 * Real.sqrt Y ^ 3 + a * Real.sqrt Y) / Real.sqrt mu

theorem near_long {mu a n1 n2 : ℝ} (ha : |a| * Real.sqrt 2 ≤ n1 + n2)
    (hroom : 0 < a → a * Real.sqrt 2 * Real.cosh Real.pi ≤ n1 + n2) {phi : ℝ} (h0 : -(1 / 10 ^ 4) ≤ phi) (h1 : phi ≤ 0) :
    parabolaTime mu a (n1 + n2) ≤ roundTime mu a n1 n2 phi := by
  have h2 : 0 < Real.sqrt 2 := by positivity
  have h22 : Real.sqrt 2 ^ 2 = 2 := Real.sq_sqrt (by norm_num)
  have hst : stumpff phi = (1 / 2, 1 / 6) := stumpff_small (by rw [abs_of_nonpos h1]; exact not_lt.2 (by linarith))
  have h1' : -(phi / 6) ≤ 1 / 60000 := by norm_num at h0 ⊢; linarith
  have hq : 0 ≤ |a| * Real.sqrt 2 := by positivity
  have hY : n1 + n2 - a * Real.sqrt 2 - |a| * Real.sqrt 2 / 60000 ≤ n1 + n2 - a * Real.sqrt 2 * (1 - phi / 6) := by
    have e1 : a * Real.sqrt 2 * -(phi / 6) ≤ |a| * Real.sqrt 2 * -(phi / 6) := by
      have : 0 ≤ -(phi / 6) := by linarith
      gcongr; exact le_abs_self a
    have e2 := mul_le_mul_of_nonneg_left h1' hq
    linarith
  have hY0 : 0 ≤ n1 + n2 - a * Real.sqrt 2 - |a| * Real.sqrt 2 / 60000 := by
    rcases lt_or_ge 0 a with hp | hp
    · have := hroom hp
      rw [abs_of_pos hp]
      have h3 := cosh_ge Real.pi Real.pi_pos.le
      have h4 : 2 ≤ Real.cosh Real.pi := by nlinarith [Real.pi_gt_three]
      have h5 := mul_le_mul_of_nonneg_left h4 (show 0 ≤ a * Real.sqrt 2 by positivity)
      have h6 : 0 < a * Real.sqrt 2 := by positivity
      linarith
    · rw [abs_of_nonpos hp] at hq ha ⊢
      linarith
  rw [roundTime, hst, yOf_par, timeOf_par _ _ (hY0.trans hY), parabolaTime]
  refine div_le_div_of_nonneg_right ?_ (Real.sqrt_nonneg _)
  have hw := Real.sqrt_le_sqrt hY
  have hW2 := Real.sq_sqrt hY0
  have hW0 := Real.sqrt_nonneg (n1 + n2 - a * Real.sqrt 2 - |a| * Real.sqrt 2 / 60000)
  have hneg : a < 0 → -a * Real.sqrt 2 ≤ Real.sqrt (n1 + n2 - a * Real.sqrt 2 - |a| * Real.sqrt 2 / 60000) ^ 2 := by
    intro hn
    rw [hW2]
    rw [abs_of_neg hn] at ha ⊢
    have := mul_nonneg (show 0 ≤ -a by linarith) h2.le
    linarith
  generalize Real.sqrt (n1 + n2 - a * Real.sqrt 2 - |a| * Real.sqrt 2 / 60000) = W at *
  generalize Real.sqrt (n1 + n2 - a * Real.sqrt 2 * (1 - phi / 6)) = w at *
  have hw3 : W ^ 3 ≤ w ^ 3 := pow_le_pow_left₀ hW0 hw 3
  rcases le_or_gt 0 a with hp | hp
  · have e1 := mul_le_mul_of_nonneg_left hw3 (show 0 ≤ Real.sqrt 2 / 3 by positivity)
    have e2 := mul_le_mul_of_nonneg_left hw hp
    linarith
  · have h3 := hneg hp
    have h4 : 3 * W ^ 2 ≤ w ^ 2 + w * W + W ^ 2 := by nlinarith
    have h5 : -a ≤ Real.sqrt 2 / 3 * (w ^ 2 + w * W + W ^ 2) := by
      have e1 := mul_le_mul_of_nonneg_left (h4.trans' (mul_le_mul_of_nonneg_left h3 (by norm_num : (0 : ℝ) ≤ 3)))
        (show 0 ≤ Real.sqrt 2 / 3 by positivity)
      have e2 : Real.sqrt 2 / 3 * (3 * (-a * Real.sqrt 2)) = 2 * -a := by linear_combination (-a) * h22
      rw [e2] at e1
      linarith
    have h6 := mul_le_mul_of_nonneg_left h5 (show 0 ≤ w - W by linarith)
    nlinarith

theorem hyp_bisects {mu a n1 n2 m tof : ℝ} (hmu : 1 / 10 ^ 10 ≤ mu) (hn : n1 + n2 ≤ 10 ^ 13)
    (ha : |a| * Real.sqrt 2 ≤ n1 + n2) (hm : m ≤ n1 + n2)
    (hroom : 0 < a → m + a * Real.sqrt 2 * Real.cosh Real.pi ≤ n1 + n2) (hm0 : 1 / 10 ^ 20 ≤ m)
    (hlow : hypTime mu a (n1 + n2) Real.pi ≤ tof - 1 / 10 ^ 4)
    (hedge : tof + 1 / 10 ^ 4 ≤ hypTime mu a (n1 + n2) (1 / 200)) (hpar : tof + 1 / 10 ^ 4 < parabolaTime mu a (n1 + n2)) :
    HypBisects mu a n1 n2 tof (10 ^ 102) (fun phi => hypTime mu a (n1 + n2) (Real.sqrt (-phi) / 2)) := by
  have hmp : 0 < m := lt_of_lt_of_le (by norm_num) hm0
  have hp4 : (0 : ℝ) < 1 / 10 ^ 4 := by norm_num
  have hpi := Real.pi_gt_three
  have hroom' : 0 < a → a * Real.sqrt 2 * Real.cosh Real.pi ≤ n1 + n2 := fun h => by linarith [hroom h]
  -- the rounds with the exact functions
  have hround : ∀ phi, -(4 * Real.pi ^ 2) < phi → phi < -(1 / 10 ^ 4) →
      roundTime mu a n1 n2 phi = hypTime mu a (n1 + n2) (Real.sqrt (-phi) / 2) ∧
      0 ≤ yOf a n1 n2 phi (stumpff phi).1 (stumpff phi).2 := by
    intro phi h1 h2
    have hpos : 0 < -phi := by linarith
    obtain ⟨u, hu, he, hue⟩ : ∃ u : ℝ, 0 < u ∧ phi = -(4 * u ^ 2) ∧ Real.sqrt (-phi) / 2 = u :=
      ⟨Real.sqrt (-phi) / 2, by have := Real.sqrt_pos.2 hpos; positivity, by
        rw [div_pow, Real.sq_sqrt hpos.le]; ring, rfl⟩
    rw [hue]
    have hup : u ≤ Real.pi := by
      refine le_of_lt (lt_of_pow_lt_pow_left₀ 2 Real.pi_pos.le ?_)
      rw [he] at h1
      linarith
    rw [he] at h2 ⊢
    have hex := stumpff_exact (φ := -(4 * u ^ 2)) (Or.inl (by rw [abs_neg, abs_of_pos (by positivity)]; linarith))
    obtain ⟨e2, e3⟩ := hex.unique (stumpff_half_angle hu)
    have hy := (hyp_y ha hm hroom (Real.cosh_pos u).le (cosh_le_cosh_pi hu.le hup)).1
    constructor
    · rw [roundTime, e2, e3, yOf_hyp _ _ _ hu, timeOf_hyp _ _ (by linarith) hu]
      rfl
    · rw [e2, e3, yOf_hyp _ _ _ hu]; linarith
  refine ⟨?_, fun phi h1 h2 => lt_of_lt_of_le hpar (near_long ha hroom' h1 h2), fun phi h1 h2 => (hround phi h1 h2).1, ?_, ?_, ?_,
    by positivity, ?_⟩
  · intro phi h1 h2
    by_cases h3 : phi < -(1 / 10 ^ 4)
    · exact (hround phi h1 h3).2
    · have hst : stumpff phi = (1 / 2, 1 / 6) := stumpff_small (by rw [abs_of_nonpos h2]; exact not_lt.2 (by linarith))
      rw [hst, yOf_par]
      have h5 : 1 - phi / 6 ≤ Real.cosh Real.pi := by
        have := cosh_ge Real.pi Real.pi_pos.le
        norm_num at h3
        nlinarith
      have := (hyp_y ha hm hroom (show 0 ≤ 1 - phi / 6 by linarith) h5).1
      linarith
  · intro p q h1 h2 h3
    have := hyp_lip hmu hn ha hm hroom hm0 (p := -q) (q := -p) (by linarith) (by linarith) (by linarith)
    rw [abs_sub_comm] at this
    have e : -p - -q = q - p := by ring
    rw [e] at this
    exact this
  · show hypTime mu a (n1 + n2) (Real.sqrt (- -(4 * Real.pi ^ 2)) / 2) ≤ _
    rw [neg_neg, show 4 * Real.pi ^ 2 = (2 * Real.pi) ^ 2 by ring, Real.sqrt_sq (by positivity),
      show 2 * Real.pi / 2 = Real.pi by ring]
    exact hlow
  · show _ ≤ hypTime mu a (n1 + n2) (Real.sqrt (- -(1 / 10 ^ 4)) / 2)
    rw [neg_neg, show (1 : ℝ) / 10 ^ 4 = (1 / 100) ^ 2 by norm_num, Real.sqrt_sq (by norm_num)]
    norm_num at hedge ⊢
    exact hedge
  · have hpi4 := Real.pi_lt_four
    have h1 : 4 * Real.pi ^ 2 ≤ 64 := by nlinarith
    have h2 : (2 : ℝ) ^ 400 ≤ 2 ^ 999 := pow_le_pow_right₀ (by norm_num) (by norm_num)
    have h3 : 4 * Real.pi ^ 2 / 2 ^ 999 ≤ 64 / 2 ^ 400 := div_le_div₀ (by norm_num) h1 (by positivity) h2
    have h4 : (10 : ℝ) ^ 102 * (64 / 2 ^ 400) < 1 / 10 ^ 4 := by
      have e3 : (2 : ℝ) ^ 400 = 2 ^ 200 * 2 ^ 200 := by rw [← pow_add]
      rw [e3]
      norm_num
    exact lt_of_le_of_lt (mul_le_mul_of_nonneg_left h3 (by positivity)) h4

/-- **C231.** For positions which are not aligned with the center and a time between those of the hyperbola with
`phi = -4π²` and of the one with `phi = -1/10000`, also below the bound for the parabola, `gooding` returns velocities
whose flight lasts the time asked for to within 0.1 ms, with more than half a turn, and with less than half a turn if
`y` stays positive down to `phi = -4π²`. Missing: less than half a turn when `y` becomes negative, and the neighborhood
of the parabola, where transfers are missed (`gooding_window`); faster ones are missed too (`gooding_fast_false`). -/
theorem gooding_hyperbolic_partial {inp : Input} {kind : Kind} {mu dm : ℝ} (hm : inp.initial.frame.mu = some mu)
    (hmu : 1 / 10 ^ 10 ≤ mu) (hc : inp.initial.pos ⨯₃ inp.final.pos ≠ 0)
    (hn : nrm inp.initial.pos + nrm inp.final.pos ≤ 10 ^ 13) (hn0 : 1 / 10 ^ 20 ≤ nrm inp.initial.pos + nrm inp.final.pos)
    (hk : kind.direction inp.final.pos inp.initial.pos = .ok dm)
    (hclose : ¬ tooClose (goodA dm inp.initial.pos inp.final.pos) inp.initial.pos inp.final.pos)
    (hroom : 0 < dm → 1 / 10 ^ 20 + goodA dm inp.initial.pos inp.final.pos * Real.sqrt 2 * Real.cosh Real.pi ≤
      nrm inp.initial.pos + nrm inp.final.pos)
    (h0 : 1 / 10 ^ 4 < inp.tof)
    (hlow : hypTime mu (goodA dm inp.initial.pos inp.final.pos) (nrm inp.initial.pos + nrm inp.final.pos) Real.pi ≤
      inp.tof - 1 / 10 ^ 4)
    (hedge : inp.tof + 1 / 10 ^ 4 ≤
      hypTime mu (goodA dm inp.initial.pos inp.final.pos) (nrm inp.initial.pos + nrm inp.final.pos) (1 / 200))
    (hpar : inp.tof + 1 / 10 ^ 4 <
      parabolaTime mu (goodA dm inp.initial.pos inp.final.pos) (nrm inp.initial.pos + nrm inp.final.pos)) :
    ∃ sol v1 v2 T, gooding inp kind = .ok sol ∧ sol.vInit = some v1 ∧ sol.vFinal = some v2 ∧
      Reaches mu inp.initial.pos v1 inp.final.pos v2 T ∧ |T - inp.tof| ≤ 1 / 10 ^ 4 := by
  have hmup : 0 < mu := lt_of_lt_of_le (by norm_num) hmu
  obtain ⟨n1, n2⟩ := nrm_ne_zero_of_cross hc
  have hdm := direction_cases hk
  have hdm2 : dm ^ 2 = 1 := by rcases hdm with h | h <;> rw [h] <;> norm_num
  have g := geometry_of hdm2 n1 n2
  obtain ⟨-, a1, -⟩ := goodA_sign hc hdm
  have hN : 0 < nrm inp.initial.pos + nrm inp.final.pos := add_pos n1 n2
  have ha : |goodA dm inp.initial.pos inp.final.pos| * Real.sqrt 2 ≤ nrm inp.initial.pos + nrm inp.final.pos := by
    refine le_of_sq_le_sq ?_ hN.le
    have := g.sqrt_two
    rw [mul_pow, sq_abs, Real.sq_sqrt (by norm_num)]
    linarith
  have htof : 1 / 10 ^ 4 < |inp.tof| := lt_of_lt_of_le h0 (le_abs_self _)
  have hroom' : 0 < goodA dm inp.initial.pos inp.final.pos →
      1 / 10 ^ 20 + goodA dm inp.initial.pos inp.final.pos * Real.sqrt 2 * Real.cosh Real.pi ≤
      nrm inp.initial.pos + nrm inp.final.pos := fun hp => by
    refine hroom ?_
    rcases hdm with h | h
    · rw [h]; exact one_pos
    · rw [h] at a1 hp
      linarith
  obtain ⟨s, hl, hx⟩ := (hyp_bisects hmu hn ha hn0 hroom' le_rfl hlow hedge hpar).loop htof
  have hmu' : inp.mu = .ok mu := by rw [Input.mu, hm]
  have hg : ∃ sol, gooding inp kind = .ok sol := by
    simp only [gooding, hmu', hk, Res.bind]
    rw [if_neg hclose, hl]
    exact ⟨_, rfl⟩
  obtain ⟨sol, hsol⟩ := hg
  obtain ⟨v1, v2, T, e1, e2, e3, e4⟩ := gooding_solves_partial hm hmup hc htof hk hl hx hsol
  exact ⟨sol, v1, v2, T, hsol, e1, e2, e4, e3⟩

theorem hyp_ratio_ge {u : ℝ} (hu : 0 < u) : 4 / (3 * Real.cosh u) ≤ (Real.sinh (2 * u) - 2 * u) / Real.sinh u ^ 3 := by
  have hs : 0 < Real.sinh u := Real.sinh_pos_iff.2 hu
  have hc : 0 < Real.cosh u := Real.cosh_pos u
  have h1 := mul_cosh_le hu.le
  have h2 := Real.cosh_sq u
  have h3 : u ≤ Real.sinh u := Real.self_le_sinh_iff.2 hu.le
  have h4 : u ^ 2 ≤ Real.sinh u ^ 2 := pow_le_pow_left₀ hu.le h3 2
  rw [Real.sinh_two_mul, div_le_div_iff₀ (by positivity) (by positivity)]
  have h5 : Real.sinh u * u ^ 2 ≤ Real.sinh u * Real.sinh u ^ 2 := mul_le_mul_of_nonneg_left h4 hs.le
  have h6 : Real.sinh u * Real.cosh u ^ 2 = Real.sinh u * (Real.sinh u ^ 2 + 1) := by rw [h2]
  nlinarith

/-- A quarter of a turn at the distance 1 the other way round, with the gravitational parameter 1, in one second. -/
example : ∃ sol v1 v2 T, gooding (quarter 1000000000 1) .longWay = .ok sol ∧ sol.vInit = some v1 ∧
    sol.vFinal = some v2 ∧ Reaches 1 ![1, 0, 0] v1 ![0, 1, 0] v2 T ∧ |T - (quarter 1000000000 1).tof| ≤ 1 / 10 ^ 4 := by
  have htof : (quarter 1000000000 1).tof = 1 := by
    show (((1000000000 : Int) - 0 : Int) : ℝ) / 10 ^ 9 = 1
    norm_num
  have ha : goodA (-1) (quarter 1000000000 1).initial.pos (quarter 1000000000 1).final.pos = -1 := by
    have := quarter_a
    show goodA (-1) (![1, 0, 0] : V3) ![0, 1, 0] = -1
    simp only [goodA] at this ⊢
    linarith
  have hn1 : nrm (quarter 1000000000 1).initial.pos = 1 := nrm_e0
  have hn2 : nrm (quarter 1000000000 1).final.pos = 1 := nrm_e1
  have hq2 : Real.sqrt 2 ^ 2 = 2 := Real.sq_sqrt (by norm_num)
  have h2 : 14142 / 10000 ≤ Real.sqrt 2 := by rw [Real.le_sqrt (by norm_num) (by norm_num)]; norm_num
  have h2' : Real.sqrt 2 ≤ 14143 / 10000 := by rw [Real.sqrt_le_left (by norm_num)]; norm_num
  refine gooding_hyperbolic_partial (kind := .longWay) (dm := -1) rfl (by norm_num) quarter_cross ?_ ?_ rfl ?_ ?_ ?_ ?_ ?_ ?_
  · rw [hn1, hn2]; norm_num
  · rw [hn1, hn2]; norm_num
  · rw [ha]
    have := quarter_close
    simp only [tooClose, abs_neg] at this ⊢
    exact this
  · intro h; norm_num at h
  · rw [htof]; norm_num
  · rw [ha, hn1, hn2, htof, hypTime, Real.sqrt_one, div_one]
    have h10 : 10 ≤ Real.cosh Real.pi := by
      have e1 := Real.exp_one_gt_d9
      have e2 : Real.exp 1 ^ 3 ≤ Real.exp Real.pi := by
        rw [← Real.exp_nat_mul]
        exact Real.exp_le_exp.2 (by push_cast; linarith [Real.pi_gt_three])
      have e3 : (2718 / 1000 : ℝ) ^ 3 ≤ Real.exp 1 ^ 3 := pow_le_pow_left₀ (by norm_num) (by linarith) 3
      rw [Real.cosh_eq]
      have e4 := Real.exp_pos (-Real.pi)
      have e5 : (20 : ℝ) ≤ (2718 / 1000) ^ 3 := by norm_num
      linarith
    have h14 := cosh_pi_le
    have hf := hyp_factor_le (n := 1 + 1) (b := 1) Real.pi_pos (by norm_num) (by norm_num)
    have hY : Real.sqrt (1 + 1 - -1 * Real.sqrt 2 * Real.cosh Real.pi) ≤ 467 / 100 := by
      rw [Real.sqrt_le_left (by norm_num)]
      nlinarith
    have hY0 := Real.sqrt_nonneg (1 + 1 - -1 * Real.sqrt 2 * Real.cosh Real.pi)
    have hYs : Real.sqrt (1 + 1 - -1 * Real.sqrt 2 * Real.cosh Real.pi) ^ 2 = 1 + 1 + 1 * Real.sqrt 2 * Real.cosh Real.pi := by
      rw [Real.sq_sqrt (by nlinarith)]; ring
    rw [← hYs] at hf
    have hr : Real.cosh Real.pi / Real.sinh Real.pi ^ 2 ≤ 10 / 99 := by
      have hcs := Real.cosh_sq Real.pi
      rw [div_le_div_iff₀ (by nlinarith) (by norm_num)]
      nlinarith
    generalize Real.sqrt (1 + 1 - -1 * Real.sqrt 2 * Real.cosh Real.pi) = W at *
    generalize (Real.sinh (2 * Real.pi) - 2 * Real.pi) / Real.sinh Real.pi ^ 3 = G at *
    have hf' : Real.sqrt 2 / 4 * W ^ 2 * G - 1 ≤ 20 / 99 := by linarith
    have := mul_le_mul_of_nonneg_right hf' hY0
    have e : Real.sqrt 2 / 4 * W ^ 3 * G + -1 * W = (Real.sqrt 2 / 4 * W ^ 2 * G - 1) * W := by ring
    rw [e]
    linarith
  · rw [ha, hn1, hn2, htof, hypTime, Real.sqrt_one, div_one]
    have hc1 := Real.one_le_cosh (1 / 200)
    have hc : Real.cosh (1 / 200) ≤ 101 / 100 := by
      have e1 := mul_cosh_le (x := 1 / 200) (by norm_num)
      have e2 := Real.cosh_sq (1 / 200)
      have e3 : 0 ≤ Real.sinh (1 / 200) := Real.sinh_nonneg_iff.2 (by norm_num)
      have e4 := Real.cosh_le_exp_half_sq (1 / 200)
      have e5 := Real.exp_bound_div_one_sub_of_interval (x := (1 / 200) ^ 2 / 2) (by norm_num) (by norm_num)
      norm_num at e4 e5 ⊢
      linarith
    have hG := hyp_ratio_ge (u := 1 / 200) (by norm_num)
    have hG' : 132 / 100 ≤ (Real.sinh (2 * (1 / 200)) - 2 * (1 / 200)) / Real.sinh (1 / 200) ^ 3 := by
      refine le_trans ?_ hG
      rw [le_div_iff₀ (by positivity)]
      linarith
    have hY : 184 / 100 ≤ Real.sqrt (1 + 1 - -1 * Real.sqrt 2 * Real.cosh (1 / 200)) := by
      rw [Real.le_sqrt (by norm_num) (by nlinarith)]
      nlinarith
    generalize Real.sqrt (1 + 1 - -1 * Real.sqrt 2 * Real.cosh (1 / 200)) = W at *
    generalize (Real.sinh (2 * (1 / 200)) - 2 * (1 / 200)) / Real.sinh (1 / 200) ^ 3 = G at *
    have e1 : (184 / 100 : ℝ) ^ 2 ≤ W ^ 2 := pow_le_pow_left₀ (by norm_num) hY 2
    have e2 : (14142 / 10000 : ℝ) / 4 * (184 / 100) ^ 2 * (132 / 100) ≤ Real.sqrt 2 / 4 * W ^ 2 * G := by gcongr
    have e : Real.sqrt 2 / 4 * W ^ 3 * G + -1 * W = (Real.sqrt 2 / 4 * W ^ 2 * G - 1) * W := by ring
    rw [e]
    norm_num at e2 ⊢
    nlinarith
  · rw [ha, hn1, hn2, htof, parabolaTime, Real.sqrt_one, div_one]
    have hY : 184 / 100 ≤ Real.sqrt (1 + 1 - -1 * Real.sqrt 2 - |-1| * Real.sqrt 2 / 60000) := by
      rw [abs_neg, abs_one, Real.le_sqrt (by norm_num) (by linarith)]
      norm_num
      linarith
    show 1 + 1 / 10 ^ 4 < Real.sqrt 2 / 3 * Real.sqrt (1 + 1 - -1 * Real.sqrt 2 - |-1| * Real.sqrt 2 / 60000) ^ 3 +
      -1 * Real.sqrt (1 + 1 - -1 * Real.sqrt 2 - |-1| * Real.sqrt 2 / 60000)
    generalize Real.sqrt (1 + 1 - -1 * Real.sqrt 2 - |-1| * Real.sqrt 2 / 60000) = W at *
    have e1 : (184 / 100 : ℝ) ^ 2 ≤ W ^ 2 := pow_le_pow_left₀ (by norm_num) hY 2
    have e2 : (14142 / 10000 : ℝ) / 3 * (184 / 100) ^ 2 ≤ Real.sqrt 2 / 3 * W ^ 2 := by gcongr
    have e : Real.sqrt 2 / 3 * W ^ 3 + -1 * W = (Real.sqrt 2 / 3 * W ^ 2 - 1) * W := by ring
    rw [e]
    norm_num at e2 ⊢
    nlinarith

end Verif.Lambert
