import Mathlib.Analysis.Calculus.MeanValue
import Verif.Lambert.Parabolic
/-!
The solver of Gooding finds every elliptic transfer of less than a turn, unless it is close to the parabola.
-/
namespace Verif.Lambert
open Matrix
open Verif.MathU (V3 nrm atan2 dot3 nrm_sq nrm_nonneg ext3 cross0 cross1 cross2)

/-- The time that a round compares with the one asked for, when `y` is not negative. -/
noncomputable def roundTime (mu a n1 n2 phi : ℝ) : ℝ :=
  timeOf mu a (stumpff phi).1 (stumpff phi).2 (yOf a n1 n2 phi (stumpff phi).1 (stumpff phi).2)

/-! ### Bisection -/

/-- What is needed of the times of the rounds: up to `al` they are too short, from `be` on too long, and between they
are those of a function with the Lipschitz constant `L`. -/
structure Bisects (mu a n1 n2 tof al be L : ℝ) (Te : ℝ → ℝ) : Prop where
  al0 : 0 ≤ al
  wide : al + 4 * Real.pi ^ 2 / 2 ^ 999 < be
  top : be + 4 * Real.pi ^ 2 / 2 ^ 999 < 4 * Real.pi ^ 2
  y : ∀ phi, 0 ≤ phi → phi < 4 * Real.pi ^ 2 → 0 ≤ yOf a n1 n2 phi (stumpff phi).1 (stumpff phi).2
  small : ∀ phi, 0 ≤ phi → phi ≤ al → roundTime mu a n1 n2 phi < tof - 1 / 10 ^ 4
  exact : ∀ phi, al < phi → phi < 4 * Real.pi ^ 2 → roundTime mu a n1 n2 phi = Te phi ∧
    IsStumpff phi (stumpff phi).1 (stumpff phi).2
  lip : ∀ p q, al ≤ p → p ≤ q → q ≤ be → |Te q - Te p| ≤ L * (q - p)
  start : Te al ≤ tof - 1 / 10 ^ 4
  stop : ∀ phi, be ≤ phi → phi < 4 * Real.pi ^ 2 → tof + 1 / 10 ^ 4 ≤ Te phi
  Lpos : 0 ≤ L
  Lle : L * (4 * Real.pi ^ 2 / 2 ^ 999) < 1 / 10 ^ 4

/-- What holds before a round, after `k` halvings. -/
structure Bracket (tof al be : ℝ) (Te : ℝ → ℝ) (k : Nat) (s : Iter) : Prop where
  lower0 : 0 ≤ s.lower
  lower : s.lower ≤ al ∨ (al < s.lower ∧ s.lower < be ∧ Te s.lower < tof)
  upper : s.upper = 4 * Real.pi ^ 2 ∨ (al < s.upper ∧ s.upper < 4 * Real.pi ^ 2 ∧ tof ≤ Te s.upper)
  width : s.upper - s.lower = 4 * Real.pi ^ 2 / 2 ^ k
  phi : s.phi = (s.upper + s.lower) / 2
  c2 : s.c2 = (stumpff s.phi).1
  c3 : s.c3 = (stumpff s.phi).2
  seen : |s.cur - tof| ≤ 1 / 10 ^ 4 → LastExact s

theorem Bracket.range {tof al be : ℝ} {Te : ℝ → ℝ} {k : Nat} {s : Iter} (b : Bracket tof al be Te k s) :
    0 < s.phi ∧ s.phi < 4 * Real.pi ^ 2 ∧ s.lower < s.phi ∧ s.phi < s.upper := by
  have hpi : 0 < Real.pi ^ 2 := by positivity
  have hw : 0 < 4 * Real.pi ^ 2 / 2 ^ k := by positivity
  have h1 := b.width
  have h2 := b.lower0
  have h3 : s.upper ≤ 4 * Real.pi ^ 2 := by
    rcases b.upper with h | h
    · exact h.le
    · exact h.2.1.le
  rw [b.phi]
  refine ⟨?_, ?_, ?_, ?_⟩ <;> linarith

/-- After the last halving the time is close enough. -/
theorem Bracket.close {mu a n1 n2 tof al be L : ℝ} {Te : ℝ → ℝ} (h : Bisects mu a n1 n2 tof al be L Te) {s : Iter}
    (b : Bracket tof al be Te 999 s) : al < s.phi ∧ |Te s.phi - tof| ≤ 1 / 10 ^ 4 := by
  obtain ⟨p1, p2, p3, p4⟩ := b.range
  have hw := b.width
  have hL := h.Lle
  have hL0 := h.Lpos
  have hwide := h.wide
  have htop := h.top
  generalize 4 * Real.pi ^ 2 / 2 ^ 999 = W at *
  -- the lower end
  have hl : al < s.lower ∧ s.lower < be ∧ Te s.lower < tof := by
    rcases b.lower with hlo | hlo
    · exfalso
      rcases b.upper with hu | ⟨u1, u2, u3⟩
      · linarith
      · have := h.lip al s.upper le_rfl u1.le (by linarith)
        have h2 := (abs_le.1 this).2
        have h3 : L * (s.upper - al) ≤ L * W := mul_le_mul_of_nonneg_left (by linarith) hL0
        have := h.start
        linarith
    · exact hlo
  -- the upper end
  have hu : s.upper < be ∧ tof ≤ Te s.upper := by
    rcases b.upper with hu | ⟨u1, u2, u3⟩
    · exfalso; linarith [hl.2.1]
    · refine ⟨?_, u3⟩
      by_contra hge
      push Not at hge
      have := h.lip s.lower be hl.1.le hl.2.1.le le_rfl
      have h2 := (abs_le.1 this).2
      have h3 : L * (be - s.lower) ≤ L * W := mul_le_mul_of_nonneg_left (by linarith) hL0
      have := h.stop be le_rfl (by linarith)
      linarith [hl.2.2]
  refine ⟨by linarith [hl.1], ?_⟩
  have k1 := (abs_le.1 (h.lip s.lower s.phi hl.1.le p3.le (by linarith [hu.1]))).2
  have k2 := (abs_le.1 (h.lip s.phi s.upper (by linarith [hl.1]) p4.le hu.1.le)).2
  have k3 : L * (s.phi - s.lower) ≤ L * W := mul_le_mul_of_nonneg_left (by linarith) hL0
  have k4 : L * (s.upper - s.phi) ≤ L * W := mul_le_mul_of_nonneg_left (by linarith) hL0
  rw [abs_le]
  constructor
  · linarith [hu.2]
  · linarith [hl.2.2]

/-- A round keeps the bracket. -/
theorem Bracket.next {mu a n1 n2 tof al be L : ℝ} {Te : ℝ → ℝ} (h : Bisects mu a n1 n2 tof al be L Te) {k : Nat} {s : Iter}
    (b : Bracket tof al be Te k s) : ∃ s', goodStep mu a n1 n2 tof s = .ok s' ∧ s'.cur = roundTime mu a n1 n2 s.phi ∧
      Bracket tof al be Te (k + 1) s' := by
  obtain ⟨p1, p2, p3, p4⟩ := b.range
  have y0 := h.y s.phi p1.le p2
  rw [← b.c2, ← b.c3] at y0
  obtain ⟨s', hs, -, cur, hl, hu, p, c2, c3, seen⟩ := goodStep_nonneg (mu := mu) (tof := tof) y0
  have cur' : s'.cur = roundTime mu a n1 n2 s.phi := by rw [cur, b.c2, b.c3]; rfl
  have hw := b.width
  have hphi := b.phi
  have hpow : 4 * Real.pi ^ 2 / 2 ^ (k + 1) = 4 * Real.pi ^ 2 / 2 ^ k / 2 := by rw [div_div, ← pow_succ]
  have hseen : |s'.cur - tof| ≤ 1 / 10 ^ 4 → LastExact s' := by
    intro hc
    by_cases hal : s.phi ≤ al
    · have := h.small s.phi p1.le hal
      rw [← cur'] at this
      have := (abs_le.1 hc).1
      linarith
    · have := (h.exact s.phi (not_le.1 hal) p2).2
      rw [LastExact, seen, b.c2, b.c3]
      exact this
  refine ⟨s', hs, cur', ?_⟩
  by_cases hc : s'.cur < tof
  · obtain ⟨l1, l2⟩ := hl hc
    refine ⟨by rw [l1]; exact p1.le, ?_, by rw [l2]; exact b.upper, by rw [l1, l2, hpow]; linarith, p, c2, c3, hseen⟩
    rw [l1]
    by_cases hal : s.phi ≤ al
    · exact Or.inl hal
    · have hT := (h.exact s.phi (not_le.1 hal) p2).1
      have hlt : Te s.phi < tof := by rw [← hT, ← cur']; exact hc
      refine Or.inr ⟨not_le.1 hal, ?_, hlt⟩
      by_contra hge
      have := h.stop s.phi (not_lt.1 hge) p2
      linarith
  · obtain ⟨l1, l2⟩ := hu hc
    refine ⟨by rw [l1]; exact b.lower0, by rw [l1]; exact b.lower, ?_, by rw [l1, l2, hpow]; linarith, p, c2, c3, hseen⟩
    rw [l2]
    have hal : al < s.phi := by
      by_contra hle
      have := h.small s.phi p1.le (not_lt.1 hle)
      rw [← cur'] at this
      exact hc (by linarith)
    refine Or.inr ⟨hal, p2, ?_⟩
    rw [← (h.exact s.phi hal p2).1, ← cur']
    exact not_lt.1 hc

theorem bracket_loop {mu a n1 n2 tof al be L : ℝ} {Te : ℝ → ℝ} (h : Bisects mu a n1 n2 tof al be L Te) :
    ∀ (j k : Nat) (s : Iter), k + (j + 1) = 1000 → Bracket tof al be Te k s →
      ∃ s', goodLoop mu a n1 n2 tof (j + 1) s = .ok s' ∧ LastExact s'
  | j, k, s, hk, b => by
    by_cases hfar : |s.cur - tof| > 1 / 10 ^ 4
    · obtain ⟨s', hs, cur, b'⟩ := b.next h
      rw [goodLoop, if_pos hfar]
      show ∃ t, (goodStep mu a n1 n2 tof s).bind (goodLoop mu a n1 n2 tof j) = .ok t ∧ LastExact t
      rw [hs]
      show ∃ t, goodLoop mu a n1 n2 tof j s' = .ok t ∧ LastExact t
      match j, hk with
      | 0, hk =>
        obtain rfl : k = 999 := by omega
        obtain ⟨c1, c2⟩ := b.close h
        have hc : |s'.cur - tof| ≤ 1 / 10 ^ 4 := by
          rw [cur, (h.exact s.phi c1 b.range.2.1).1]; exact c2
        refine ⟨s', ?_, b'.seen hc⟩
        rw [goodLoop.eq_def]
        exact if_neg (not_lt.2 hc)
      | j + 1, hk => exact bracket_loop h j (k + 1) s' (by omega) b'
    · refine ⟨s, ?_, b.seen (not_lt.1 hfar)⟩
      rw [goodLoop.eq_def]
      exact if_neg hfar

/-- The loop ends with the exact functions. -/
theorem Bisects.loop {mu a n1 n2 tof al be L : ℝ} {Te : ℝ → ℝ} (h : Bisects mu a n1 n2 tof al be L Te)
    (ht : 1 / 10 ^ 4 < |tof|) : ∃ s, goodLoop mu a n1 n2 tof 1001 Iter.start = .ok s ∧ LastExact s := by
  have hpi := pi_sq_bounds.1
  have hst : stumpff 0 = (1 / 2, 1 / 6) := stumpff_small (by norm_num)
  have y0 : 0 ≤ yOf a n1 n2 Iter.start.phi Iter.start.c2 Iter.start.c3 := by
    have := h.y 0 le_rfl (by linarith)
    rw [hst] at this
    exact this
  obtain ⟨s, hs, -, cur, hl, -, p, c2, c3, -⟩ := goodStep_nonneg (mu := mu) (tof := tof) y0
  have cur' : s.cur = roundTime mu a n1 n2 0 := by rw [cur, roundTime, hst]; rfl
  have hsm := h.small 0 le_rfl h.al0
  rw [← cur'] at hsm
  obtain ⟨l1, l2⟩ := hl (by linarith)
  have l1' : s.lower = 0 := l1
  have l2' : s.upper = 4 * Real.pi ^ 2 := l2
  have b : Bracket tof al be Te 0 s := by
    refine ⟨l1'.ge, Or.inl (by rw [l1']; exact h.al0), Or.inl l2', by rw [l1', l2']; simp, p, c2, c3, fun hc => ?_⟩
    have := (abs_le.1 hc).1
    linarith
  have h0 : |Iter.start.cur - tof| > (1 / 10 ^ 4 : ℝ) := by
    show |(0 : ℝ) - tof| > 1 / 10 ^ 4
    rw [zero_sub, abs_neg]; exact ht
  rw [goodLoop, if_pos h0]
  show ∃ t, (goodStep mu a n1 n2 tof Iter.start).bind (goodLoop mu a n1 n2 tof 1000) = .ok t ∧ LastExact t
  rw [hs]
  exact bracket_loop h 999 0 s rfl b

/-! ### The time of flight on ellipses -/

/-- The time of flight on the ellipse with half the difference of eccentric anomalies `u`. -/
noncomputable def ellTime (mu a n u : ℝ) : ℝ :=
  (Real.sqrt 2 / 4 * Real.sqrt (n - a * Real.sqrt 2 * Real.cos u) ^ 3 * ((2 * u - Real.sin (2 * u)) / Real.sin u ^ 3) +
    a * Real.sqrt (n - a * Real.sqrt 2 * Real.cos u)) / Real.sqrt mu

/-- `y` is between `m` and `2 n`. -/
theorem ell_y {a n m : ℝ} (hm : m + |a| * Real.sqrt 2 ≤ n) (hm0 : 0 < m) (u : ℝ) :
    m ≤ n - a * Real.sqrt 2 * Real.cos u ∧ n - a * Real.sqrt 2 * Real.cos u ≤ 2 * n := by
  have h2 : 0 ≤ Real.sqrt 2 := Real.sqrt_nonneg 2
  have h : |a * Real.sqrt 2 * Real.cos u| ≤ |a| * Real.sqrt 2 := by
    rw [abs_mul, abs_mul, abs_of_nonneg h2]
    have := mul_le_mul_of_nonneg_left (Real.abs_cos_le_one u) (show 0 ≤ |a| * Real.sqrt 2 by positivity)
    linarith
  obtain ⟨h1, h3⟩ := abs_le.1 h
  constructor <;> linarith

theorem roundTime_ell {mu a n1 n2 m : ℝ} (hm : m + |a| * Real.sqrt 2 ≤ n1 + n2) (hm0 : 0 < m) {u : ℝ} (hu : 0 < u)
    (hup : u < Real.pi) (hs : 1 / 10 ^ 4 < 4 * u ^ 2) :
    roundTime mu a n1 n2 (4 * u ^ 2) = ellTime mu a (n1 + n2) u ∧
    0 ≤ yOf a n1 n2 (4 * u ^ 2) (stumpff (4 * u ^ 2)).1 (stumpff (4 * u ^ 2)).2 := by
  have hsin := Real.sin_pos_of_pos_of_lt_pi hu hup
  have hex := stumpff_exact (φ := 4 * u ^ 2) (Or.inl (by rw [abs_of_pos (by positivity)]; exact hs))
  obtain ⟨e2, e3⟩ := hex.unique (stumpff_half_angle' hu)
  have hy := yOf_ell a n1 n2 hu hsin
  have hy0 := (ell_y hm hm0 u).1
  constructor
  · rw [roundTime, e2, e3, hy, timeOf_ell mu a (by linarith) hu hsin]
    rfl
  · rw [e2, e3, hy]; linarith

/-- The derivative of the time of flight is bounded. -/
theorem ell_deriv {mu a n m : ℝ} (hmu : 1 / 10 ^ 10 ≤ mu) (hn : n ≤ 10 ^ 13) (hm : m + |a| * Real.sqrt 2 ≤ n)
    (hm0 : 1 / 10 ^ 20 ≤ m) {u : ℝ} (hu : 0 < u) (hup : u < Real.pi) (hsin : 1 / 10 ^ 31 ≤ Real.sin u) :
    ∃ D, HasDerivAt (ellTime mu a n) D u ∧ |D| ≤ 10 ^ 214 := by
  have hmp : 0 < m := lt_of_lt_of_le (by norm_num) hm0
  obtain ⟨y1, y2⟩ := ell_y hm hmp u
  have hs0 : 0 < Real.sin u := lt_of_lt_of_le (by norm_num) hsin
  have h2 : 1 ≤ Real.sqrt 2 := by rw [Real.one_le_sqrt]; norm_num
  have h2' : Real.sqrt 2 ≤ 2 := by rw [Real.sqrt_le_left (by norm_num)]; norm_num
  have hy0 : 0 < n - a * Real.sqrt 2 * Real.cos u := by linarith
  -- the parts
  have dy : HasDerivAt (fun u => n - a * Real.sqrt 2 * Real.cos u) (a * Real.sqrt 2 * Real.sin u) u :=
    hd (((Real.hasDerivAt_cos u).const_mul (a * Real.sqrt 2)).const_sub n) (by ring)
  have dw := dy.sqrt hy0.ne'
  have d2 : HasDerivAt (fun u : ℝ => 2 * u) 2 u := hd ((hasDerivAt_id u).const_mul 2) (by norm_num)
  have dG := (d2.sub d2.sin).div ((Real.hasDerivAt_sin u).pow 3) (pow_ne_zero 3 hs0.ne')
  have dE := ((((dw.pow 3).const_mul (Real.sqrt 2 / 4)).mul dG).add (dw.const_mul a)).div_const (Real.sqrt mu)
  refine ⟨_, dE, ?_⟩
  -- their sizes
  have hw0 : 1 / 10 ^ 10 ≤ Real.sqrt (n - a * Real.sqrt 2 * Real.cos u) := by
    refine Real.le_sqrt_of_sq_le ?_
    norm_num at hm0 ⊢
    linarith
  have hw1 : Real.sqrt (n - a * Real.sqrt 2 * Real.cos u) ≤ 10 ^ 7 := by
    rw [Real.sqrt_le_left (by norm_num)]
    norm_num at hn ⊢
    linarith
  have hsm : 1 / 10 ^ 5 ≤ Real.sqrt mu := by
    refine Real.le_sqrt_of_sq_le ?_
    norm_num at hmu ⊢
    linarith
  have ha : |a| ≤ 10 ^ 13 := by
    have := mul_le_mul_of_nonneg_left h2 (abs_nonneg a)
    linarith
  have hw' : |a * Real.sqrt 2 * Real.sin u / (2 * Real.sqrt (n - a * Real.sqrt 2 * Real.cos u))| ≤ 10 ^ 23 := by
    rw [abs_div, abs_of_pos (show 0 < 2 * Real.sqrt (n - a * Real.sqrt 2 * Real.cos u) by positivity),
      div_le_iff₀ (by positivity), abs_mul, abs_mul, abs_of_pos (show 0 < Real.sqrt 2 by positivity)]
    have h3 : |a| * Real.sqrt 2 * |Real.sin u| ≤ |a| * Real.sqrt 2 * 1 :=
      mul_le_mul_of_nonneg_left (Real.abs_sin_le_one u) (by positivity)
    have h4 : (10 : ℝ) ^ 23 * (2 * (1 / 10 ^ 10)) ≤ 10 ^ 23 * (2 * Real.sqrt (n - a * Real.sqrt 2 * Real.cos u)) :=
      mul_le_mul_of_nonneg_left (by linarith) (by positivity)
    norm_num at h4 hn ⊢
    linarith
  have hs3 : (1 : ℝ) / 10 ^ 93 ≤ Real.sin u ^ 3 := by
    have := pow_le_pow_left₀ (by norm_num) hsin 3
    norm_num at this ⊢
    exact this
  have hpi : Real.pi < 4 := Real.pi_lt_four
  have hnum : |2 * u - Real.sin (2 * u)| ≤ 9 := by
    rw [abs_le]
    constructor <;> linarith [Real.sin_le_one (2 * u), Real.neg_one_le_sin (2 * u)]
  have hG : |(2 * u - Real.sin (2 * u)) / Real.sin u ^ 3| ≤ 10 ^ 94 := by
    rw [abs_div, abs_of_pos (show 0 < Real.sin u ^ 3 by positivity), div_le_iff₀ (by positivity)]
    have : (10 : ℝ) ^ 94 * (1 / 10 ^ 93) ≤ 10 ^ 94 * Real.sin u ^ 3 := mul_le_mul_of_nonneg_left hs3 (by positivity)
    norm_num at this ⊢
    linarith
  have hG' : |((2 - Real.cos (2 * u) * 2) * Real.sin u ^ 3 - (2 * u - Real.sin (2 * u)) *
      (3 * Real.sin u ^ 2 * Real.cos u)) / (Real.sin u ^ 3) ^ 2| ≤ 10 ^ 188 := by
    rw [abs_div, abs_of_pos (show 0 < (Real.sin u ^ 3) ^ 2 by positivity), div_le_iff₀ (by positivity)]
    have k1 : |(2 - Real.cos (2 * u) * 2) * Real.sin u ^ 3| ≤ 4 * 1 := by
      rw [abs_mul]
      refine mul_le_mul ?_ ?_ (abs_nonneg _) (by norm_num)
      · rw [abs_le]; constructor <;> linarith [Real.cos_le_one (2 * u), Real.neg_one_le_cos (2 * u)]
      · rw [abs_pow]; exact pow_le_one₀ (abs_nonneg _) (Real.abs_sin_le_one u)
    have k2 : |(2 * u - Real.sin (2 * u)) * (3 * Real.sin u ^ 2 * Real.cos u)| ≤ 9 * 3 := by
      rw [abs_mul]
      refine mul_le_mul hnum ?_ (abs_nonneg _) (by norm_num)
      rw [abs_mul, abs_mul, abs_pow]
      have e1 : |Real.sin u| ^ 2 ≤ 1 := pow_le_one₀ (abs_nonneg _) (Real.abs_sin_le_one u)
      have e2 := Real.abs_cos_le_one u
      have e3 : |(3 : ℝ)| = 3 := abs_of_pos (by norm_num)
      rw [e3]
      have := mul_le_mul e1 e2 (abs_nonneg _) zero_le_one
      linarith
    have k3 := abs_sub ((2 - Real.cos (2 * u) * 2) * Real.sin u ^ 3) ((2 * u - Real.sin (2 * u)) * (3 * Real.sin u ^ 2 * Real.cos u))
    have k4 : ((1 : ℝ) / 10 ^ 93) ^ 2 ≤ (Real.sin u ^ 3) ^ 2 := pow_le_pow_left₀ (by norm_num) hs3 2
    have k5 : (10 : ℝ) ^ 188 * ((1 : ℝ) / 10 ^ 93) ^ 2 ≤ 10 ^ 188 * (Real.sin u ^ 3) ^ 2 :=
      mul_le_mul_of_nonneg_left k4 (by positivity)
    norm_num at k5 ⊢
    linarith
  simp only [Pi.sub_apply, Pi.pow_apply, Pi.div_apply, Nat.cast_ofNat, Nat.reduceSub]
  rw [abs_div, abs_of_pos (show 0 < Real.sqrt mu by linarith), div_le_iff₀ (by linarith)]
  have hw0' : 0 < Real.sqrt (n - a * Real.sqrt 2 * Real.cos u) := Real.sqrt_pos.2 hy0
  generalize Real.sqrt (n - a * Real.sqrt 2 * Real.cos u) = w at *
  generalize a * Real.sqrt 2 * Real.sin u / (2 * w) = w' at *
  generalize (2 * u - Real.sin (2 * u)) / Real.sin u ^ 3 = G at *
  generalize ((2 - Real.cos (2 * u) * 2) * Real.sin u ^ 3 - (2 * u - Real.sin (2 * u)) *
      (3 * Real.sin u ^ 2 * Real.cos u)) / (Real.sin u ^ 3) ^ 2 = G' at *
  have hr : Real.sqrt 2 / 4 ≤ 1 / 2 := by linarith
  have hr0 : 0 < Real.sqrt 2 / 4 := by positivity
  generalize Real.sqrt 2 / 4 = r at *
  have hP : |r * (3 * w ^ 2 * w') * G| ≤ 10 ^ 132 := by
    rw [abs_mul, abs_mul, abs_mul, abs_mul, abs_of_pos hr0, abs_of_pos (show (0 : ℝ) < 3 by norm_num),
      abs_of_pos (show 0 < w ^ 2 by positivity)]
    have e1 : w ^ 2 ≤ (10 ^ 7) ^ 2 := pow_le_pow_left₀ hw0'.le hw1 2
    calc r * (3 * w ^ 2 * |w'|) * |G| ≤ 1 / 2 * (3 * (10 ^ 7) ^ 2 * 10 ^ 23) * 10 ^ 94 := by
          gcongr
      _ ≤ 10 ^ 132 := by norm_num
  have hQ : |r * w ^ 3 * G'| ≤ 1 / 2 * 10 ^ 209 := by
    rw [abs_mul, abs_mul, abs_of_pos hr0, abs_of_pos (show 0 < w ^ 3 by positivity)]
    calc r * w ^ 3 * |G'| ≤ 1 / 2 * (10 ^ 7) ^ 3 * 10 ^ 188 := by
          gcongr
      _ ≤ 1 / 2 * 10 ^ 209 := by norm_num
  have hR : |a * w'| ≤ 10 ^ 36 := by
    rw [abs_mul]
    calc |a| * |w'| ≤ 10 ^ 13 * 10 ^ 23 := by gcongr
      _ ≤ 10 ^ 36 := by norm_num
  have hS : (10 : ℝ) ^ 214 * (1 / 10 ^ 5) ≤ 10 ^ 214 * Real.sqrt mu := mul_le_mul_of_nonneg_left hsm (by positivity)
  have hT := abs_add_le (r * (3 * w ^ 2 * w') * G + r * w ^ 3 * G') (a * w')
  have hU := abs_add_le (r * (3 * w ^ 2 * w') * G) (r * w ^ 3 * G')
  have hV : (10 : ℝ) ^ 132 + 1 / 2 * 10 ^ 209 + 10 ^ 36 ≤ 10 ^ 214 * (1 / 10 ^ 5) := by norm_num
  exact hT.trans ((add_le_add (hU.trans (add_le_add hP hQ)) hR).trans (hV.trans hS))

/-- The time of flight as a function of `phi` has a Lipschitz constant. -/
theorem ell_lip {mu a n m : ℝ} (hmu : 1 / 10 ^ 10 ≤ mu) (hn : n ≤ 10 ^ 13) (hm : m + |a| * Real.sqrt 2 ≤ n)
    (hm0 : 1 / 10 ^ 20 ≤ m) {p q : ℝ} (hp : 1 / 10 ^ 4 ≤ p) (hpq : p ≤ q) (hq : q ≤ 4 * (Real.pi - 1 / 10 ^ 30) ^ 2) :
    |ellTime mu a n (Real.sqrt q / 2) - ellTime mu a n (Real.sqrt p / 2)| ≤ 10 ^ 216 * (q - p) := by
  have hpi := Real.pi_gt_three
  have hpi4 := Real.pi_lt_four
  have hp0 : 1 / 10 ^ 2 ≤ Real.sqrt p := Real.le_sqrt_of_sq_le (by norm_num at hp ⊢; linarith)
  have hq0 : Real.sqrt q ≤ 2 * (Real.pi - 1 / 10 ^ 30) := by
    rw [Real.sqrt_le_left (by norm_num; linarith)]
    linarith
  have hpq' : Real.sqrt p ≤ Real.sqrt q := Real.sqrt_le_sqrt hpq
  have hsin : ∀ u ∈ Set.Icc (Real.sqrt p / 2) (Real.sqrt q / 2), 0 < u ∧ u < Real.pi ∧ 1 / 10 ^ 31 ≤ Real.sin u := by
    intro u hu
    have hu1 : 1 / 200 ≤ u := by have := hu.1; norm_num at hp0; linarith
    have hu2 : u ≤ Real.pi - 1 / 10 ^ 30 := by have := hu.2; linarith
    have hup : u < Real.pi := by norm_num at hu2; linarith
    refine ⟨by linarith, hup, ?_⟩
    rcases le_total u (Real.pi / 2) with h | h
    · have := Real.mul_le_sin (by linarith) h
      have h2 : 1 / 2 ≤ 2 / Real.pi := by rw [div_le_div_iff₀ (by norm_num) (by linarith)]; linarith
      have h3 : 1 / 2 * (1 / 200) ≤ 2 / Real.pi * u := mul_le_mul h2 hu1 (by norm_num) (by positivity)
      norm_num at h3 ⊢
      linarith
    · have := Real.mul_le_sin (x := Real.pi - u) (by linarith) (by linarith)
      rw [Real.sin_pi_sub] at this
      have h2 : 1 / 2 ≤ 2 / Real.pi := by rw [div_le_div_iff₀ (by norm_num) (by linarith)]; linarith
      have h3 : 1 / 2 * (1 / 10 ^ 30) ≤ 2 / Real.pi * (Real.pi - u) := mul_le_mul h2 (by linarith) (by norm_num) (by positivity)
      norm_num at h3 ⊢
      linarith
  have hD : ∀ u ∈ Set.Icc (Real.sqrt p / 2) (Real.sqrt q / 2), ∃ D, HasDerivAt (ellTime mu a n) D u ∧ |D| ≤ 10 ^ 214 :=
    fun u hu => ell_deriv hmu hn hm hm0 (hsin u hu).1 (hsin u hu).2.1 (hsin u hu).2.2
  choose! D hD1 hD2 using hD
  have key := (convex_Icc (Real.sqrt p / 2) (Real.sqrt q / 2)).norm_image_sub_le_of_norm_hasDerivWithin_le
    (f := ellTime mu a n) (f' := D) (C := 10 ^ 214) (fun u hu => (hD1 u hu).hasDerivWithinAt)
    (fun u hu => by rw [Real.norm_eq_abs]; exact hD2 u hu)
    (Set.left_mem_Icc.2 (by linarith)) (Set.right_mem_Icc.2 (by linarith))
  rw [Real.norm_eq_abs, Real.norm_eq_abs, abs_of_nonneg (show 0 ≤ Real.sqrt q / 2 - Real.sqrt p / 2 by linarith)] at key
  refine key.trans ?_
  have e : (Real.sqrt q - Real.sqrt p) * (Real.sqrt q + Real.sqrt p) = q - p := by
    have e1 := Real.mul_self_sqrt (show 0 ≤ p by norm_num at hp; linarith)
    have e2 := Real.mul_self_sqrt (show 0 ≤ q by norm_num at hp; linarith)
    linarith
  have h1 : (Real.sqrt q - Real.sqrt p) * (1 / 50) ≤ q - p := by
    rw [← e]
    refine mul_le_mul_of_nonneg_left ?_ (by linarith)
    norm_num at hp0
    linarith
  have h2 : Real.sqrt q / 2 - Real.sqrt p / 2 ≤ 25 * (q - p) := by linarith
  have h3 : (10 : ℝ) ^ 214 * (Real.sqrt q / 2 - Real.sqrt p / 2) ≤ 10 ^ 214 * (25 * (q - p)) :=
    mul_le_mul_of_nonneg_left h2 (by positivity)
  have h4 : (10 : ℝ) ^ 214 * (25 * (q - p)) ≤ 10 ^ 214 * (100 * (q - p)) :=
    mul_le_mul_of_nonneg_left (by linarith) (by positivity)
  calc _ ≤ _ := h3
    _ ≤ _ := h4
    _ = 10 ^ 216 * (q - p) := by ring

/-- Close to a full turn the flight lasts long. -/
theorem ell_long {mu a n m tof : ℝ} (hmu : 0 < mu) (hmu2 : mu ≤ 10 ^ 20) (hn : n ≤ 10 ^ 13) (hm : m + |a| * Real.sqrt 2 ≤ n)
    (hm0 : 1 / 10 ^ 20 ≤ m) (ht : tof ≤ 10 ^ 20) {u : ℝ} (h1 : Real.pi - 1 / 10 ^ 30 ≤ u) (h2 : u < Real.pi) :
    tof + 1 / 10 ^ 4 ≤ ellTime mu a n u := by
  have hpi := Real.pi_gt_three
  have hmp : 0 < m := lt_of_lt_of_le (by norm_num) hm0
  obtain ⟨y1, y2⟩ := ell_y hm hmp u
  have hu : 2 < u := by norm_num at h1; linarith
  have hs0 := Real.sin_pos_of_pos_of_lt_pi (by linarith : 0 < u) h2
  have hs1 : Real.sin u ≤ 1 / 10 ^ 30 := by
    rw [← Real.sin_pi_sub]
    exact (Real.sin_le (by linarith)).trans (by linarith)
  have hs3 : Real.sin u ^ 3 ≤ 1 / 10 ^ 90 := by
    have := pow_le_pow_left₀ hs0.le hs1 3
    norm_num at this ⊢
    exact this
  have hw0 : 1 / 10 ^ 10 ≤ Real.sqrt (n - a * Real.sqrt 2 * Real.cos u) := by
    refine Real.le_sqrt_of_sq_le ?_
    norm_num at hm0 ⊢
    linarith
  have hw1 : Real.sqrt (n - a * Real.sqrt 2 * Real.cos u) ≤ 10 ^ 7 := by
    rw [Real.sqrt_le_left (by norm_num)]
    norm_num at hn ⊢
    linarith
  have hsm : Real.sqrt mu ≤ 10 ^ 10 := by
    rw [Real.sqrt_le_left (by norm_num)]
    norm_num at hmu2 ⊢
    linarith
  have h2r : 1 ≤ Real.sqrt 2 := by rw [Real.one_le_sqrt]; norm_num
  have ha : |a| ≤ 10 ^ 13 := by
    have := mul_le_mul_of_nonneg_left h2r (abs_nonneg a)
    linarith
  have hG : 10 ^ 90 ≤ (2 * u - Real.sin (2 * u)) / Real.sin u ^ 3 := by
    rw [le_div_iff₀ (by positivity)]
    have : (10 : ℝ) ^ 90 * Real.sin u ^ 3 ≤ 10 ^ 90 * (1 / 10 ^ 90) := mul_le_mul_of_nonneg_left hs3 (by positivity)
    have h3 := Real.sin_le_one (2 * u)
    norm_num at this ⊢
    linarith
  rw [ellTime, le_div_iff₀ (Real.sqrt_pos.2 hmu)]
  generalize Real.sqrt (n - a * Real.sqrt 2 * Real.cos u) = w at *
  generalize (2 * u - Real.sin (2 * u)) / Real.sin u ^ 3 = G at *
  have hwp : 0 < w := lt_of_lt_of_le (by norm_num) hw0
  have k1 : (1 / 4 : ℝ) * (1 / 10 ^ 10) ^ 3 * 10 ^ 90 ≤ Real.sqrt 2 / 4 * w ^ 3 * G := by gcongr
  have k2 : |a * w| ≤ 10 ^ 13 * 10 ^ 7 := by
    rw [abs_mul, abs_of_pos hwp]
    gcongr
  have k3 := (abs_le.1 k2).1
  have k4 : (tof + 1 / 10 ^ 4) * Real.sqrt mu ≤ (10 ^ 20 + 1 / 10 ^ 4) * 10 ^ 10 :=
    (mul_le_mul_of_nonneg_right (by linarith) (Real.sqrt_nonneg mu)).trans (mul_le_mul_of_nonneg_left hsm (by positivity))
  norm_num at k1 k3 k4 ⊢
  linarith

/-! ### Close to the parabola -/

/-- A bound of the times of the rounds close to the parabola, slightly more than the time of flight on the parabola,
which is the one with `Y = n - a √2` and without the term 1e-5. Here `n` is the sum of the distances to the center and
`a √2` is, for less than half a turn, the root of the difference of the squares of `n` and the chord. -/
noncomputable def edgeTime (mu a n : ℝ) : ℝ :=
  let Y := n - a * Real.sqrt 2 + |a| * Real.sqrt 2 / 60000
  (Real.sqrt 2 / 3 * (1 + 1 / 10 ^ 5) * Real.sqrt Y ^ 3 + a * Real.sqrt Y) / Real.sqrt mu

theorem edge_mono {a w W ka : ℝ} (hw : 0 ≤ w) (hwW : w ≤ W) (hk : ka ≤ Real.sqrt 2 / 3 * (1 + 1 / 10 ^ 5))
    (hneg : a < 0 → |a| * Real.sqrt 2 ≤ w ^ 2) :
    ka * w ^ 3 + a * w ≤ Real.sqrt 2 / 3 * (1 + 1 / 10 ^ 5) * W ^ 3 + a * W := by
  have h2 : 0 < Real.sqrt 2 := by positivity
  have h22 : Real.sqrt 2 ^ 2 = 2 := Real.sq_sqrt (by norm_num)
  have h1 : ka * w ^ 3 ≤ Real.sqrt 2 / 3 * (1 + 1 / 10 ^ 5) * w ^ 3 := mul_le_mul_of_nonneg_right hk (by positivity)
  rcases le_or_gt 0 a with ha | ha
  · have h3 : w ^ 3 ≤ W ^ 3 := pow_le_pow_left₀ hw hwW 3
    have h4 : Real.sqrt 2 / 3 * (1 + 1 / 10 ^ 5) * w ^ 3 ≤ Real.sqrt 2 / 3 * (1 + 1 / 10 ^ 5) * W ^ 3 :=
      mul_le_mul_of_nonneg_left h3 (by positivity)
    have h5 := mul_le_mul_of_nonneg_left hwW ha
    linarith
  · have h3 := hneg ha
    rw [abs_of_neg ha] at h3
    have h4 : 3 * w ^ 2 ≤ W ^ 2 + W * w + w ^ 2 := by nlinarith
    have h5 : -a ≤ Real.sqrt 2 / 3 * (1 + 1 / 10 ^ 5) * (W ^ 2 + W * w + w ^ 2) := by
      have e1 := mul_le_mul_of_nonneg_left (h4.trans' (mul_le_mul_of_nonneg_left h3 (by norm_num : (0 : ℝ) ≤ 3)))
        (show 0 ≤ Real.sqrt 2 / 3 * (1 + 1 / 10 ^ 5) by positivity)
      have e2 : Real.sqrt 2 / 3 * (1 + 1 / 10 ^ 5) * (3 * (-a * Real.sqrt 2)) = (1 + 1 / 10 ^ 5) * (2 * -a) := by
        linear_combination (-a * (1 + 1 / 10 ^ 5)) * h22
      rw [e2] at e1
      norm_num at e1 ⊢
      linarith
    have h6 := mul_le_mul_of_nonneg_left h5 (show 0 ≤ W - w by linarith)
    nlinarith

/-- The times of the rounds close to the parabola. -/
theorem edge_small {mu a n1 n2 m : ℝ} (hm : m + |a| * Real.sqrt 2 ≤ n1 + n2) (hm0 : 0 < m) {phi : ℝ}
    (h0 : 0 ≤ phi) (h1 : phi ≤ 1 / 10 ^ 4) : roundTime mu a n1 n2 phi ≤ edgeTime mu a (n1 + n2) := by
  have h2 : 0 < Real.sqrt 2 := by positivity
  have hst : stumpff phi = (1 / 2, 1 / 6) := stumpff_small (by rw [abs_of_nonneg h0]; exact not_lt.2 h1)
  have h1' : phi / 6 ≤ 1 / 60000 := by norm_num at h1 ⊢; linarith
  have ha := abs_nonneg a
  have hq : 0 ≤ |a| * Real.sqrt 2 := by positivity
  have hy1 : n1 + n2 - a * Real.sqrt 2 * (1 - phi / 6) ≤ n1 + n2 - a * Real.sqrt 2 + |a| * Real.sqrt 2 / 60000 := by
    have e1 : a * Real.sqrt 2 * (phi / 6) ≤ |a| * Real.sqrt 2 * (phi / 6) := by
      gcongr; exact le_abs_self a
    have e2 := mul_le_mul_of_nonneg_left h1' hq
    linarith
  have hy0 : 0 ≤ n1 + n2 - a * Real.sqrt 2 * (1 - phi / 6) := by
    have e1 : a * Real.sqrt 2 * (1 - phi / 6) ≤ |a| * Real.sqrt 2 * 1 := by
      have : a * Real.sqrt 2 * (1 - phi / 6) ≤ |a| * Real.sqrt 2 * (1 - phi / 6) := by
        refine mul_le_mul_of_nonneg_right (mul_le_mul_of_nonneg_right (le_abs_self a) h2.le) ?_
        norm_num at h1'; linarith
      have := mul_le_mul_of_nonneg_left (show 1 - phi / 6 ≤ 1 by linarith) hq
      linarith
    linarith
  rw [roundTime, hst, yOf_par, timeOf_par _ _ hy0, edgeTime]
  refine div_le_div_of_nonneg_right ?_ (Real.sqrt_nonneg _)
  refine edge_mono (Real.sqrt_nonneg _) (Real.sqrt_le_sqrt hy1) (by linarith) fun hneg => ?_
  rw [Real.sq_sqrt hy0]
  have : a * Real.sqrt 2 * (1 - phi / 6) ≤ 0 := by
    refine mul_nonpos_of_nonpos_of_nonneg (mul_nonpos_of_nonpos_of_nonneg hneg.le h2.le) ?_
    norm_num at h1'; linarith
  linarith

/-- The exact time where the exact functions begin to be used. -/
theorem edge_exact {mu a n m : ℝ} (hm : m + |a| * Real.sqrt 2 ≤ n) (hm0 : 0 < m) :
    ellTime mu a n (1 / 200) ≤ edgeTime mu a n := by
  have h2 : 0 < Real.sqrt 2 := by positivity
  have hpi := Real.pi_gt_three
  have hq : 0 ≤ |a| * Real.sqrt 2 := by have := abs_nonneg a; positivity
  have hcos : 1 - 1 / 80000 ≤ Real.cos (1 / 200) := by
    have := Real.one_sub_sq_div_two_le_cos (x := 1 / 200)
    norm_num at this ⊢
    linarith
  have hcos1 := Real.cos_le_one (1 / 200)
  have hy := ell_y hm hm0 (1 / 200)
  have hsin : 0 < Real.sin (1 / 200) := Real.sin_pos_of_pos_of_lt_pi (by norm_num) (by linarith)
  have hsin1 : Real.sin (1 / 200) ≤ 1 / 200 := Real.sin_le (by norm_num)
  have hs2 : Real.sin (1 / 200) ^ 2 ≤ (1 / 200) ^ 2 := pow_le_pow_left₀ hsin.le hsin1 2
  have hG : (2 * (1 / 200) - Real.sin (2 * (1 / 200))) / Real.sin (1 / 200) ^ 3 ≤ 4 / 3 * (1 + 1 / 10 ^ 5) := by
    have := (sin_gap (u := 1 / 200) (by norm_num) (by linarith) (by norm_num at hcos ⊢; linarith)).2
    rw [div_le_iff₀ (by positivity)]
    have h3 := mul_le_mul_of_nonneg_right hs2 (show 0 ≤ Real.sin (1 / 200) ^ 3 by positivity)
    have h4 : 0 ≤ Real.sin (1 / 200) ^ 3 := by positivity
    nlinarith
  have hy1 : n - a * Real.sqrt 2 * Real.cos (1 / 200) ≤ n - a * Real.sqrt 2 + |a| * Real.sqrt 2 / 60000 := by
    have e1 : a * Real.sqrt 2 * (1 - Real.cos (1 / 200)) ≤ |a| * Real.sqrt 2 * (1 - Real.cos (1 / 200)) := by
      refine mul_le_mul_of_nonneg_right (mul_le_mul_of_nonneg_right (le_abs_self a) h2.le) (by linarith)
    have e2 := mul_le_mul_of_nonneg_left (show 1 - Real.cos (1 / 200) ≤ 1 / 60000 by norm_num at hcos ⊢; linarith) hq
    linarith
  rw [ellTime, edgeTime]
  refine div_le_div_of_nonneg_right ?_ (Real.sqrt_nonneg _)
  have := edge_mono (a := a) (ka := Real.sqrt 2 / 4 * ((2 * (1 / 200) - Real.sin (2 * (1 / 200))) / Real.sin (1 / 200) ^ 3))
    (Real.sqrt_nonneg (n - a * Real.sqrt 2 * Real.cos (1 / 200))) (Real.sqrt_le_sqrt hy1) (by
      have := mul_le_mul_of_nonneg_left hG (show 0 ≤ Real.sqrt 2 / 4 by positivity)
      linarith) (fun hneg => by
      rw [Real.sq_sqrt (by linarith)]
      have : a * Real.sqrt 2 * Real.cos (1 / 200) ≤ 0 :=
        mul_nonpos_of_nonpos_of_nonneg (mul_nonpos_of_nonpos_of_nonneg hneg.le h2.le) (by norm_num at hcos; linarith)
      linarith)
  linarith

theorem edge_pos {mu a n m : ℝ} (hmu : 0 < mu) (hm : m + |a| * Real.sqrt 2 ≤ n) (hm0 : 0 < m) : 0 < edgeTime mu a n := by
  have h2 : 0 < Real.sqrt 2 := by positivity
  have h22 : Real.sqrt 2 ^ 2 = 2 := Real.sq_sqrt (by norm_num)
  have hq : 0 ≤ |a| * Real.sqrt 2 := by have := abs_nonneg a; positivity
  have hY : 0 < n - a * Real.sqrt 2 + |a| * Real.sqrt 2 / 60000 := by
    have := mul_le_mul_of_nonneg_right (le_abs_self a) h2.le
    linarith
  rw [edgeTime]
  refine div_pos ?_ (Real.sqrt_pos.2 hmu)
  have hW := Real.sqrt_pos.2 hY
  have hWW := Real.sq_sqrt hY.le
  generalize Real.sqrt (n - a * Real.sqrt 2 + |a| * Real.sqrt 2 / 60000) = W at *
  have : 0 < Real.sqrt 2 / 3 * (1 + 1 / 10 ^ 5) * W ^ 2 + a := by
    rw [hWW]
    rcases le_or_gt 0 a with ha | ha
    · have := mul_pos (show 0 < Real.sqrt 2 / 3 * (1 + 1 / 10 ^ 5) by positivity) hY
      linarith
    · rw [abs_of_neg ha] at hm hq ⊢
      have h3 : 2 * (-a * Real.sqrt 2) ≤ n - a * Real.sqrt 2 + -a * Real.sqrt 2 / 60000 := by linarith
      have h4 := mul_le_mul_of_nonneg_left h3 (show 0 ≤ Real.sqrt 2 / 3 * (1 + 1 / 10 ^ 5) by positivity)
      have e2 : Real.sqrt 2 / 3 * (1 + 1 / 10 ^ 5) * (2 * (-a * Real.sqrt 2)) = (1 + 1 / 10 ^ 5) * (4 / 3 * -a) := by
        linear_combination (-a * (2 / 3) * (1 + 1 / 10 ^ 5)) * h22
      rw [e2] at h4
      norm_num at h4 ⊢
      linarith
  have := mul_pos this hW
  linarith

/-! ### The theorem -/

theorem ell_bisects {mu a n1 n2 m tof : ℝ} (g : Geometry a n1 n2) (hmu : 1 / 10 ^ 10 ≤ mu) (hmu2 : mu ≤ 10 ^ 20)
    (hn : n1 + n2 ≤ 10 ^ 13) (hm : m + |a| * Real.sqrt 2 ≤ n1 + n2) (hm0 : 1 / 10 ^ 20 ≤ m) (ht : tof ≤ 10 ^ 20)
    (he : edgeTime mu a (n1 + n2) < tof - 1 / 10 ^ 4) :
    Bisects mu a n1 n2 tof (1 / 10 ^ 4) (4 * (Real.pi - 1 / 10 ^ 30) ^ 2) (10 ^ 216)
      (fun phi => ellTime mu a (n1 + n2) (Real.sqrt phi / 2)) := by
  have hmp : 0 < m := lt_of_lt_of_le (by norm_num) hm0
  have hmup : 0 < mu := lt_of_lt_of_le (by norm_num) hmu
  have hpi := Real.pi_gt_three
  have hpi4 := Real.pi_lt_four
  have hpi2 := pi_sq_bounds
  have hW : 4 * Real.pi ^ 2 / 2 ^ 999 ≤ 1 / 10 ^ 240 := by
    rw [div_le_div_iff₀ (by positivity) (by positivity)]
    have h16 : (10 : ℝ) ^ 249 ≤ 16 ^ 249 := pow_le_pow_left₀ (by norm_num) (by norm_num) 249
    have e16 : (16 : ℝ) ^ 249 * 8 = 1 * 2 ^ 999 := by
      rw [show (16 : ℝ) = 2 ^ 4 by norm_num, ← pow_mul, show (8 : ℝ) = 2 ^ 3 by norm_num, ← pow_add, one_mul]
    have h40 : (40 : ℝ) * 10 ^ 240 ≤ 10 ^ 249 := by norm_num
    have : (40 : ℝ) * 10 ^ 240 ≤ 1 * 2 ^ 999 := by
      rw [← e16]
      exact h40.trans (h16.trans (le_mul_of_one_le_right (by positivity) (by norm_num)))
    have h2 := mul_le_mul_of_nonneg_right (show 4 * Real.pi ^ 2 ≤ 40 by linarith) (show (0 : ℝ) ≤ 10 ^ 240 by positivity)
    exact h2.trans this
  have hhalf : ∀ phi : ℝ, 1 / 10 ^ 4 < phi → phi < 4 * Real.pi ^ 2 → 0 < Real.sqrt phi / 2 ∧ Real.sqrt phi / 2 < Real.pi ∧
      phi = 4 * (Real.sqrt phi / 2) ^ 2 := by
    intro phi h1 h2
    have h0 : 0 < phi := lt_trans (by norm_num) h1
    refine ⟨by have := Real.sqrt_pos.2 h0; positivity, ?_, ?_⟩
    · have : Real.sqrt phi < 2 * Real.pi := by
        rw [Real.sqrt_lt' (by positivity)]; linarith
      linarith
    · rw [div_pow, Real.sq_sqrt h0.le]; ring
  refine ⟨by norm_num, ?_, ?_, ?_, ?_, ?_, ?_, ?_, ?_, by positivity, ?_⟩
  · have : (3 - 1 / 10 ^ 30 : ℝ) ^ 2 ≤ (Real.pi - 1 / 10 ^ 30) ^ 2 := pow_le_pow_left₀ (by norm_num) (by linarith) 2
    have h3 : (1 : ℝ) / 10 ^ 240 ≤ 1 := by rw [div_le_one (by positivity)]; exact one_le_pow₀ (by norm_num)
    norm_num at this
    norm_num
    norm_num at hW h3
    linarith
  · have h3 : 4 * (Real.pi - 1 / 10 ^ 30) ^ 2 + 1 / 10 ^ 30 ≤ 4 * Real.pi ^ 2 := by
      generalize Real.pi = p at *
      norm_num
      nlinarith
    have h4 : (1 : ℝ) / 10 ^ 240 < 1 / 10 ^ 30 := one_div_lt_one_div_of_lt (by positivity) (pow_lt_pow_right₀ (by norm_num) (by norm_num))
    linarith
  · intro phi h0 h1
    exact y_nonneg g (stumpff_pos h1).1 (stumpff_le h0)
  · intro phi h0 h1
    exact lt_of_le_of_lt (edge_small hm hmp h0 h1) he
  · intro phi h1 h2
    obtain ⟨u1, u2, e⟩ := hhalf phi h1 h2
    refine ⟨?_, stumpff_exact (Or.inl (h1.trans_le (le_abs_self _)))⟩
    have := (roundTime_ell (mu := mu) hm hmp u1 u2 (by rw [← e]; exact h1)).1
    rw [← e] at this
    exact this
  · intro p q h1 h2 h3
    exact ell_lip hmu hn hm hm0 h1 h2 h3
  · have : Real.sqrt (1 / 10 ^ 4) / 2 = 1 / 200 := by
      rw [show (1 : ℝ) / 10 ^ 4 = (1 / 100) ^ 2 by norm_num, Real.sqrt_sq (by norm_num)]; norm_num
    show ellTime mu a (n1 + n2) (Real.sqrt (1 / 10 ^ 4) / 2) ≤ _
    rw [this]
    exact (edge_exact hm hmp).trans he.le
  · intro phi h1 h2
    have h1' : 1 / 10 ^ 4 < phi := by
      have : (2 : ℝ) ^ 2 ≤ (Real.pi - 1 / 10 ^ 30) ^ 2 := pow_le_pow_left₀ (by norm_num) (by norm_num; linarith) 2
      norm_num at this ⊢
      norm_num at h1
      linarith
    obtain ⟨u1, u2, e⟩ := hhalf phi h1' h2
    refine ell_long hmup hmu2 hn hm hm0 ht ?_ u2
    rw [e] at h1
    have := sq_le_sq.1 (show (Real.pi - 1 / 10 ^ 30) ^ 2 ≤ (Real.sqrt phi / 2) ^ 2 by linarith)
    rw [abs_of_pos u1] at this
    exact (le_abs_self _).trans this
  · have h1 := mul_le_mul_of_nonneg_left hW (show (0 : ℝ) ≤ 10 ^ 216 by positivity)
    refine lt_of_le_of_lt h1 ?_
    norm_num

theorem margin {dm : ℝ} {r1 r2 : V3} (hdm : dm = 1 ∨ dm = -1) (hc : r1 ⨯₃ r2 ≠ 0) (hn : nrm r1 + nrm r2 ≤ 10 ^ 13)
    (hd : 1 / 10 ^ 3 ≤ nrm (r2 - r1)) :
    1 / 10 ^ 20 + |goodA dm r1 r2| * Real.sqrt 2 ≤ nrm r1 + nrm r2 := by
  obtain ⟨a0, -, a2⟩ := goodA_sign hc hdm
  obtain ⟨n1, n2⟩ := nrm_ne_zero_of_cross hc
  have h2 : 0 < Real.sqrt 2 := by positivity
  have h22 : Real.sqrt 2 ^ 2 = 2 := Real.sq_sqrt (by norm_num)
  have hch : nrm (r2 - r1) ^ 2 = nrm r1 ^ 2 + nrm r2 ^ 2 - 2 * (r1 ⬝ᵥ r2) := by
    have q1 : r1 ⬝ᵥ r1 = nrm r1 ^ 2 := by rw [← nrm_sq]; ring
    have q2 : r2 ⬝ᵥ r2 = nrm r2 ^ 2 := by rw [← nrm_sq]; ring
    have q3 : (r2 - r1) ⬝ᵥ (r2 - r1) = nrm (r2 - r1) ^ 2 := by rw [← nrm_sq]; ring
    rw [← q1, ← q2, ← q3]
    simp only [dotProduct_sub, sub_dotProduct]
    rw [dotProduct_comm r2 r1]; ring
  have hd2 : (1 / 10 ^ 3 : ℝ) ^ 2 ≤ nrm (r2 - r1) ^ 2 := pow_le_pow_left₀ (by norm_num) hd 2
  set q := |goodA dm r1 r2| * Real.sqrt 2 with hq
  have hq0 : 0 ≤ q := by positivity
  have hq2 : q ^ 2 = 2 * (nrm r1 * nrm r2 + r1 ⬝ᵥ r2) := by rw [hq, mul_pow, h22, sq_abs, a2]; ring
  have hnp : 0 < nrm r1 + nrm r2 := by linarith
  have hkey : (nrm r1 + nrm r2 - q) * (nrm r1 + nrm r2 + q) = nrm (r2 - r1) ^ 2 := by rw [hch]; linear_combination -hq2
  rw [← hkey] at hd2
  clear_value q
  generalize nrm r1 + nrm r2 = n at *
  by_contra hlt
  push Not at hlt
  have hqn : q ≤ n := by
    by_contra hgt
    push Not at hgt
    have : (n - q) * (n + q) < 0 := mul_neg_of_neg_of_pos (by linarith) (by linarith)
    have : (0 : ℝ) < (1 / 10 ^ 3) ^ 2 := by norm_num
    linarith
  have h3 : (n - q) * (n + q) ≤ 1 / 10 ^ 20 * (2 * 10 ^ 13) :=
    mul_le_mul (by linarith) (by linarith) (by linarith) (by norm_num)
  norm_num at h3 hd2
  linarith

/-- **C231.** For positions which are not aligned with the center, are at least a meter apart and at most `10^13` km
away, and a time which is longer than the bound for the flight on a parabola, `gooding` returns velocities whose
flight lasts the time asked for to within 0.1 ms. Missing: the hyperbolas and the neighborhood of the parabola, where
transfers are missed (`gooding_window`). -/
theorem gooding_elliptic_partial {inp : Input} {kind : Kind} {mu dm : ℝ} (hm : inp.initial.frame.mu = some mu)
    (hmu : 1 / 10 ^ 10 ≤ mu) (hmu2 : mu ≤ 10 ^ 20) (hc : inp.initial.pos ⨯₃ inp.final.pos ≠ 0)
    (hn : nrm inp.initial.pos + nrm inp.final.pos ≤ 10 ^ 13) (hd : 1 / 10 ^ 3 ≤ nrm (inp.final.pos - inp.initial.pos))
    (hk : kind.direction inp.final.pos inp.initial.pos = .ok dm)
    (hclose : ¬ tooClose (goodA dm inp.initial.pos inp.final.pos) inp.initial.pos inp.final.pos)
    (ht : inp.tof ≤ 10 ^ 20)
    (he : edgeTime mu (goodA dm inp.initial.pos inp.final.pos) (nrm inp.initial.pos + nrm inp.final.pos) <
      inp.tof - 1 / 10 ^ 4) :
    ∃ sol v1 v2 T, gooding inp kind = .ok sol ∧ sol.vInit = some v1 ∧ sol.vFinal = some v2 ∧
      Reaches mu inp.initial.pos v1 inp.final.pos v2 T ∧ |T - inp.tof| ≤ 1 / 10 ^ 4 := by
  have hmup : 0 < mu := lt_of_lt_of_le (by norm_num) hmu
  obtain ⟨n1, n2⟩ := nrm_ne_zero_of_cross hc
  have hdm := direction_cases hk
  have hdm2 : dm ^ 2 = 1 := by rcases hdm with h | h <;> rw [h] <;> norm_num
  have hmar := margin hdm hc hn hd
  have hpos := edge_pos hmup hmar (by norm_num)
  have htof : 1 / 10 ^ 4 < |inp.tof| := lt_of_lt_of_le (by linarith) (le_abs_self _)
  obtain ⟨s, hl, hx⟩ := (ell_bisects (geometry_of hdm2 n1 n2) hmu hmu2 hn hmar le_rfl ht he).loop htof
  have hmu' : inp.mu = .ok mu := by rw [Input.mu, hm]
  have hg : ∃ sol, gooding inp kind = .ok sol := by
    simp only [gooding, hmu', hk, Res.bind]
    rw [if_neg hclose, hl]
    exact ⟨_, rfl⟩
  obtain ⟨sol, hsol⟩ := hg
  obtain ⟨v1, v2, T, e1, e2, e3, e4⟩ := gooding_solves_partial hm hmup hc htof hk hl hx hsol
  exact ⟨sol, v1, v2, T, hsol, e1, e2, e4, e3⟩

/-- A quarter of a turn at the distance 1 with the gravitational parameter 1, in ten seconds. -/
example : ∃ sol v1 v2 T, gooding (quarter 10000000000 1) .shortWay = .ok sol ∧ sol.vInit = some v1 ∧
    sol.vFinal = some v2 ∧ Reaches 1 ![1, 0, 0] v1 ![0, 1, 0] v2 T ∧ |T - (quarter 10000000000 1).tof| ≤ 1 / 10 ^ 4 := by
  have htof : (quarter 10000000000 1).tof = 10 := by
    show (((10000000000 : Int) - 0 : Int) : ℝ) / 10 ^ 9 = 10
    norm_num
  have ha : goodA 1 (quarter 10000000000 1).initial.pos (quarter 10000000000 1).final.pos = 1 := quarter_a
  have hn1 : nrm (quarter 10000000000 1).initial.pos = 1 := nrm_e0
  have hn2 : nrm (quarter 10000000000 1).final.pos = 1 := nrm_e1
  have hd2 : nrm ((![0, 1, 0] : V3) - ![1, 0, 0]) = Real.sqrt 2 := by
    have : nrm ((![0, 1, 0] : V3) - ![1, 0, 0]) = Real.sqrt (((![0, 1, 0] : V3) - ![1, 0, 0]) ⬝ᵥ ((![0, 1, 0] : V3) - ![1, 0, 0])) := rfl
    rw [this, dot3]; simp; norm_num
  have h2 : 1 ≤ Real.sqrt 2 := by rw [Real.one_le_sqrt]; norm_num
  have h2' : Real.sqrt 2 ≤ 2 := by rw [Real.sqrt_le_left (by norm_num)]; norm_num
  refine gooding_elliptic_partial (kind := .shortWay) (dm := 1) rfl (by norm_num) (by norm_num) quarter_cross ?_ ?_ rfl ?_ ?_ ?_
  · rw [hn1, hn2]; norm_num
  · show 1 / 10 ^ 3 ≤ nrm ((![0, 1, 0] : V3) - ![1, 0, 0])
    rw [hd2]; norm_num; linarith
  · rw [ha]; exact quarter_close
  · rw [htof]; norm_num
  · rw [ha, hn1, hn2, htof, edgeTime, Real.sqrt_one, abs_one]
    have hY : Real.sqrt (1 + 1 - 1 * Real.sqrt 2 + 1 * Real.sqrt 2 / 60000) ≤ 2 := by
      rw [Real.sqrt_le_left (by norm_num)]; linarith
    have hY0 := Real.sqrt_nonneg (1 + 1 - 1 * Real.sqrt 2 + 1 * Real.sqrt 2 / 60000)
    show (Real.sqrt 2 / 3 * (1 + 1 / 10 ^ 5) * Real.sqrt (1 + 1 - 1 * Real.sqrt 2 + 1 * Real.sqrt 2 / 60000) ^ 3 +
      1 * Real.sqrt (1 + 1 - 1 * Real.sqrt 2 + 1 * Real.sqrt 2 / 60000)) / 1 < 10 - 1 / 10 ^ 4
    generalize Real.sqrt (1 + 1 - 1 * Real.sqrt 2 + 1 * Real.sqrt 2 / 60000) = W at *
    have h3 : W ^ 3 ≤ 2 ^ 3 := pow_le_pow_left₀ hY0 hY 3
    have h4 : Real.sqrt 2 / 3 * (1 + 1 / 10 ^ 5) * W ^ 3 ≤ 2 / 3 * (1 + 1 / 10 ^ 5) * 2 ^ 3 := by gcongr
    norm_num at h4 ⊢
    linarith

end Verif.Lambert
