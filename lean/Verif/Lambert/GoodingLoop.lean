import Mathlib.Analysis.Real.Pi.Bounds
import Mathlib.Analysis.SpecialFunctions.Trigonometric.Bounds
import Verif.Lambert.Gooding
/-!
The loop of the solver of Gooding: what holds in every round, and what the solver returns.
-/
namespace Verif.Lambert
open Matrix
open Verif.MathU (V3 nrm atan2 dot3 nrm_sq nrm_nonneg ext3 cross0 cross1 cross2)

theorem pi_sq_bounds : 9 < Real.pi ^ 2 ∧ Real.pi ^ 2 < 10 := by
  have h1 := Real.pi_gt_three
  have h2 := Real.pi_lt_d2
  constructor <;> nlinarith

/-- The functions are computed exactly when `phi` is not small, and when it is zero. -/
theorem stumpff_exact {φ : ℝ} (h : 1 / 10 ^ 4 < |φ| ∨ φ = 0) : IsStumpff φ (stumpff φ).1 (stumpff φ).2 := by
  rcases h with h | h
  · rcases lt_abs.1 h with h' | h'
    · have h0 : 0 < φ := lt_trans (by norm_num) h'
      refine Or.inl ⟨h0, ?_, ?_⟩
      · rw [stumpff, if_pos h']
      · rw [stumpff, if_pos h']
        show _ / Real.sqrt (φ ^ 3) = _
        congr 1
        rw [Real.sqrt_eq_iff_mul_self_eq (by positivity) (by positivity)]
        have : Real.sqrt φ ^ 2 = φ := Real.sq_sqrt h0.le
        calc φ ^ 3 = (Real.sqrt φ ^ 2) ^ 3 := by rw [this]
          _ = _ := by ring
    · have h0 : φ < 0 := by
        have : (0 : ℝ) < 1 / 10 ^ 4 := by norm_num
        linarith
      have h1 : ¬ φ > 1 / 10 ^ 4 := by
        have : (0 : ℝ) < 1 / 10 ^ 4 := by norm_num
        intro h; linarith
      have h2 : φ < -(1 / 10 ^ 4) := by linarith
      refine Or.inr (Or.inr ⟨h0, ?_, ?_⟩)
      · rw [stumpff, if_neg h1, if_pos h2]
      · rw [stumpff, if_neg h1, if_pos h2]
        show _ / Real.sqrt ((-φ) ^ 3) = _
        congr 1
        have h3 : 0 < -φ := by linarith
        rw [Real.sqrt_eq_iff_mul_self_eq (by positivity) (by positivity)]
        have : Real.sqrt (-φ) ^ 2 = -φ := Real.sq_sqrt h3.le
        calc (-φ) ^ 3 = (Real.sqrt (-φ) ^ 2) ^ 3 := by rw [this]
          _ = _ := by ring
  · subst h
    refine Or.inr (Or.inl ⟨rfl, ?_, ?_⟩) <;> norm_num [stumpff]

theorem stumpff_small {φ : ℝ} (h : ¬ (1 / 10 ^ 4 < |φ|)) : stumpff φ = (1 / 2, 1 / 6) := by
  have h' := abs_le.1 (not_lt.1 h)
  rw [stumpff, if_neg (by linarith [h'.2]), if_neg (by linarith [h'.1])]

theorem cosh_ge (x : ℝ) (hx : 0 ≤ x) : 1 + x ^ 2 / 2 ≤ Real.cosh x := by
  have h1 := Real.cosh_two_mul (x / 2)
  rw [show 2 * (x / 2) = x by ring, Real.cosh_sq] at h1
  have h2 : x / 2 ≤ Real.sinh (x / 2) := Real.self_le_sinh_iff.2 (by linarith)
  rw [h1]
  nlinarith

/-- Up to one revolution, both functions are positive. -/
theorem stumpff_pos {φ : ℝ} (h : φ < 4 * Real.pi ^ 2) : 0 < (stumpff φ).1 ∧ 0 < (stumpff φ).2 := by
  by_cases hs : 1 / 10 ^ 4 < |φ|
  · rcases stumpff_exact (Or.inl hs) with ⟨h0, h2, h3⟩ | ⟨h0, h2, h3⟩ | ⟨h0, h2, h3⟩
    · rw [h2, h3]
      have hp : 0 < Real.sqrt φ := Real.sqrt_pos.2 h0
      have hlt : Real.sqrt φ < 2 * Real.pi := by
        rw [Real.sqrt_lt' (by positivity)]
        linarith [show (2 * Real.pi) ^ 2 = 4 * Real.pi ^ 2 by ring]
      constructor
      · have hne : Real.cos (Real.sqrt φ) ≠ 1 := by
          intro e
          have := (Real.cos_eq_one_iff_of_lt_of_lt (by linarith [Real.pi_pos]) hlt).1 e
          exact hp.ne' this
        have := lt_of_le_of_ne (Real.cos_le_one _) hne
        exact div_pos (by linarith) h0
      · exact div_pos (by linarith [Real.sin_lt hp]) (by positivity)
    · rw [h2, h3]; norm_num
    · rw [h2, h3]
      have hp : 0 < Real.sqrt (-φ) := Real.sqrt_pos.2 (by linarith)
      constructor
      · have := Real.one_lt_cosh.2 hp.ne'
        exact div_pos_of_neg_of_neg (by linarith) h0
      · exact div_pos (by linarith [Real.self_lt_sinh_iff.2 hp]) (by positivity)
  · rw [stumpff_small hs]; norm_num

/-- For a negative `phi` the first function is at least one half. -/
theorem stumpff_half {φ : ℝ} (h : φ < 0) : 1 / 2 ≤ (stumpff φ).1 := by
  by_cases hs : 1 / 10 ^ 4 < |φ|
  · rcases stumpff_exact (Or.inl hs) with ⟨h0, -, -⟩ | ⟨h0, -, -⟩ | ⟨h0, h2, -⟩
    · linarith
    · linarith
    · rw [h2]
      have := cosh_ge (Real.sqrt (-φ)) (Real.sqrt_nonneg _)
      rw [Real.sq_sqrt (by linarith)] at this
      rw [le_div_iff_of_neg h0]
      linarith
  · rw [stumpff_small hs]

/-- For `phi ≥ 0`, `(1 - phi c3)² ≤ 2 c2`. -/
theorem stumpff_le {φ : ℝ} (h : 0 ≤ φ) : (1 - φ * (stumpff φ).2) ^ 2 ≤ 2 * (stumpff φ).1 := by
  by_cases hs : 1 / 10 ^ 4 < |φ|
  · have := (stumpff_exact (Or.inl hs)).relation
    nlinarith [sq_nonneg (stumpff φ).1]
  · rw [stumpff_small hs]
    have h' := (abs_le.1 (not_lt.1 hs)).2
    have h'' : φ ≤ 1 := le_trans h' (by norm_num)
    show (1 - φ * (1 / 6)) ^ 2 ≤ 2 * (1 / 2)
    nlinarith

/-- What the parameters of the loop are: `a² ≤ 2 r1 r2`, with `r1` and `r2` positive. -/
structure Geometry (a n1 n2 : ℝ) : Prop where
  pos1 : 0 < n1
  pos2 : 0 < n2
  le : a ^ 2 ≤ 2 * (n1 * n2)

theorem Geometry.sqrt_two {a n1 n2 : ℝ} (g : Geometry a n1 n2) : 2 * a ^ 2 ≤ (n1 + n2) ^ 2 := by
  have := g.le
  nlinarith [sq_nonneg (n1 - n2)]

/-- If `(1 - phi c3)² ≤ 2 c2` then `y` is not negative. -/
theorem y_nonneg {a n1 n2 : ℝ} (g : Geometry a n1 n2) {phi c2 c3 : ℝ} (hc : 0 < c2) (h : (1 - phi * c3) ^ 2 ≤ 2 * c2) :
    0 ≤ yOf a n1 n2 phi c2 c3 := by
  have hk : 0 < Real.sqrt c2 := Real.sqrt_pos.2 hc
  have hkk : Real.sqrt c2 ^ 2 = c2 := Real.sq_sqrt hc.le
  have e : a * (phi * c3 - 1) / Real.sqrt c2 = -(a * (1 - phi * c3) / Real.sqrt c2) := by ring
  rw [yOf, e]
  have hs : 0 < n1 + n2 := add_pos g.pos1 g.pos2
  have : a * (1 - phi * c3) / Real.sqrt c2 ≤ n1 + n2 := by
    rw [div_le_iff₀ hk]
    refine le_of_abs_le (abs_le_of_sq_le_sq ?_ (by positivity))
    rw [mul_pow, mul_pow, hkk]
    have h2 := g.sqrt_two
    calc a ^ 2 * (1 - phi * c3) ^ 2 ≤ a ^ 2 * (2 * c2) := mul_le_mul_of_nonneg_left h (sq_nonneg a)
      _ = (2 * a ^ 2) * c2 := by ring
      _ ≤ (n1 + n2) ^ 2 * c2 := mul_le_mul_of_nonneg_right h2 hc.le
  linarith

/-- If `a (1 - phi c3) ≤ 0` then `y` is not negative. -/
theorem y_nonneg' {a n1 n2 : ℝ} (g : Geometry a n1 n2) {phi c2 c3 : ℝ} (h : a * (1 - phi * c3) ≤ 0) :
    0 ≤ yOf a n1 n2 phi c2 c3 := by
  have e : a * (phi * c3 - 1) / Real.sqrt c2 = (-(a * (1 - phi * c3))) / Real.sqrt c2 := by ring
  rw [yOf, e]
  have : 0 ≤ (-(a * (1 - phi * c3))) / Real.sqrt c2 := div_nonneg (by linarith) (Real.sqrt_nonneg _)
  linarith [g.pos1, g.pos2]

/-- What holds at the start of every round. -/
structure Inv (s : Iter) : Prop where
  lower : -4 * Real.pi ^ 2 ≤ s.lower ∧ s.lower < 4 * Real.pi ^ 2
  upper : -4 * Real.pi ^ 2 < s.upper ∧ s.upper ≤ 4 * Real.pi ^ 2
  phi : -4 * Real.pi ^ 2 < s.phi ∧ s.phi < 4 * Real.pi ^ 2
  c : (s.c2, s.c3) = stumpff s.phi

theorem Inv.start : Inv Iter.start := by
  have := pi_sq_bounds.1
  refine ⟨⟨le_rfl, ?_⟩, ⟨?_, le_rfl⟩, ⟨?_, ?_⟩, ?_⟩
  · show -4 * Real.pi ^ 2 < 4 * Real.pi ^ 2; linarith
  · show -4 * Real.pi ^ 2 < 4 * Real.pi ^ 2; linarith
  · show -4 * Real.pi ^ 2 < 0; linarith
  · show 0 < 4 * Real.pi ^ 2; linarith
  · norm_num [Iter.start, stumpff]

/-- The loop that increases `phi` ends with a value of `y` that is not negative. -/
theorem push_spec {a n1 n2 c2 c3 : ℝ} (g : Geometry a n1 n2) (ha : 0 < a) (hc2 : 1 / 2 ≤ c2) (hc3 : 0 < c3) :
    ∀ (k : Nat) (phi y : ℝ), phi < 0 → -(k : ℝ) / 10 ≤ phi →
      phi < (push a n1 n2 c2 c3 k phi y).1 ∧ (push a n1 n2 c2 c3 k phi y).1 < 1 / 10 ∧
      0 ≤ (push a n1 n2 c2 c3 k phi y).2 ∧
      (push a n1 n2 c2 c3 k phi y).2 = yOf a n1 n2 (push a n1 n2 c2 c3 k phi y).1 c2 c3
  | 0, phi, y, h0, h1 => by simp at h1; linarith
  | k + 1, phi, y, h0, h1 => by
    rw [push]
    by_cases hy : 0 ≤ yOf a n1 n2 (phi + 1 / 10) c2 c3
    · simp only [if_pos hy]
      exact ⟨by linarith, by linarith, hy, trivial⟩
    · simp only [if_neg hy]
      have hneg : phi + 1 / 10 < 0 := by
        by_contra hp
        have hp' : 0 ≤ phi + 1 / 10 := not_lt.1 hp
        refine hy ?_
        by_cases h2 : 0 ≤ 1 - (phi + 1 / 10) * c3
        · refine y_nonneg g (by linarith) ?_
          have h3 : 1 - (phi + 1 / 10) * c3 ≤ 1 := by nlinarith
          nlinarith
        · exact y_nonneg' g (mul_nonpos_of_nonneg_of_nonpos ha.le (by linarith))
      have hk : -(k : ℝ) / 10 ≤ phi + 1 / 10 := by
        push_cast at h1
        linarith
      obtain ⟨p1, p2, p3, p4⟩ := push_spec g ha hc2 hc3 k (phi + 1 / 10) (yOf a n1 n2 (phi + 1 / 10) c2 c3) hneg hk
      exact ⟨by linarith, p2, p3, p4⟩

/-- The choice of `phi` and `y`: `y` is never negative, comes from the `phi` chosen, and `phi` only moves when `a` is
positive and `phi` negative. -/
theorem chooseY_spec {a n1 n2 : ℝ} (g : Geometry a n1 n2) {s : Iter} (hi : Inv s) :
    0 ≤ (chooseY a n1 n2 s).2 ∧ (chooseY a n1 n2 s).2 = yOf a n1 n2 (chooseY a n1 n2 s).1 s.c2 s.c3 ∧
      ((chooseY a n1 n2 s).1 = s.phi ∨
        (0 < a ∧ s.phi < 0 ∧ s.phi < (chooseY a n1 n2 s).1 ∧ (chooseY a n1 n2 s).1 < 1 / 10)) := by
  have hc := hi.c
  have e2 : s.c2 = (stumpff s.phi).1 := by rw [← hc]
  have e3 : s.c3 = (stumpff s.phi).2 := by rw [← hc]
  obtain ⟨p2, p3⟩ := stumpff_pos hi.phi.2
  rw [← e2] at p2
  rw [← e3] at p3
  by_cases h : 0 < a ∧ yOf a n1 n2 s.phi s.c2 s.c3 < 0
  · have hphi : s.phi < 0 := by
      by_contra hp
      have := stumpff_le (not_lt.1 hp)
      rw [← e2, ← e3] at this
      linarith [y_nonneg g p2 this, h.2]
    have hh := stumpff_half hphi
    rw [← e2] at hh
    have hpi := pi_sq_bounds.2
    obtain ⟨q1, q2, q3, q4⟩ := push_spec g h.1 hh p3 500 s.phi (yOf a n1 n2 s.phi s.c2 s.c3) hphi (by
      have := hi.phi.1
      norm_num
      linarith)
    simp only [chooseY, if_pos h]
    exact ⟨q3, q4, Or.inr ⟨h.1, hphi, q1, q2⟩⟩
  · simp only [chooseY, if_neg h]
    refine ⟨?_, trivial, Or.inl trivial⟩
    by_cases ha : 0 < a
    · by_contra hy
      exact h ⟨ha, not_le.1 hy⟩
    · by_cases h1 : 0 ≤ 1 - s.phi * s.c3
      · exact y_nonneg' g (mul_nonpos_of_nonpos_of_nonneg (not_lt.1 ha) h1)
      · have hphi : 0 ≤ s.phi := by
          by_contra hp
          have : s.phi * s.c3 < 0 := mul_neg_of_neg_of_pos (not_le.1 hp) p3
          linarith
        have := stumpff_le hphi
        rw [← e2, ← e3] at this
        exact y_nonneg g p2 this

/-- What the state after a round says: `y` and the time come from the `phi` and from the functions recorded, which are
those of the `phi` before it was moved. -/
structure Done (mu a n1 n2 : ℝ) (s : Iter) : Prop where
  y : 0 ≤ s.y
  eq : s.y = yOf a n1 n2 s.seen.1 s.seen.2.1 s.seen.2.2
  cur : s.cur = timeOf mu a s.seen.2.1 s.seen.2.2 s.y
  c2 : 0 < s.seen.2.1
  c3 : 0 < s.seen.2.2
  moved : s.seen.2 = stumpff s.seen.1 ∨
    0 < a ∧ ∃ φ, φ < 0 ∧ φ < s.seen.1 ∧ s.seen.1 < 1 / 10 ∧ s.seen.2 = stumpff φ

/-- A round never fails, keeps the invariant, and gives a state as above. -/
theorem goodStep_spec {mu a n1 n2 tof : ℝ} (g : Geometry a n1 n2) {s : Iter} (hi : Inv s) :
    ∃ s', goodStep mu a n1 n2 tof s = .ok s' ∧ Inv s' ∧ Done mu a n1 n2 s' := by
  obtain ⟨h1, h2, h3⟩ := chooseY_spec g hi
  have hpi := pi_sq_bounds
  have hc : -4 * Real.pi ^ 2 < (chooseY a n1 n2 s).1 ∧ (chooseY a n1 n2 s).1 < 4 * Real.pi ^ 2 := by
    rcases h3 with h3 | ⟨-, -, h4, h5⟩
    · rw [h3]; exact hi.phi
    · exact ⟨lt_trans hi.phi.1 h4, by linarith [hpi.1]⟩
  have hl := hi.lower
  have hu := hi.upper
  have hf : ¬ (0 < a ∧ (chooseY a n1 n2 s).2 < 0) := fun h => absurd h.2 (not_lt.2 h1)
  have p := stumpff_pos hi.phi.2
  rw [← hi.c] at p
  refine ⟨_, by simp only [goodStep, if_neg hf]; rfl, ?_, ?_⟩
  · split_ifs
    · exact ⟨⟨hc.1.le, hc.2⟩, hu, ⟨by show _ < (_ + _) / 2; linarith, by show (_ + _) / 2 < _; linarith⟩, rfl⟩
    · exact ⟨hl, ⟨hc.1, hc.2.le⟩, ⟨by show _ < (_ + _) / 2; linarith, by show (_ + _) / 2 < _; linarith⟩, rfl⟩
  · refine ⟨h1, h2, rfl, p.1, p.2, ?_⟩
    rcases h3 with h3 | ⟨h4, h5, h6, h7⟩
    · left
      show (s.c2, s.c3) = stumpff (chooseY a n1 n2 s).1
      rw [h3]; exact hi.c
    · exact Or.inr ⟨h4, s.phi, h5, h6, h7, hi.c⟩

/-- The loop ends with the state of a last round whose time is close enough to the one asked for, or gives up after
1001 rounds. It does not fail otherwise. -/
theorem goodLoop_spec {mu a n1 n2 tof : ℝ} (g : Geometry a n1 n2) :
    ∀ (k : Nat) (s : Iter), Inv s → (Done mu a n1 n2 s ∨ 1 / 10 ^ 4 < |s.cur - tof|) →
      goodLoop mu a n1 n2 tof k s = .fault (.maxIter 1000) ∨
      ∃ s', goodLoop mu a n1 n2 tof k s = .ok s' ∧ Done mu a n1 n2 s' ∧ |s'.cur - tof| ≤ 1 / 10 ^ 4
  | k, s, hi, hs => by
    by_cases h : |s.cur - tof| > 1 / 10 ^ 4
    · match k with
      | 0 => left; rw [goodLoop, if_pos h]
      | k + 1 =>
        obtain ⟨s', e, hi', hd⟩ := goodStep_spec (mu := mu) (tof := tof) g hi
        rw [goodLoop, if_pos h, e]
        exact goodLoop_spec g k s' hi' (Or.inl hd)
    · right
      have e : goodLoop mu a n1 n2 tof k s = .ok s := by cases k <;> rw [goodLoop, if_neg h]
      exact ⟨s, e, hs.resolve_right h, not_lt.1 h⟩

/-- The geometry of two positions. -/
theorem geometry_of {dm : ℝ} (hdm : dm ^ 2 = 1) {r1 r2 : V3} (h1 : 0 < nrm r1) (h2 : 0 < nrm r2) :
    Geometry (goodA dm r1 r2) (nrm r1) (nrm r2) := by
  refine ⟨h1, h2, ?_⟩
  rw [goodA_sq dm h1 h2, hdm]
  have := le_abs_self (r1 ⬝ᵥ r2)
  have := abs_dot_le r1 r2
  linarith

/-- The direction is one of two numbers. -/
theorem direction_cases {kind : Kind} {r2 r1 : V3} {dm : ℝ} (h : kind.direction r2 r1 = .ok dm) :
    dm = 1 ∨ dm = -1 := by
  cases kind with
  | auto =>
    simp only [Kind.direction] at h
    split_ifs at h <;> cases h
    · exact Or.inr rfl
    · exact Or.inl rfl
    · exact Or.inr rfl
    · exact Or.inl rfl
  | shortWay => cases h; exact Or.inl rfl
  | longWay => cases h; exact Or.inr rfl
  | nRevs n => cases h

/-- The automatic direction goes counterclockwise around the z axis. -/
theorem direction_auto {r2 r1 : V3} {dm : ℝ} (h : Kind.auto.direction r2 r1 = .ok dm) :
    0 ≤ dm * (r1 ⨯₃ r2) 2 := by
  obtain ⟨x1, y1⟩ := Verif.MathU.atan2_polar (r1 1) (r1 0)
  obtain ⟨x2, y2⟩ := Verif.MathU.atan2_polar (r2 1) (r2 0)
  have b1 := Complex.neg_pi_lt_arg ⟨r1 0, r1 1⟩
  have b2 := Complex.arg_le_pi ⟨r1 0, r1 1⟩
  have b3 := Complex.neg_pi_lt_arg ⟨r2 0, r2 1⟩
  have b4 := Complex.arg_le_pi ⟨r2 0, r2 1⟩
  have hz : (r1 ⨯₃ r2) 2 = (Real.sqrt (r1 0 * r1 0 + r1 1 * r1 1) * Real.sqrt (r2 0 * r2 0 + r2 1 * r2 1)) *
      Real.sin (atan2 (r2 1) (r2 0) - atan2 (r1 1) (r1 0)) := by
    rw [cross2, Real.sin_sub]
    linear_combination (-(r2 1)) * x1 + (r2 0) * y1 + (Real.sqrt (r1 0 * r1 0 + r1 1 * r1 1) * Real.sin (atan2 (r1 1) (r1 0))) * x2 - (Real.sqrt (r1 0 * r1 0 + r1 1 * r1 1) * Real.cos (atan2 (r1 1) (r1 0))) * y2
  rw [hz]
  set q := Real.sqrt (r1 0 * r1 0 + r1 1 * r1 1) * Real.sqrt (r2 0 * r2 0 + r2 1 * r2 1)
  have hq : 0 ≤ q := by positivity
  simp only [Kind.direction] at h
  set d := atan2 (r2 1) (r2 0) - atan2 (r1 1) (r1 0) with hd
  have hd1 : -(2 * Real.pi) < d := by simp only [hd, atan2]; linarith
  have hd2 : d < 2 * Real.pi := by simp only [hd, atan2]; linarith
  have hpos : ∀ x, 0 ≤ x → x ≤ Real.pi → 0 ≤ Real.sin x := fun x h1 h2 => Real.sin_nonneg_of_nonneg_of_le_pi h1 h2
  have hneg : ∀ x, Real.pi < x → x < 2 * Real.pi → Real.sin x ≤ 0 := fun x h1 h2 => by
    rw [← Real.sin_sub_two_pi]
    exact (Real.sin_nonpos_of_nonpos_of_neg_pi_le (by linarith) (by linarith))
  by_cases h0 : d < 0
  · rw [if_pos h0] at h
    have hs : Real.sin d = Real.sin (d + 2 * Real.pi) := (Real.sin_add_two_pi d).symm
    by_cases h1 : Real.pi < d + 2 * Real.pi
    · rw [if_pos h1] at h
      cases h
      rw [hs]
      nlinarith [hneg _ h1 (by linarith)]
    · rw [if_neg h1] at h
      cases h
      rw [hs]
      nlinarith [hpos (d + 2 * Real.pi) (by linarith) (not_lt.1 h1)]
  · rw [if_neg h0] at h
    by_cases h1 : Real.pi < d
    · rw [if_pos h1] at h
      cases h
      nlinarith [hneg _ h1 hd2]
    · rw [if_neg h1] at h
      cases h
      nlinarith [hpos d (not_lt.1 h0) (not_lt.1 h1)]

/-- What `gooding` does: the error for several revolutions, the error for targets that are too close, the error after
too many rounds, or a solution whose time is within 0.1 ms of the one asked for. The error of an unreasonable `phi`
never occurs, and no square root is taken of a negative number: `y` is not negative and `c2` is positive. -/
theorem gooding_outcome {inp : Input} {kind : Kind} {mu : ℝ} (hm : inp.initial.frame.mu = some mu)
    (h1 : inp.initial.pos ≠ 0) (h2 : inp.final.pos ≠ 0) (htof : 1 / 10 ^ 4 < |inp.tof|) :
    gooding inp kind = .fault .multiRevNotSupported ∨ gooding inp kind = .fault .tooClose ∨
    gooding inp kind = .fault (.maxIter 1000) ∨
    ∃ dm s, kind.direction inp.final.pos inp.initial.pos = .ok dm ∧
      Done mu (goodA dm inp.initial.pos inp.final.pos) (nrm inp.initial.pos) (nrm inp.final.pos) s ∧
      |s.cur - inp.tof| ≤ 1 / 10 ^ 4 ∧
      gooding inp kind = .ok ⟨(goodVelocities mu (goodA dm inp.initial.pos inp.final.pos) s.y inp.initial.pos
        inp.final.pos).1, (goodVelocities mu (goodA dm inp.initial.pos inp.final.pos) s.y inp.initial.pos
        inp.final.pos).2, s.phi, inp⟩ := by
  have n1 := Verif.MathU.nrm_pos _ h1
  have n2 := Verif.MathU.nrm_pos _ h2
  have hmu : inp.mu = .ok mu := by rw [Input.mu, hm]
  rcases hk : kind.direction inp.final.pos inp.initial.pos with dm | e | _
  · have hdm : dm ^ 2 = 1 := by rcases direction_cases hk with h | h <;> rw [h] <;> norm_num
    have g := geometry_of hdm n1 n2
    simp only [gooding, hmu, hk, Res.bind]
    by_cases ht : tooClose (goodA dm inp.initial.pos inp.final.pos) inp.initial.pos inp.final.pos
    · rw [if_pos ht]; exact Or.inr (Or.inl rfl)
    · simp only [if_neg ht]
      rcases goodLoop_spec (mu := mu) (tof := inp.tof) g 1001 Iter.start Inv.start
        (Or.inr (by show 1 / 10 ^ 4 < |0 - inp.tof|; rw [zero_sub, abs_neg]; exact htof)) with hl | ⟨s, hl, hd, hs⟩
      · rw [hl]; exact Or.inr (Or.inr (Or.inl rfl))
      · rw [hl]
        exact Or.inr (Or.inr (Or.inr ⟨dm, s, rfl, hd, hs, rfl⟩))
  · left
    simp only [gooding, hmu, hk, Res.bind]
    cases kind with
    | auto => simp only [Kind.direction] at hk; split_ifs at hk
    | shortWay => cases hk
    | longWay => cases hk
    | nRevs n => cases hk; rfl
  · cases kind with
    | auto => simp only [Kind.direction] at hk; split_ifs at hk
    | shortWay => cases hk
    | longWay => cases hk
    | nRevs n => cases hk

/-- The sense of the motion that the kind of transfer asks for, given the angular momentum `h` of the transfer:
along `r1 × r2` (less than half a turn), against it (more than half a turn), or counterclockwise around z. -/
def Sense (kind : Kind) (r1 r2 h : V3) : Prop :=
  match kind with
  | .shortWay => ∃ k : ℝ, 0 < k ∧ h = k • (r1 ⨯₃ r2)
  | .longWay => ∃ k : ℝ, k < 0 ∧ h = k • (r1 ⨯₃ r2)
  | .auto => 0 ≤ h 2
  | .nRevs _ => False

theorem goodA_sign {dm : ℝ} {r1 r2 : V3} (hc : r1 ⨯₃ r2 ≠ 0) (h : dm = 1 ∨ dm = -1) :
    goodA dm r1 r2 ≠ 0 ∧ 0 < dm * goodA dm r1 r2 ∧ goodA dm r1 r2 ^ 2 = nrm r1 * nrm r2 + r1 ⬝ᵥ r2 := by
  obtain ⟨n1, n2⟩ := nrm_ne_zero_of_cross hc
  have hp : 0 < nrm r1 * nrm r2 := mul_pos n1 n2
  have e : nrm r1 * nrm r2 * (1 + r1 ⬝ᵥ r2 / (nrm r1 * nrm r2)) = nrm r1 * nrm r2 + r1 ⬝ᵥ r2 := by
    field_simp
  have hP : 0 < nrm r1 * nrm r2 + r1 ⬝ᵥ r2 := by
    have := dot_lt_of_cross hc
    have := neg_abs_le (r1 ⬝ᵥ r2)
    linarith
  have hq := Real.sqrt_pos.2 hP
  refine ⟨?_, ?_, ?_⟩
  · rw [goodA, e]; rcases h with h | h <;> rw [h] <;> simp [hq.ne']
  · rw [goodA, e]; rcases h with h | h <;> rw [h] <;> simpa using hq
  · rw [goodA_sq dm n1 n2]; rcases h with h | h <;> rw [h] <;> ring

theorem sense_of {kind : Kind} {r1 r2 h : V3} {dm g : ℝ} (hk : kind.direction r2 r1 = .ok dm) (hg : 0 < dm * g)
    (e : g • h = r1 ⨯₃ r2) : Sense kind r1 r2 h := by
  have hg0 : g ≠ 0 := by rintro rfl; simp at hg
  have e' : h = (1 / g) • (r1 ⨯₃ r2) := by rw [← e, smul_smul, one_div_mul_cancel hg0, one_smul]
  cases kind with
  | auto =>
    have := direction_auto hk
    show 0 ≤ h 2
    rw [e']
    show 0 ≤ 1 / g * (r1 ⨯₃ r2) 2
    rcases direction_cases hk with h' | h' <;> rw [h'] at hg this
    · exact mul_nonneg (by have : 0 < g := by linarith
                           positivity) (by linarith)
    · have h2 : 1 / g < 0 := one_div_neg.2 (by linarith)
      nlinarith
  | shortWay =>
    cases hk
    exact ⟨1 / g, one_div_pos.2 (by linarith), e'⟩
  | longWay =>
    cases hk
    exact ⟨1 / g, one_div_neg.2 (by linarith), e'⟩
  | nRevs n => cases hk

/-- The state of a last round with a time that is not zero has a positive `y`. -/
theorem Done.y_pos {mu a n1 n2 tof : ℝ} {s : Iter} (h : Done mu a n1 n2 s) (hs : |s.cur - tof| ≤ 1 / 10 ^ 4)
    (ht : 1 / 10 ^ 4 < |tof|) : 0 < s.y := by
  rcases h.y.lt_or_eq with h' | h'
  · exact h'
  · have : s.cur = 0 := by rw [h.cur, ← h', timeOf]; simp
    rw [this, zero_sub, abs_neg] at hs
    linarith

/-- C57: whatever the time asked for (more than 0.1 ms) and wherever the loop stops, the two velocities that `gooding`
returns lie on one orbit through both positions: same angular momentum, same eccentricity vector, same energy. The
motion goes in the sense asked for. -/
theorem gooding_conic {inp : Input} {kind : Kind} {mu : ℝ} {sol : Solution} (hm : inp.initial.frame.mu = some mu)
    (hmu : 0 < mu) (hc : inp.initial.pos ⨯₃ inp.final.pos ≠ 0) (htof : 1 / 10 ^ 4 < |inp.tof|)
    (h : gooding inp kind = .ok sol) :
    ∃ v1 v2, sol.vInit = some v1 ∧ sol.vFinal = some v2 ∧
      inp.final.pos ⨯₃ v2 = inp.initial.pos ⨯₃ v1 ∧ inp.initial.pos ⨯₃ v1 ≠ 0 ∧
      ecc mu inp.final.pos v2 = ecc mu inp.initial.pos v1 ∧
      energy mu inp.final.pos v2 = energy mu inp.initial.pos v1 ∧
      Sense kind inp.initial.pos inp.final.pos (inp.initial.pos ⨯₃ v1) := by
  have h1 : inp.initial.pos ≠ 0 := fun e => hc (by rw [e]; simp)
  have h2 : inp.final.pos ≠ 0 := fun e => hc (by rw [e]; simp)
  rcases gooding_outcome (kind := kind) hm h1 h2 htof with e | e | e | ⟨dm, s, hk, hd, hs, e⟩
  · rw [e] at h; cases h
  · rw [e] at h; cases h
  · rw [e] at h; cases h
  · rw [e] at h
    injection h with h
    obtain ⟨a0, a1, a2⟩ := goodA_sign hc (direction_cases hk)
    have hy := hd.y_pos hs htof
    obtain ⟨v1, v2, ev, e1, e2⟩ := goodVelocities_some hmu a0 hy inp.initial.pos inp.final.pos
    obtain ⟨k1, k2, k3, k4⟩ := velocities_conic hmu a0 hy hc a2 e1 e2
    refine ⟨v1, v2, by rw [← h, ev], by rw [← h, ev], k2, ?_, k3, k4, ?_⟩
    · intro z
      rw [z, smul_zero] at k1
      exact hc k1.symm
    · refine sense_of hk ?_ k1
      have := Real.sqrt_pos.2 (div_pos hy hmu)
      calc 0 < (dm * goodA dm inp.initial.pos inp.final.pos) * Real.sqrt (s.y / mu) := mul_pos a1 this
        _ = _ := by ring

/-- The solver used the exact functions in its last round, or one of the two ways in which it does not occurred: a
`phi` within 1e-4 of zero but not zero, or a negative `phi` that was increased without computing the functions again. -/
def LastExact (s : Iter) : Prop := IsStumpff s.seen.1 s.seen.2.1 s.seen.2.2

theorem Done.exact_or {mu a n1 n2 : ℝ} {s : Iter} (h : Done mu a n1 n2 s) :
    LastExact s ∨ (s.seen.1 ≠ 0 ∧ |s.seen.1| ≤ 1 / 10 ^ 4) ∨
      (0 < a ∧ ∃ φ, φ < 0 ∧ φ < s.seen.1 ∧ s.seen.2 = stumpff φ) := by
  rcases h.moved with h' | ⟨h1, φ, h2, h3, -, h4⟩
  · by_cases hx : 1 / 10 ^ 4 < |s.seen.1| ∨ s.seen.1 = 0
    · left
      have := stumpff_exact hx
      rw [← h'] at this
      exact this
    · right; left
      push Not at hx
      exact ⟨hx.2, hx.1⟩
  · exact Or.inr (Or.inr ⟨h1, φ, h2, h3, h4⟩)

/-- The full claim: the flight from the first position with the first velocity reaches the second position with the
second velocity, after the time asked for to within 0.1 ms. It is shown when the last round used the exact functions
`c2` and `c3` of its `phi`; `Done.exact_or` lists the other cases, in which the velocities still lie on one orbit
(`gooding_conic`) but the time of flight on it is not the one that was compared. -/
theorem gooding_solves_partial {inp : Input} {kind : Kind} {mu dm : ℝ} {sol : Solution} {s : Iter}
    (hm : inp.initial.frame.mu = some mu) (hmu : 0 < mu) (hc : inp.initial.pos ⨯₃ inp.final.pos ≠ 0)
    (htof : 1 / 10 ^ 4 < |inp.tof|) (hk : kind.direction inp.final.pos inp.initial.pos = .ok dm)
    (hl : goodLoop mu (goodA dm inp.initial.pos inp.final.pos) (nrm inp.initial.pos) (nrm inp.final.pos) inp.tof 1001
      Iter.start = .ok s) (hx : LastExact s) (h : gooding inp kind = .ok sol) :
    ∃ v1 v2 T, sol.vInit = some v1 ∧ sol.vFinal = some v2 ∧ |T - inp.tof| ≤ 1 / 10 ^ 4 ∧
      Reaches mu inp.initial.pos v1 inp.final.pos v2 T := by
  have h1 : inp.initial.pos ≠ 0 := fun e => hc (by rw [e]; simp)
  have h2 : inp.final.pos ≠ 0 := fun e => hc (by rw [e]; simp)
  have n1 := Verif.MathU.nrm_pos _ h1
  have n2 := Verif.MathU.nrm_pos _ h2
  have hmu' : inp.mu = .ok mu := by rw [Input.mu, hm]
  have hdm : dm ^ 2 = 1 := by rcases direction_cases hk with h | h <;> rw [h] <;> norm_num
  simp only [gooding, hmu', hk, Res.bind] at h
  split_ifs at h with ht
  rw [hl] at h
  injection h with h
  rcases goodLoop_spec (mu := mu) (tof := inp.tof) (geometry_of hdm n1 n2) 1001 Iter.start Inv.start
    (Or.inr (by show 1 / 10 ^ 4 < |0 - inp.tof|; rw [zero_sub, abs_neg]; exact htof)) with hl' | ⟨s', hl', hd, hs⟩
  · rw [hl] at hl'; cases hl'
  · rw [hl] at hl'
    injection hl' with hl'
    subst hl'
    obtain ⟨a0, a1, a2⟩ := goodA_sign hc (direction_cases hk)
    have hy := hd.y_pos hs htof
    obtain ⟨v1, v2, ev, e1, e2⟩ := goodVelocities_some hmu a0 hy inp.initial.pos inp.final.pos
    refine ⟨v1, v2, s.cur, by rw [← h, ev], by rw [← h, ev], hs, ?_⟩
    rw [hd.cur]
    exact velocities_reach hmu a0 hy hd.c2 hc a2 hx hd.eq e1 e2

/-! ### Concrete cases -/

/-- A parabolic transfer of a quarter of a turn in one second: positions on the axes x and y, at the distance 1. -/
noncomputable def quarterTime : ℝ :=
  Real.sqrt ((2 - 1 / Real.sqrt (1 / 2)) / (1 / 2)) ^ 3 * (1 / 6) + Real.sqrt (2 - 1 / Real.sqrt (1 / 2))

noncomputable def quarter (t : Int) (mu : ℝ) : Input :=
  ⟨⟨![1, 0, 0], 0, 0, ⟨(0, 0), some mu⟩⟩, ⟨![0, 1, 0], 0, t, ⟨(0, 0), some mu⟩⟩⟩

theorem nrm_e0 : nrm (![1, 0, 0] : V3) = 1 := by
  have : nrm (![1, 0, 0] : V3) = Real.sqrt ((![1, 0, 0] : V3) ⬝ᵥ ![1, 0, 0]) := rfl
  rw [this, dot3]; simp

theorem nrm_e1 : nrm (![0, 1, 0] : V3) = 1 := by
  have : nrm (![0, 1, 0] : V3) = Real.sqrt ((![0, 1, 0] : V3) ⬝ᵥ ![0, 1, 0]) := rfl
  rw [this, dot3]; simp

theorem quarter_cross : (![1, 0, 0] : V3) ⨯₃ ![0, 1, 0] ≠ 0 := by
  intro h
  have := congrFun h 2
  rw [cross2] at this
  simp at this

theorem quarter_a : goodA 1 (![1, 0, 0] : V3) ![0, 1, 0] = 1 := by
  rw [goodA, nrm_e0, nrm_e1, dot3]; simp

theorem quarter_close : ¬ tooClose 1 (![1, 0, 0] : V3) ![0, 1, 0] := by
  rintro ⟨-, h⟩
  norm_num at h

theorem quarter_y : 0 < 2 - 1 / Real.sqrt (1 / 2 : ℝ) := by
  have h : (1 / 2 : ℝ) < Real.sqrt (1 / 2) := Real.lt_sqrt_of_sq_lt (by norm_num)
  have h0 : 0 < Real.sqrt (1 / 2 : ℝ) := lt_trans (by norm_num) h
  rw [sub_pos, div_lt_iff₀ h0]
  linarith

theorem quarter_time_pos : 0 < quarterTime :=
  add_pos_of_nonneg_of_pos (by positivity) (Real.sqrt_pos.2 quarter_y)

/-- The loop on the transfer of a quarter of a turn ends after one round, with `phi = 0`. -/
theorem quarter_loop : ∃ s, goodLoop (quarterTime ^ 2) 1 1 1 1 1001 Iter.start = .ok s ∧ LastExact s := by
  have hy : yOf 1 1 1 0 (1 / 2) (1 / 6) = 2 - 1 / Real.sqrt (1 / 2) := by rw [yOf]; ring
  have hch : chooseY 1 1 1 Iter.start = (0, 2 - 1 / Real.sqrt (1 / 2)) := by
    have : ¬ ((0 : ℝ) < 1 ∧ yOf 1 1 1 Iter.start.phi Iter.start.c2 Iter.start.c3 < 0) := by
      rintro ⟨-, h⟩
      have : yOf 1 1 1 Iter.start.phi Iter.start.c2 Iter.start.c3 = 2 - 1 / Real.sqrt (1 / 2) := hy
      rw [this] at h
      linarith [quarter_y]
    simp only [chooseY, if_neg this]
    exact Prod.ext rfl hy
  have hcur : timeOf (quarterTime ^ 2) 1 (1 / 2) (1 / 6) (2 - 1 / Real.sqrt (1 / 2)) = 1 := by
    rw [timeOf, Real.sqrt_sq quarter_time_pos.le, one_mul]
    exact div_self quarter_time_pos.ne'
  have h0 : |Iter.start.cur - 1| > (1 / 10 ^ 4 : ℝ) := by
    show |(0 : ℝ) - 1| > 1 / 10 ^ 4
    norm_num
  have hf : ¬ ((0 : ℝ) < 1 ∧ (chooseY 1 1 1 Iter.start).2 < 0) := by
    rintro ⟨-, h⟩
    rw [hch] at h
    exact absurd h (not_lt.2 quarter_y.le)
  obtain ⟨s', e, hcur', hseen⟩ : ∃ s', goodStep (quarterTime ^ 2) 1 1 1 1 Iter.start = .ok s' ∧ s'.cur = 1 ∧
      s'.seen = (0, 1 / 2, 1 / 6) := by
    refine ⟨_, by simp only [goodStep, if_neg hf]; rfl, ?_, ?_⟩
    · show timeOf (quarterTime ^ 2) 1 (1 / 2) (1 / 6) (chooseY 1 1 1 Iter.start).2 = 1
      rw [hch, hcur]
    · show ((chooseY 1 1 1 Iter.start).1, (1 / 2 : ℝ), (1 / 6 : ℝ)) = _
      rw [hch]
  refine ⟨s', ?_, ?_⟩
  · rw [goodLoop, if_pos h0, e]
    have h1 : ¬ |s'.cur - 1| > (1 / 10 ^ 4 : ℝ) := by rw [hcur']; norm_num
    show goodLoop (quarterTime ^ 2) 1 1 1 1 1000 s' = .ok s'
    rw [goodLoop, if_neg h1]
  · rw [LastExact, hseen]
    exact Or.inr (Or.inl ⟨rfl, rfl, rfl⟩)

theorem quarter_tof {mu : ℝ} : (quarter 1000000000 mu).tof = 1 := by
  show (((1000000000 : Int) - 0 : Int) : ℝ) / 10 ^ 9 = 1
  norm_num

/-- `gooding` solves the transfer of a quarter of a turn in one second: the hypotheses of the theorems are met. -/
theorem quarter_solved : ∃ sol v1 v2 T, gooding (quarter 1000000000 (quarterTime ^ 2)) .shortWay = .ok sol ∧
    sol.vInit = some v1 ∧ sol.vFinal = some v2 ∧ |T - 1| ≤ 1 / 10 ^ 4 ∧
    Reaches (quarterTime ^ 2) ![1, 0, 0] v1 ![0, 1, 0] v2 T := by
  obtain ⟨s, hl, hx⟩ := quarter_loop
  have htof : (quarter 1000000000 (quarterTime ^ 2)).tof = 1 := quarter_tof
  have hl' : goodLoop (quarterTime ^ 2) (goodA 1 ![1, 0, 0] ![0, 1, 0]) (nrm (![1, 0, 0] : V3))
      (nrm (![0, 1, 0] : V3)) (quarter 1000000000 (quarterTime ^ 2)).tof 1001 Iter.start = .ok s := by
    rw [quarter_a, nrm_e0, nrm_e1, htof]; exact hl
  obtain ⟨sol, e⟩ : ∃ sol, gooding (quarter 1000000000 (quarterTime ^ 2)) .shortWay = .ok sol := by
    have h1 : (quarter 1000000000 (quarterTime ^ 2)).mu = .ok (quarterTime ^ 2) := rfl
    have h2' : ¬ tooClose (goodA 1 ![1, 0, 0] ![0, 1, 0]) (![1, 0, 0] : V3) ![0, 1, 0] := by
      rw [quarter_a]; exact quarter_close
    have h2 : ¬ tooClose (goodA 1 (quarter 1000000000 (quarterTime ^ 2)).initial.pos
      (quarter 1000000000 (quarterTime ^ 2)).final.pos) (quarter 1000000000 (quarterTime ^ 2)).initial.pos
      (quarter 1000000000 (quarterTime ^ 2)).final.pos := h2'
    have h3 : goodLoop (quarterTime ^ 2) (goodA 1 (quarter 1000000000 (quarterTime ^ 2)).initial.pos
      (quarter 1000000000 (quarterTime ^ 2)).final.pos) (nrm (quarter 1000000000 (quarterTime ^ 2)).initial.pos)
      (nrm (quarter 1000000000 (quarterTime ^ 2)).final.pos) (quarter 1000000000 (quarterTime ^ 2)).tof 1001
      Iter.start = .ok s := hl'
    simp only [gooding, h1, Res.bind, Kind.direction]
    rw [if_neg h2, h3]
    exact ⟨_, rfl⟩
  have ht : 1 / 10 ^ 4 < |(quarter 1000000000 (quarterTime ^ 2)).tof| := by rw [htof]; norm_num
  obtain ⟨v1, v2, T, a1, a2, a3, a4⟩ := gooding_solves_partial (kind := .shortWay) (dm := 1) rfl
    (pow_pos quarter_time_pos 2) quarter_cross ht rfl hl' hx e
  rw [htof] at a3
  exact ⟨sol, v1, v2, T, e, a1, a2, a3, a4⟩

/-- The claim on one orbit applies to it. -/
example : ∃ sol v1 v2, gooding (quarter 1000000000 (quarterTime ^ 2)) .shortWay = .ok sol ∧ sol.vInit = some v1 ∧
    sol.vFinal = some v2 ∧ ecc (quarterTime ^ 2) ![0, 1, 0] v2 = ecc (quarterTime ^ 2) ![1, 0, 0] v1 := by
  obtain ⟨sol, -, -, -, e, -⟩ := quarter_solved
  obtain ⟨v1, v2, h1, h2, -, -, h3, -⟩ := gooding_conic (mu := quarterTime ^ 2) rfl (pow_pos quarter_time_pos 2)
    quarter_cross (by rw [quarter_tof]; norm_num) e
  exact ⟨sol, v1, v2, e, h1, h2, h3⟩

/-- Disagreement: with a time of flight of at most 0.1 ms the loop is never entered, `y` stays at zero, and `gooding`
returns velocities that are not numbers instead of an error. -/
theorem gooding_zero_time (mu : ℝ) : ∃ sol, gooding (quarter 0 mu) .shortWay = .ok sol ∧ sol.vInit = none ∧
    sol.vFinal = none := by
  have h1 : (quarter 0 mu).mu = .ok mu := rfl
  have h2 : ¬ tooClose (goodA 1 (quarter 0 mu).initial.pos (quarter 0 mu).final.pos) (quarter 0 mu).initial.pos
      (quarter 0 mu).final.pos := by
    show ¬ tooClose (goodA 1 ![1, 0, 0] ![0, 1, 0]) (![1, 0, 0] : V3) ![0, 1, 0]
    rw [quarter_a]; exact quarter_close
  have ht : (quarter 0 mu).tof = 0 := by show (((0 : Int) - 0 : Int) : ℝ) / 10 ^ 9 = 0; norm_num
  have h3 : ¬ |Iter.start.cur - (quarter 0 mu).tof| > 1 / 10 ^ 4 := by
    rw [ht]; show ¬ |(0 : ℝ) - 0| > 1 / 10 ^ 4; norm_num
  have hv : ∀ r1 r2 : V3, goodVelocities mu (goodA 1 r1 r2) 0 r1 r2 = (none, none) := by
    intro r1 r2; simp [goodVelocities, vdiv]
  refine ⟨⟨none, none, 0, quarter 0 mu⟩, ?_, rfl, rfl⟩
  simp only [gooding, h1, Res.bind, Kind.direction]
  rw [if_neg h2, goodLoop, if_neg h3]
  have hy : Iter.start.y = 0 := rfl
  simp only [hy, hv]
  rfl

/-- Positions on opposite sides of the centre. -/
noncomputable def opposite (x : ℝ) : Input :=
  ⟨⟨![x, 0, 0], 0, 0, ⟨(0, 0), some (16 / 9)⟩⟩, ⟨![-x, 0, 0], 0, 1000000000, ⟨(0, 0), some (16 / 9)⟩⟩⟩

theorem nrm_x (x : ℝ) : nrm (![x, 0, 0] : V3) = |x| := by
  have : nrm (![x, 0, 0] : V3) = Real.sqrt ((![x, 0, 0] : V3) ⬝ᵥ ![x, 0, 0]) := rfl
  rw [this, dot3]; simp [Real.sqrt_mul_self_eq_abs]

theorem opposite_a (x : ℝ) (hx : |x| = 1) : goodA 1 (![x, 0, 0] : V3) ![-x, 0, 0] = 0 := by
  rw [goodA, nrm_x, nrm_x, abs_neg, hx, dot3]
  have : x * x = 1 := by rw [← abs_mul_abs_self, hx]; norm_num
  simp [this]

theorem atan2_neg_one : atan2 0 (-1) = Real.pi := by
  have : (⟨-1, 0⟩ : ℂ) = -1 := by apply Complex.ext <;> simp
  rw [atan2, this, Complex.arg_neg_one]

theorem atan2_one : atan2 0 1 = 0 := by
  have : (⟨1, 0⟩ : ℂ) = 1 := by apply Complex.ext <;> simp
  rw [atan2, this, Complex.arg_one]

/-- Disagreement: for positions on opposite sides, whose plane of transfer is not defined, the answer depends on which
one comes first: an error if the angle of the first one is larger, and otherwise velocities that are not numbers. -/
theorem gooding_opposite : gooding (opposite (-1)) .shortWay = .fault .tooClose ∧
    ∃ sol, gooding (opposite 1) .shortWay = .ok sol ∧ sol.vInit = none ∧ sol.vFinal = none := by
  constructor
  · have h1 : (opposite (-1)).mu = .ok (16 / 9) := rfl
    have h2 : tooClose (goodA 1 (opposite (-1)).initial.pos (opposite (-1)).final.pos) (opposite (-1)).initial.pos
        (opposite (-1)).final.pos := by
      show tooClose (goodA 1 (![-1, 0, 0] : V3) ![- -1, 0, 0]) ![-1, 0, 0] ![- -1, 0, 0]
      rw [opposite_a (-1) (by norm_num)]
      refine ⟨?_, by norm_num⟩
      show atan2 0 (- -1) - atan2 0 (-1) < _
      rw [neg_neg, atan2_one, atan2_neg_one]
      have := Real.pi_pos
      nlinarith
    simp only [gooding, h1, Res.bind, Kind.direction]
    rw [if_pos h2]
  · have h1 : (opposite 1).mu = .ok (16 / 9) := rfl
    have ha : goodA 1 (opposite 1).initial.pos (opposite 1).final.pos = 0 := opposite_a 1 (by norm_num)
    have hn1 : nrm (opposite 1).initial.pos = 1 := by
      show nrm (![1, 0, 0] : V3) = 1
      rw [nrm_x]; norm_num
    have hn2 : nrm (opposite 1).final.pos = 1 := by
      show nrm (![-1, 0, 0] : V3) = 1
      rw [nrm_x]; norm_num
    have htof : (opposite 1).tof = 1 := by
      show (((1000000000 : Int) - 0 : Int) : ℝ) / 10 ^ 9 = 1
      norm_num
    have h2 : ¬ tooClose (goodA 1 (opposite 1).initial.pos (opposite 1).final.pos) (opposite 1).initial.pos
        (opposite 1).final.pos := by
      rintro ⟨h, -⟩
      have e : atan2 0 (-1) - atan2 0 1 < 5 / 10 ^ 5 / 180 * Real.pi := h
      rw [atan2_one, atan2_neg_one] at e
      have := Real.pi_pos
      nlinarith
    have h0 : |Iter.start.cur - 1| > (1 / 10 ^ 4 : ℝ) := by
      show |(0 : ℝ) - 1| > 1 / 10 ^ 4
      norm_num
    have hch : chooseY 0 1 1 Iter.start = (0, 2) := by
      simp only [chooseY, lt_irrefl, false_and, if_false]
      refine Prod.ext rfl ?_
      show yOf 0 1 1 _ _ _ = 2
      rw [yOf]; norm_num
    have hf : ¬ ((0 : ℝ) < 0 ∧ (chooseY 0 1 1 Iter.start).2 < 0) := fun h => lt_irrefl _ h.1
    have h4 : Real.sqrt (2 / (1 / 2) : ℝ) = 2 := by
      rw [show (2 / (1 / 2) : ℝ) = 2 ^ 2 by norm_num, Real.sqrt_sq (by norm_num)]
    have hm : Real.sqrt (16 / 9 : ℝ) = 4 / 3 := by
      rw [show (16 / 9 : ℝ) = (4 / 3) ^ 2 by norm_num, Real.sqrt_sq (by norm_num)]
    obtain ⟨s', e, hcur'⟩ : ∃ s', goodStep (16 / 9) 0 1 1 1 Iter.start = .ok s' ∧ s'.cur = 1 := by
      refine ⟨_, by simp only [goodStep, if_neg hf]; rfl, ?_⟩
      show timeOf (16 / 9) 0 (1 / 2) (1 / 6) (chooseY 0 1 1 Iter.start).2 = 1
      rw [hch, timeOf, h4, hm]; norm_num
    have hv : ∀ y r1 r2, goodVelocities (16 / 9) 0 y r1 r2 = (none, none) := by
      intro y r1 r2; simp [goodVelocities, vdiv]
    refine ⟨⟨none, none, s'.phi, opposite 1⟩, ?_, rfl, rfl⟩
    simp only [gooding, h1, Res.bind, Kind.direction]
    rw [if_neg h2, ha, hn1, hn2, htof, goodLoop, if_pos h0, e]
    have h3 : ¬ |s'.cur - 1| > (1 / 10 ^ 4 : ℝ) := by rw [hcur']; norm_num
    simp only [Res.bind]
    rw [goodLoop, if_neg h3]
    simp only [hv]

/-- Disagreement: the error for targets that are too close is never returned for coincident targets (more than 0.1 m
from the centre): the constant that is tested is then the largest, not the smallest. -/
theorem coincident_not_too_close (r : V3) (hr : 1 / 10 ^ 4 ≤ nrm r) (dm : ℝ) (h : dm = 1 ∨ dm = -1) :
    ¬ tooClose (goodA dm r r) r r := by
  rintro ⟨-, h2⟩
  have hn : 0 < nrm r := lt_of_lt_of_le (by norm_num) hr
  have hsq := goodA_sq dm hn hn
  have hdm : dm ^ 2 = 1 := by rcases h with h | h <;> rw [h] <;> norm_num
  rw [hdm, ← nrm_sq] at hsq
  have : goodA dm r r ^ 2 < (1 / 10 ^ 4) ^ 2 := sq_lt_sq' (abs_lt.1 h2).1 (abs_lt.1 h2).2
  nlinarith

example : ¬ tooClose (goodA 1 ![1, 0, 0] ![1, 0, 0]) ![1, 0, 0] ![1, 0, 0] :=
  coincident_not_too_close _ (by rw [nrm_e0]; norm_num) 1 (Or.inl rfl)

end Verif.Lambert
