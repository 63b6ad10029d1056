import Verif.Lambert.Fast
import Mathlib.Data.Set.Countable
import Mathlib.Topology.Algebra.Module.Cardinality
/-!
The solver of Gooding never returns the fastest transfers of less than half a turn either. As long as every time is too
long, the values of `phi` do not depend on the time asked for: `phi` is halfway between `-4π²` and the value before it,
moved by a number of tenths. So unless one of these values makes `y` exactly zero, which concerns countably many shapes
only, the times of the thousand rounds have a positive lower bound, below which every transfer is missed.
-/
namespace Verif.Lambert
open Matrix
open Verif.MathU (V3 nrm atan2 dot3 nrm_sq nrm_nonneg ext3 cross0 cross1 cross2)

/-- The values of `phi`, from the numbers of tenths by which it was moved. -/
noncomputable def phiOf : List Nat → ℝ
  | [] => 0
  | j :: l => (phiOf l + (j : ℝ) / 10 + -4 * Real.pi ^ 2) / 2

/-- The ratio of `r1 + r2` to `a` for which `y` is exactly zero once `phi` was moved by `j` tenths. -/
noncomputable def zeroShape (p : List Nat × Nat) : ℝ :=
  -(((phiOf p.1 + (p.2 : ℝ) / 10) * (stumpff (phiOf p.1)).2 - 1) / Real.sqrt (stumpff (phiOf p.1)).1)

/-- There are countably many of them. -/
theorem zeroShape_countable : (Set.range zeroShape).Countable := Set.countable_range _

theorem push_tenths (a n1 n2 c2 c3 : ℝ) : ∀ (k : Nat) (phi y : ℝ),
    ∃ j : Nat, (push a n1 n2 c2 c3 k phi y).1 = phi + (j : ℝ) / 10
  | 0, phi, y => ⟨0, by simp [push]⟩
  | k + 1, phi, y => by
    rw [push]
    by_cases hy : 0 ≤ yOf a n1 n2 (phi + 1 / 10) c2 c3
    · simp only [if_pos hy]
      exact ⟨1, by norm_num⟩
    · simp only [if_neg hy]
      obtain ⟨j, e⟩ := push_tenths a n1 n2 c2 c3 k (phi + 1 / 10) (yOf a n1 n2 (phi + 1 / 10) c2 c3)
      exact ⟨j + 1, by rw [e]; push_cast; ring⟩

theorem chooseY_tenths (a n1 n2 : ℝ) (s : Iter) : ∃ j : Nat, (chooseY a n1 n2 s).1 = s.phi + (j : ℝ) / 10 := by
  simp only [chooseY]
  split_ifs
  · exact push_tenths _ _ _ _ _ _ _ _
  · exact ⟨0, by simp⟩

/-- The state from which a round starts, as far as the choice of `y` is concerned. -/
noncomputable def atPhi (phi : ℝ) : Iter :=
  { Iter.start with phi := phi, c2 := (stumpff phi).1, c3 := (stumpff phi).2 }

/-- The values of `phi` as long as every time is too long. -/
noncomputable def fallPhi (a n1 n2 : ℝ) : Nat → ℝ
  | 0 => 0
  | k + 1 => ((chooseY a n1 n2 (atPhi (fallPhi a n1 n2 k))).1 + -4 * Real.pi ^ 2) / 2

/-- The value of `y` of each round. -/
noncomputable def fallY (a n1 n2 : ℝ) (k : Nat) : ℝ := (chooseY a n1 n2 (atPhi (fallPhi a n1 n2 k))).2

theorem fallPhi_tenths (a n1 n2 : ℝ) : ∀ k, ∃ l, fallPhi a n1 n2 k = phiOf l
  | 0 => ⟨[], rfl⟩
  | k + 1 => by
    obtain ⟨l, e⟩ := fallPhi_tenths a n1 n2 k
    obtain ⟨j, ej⟩ := chooseY_tenths a n1 n2 (atPhi (fallPhi a n1 n2 k))
    refine ⟨j :: l, ?_⟩
    rw [fallPhi, ej, phiOf, ← e]
    rfl

/-- What holds before round `k` as long as every time was too long. -/
structure ShortFall (a n1 n2 : ℝ) (k : Nat) (s : Iter) : Prop where
  inv : Inv s
  lower : s.lower = -4 * Real.pi ^ 2
  phi : s.phi = fallPhi a n1 n2 k

theorem ShortFall.start (a n1 n2 : ℝ) : ShortFall a n1 n2 0 Iter.start := ⟨Inv.start, rfl, rfl⟩

theorem ShortFall.choose {a n1 n2 : ℝ} {k : Nat} {s : Iter} (h : ShortFall a n1 n2 k s) :
    chooseY a n1 n2 s = chooseY a n1 n2 (atPhi (fallPhi a n1 n2 k)) := by
  have e2 : s.c2 = (stumpff s.phi).1 := by rw [← h.inv.c]
  have e3 : s.c3 = (stumpff s.phi).2 := by rw [← h.inv.c]
  have e := h.phi
  rw [e] at e2 e3
  clear h
  obtain ⟨l, u, p, c2, c3, c, y, w⟩ := s
  dsimp only at e e2 e3
  subst e2 e3 e
  rfl

/-- Outside of the exceptional shapes `y` is positive. -/
theorem ShortFall.y_pos {a n1 n2 : ℝ} (g : Geometry a n1 n2) (ha : 0 < a) (hz : (n1 + n2) / a ∉ Set.range zeroShape)
    {k : Nat} {s : Iter} (h : ShortFall a n1 n2 k s) : 0 < fallY a n1 n2 k := by
  obtain ⟨h0, hy, -⟩ := chooseY_spec g h.inv
  obtain ⟨j, ej⟩ := chooseY_tenths a n1 n2 s
  obtain ⟨l, el⟩ := fallPhi_tenths a n1 n2 k
  have e2 : s.c2 = (stumpff s.phi).1 := by rw [← h.inv.c]
  have e3 : s.c3 = (stumpff s.phi).2 := by rw [← h.inv.c]
  rw [fallY, ← h.choose]
  refine lt_of_le_of_ne h0 fun hn => hz ⟨(l, j), ?_⟩
  rw [hy, ej, yOf, e2, e3, h.phi, el] at hn
  rw [zeroShape]
  have : (n1 + n2) / a = -(((phiOf l + (j : ℝ) / 10) * (stumpff (phiOf l)).2 - 1) / Real.sqrt (stumpff (phiOf l)).1) := by
    rw [div_eq_iff ha.ne']
    linear_combination -hn
  exact this.symm

theorem ShortFall.step {mu a n1 n2 tof m : ℝ} (g : Geometry a n1 n2) (ha : 0 < a)
    (ht : tof + 1 / 10 ^ 4 < a * Real.sqrt m / Real.sqrt mu) {k : Nat} (hm : m ≤ fallY a n1 n2 k) {s : Iter}
    (h : ShortFall a n1 n2 k s) :
    ∃ s', goodStep mu a n1 n2 tof s = .ok s' ∧ ShortFall a n1 n2 (k + 1) s' ∧ 1 / 10 ^ 4 < |s'.cur - tof| := by
  obtain ⟨s', e, hi, -⟩ := goodStep_spec (mu := mu) (tof := tof) g h.inv
  obtain ⟨h1, -, -⟩ := chooseY_spec g h.inv
  have p := stumpff_pos h.inv.phi.2
  rw [← h.inv.c] at p
  have hf : ¬ (0 < a ∧ (chooseY a n1 n2 s).2 < 0) := fun h => absurd h.2 (not_lt.2 h1)
  have hY : (chooseY a n1 n2 s).2 = fallY a n1 n2 k := by rw [fallY, h.choose]
  have hT : a * Real.sqrt m / Real.sqrt mu ≤ timeOf mu a s.c2 s.c3 (chooseY a n1 n2 s).2 := by
    refine div_le_div_of_nonneg_right ?_ (Real.sqrt_nonneg _)
    have := mul_le_mul_of_nonneg_left (Real.sqrt_le_sqrt (hm.trans hY.ge)) ha.le
    have h3 : 0 ≤ Real.sqrt ((chooseY a n1 n2 s).2 / s.c2) ^ 3 * s.c3 := mul_nonneg (by positivity) p.2.le
    linarith
  have hcur : ¬ timeOf mu a s.c2 s.c3 (chooseY a n1 n2 s).2 < tof := by
    have : (0 : ℝ) < 1 / 10 ^ 4 := by norm_num
    linarith
  have e' := e
  simp only [goodStep, if_neg hf, if_neg hcur, Res.ok.injEq] at e'
  refine ⟨s', e, ⟨hi, ?_, ?_⟩, ?_⟩
  · rw [← e']; exact h.lower
  · rw [← e', fallPhi, ← h.choose, ← h.lower]
  · rw [← e']
    show 1 / 10 ^ 4 < |timeOf mu a s.c2 s.c3 (chooseY a n1 n2 s).2 - tof|
    refine lt_of_lt_of_le ?_ (le_abs_self _)
    linarith

theorem ShortFall.loop {mu a n1 n2 tof m : ℝ} (g : Geometry a n1 n2) (ha : 0 < a)
    (ht : tof + 1 / 10 ^ 4 < a * Real.sqrt m / Real.sqrt mu) {N : Nat} (hm : ∀ k, k < N → m ≤ fallY a n1 n2 k) :
    ∀ (j k : Nat) (s : Iter), k + j = N → ShortFall a n1 n2 k s → 1 / 10 ^ 4 < |s.cur - tof| →
      goodLoop mu a n1 n2 tof j s = .fault (.maxIter 1000)
  | 0, k, s, _, _, hs => by rw [goodLoop, if_pos hs]
  | j + 1, k, s, hk, h, hs => by
    obtain ⟨s', e, h', hs'⟩ := h.step g ha ht (hm k (by omega))
    rw [goodLoop, if_pos hs, e]
    exact ShortFall.loop g ha ht hm j (k + 1) s' (by omega) h' hs'

/-- Every round of such a run is one of those above. -/
theorem shortFall_all {a n1 n2 : ℝ} (g : Geometry a n1 n2) : ∀ k, ∃ s, ShortFall a n1 n2 k s
  | 0 => ⟨_, ShortFall.start a n1 n2⟩
  | k + 1 => by
    obtain ⟨s, h⟩ := shortFall_all g k
    obtain ⟨h1, h2, h3⟩ := chooseY_spec g h.inv
    have hpi := pi_sq_bounds
    have hc : -4 * Real.pi ^ 2 < (chooseY a n1 n2 s).1 ∧ (chooseY a n1 n2 s).1 < 4 * Real.pi ^ 2 := by
      rcases h3 with h3 | ⟨-, -, h4, h5⟩
      · rw [h3]; exact h.inv.phi
      · exact ⟨lt_trans h.inv.phi.1 h4, by linarith [hpi.1]⟩
    refine ⟨⟨-4 * Real.pi ^ 2, (chooseY a n1 n2 s).1, ((chooseY a n1 n2 s).1 + -4 * Real.pi ^ 2) / 2,
      (stumpff (((chooseY a n1 n2 s).1 + -4 * Real.pi ^ 2) / 2)).1, (stumpff (((chooseY a n1 n2 s).1 + -4 * Real.pi ^ 2) / 2)).2,
      0, 0, (0, 0, 0)⟩, ⟨⟨le_rfl, ?_⟩, ⟨hc.1, hc.2.le⟩, ⟨?_, ?_⟩, rfl⟩, rfl, ?_⟩
    · show -4 * Real.pi ^ 2 < 4 * Real.pi ^ 2; linarith [hpi.1]
    · show -4 * Real.pi ^ 2 < ((chooseY a n1 n2 s).1 + -4 * Real.pi ^ 2) / 2; linarith
    · show ((chooseY a n1 n2 s).1 + -4 * Real.pi ^ 2) / 2 < 4 * Real.pi ^ 2; linarith [hpi.1]
    · rw [fallPhi, ← h.choose]

/-- The values of `y` have a positive lower bound. -/
theorem fallY_bound {a n1 n2 : ℝ} (g : Geometry a n1 n2) (ha : 0 < a) (hz : (n1 + n2) / a ∉ Set.range zeroShape) :
    ∀ N : Nat, ∃ m, 0 < m ∧ ∀ k, k < N → m ≤ fallY a n1 n2 k
  | 0 => ⟨1, one_pos, fun k hk => absurd hk (Nat.not_lt_zero k)⟩
  | N + 1 => by
    obtain ⟨m, h0, hm⟩ := fallY_bound g ha hz N
    obtain ⟨s, h⟩ := shortFall_all g N
    refine ⟨min m (fallY a n1 n2 N), lt_min h0 (h.y_pos g ha hz), fun k hk => ?_⟩
    rcases Nat.lt_succ_iff_lt_or_eq.1 hk with h | rfl
    · exact (min_le_left _ _).trans (hm k h)
    · exact min_le_right _ _

/-! ### The transfers exist -/

theorem short_strict {r1 r2 : V3} (hc : r1 ⨯₃ r2 ≠ 0) :
    0 < goodA 1 r1 r2 ∧ goodA 1 r1 r2 * Real.sqrt 2 < nrm r1 + nrm r2 := by
  obtain ⟨p1, p2⟩ := nrm_ne_zero_of_cross hc
  obtain ⟨a0, a1, a2⟩ := goodA_sign (dm := 1) hc (Or.inl rfl)
  have ha : 0 < goodA 1 r1 r2 := by linarith
  refine ⟨ha, ?_⟩
  refine lt_of_pow_lt_pow_left₀ 2 (by positivity) ?_
  rw [mul_pow, Real.sq_sqrt (by norm_num), goodA_sq 1 p1 p2]
  have h1 : r1 ⬝ᵥ r2 < nrm r1 * nrm r2 :=
     lt_of_le_of_lt (le_abs_self _) (dot_lt_of_cross hc)
  nlinarith [sq_nonneg (nrm r1 - nrm r2)]

/-- Every short time is the one of a transfer of less than half a turn. -/
theorem short_exists {mu T : ℝ} (hmu : 0 < mu) (hT : 0 < T) {r1 r2 : V3} (hc : r1 ⨯₃ r2 ≠ 0)
    (ht : T ≤ goodA 1 r1 r2 * Real.sqrt ((nrm r1 + nrm r2 - goodA 1 r1 r2 * Real.sqrt 2) / 2) / Real.sqrt mu) :
    ∃ (v1 v2 : V3) (k : ℝ), Reaches mu r1 v1 r2 v2 T ∧ 0 < k ∧ r1 ⨯₃ v1 = k • (r1 ⨯₃ r2) := by
  obtain ⟨p1, p2⟩ := nrm_ne_zero_of_cross hc
  obtain ⟨ha, hlt⟩ := short_strict hc
  obtain ⟨a0, a1, a2⟩ := goodA_sign (dm := 1) hc (Or.inl rfl)
  generalize goodA 1 r1 r2 = a at *
  generalize hnn : nrm r1 + nrm r2 = n at *
  have hp2 : 0 < Real.sqrt 2 := by positivity
  have hsm : 0 < Real.sqrt mu := Real.sqrt_pos.2 hmu
  have hq : 0 < a * Real.sqrt 2 := mul_pos ha hp2
  let Y : ℝ → ℝ := fun u => n - a * Real.sqrt 2 * Real.cosh u
  let F : ℝ → ℝ := fun u => (Real.sqrt 2 / 4 * Real.sqrt (Y u) ^ 3 * ((Real.sinh (2 * u) - 2 * u) / Real.sinh u ^ 3) +
    a * Real.sqrt (Y u)) / Real.sqrt mu
  obtain ⟨C, hC⟩ : ∃ C, C = n / (a * Real.sqrt 2) := ⟨_, rfl⟩
  have hCn : a * Real.sqrt 2 * C = n := by rw [hC]; field_simp
  have hC1 : 1 < C := by rw [hC, lt_div_iff₀ hq]; linarith
  have hinv : ∀ c, 1 < c → ∃ u, 0 < u ∧ Real.cosh u = c := fun c h => by
    obtain ⟨u, hu, e⟩ := intermediate_value_Icc (show (0 : ℝ) ≤ c by linarith) Real.continuous_cosh.continuousOn
      (show c ∈ Set.Icc (Real.cosh 0) (Real.cosh c) from ⟨by rw [Real.cosh_zero]; exact h.le, by
        have := cosh_ge c (by linarith)
        nlinarith [sq_nonneg (c - 1)]⟩)
    refine ⟨u, lt_of_le_of_ne hu.1 fun h0 => ?_, e⟩
    rw [← h0, Real.cosh_zero] at e
    linarith
  obtain ⟨u1, h1, e1⟩ := hinv ((1 + C) / 2) (by linarith)
  obtain ⟨u0, h0, e0⟩ := hinv C hC1
  have h10 : u1 ≤ u0 := by
    have : Real.cosh u1 ≤ Real.cosh u0 := by rw [e1, e0]; linarith
    rwa [Real.cosh_le_cosh, abs_of_pos h1, abs_of_pos h0] at this
  have hF0 : F u0 = 0 := by
    have : Y u0 = 0 := by show n - a * Real.sqrt 2 * Real.cosh u0 = 0; rw [e0, hCn, sub_self]
    show (Real.sqrt 2 / 4 * Real.sqrt (Y u0) ^ 3 * _ + a * Real.sqrt (Y u0)) / Real.sqrt mu = 0
    rw [this, Real.sqrt_zero]
    simp
  have hF1 : T ≤ F u1 := by
    refine ht.trans (div_le_div_of_nonneg_right ?_ hsm.le)
    have hY1 : Y u1 = (n - a * Real.sqrt 2) / 2 := by
      show n - a * Real.sqrt 2 * Real.cosh u1 = _
      rw [e1]
      linear_combination (-(1 : ℝ) / 2) * hCn
    rw [hY1]
    have hs1 : 0 < Real.sinh u1 := Real.sinh_pos_iff.2 h1
    have : 0 ≤ Real.sinh (2 * u1) - 2 * u1 := by
      have := Real.self_le_sinh_iff.2 (show 0 ≤ 2 * u1 by linarith)
      linarith
    have : 0 ≤ Real.sqrt 2 / 4 * Real.sqrt ((n - a * Real.sqrt 2) / 2) ^ 3 * ((Real.sinh (2 * u1) - 2 * u1) / Real.sinh u1 ^ 3) := by
      positivity
    linarith
  have hcont : ContinuousOn F (Set.Icc u1 u0) := by
    have hc1 : Continuous fun u => Real.sqrt (Y u) :=
      (continuous_const.sub (continuous_const.mul Real.continuous_cosh)).sqrt
    have hc2 : Continuous fun u => Real.sinh (2 * u) - 2 * u :=
      (Real.continuous_sinh.comp (continuous_const.mul continuous_id)).sub (continuous_const.mul continuous_id)
    have hc3 : ContinuousOn (fun u => (Real.sinh (2 * u) - 2 * u) / Real.sinh u ^ 3) (Set.Icc u1 u0) := by
      refine hc2.continuousOn.div (Real.continuous_sinh.pow 3).continuousOn fun u hu => ?_
      have : 0 < Real.sinh u := Real.sinh_pos_iff.2 (lt_of_lt_of_le h1 hu.1)
      positivity
    exact ((((continuous_const.mul (hc1.pow 3)).continuousOn.mul hc3).add
      (continuous_const.mul hc1).continuousOn).div_const _)
  obtain ⟨u, hu, hF⟩ := intermediate_value_Icc' h10 hcont ⟨by rw [hF0]; exact hT.le, hF1⟩
  have hu0 : 0 < u := lt_of_lt_of_le h1 hu.1
  have hy : 0 < Y u := by
    refine lt_of_not_ge fun hn => ?_
    have : F u = 0 := by
      show (Real.sqrt 2 / 4 * Real.sqrt (Y u) ^ 3 * _ + a * Real.sqrt (Y u)) / Real.sqrt mu = 0
      rw [Real.sqrt_eq_zero_of_nonpos hn]
      simp
    rw [this] at hF
    linarith
  obtain ⟨v1, v2, -, q1, q2⟩ := goodVelocities_some hmu a0 hy r1 r2
  have hsh : 0 < Real.sinh u := Real.sinh_pos_iff.2 hu0
  have hr := velocities_reach hmu a0 hy (show 0 < Real.sinh u ^ 2 / (2 * u ^ 2) by positivity) hc a2
    (stumpff_half_angle hu0) (by rw [yOf_hyp _ _ _ hu0, hnn]) q1 q2
  rw [timeOf_hyp _ _ hy.le hu0] at hr
  have hk := (velocities_conic hmu a0 hy hc a2 q1 q2).1
  have hqq : 0 < a * Real.sqrt (Y u / mu) := mul_pos ha (Real.sqrt_pos.2 (div_pos hy hmu))
  refine ⟨v1, v2, (a * Real.sqrt (Y u / mu))⁻¹, ?_, inv_pos.2 hqq, ?_⟩
  · rw [← hF]; exact hr
  · rw [← hk, smul_smul, inv_mul_cancel₀ hqq.ne', one_smul]

/-- **C231 (refuted).** For all positions that are not aligned with the center, except for the countably many shapes of
`zeroShape`, there is a bound such that every transfer of less than half a turn which takes less exists but is never
found by `gooding`. The bound only depends on the positions, and scales with `1/√mu` as the times of the transfers do. -/
theorem gooding_fast_short_false {r1 r2 : V3} (hc : r1 ⨯₃ r2 ≠ 0)
    (hz : (nrm r1 + nrm r2) / goodA 1 r1 r2 ∉ Set.range zeroShape) :
    ∃ B : ℝ, 0 < B ∧ ∀ (inp : Input) (kind : Kind) (mu : ℝ), inp.initial.frame.mu = some mu → 0 < mu →
      inp.initial.pos = r1 → inp.final.pos = r2 → kind.direction r2 r1 = .ok 1 → 1 / 10 ^ 4 < inp.tof →
      inp.tof + 1 / 10 ^ 4 < B / Real.sqrt mu →
      (∃ (v1 v2 : V3) (k : ℝ), Reaches mu r1 v1 r2 v2 inp.tof ∧ 0 < k ∧ r1 ⨯₃ v1 = k • (r1 ⨯₃ r2)) ∧
      ∀ sol, gooding inp kind ≠ .ok sol := by
  obtain ⟨p1, p2⟩ := nrm_ne_zero_of_cross hc
  obtain ⟨ha, hlt⟩ := short_strict hc
  have g := geometry_of (dm := 1) (by norm_num) p1 p2
  obtain ⟨m, hm0, hm⟩ := fallY_bound g ha hz 1001
  refine ⟨min (goodA 1 r1 r2 * Real.sqrt m)
    (goodA 1 r1 r2 * Real.sqrt ((nrm r1 + nrm r2 - goodA 1 r1 r2 * Real.sqrt 2) / 2)), ?_, ?_⟩
  · refine lt_min (mul_pos ha (Real.sqrt_pos.2 hm0)) (mul_pos ha (Real.sqrt_pos.2 ?_))
    linarith
  intro inp kind mu hmu' hmu e1 e2 hk h0 ht
  have hp : (0 : ℝ) < 1 / 10 ^ 4 := by norm_num
  have b1 := ht.trans_le (div_le_div_of_nonneg_right (min_le_left _ _) (Real.sqrt_nonneg mu))
  have b2 := ht.trans_le (div_le_div_of_nonneg_right (min_le_right _ _) (Real.sqrt_nonneg mu))
  refine ⟨short_exists hmu (by linarith) hc (by linarith), fun sol hsol => ?_⟩
  have hmu'' : inp.mu = .ok mu := by rw [Input.mu, hmu']
  simp only [gooding, hmu'', e1, e2, hk, Res.bind] at hsol
  split_ifs at hsol with hcl
  have hst : 1 / 10 ^ 4 < |Iter.start.cur - inp.tof| := by
    show 1 / 10 ^ 4 < |0 - inp.tof|
    rw [zero_sub, abs_neg]
    exact lt_of_lt_of_le h0 (le_abs_self _)
  rw [ShortFall.loop g ha b1 hm 1001 0 Iter.start rfl (ShortFall.start _ _ _) hst] at hsol
  cases hsol

/-- A quarter of a turn from the distance 1 to the distance `d`. -/
noncomputable def quarterTo (d : ℝ) (t : Int) (mu : ℝ) : Input :=
  ⟨⟨![1, 0, 0], 0, 0, ⟨(0, 0), some mu⟩⟩, ⟨![0, d, 0], 0, t, ⟨(0, 0), some mu⟩⟩⟩

/-- Concretely, a quarter of a turn in one second which exists and is not found. -/
theorem fast_short_witness : ∃ d mu : ℝ, 0 < d ∧ 0 < mu ∧
    (∃ (v1 v2 : V3) (k : ℝ), Reaches mu ![1, 0, 0] v1 ![0, d, 0] v2 1 ∧ 0 < k ∧
      ![1, 0, 0] ⨯₃ v1 = k • (![1, 0, 0] ⨯₃ ![0, d, 0])) ∧
    ∀ sol, gooding (quarterTo d 1000000000 mu) .shortWay ≠ .ok sol := by
  obtain ⟨c, hc, hc2⟩ := (zeroShape_countable.dense_compl ℝ).exists_gt 2
  obtain ⟨t, ht, htc⟩ : ∃ t : ℝ, 0 < t ∧ (1 + t ^ 2) / t = c := by
    have h4 : 0 ≤ c ^ 2 - 4 := by nlinarith
    have ht : 0 < (c + Real.sqrt (c ^ 2 - 4)) / 2 := by
      have := Real.sqrt_nonneg (c ^ 2 - 4)
      linarith
    refine ⟨(c + Real.sqrt (c ^ 2 - 4)) / 2, ht, ?_⟩
    rw [div_eq_iff ht.ne']
    linear_combination (1 / 4 : ℝ) * Real.sq_sqrt h4
  have hn : nrm (![0, t ^ 2, 0] : V3) = t ^ 2 := by
    have : nrm (![0, t ^ 2, 0] : V3) = Real.sqrt ((![0, t ^ 2, 0] : V3) ⬝ᵥ ![0, t ^ 2, 0]) := rfl
    rw [this, dot3]
    simp only [Matrix.cons_val_zero, Matrix.cons_val_one, Matrix.cons_val]
    rw [show (0 : ℝ) * 0 + t ^ 2 * t ^ 2 + 0 * 0 = (t ^ 2) ^ 2 by ring, Real.sqrt_sq (by positivity)]
  have ha : goodA 1 (![1, 0, 0] : V3) ![0, t ^ 2, 0] = t := by
    rw [goodA, nrm_e0, hn, dot3]
    simp [ht.le]
  have hx : (![1, 0, 0] : V3) ⨯₃ ![0, t ^ 2, 0] ≠ 0 := by
    intro h
    have := congrFun h 2
    rw [cross2] at this
    simp [ht.ne'] at this
  obtain ⟨B, hB, H⟩ := gooding_fast_short_false hx (by rw [ha, hn, nrm_e0, htc]; exact hc)
  have htof : (quarterTo (t ^ 2) 1000000000 ((B / 2) ^ 2)).tof = 1 := by
    show (((1000000000 : Int) - 0 : Int) : ℝ) / 10 ^ 9 = 1
    norm_num
  obtain ⟨h1, h2⟩ := H (quarterTo (t ^ 2) 1000000000 ((B / 2) ^ 2)) .shortWay ((B / 2) ^ 2) rfl (by positivity) rfl rfl rfl
    (by rw [htof]; norm_num) (by
      rw [htof, Real.sqrt_sq (by positivity), show B / (B / 2) = 2 by field_simp]
      norm_num)
  rw [htof] at h1
  exact ⟨t ^ 2, (B / 2) ^ 2, by positivity, by positivity, h1, h2⟩

end Verif.Lambert
