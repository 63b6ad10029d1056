import Verif.Lambert.IzzoSolve
/-!
Transfers that the solver of Izzo solves in one step: the ones of least energy. They show that the theorems on `izzo`
apply, and that the wrong plane occurs.
-/
namespace Verif.Lambert
open Matrix
open Verif.MathU (V3 nrm atan2 dot3 nrm_sq nrm_nonneg ext3 cross0 cross1 cross2)

/-- The time of the transfer of least energy, without dimension. -/
noncomputable def leastTime (l : ℝ) : ℝ := Real.arccos l + l * Real.sqrt (1 - l ^ 2)

theorem arc_sum_pos {θ : ℝ} (h0 : 0 < θ) (h1 : θ < Real.pi) : 0 < θ + Real.sin θ * Real.cos θ := by
  have hs := Real.sin_pos_of_pos_of_lt_pi h0 h1
  rcases le_or_gt θ (Real.pi / 2) with h | h
  · have := Real.cos_nonneg_of_mem_Icc ⟨by linarith [Real.pi_pos], h⟩
    positivity
  · have h2 := Real.neg_one_le_cos θ
    have h3 := Real.sin_le_one θ
    have h4 := Real.pi_gt_three
    nlinarith

theorem arccos_open {l : ℝ} (hl : l ^ 2 < 1) : 0 < Real.arccos l ∧ Real.arccos l < Real.pi := by
  have h1 : -1 < l := by nlinarith
  have h2 : l < 1 := by nlinarith
  refine ⟨Real.arccos_pos.2 h2, ?_⟩
  rcases (Real.arccos_le_pi l).lt_or_eq with h | h
  · exact h
  · rw [Real.arccos_eq_pi] at h; linarith

theorem leastTime_bounds {l : ℝ} (hl : l ^ 2 < 1) : 0 < leastTime l ∧ leastTime l < Real.pi := by
  obtain ⟨a, b⟩ := arccos_open hl
  have h1 : -1 ≤ l := by nlinarith
  have h2 : l ≤ 1 := by nlinarith
  have e : leastTime l = Real.arccos l + Real.sin (Real.arccos l) * Real.cos (Real.arccos l) := by
    rw [leastTime, Real.sin_arccos, Real.cos_arccos h1 h2]; ring
  constructor
  · rw [e]; exact arc_sum_pos a b
  · have := arc_sum_pos (θ := Real.pi - Real.arccos l) (by linarith) (by linarith)
    rw [Real.sin_pi_sub, Real.cos_pi_sub] at this
    rw [e]; linarith

/-- The iteration accepts `x = 0` at once. -/
theorem findXY_least {l : ℝ} (hl : l ^ 2 < 1) (n : Nat) :
    findXY l (leastTime l) 0 (n + 1) (1 / 10 ^ 4) (1 / 10 ^ 4) true = .ok (0, computeY 0 l) := by
  obtain ⟨t0, t1⟩ := leastTime_bounds hl
  have hl' : |l| < 1 := by rw [← sq_abs] at hl; nlinarith [abs_nonneg l]
  have hfl : ⌊leastTime l / Real.pi⌋.toNat = 0 := by
    have : ⌊leastTime l / Real.pi⌋ = 0 := by
      rw [Int.floor_eq_zero_iff]
      exact ⟨by positivity, by rw [div_lt_one Real.pi_pos]; exact t1⟩
    rw [this]; rfl
  have hmr : maxRevs l (leastTime l) (1 / 10 ^ 4) (1 / 10 ^ 4) (n + 1) = .ok 0 := by
    rw [maxRevs]
    simp only [hfl, Nat.zero_min]
    rw [if_neg (by simp)]
  have hg : initialGuess (leastTime l) l 0 true = 0 := by
    rw [initialGuess, if_pos rfl]
    simp only
    rw [if_pos (by rw [leastTime]), ← leastTime, div_self t0.ne', Real.one_rpow, sub_self]
  have hy : computeY 0 l = Real.sqrt (1 - l ^ 2) := by rw [computeY]; congr 1; ring
  have ht : tofEquationY 0 (computeY 0 l) (leastTime l) l 0 = some 0 := by
    rw [tofEquationY, if_neg (by norm_num), tofClosed, if_neg (by norm_num), if_neg (by norm_num), Option.map_some]
    congr 1
    rw [computePsi, if_neg (by norm_num), if_pos (by norm_num), leastTime, hy]
    norm_num
  have hstep : householderStep (leastTime l) l 0 0 = some (.ok 0) := by
    rw [householderStep]
    simp only [ht]
    rw [if_neg (by norm_num), if_neg]
    · norm_num
    · simp only [tofP]
      norm_num
  have hh : householder 0 (leastTime l) l 0 (1 / 10 ^ 4) (1 / 10 ^ 4) (n + 1) = .ok 0 := by
    rw [householder, iterate, hstep]
    norm_num
  rw [findXY, if_pos hl', hmr]
  simp only [Res.bind]
  rw [if_neg (by norm_num), hg, hh]

/-- The transfer of least energy between two positions in one second. -/
noncomputable def leastInput (r1 r2 : V3) (l : ℝ) : Input :=
  ⟨⟨r1, 0, 0, ⟨(0, 0), some (semi r1 r2 ^ 3 * leastTime l ^ 2 / 2)⟩⟩,
   ⟨r2, 0, 10 ^ 9, ⟨(0, 0), some (semi r1 r2 ^ 3 * leastTime l ^ 2 / 2)⟩⟩⟩

/-- `izzo` returns a solution for it, with `x = 0`, where the equation of the time of flight has the value 0. -/
theorem izzo_least {r1 r2 : V3} (hc : r1 ⨯₃ r2 ≠ 0) {kind : Kind} {dm : ℝ} (hk : izzoDirection kind r1 r2 = .ok dm)
    (hr : kind.revs = 0) :
    0 < semi r1 r2 ^ 3 * leastTime (izzoLambda dm r1 r2) ^ 2 / 2 ∧
    findXY (izzoLambda dm r1 r2) (izzoTime (semi r1 r2 ^ 3 * leastTime (izzoLambda dm r1 r2) ^ 2 / 2)
      (leastInput r1 r2 (izzoLambda dm r1 r2)).tof r1 r2) kind.revs 1000 (1 / 10 ^ 4) (1 / 10 ^ 4) true =
      .ok (0, computeY 0 (izzoLambda dm r1 r2)) ∧
    tofEquation 0 (izzoTime (semi r1 r2 ^ 3 * leastTime (izzoLambda dm r1 r2) ^ 2 / 2)
      (leastInput r1 r2 (izzoLambda dm r1 r2)).tof r1 r2) (izzoLambda dm r1 r2) kind.revs = some 0 ∧
    (leastInput r1 r2 (izzoLambda dm r1 r2)).tof = 1 ∧
    ∃ sol, izzo (leastInput r1 r2 (izzoLambda dm r1 r2)) kind = .ok sol := by
  obtain ⟨l0, l1, ld⟩ := izzoLambda_facts hc (izzoDirection_cases hk)
  obtain ⟨t0, t1⟩ := leastTime_bounds l1
  have sp := (tri_of hc).sp
  have htof : ∀ l, (leastInput r1 r2 l).tof = 1 := by
    intro l
    rw [Input.tof]
    simp [leastInput]
    norm_num
  have ht : izzoTime (semi r1 r2 ^ 3 * leastTime (izzoLambda dm r1 r2) ^ 2 / 2)
      (leastInput r1 r2 (izzoLambda dm r1 r2)).tof r1 r2 = leastTime (izzoLambda dm r1 r2) := by
    rw [izzoTime, htof, mul_one]
    rw [show 2 * (semi r1 r2 ^ 3 * leastTime (izzoLambda dm r1 r2) ^ 2 / 2) / semi r1 r2 ^ 3 =
      leastTime (izzoLambda dm r1 r2) ^ 2 by field_simp]
    exact Real.sqrt_sq t0.le
  have hf := findXY_least l1 999
  refine ⟨by positivity, by rw [ht, hr]; exact hf, ?_, htof _, ?_⟩
  · rw [ht, hr, tofEquation, tofEquationY, if_neg (by norm_num), tofClosed, if_neg (by norm_num), if_neg (by norm_num),
      Option.map_some]
    congr 1
    rw [computePsi, if_neg (by norm_num), if_pos (by norm_num), leastTime, computeY]
    norm_num
  · rw [izzo]
    have hm : (leastInput r1 r2 (izzoLambda dm r1 r2)).mu =
      .ok (semi r1 r2 ^ 3 * leastTime (izzoLambda dm r1 r2) ^ 2 / 2) := rfl
    rw [hm]
    show ∃ sol, ((izzoDirection kind r1 r2).bind fun dm' => (findXY (izzoLambda dm' r1 r2)
      (izzoTime (semi r1 r2 ^ 3 * leastTime (izzoLambda dm r1 r2) ^ 2 / 2)
      (leastInput r1 r2 (izzoLambda dm r1 r2)).tof r1 r2) kind.revs 1000 (1 / 10 ^ 4) (1 / 10 ^ 4) true).bind fun xy =>
      Res.ok (Solution.mk _ _ 0 _)) = Res.ok sol
    rw [hk]
    simp only [Res.bind]
    rw [ht, hr, hf]
    exact ⟨_, rfl⟩

/-- So in every plane whose normal points to +z there is a transfer that `izzo` solves exactly, for the short and for the
long way. -/
theorem izzo_least_exact {r1 r2 : V3} (hc : r1 ⨯₃ r2 ≠ 0) (hz : 0 ≤ (r1 ⨯₃ r2) 2) {kind : Kind} {dm : ℝ}
    (hk : izzoDirection kind r1 r2 = .ok dm) (hr : kind.revs = 0) :
    ∃ inp sol mu v1 v2, inp.initial.pos = r1 ∧ inp.final.pos = r2 ∧ inp.initial.frame.mu = some mu ∧
      izzo inp kind = .ok sol ∧ sol.vInit = some v1 ∧ sol.vFinal = some v2 ∧ Reaches mu r1 v1 r2 v2 inp.tof := by
  obtain ⟨h1, h2, h3, h4, sol, h5⟩ := izzo_least hc hk hr
  obtain ⟨v1, v2, e1, e2, -, -, -, -, e3⟩ := izzo_solves_partial (inp := leastInput r1 r2 (izzoLambda dm r1 r2))
    (kind := kind) rfl h1 hc hz hk h2 h5
  refine ⟨_, sol, _, v1, v2, rfl, rfl, rfl, h5, e1, e2, ?_⟩
  have := e3 0 h3 (Or.inr hr)
  rwa [zero_mul, add_zero] at this

/-- **False of the code, with a witness in every such plane.** Between any two positions at different distances with the
third component of `r1 × r2` negative there is an input for which `izzo` returns a solution that no motion follows. -/
theorem izzo_wrong_plane_exists {r1 r2 : V3} (hz : (r1 ⨯₃ r2) 2 < 0) (hn : nrm r1 ≠ nrm r2) {kind : Kind}
    (hr : kind.revs = 0) (hk : ∃ dm, izzoDirection kind r1 r2 = .ok dm) :
    ∃ inp sol mu v1 v2, inp.initial.pos = r1 ∧ inp.final.pos = r2 ∧ inp.initial.frame.mu = some mu ∧ 0 < mu ∧
      izzo inp kind = .ok sol ∧ sol.vInit = some v1 ∧ sol.vFinal = some v2 ∧ ∀ T, ¬ Reaches mu r1 v1 r2 v2 T := by
  have hc : r1 ⨯₃ r2 ≠ 0 := by intro h0; rw [h0] at hz; simp at hz
  obtain ⟨dm, hk⟩ := hk
  obtain ⟨h1, h2, h3, h4, sol, h5⟩ := izzo_least hc hk hr
  obtain ⟨v1, v2, e1, e2, -, e3⟩ := izzo_wrong_plane (inp := leastInput r1 r2 (izzoLambda dm r1 r2))
    (kind := kind) rfl h1 hz hn h5
  exact ⟨_, sol, _, v1, v2, rfl, rfl, rfl, h1, h5, e1, e2, e3⟩

/-- Two positions on the axes, seen from above and from below. -/
example : (![1, 0, 0] : V3) ⨯₃ ![0, 2, 0] ≠ 0 ∧ 0 ≤ ((![1, 0, 0] : V3) ⨯₃ ![0, 2, 0]) 2 ∧
    ((![0, 2, 0] : V3) ⨯₃ ![1, 0, 0]) 2 < 0 ∧ nrm (![1, 0, 0] : V3) ≠ nrm (![0, 2, 0] : V3) := by
  have h1 : nrm (![1, 0, 0] : V3) = 1 := by
    show Real.sqrt _ = 1
    rw [dot3]; simp
  have h2 : nrm (![0, 2, 0] : V3) = 2 := by
    show Real.sqrt _ = 2
    rw [dot3]; simp
  have h3 : ((![1, 0, 0] : V3) ⨯₃ ![0, 2, 0]) 2 = 2 := by rw [cross2]; simp
  have h4 : ((![0, 2, 0] : V3) ⨯₃ ![1, 0, 0]) 2 = -2 := by rw [cross2]; simp
  refine ⟨fun h => ?_, ?_, ?_, ?_⟩
  · rw [h] at h3; simp at h3
  · rw [h3]; norm_num
  · rw [h4]; norm_num
  · rw [h1, h2]; norm_num

example := izzo_least_exact (r1 := ![1, 0, 0]) (r2 := ![0, 2, 0]) (fun h => by have := congrFun h 2; rw [cross2] at this; simp at this) (by rw [cross2]; simp) (kind := .nRevs 0) (dm := 1) rfl rfl

example := izzo_wrong_plane_exists (r1 := ![0, 2, 0]) (r2 := ![1, 0, 0]) (by rw [cross2]; simp)
  (by
    have h1 : nrm (![1, 0, 0] : V3) = 1 := by
      show Real.sqrt _ = 1
      rw [dot3]; simp
    have h2 : nrm (![0, 2, 0] : V3) = 2 := by
      show Real.sqrt _ = 2
      rw [dot3]; simp
    rw [h1, h2]; norm_num) (kind := .nRevs 0) rfl ⟨1, rfl⟩

example : ∃ inp sol mu v1 v2, izzo inp (.nRevs 0) = .ok sol ∧ sol.vInit = some v1 ∧ sol.vFinal = some v2 ∧
    energy mu inp.final.pos v2 = energy mu inp.initial.pos v1 := by
  have hc : (![1, 0, 0] : V3) ⨯₃ ![0, 2, 0] ≠ 0 := fun h => by have := congrFun h 2; rw [cross2] at this; simp at this
  obtain ⟨hmu, -, -, -, sol, h⟩ := izzo_least hc (kind := .nRevs 0) (dm := 1) rfl rfl
  obtain ⟨v1, v2, h1, h2, -, h3⟩ := izzo_conserves rfl hmu hc h
  exact ⟨_, sol, _, v1, v2, h, h1, h2, h3⟩

end Verif.Lambert
