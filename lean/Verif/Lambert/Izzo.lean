import Verif.Lambert.GoodingLoop
/-!
The solver of Izzo: the velocities from a solution `x` lie on one orbit through both positions when the normal to the
plane of the transfer points to +z, and only conserve the angular momentum and the energy otherwise.
-/
namespace Verif.Lambert
open Matrix
open Verif.MathU (V3 nrm atan2 dot3 nrm_sq nrm_nonneg ext3 cross0 cross1 cross2)

/-- The geometry of the triangle of the two positions and the centre, for positions that are not aligned. -/
structure Tri (r1 r2 : V3) (s c ρ σ l N : ℝ) : Prop where
  sp : 0 < s
  cp : 0 < c
  lp : 0 < l
  l1 : l < 1
  σp : 0 < σ
  Np : 0 < N
  hc : c = s * (1 - l ^ 2)
  hσ : σ ^ 2 = 1 - ρ ^ 2
  n1 : nrm r1 = s * (1 + l ^ 2 + ρ * (1 - l ^ 2)) / 2
  n2 : nrm r2 = s * (1 + l ^ 2 - ρ * (1 - l ^ 2)) / 2
  d : r1 ⬝ᵥ r2 = 2 * l ^ 2 * s ^ 2 - nrm r1 * nrm r2
  hN : N = c * σ * l * s
  hN2 : N ^ 2 = (nrm r1 * nrm r2) ^ 2 - (r1 ⬝ᵥ r2) ^ 2

theorem chord_sq (r1 r2 : V3) : nrm (r2 - r1) ^ 2 = nrm r1 ^ 2 + nrm r2 ^ 2 - 2 * (r1 ⬝ᵥ r2) := by
  have h : ∀ v : V3, nrm v ^ 2 = v ⬝ᵥ v := fun v => by rw [← nrm_sq]; ring
  rw [h, h, h]
  simp only [dot3, Pi.sub_apply]; ring

/-- Positions that are not aligned form such a triangle, with the quantities that the solver computes. -/
theorem tri_of {r1 r2 : V3} (hx : r1 ⨯₃ r2 ≠ 0) :
    Tri r1 r2 (semi r1 r2) (nrm (r2 - r1)) ((nrm r1 - nrm r2) / nrm (r2 - r1))
      (Real.sqrt (1 - ((nrm r1 - nrm r2) / nrm (r2 - r1)) ^ 2)) (Real.sqrt (1 - nrm (r2 - r1) / semi r1 r2))
      (nrm (r1 ⨯₃ r2)) := by
  obtain ⟨p1, p2⟩ := nrm_ne_zero_of_cross hx
  have hd := dot_lt_of_cross hx
  have hd1 := (abs_lt.1 hd).1
  have hd2 := (abs_lt.1 hd).2
  have hcs := chord_sq r1 r2
  have hN2 : nrm (r1 ⨯₃ r2) ^ 2 = (nrm r1 * nrm r2) ^ 2 - (r1 ⬝ᵥ r2) ^ 2 := by
    rw [pow_two, nrm_sq, lagrange, ← nrm_sq r1, ← nrm_sq r2]; ring
  have hNp : 0 < nrm (r1 ⨯₃ r2) := Verif.MathU.nrm_pos _ hx
  have hc0 := nrm_nonneg (r2 - r1)
  generalize hc' : nrm (r2 - r1) = c at *
  have hs' : semi r1 r2 = (nrm r1 + nrm r2 + c) * (1 / 2) := by rw [semi, hc']
  generalize semi r1 r2 = s at *
  generalize nrm (r1 ⨯₃ r2) = N at *
  suffices H : ∀ n1 n2 d : ℝ, 0 < n1 → 0 < n2 → -(n1 * n2) < d → d < n1 * n2 → c ^ 2 = n1 ^ 2 + n2 ^ 2 - 2 * d →
      N ^ 2 = (n1 * n2) ^ 2 - d ^ 2 → s = (n1 + n2 + c) * (1 / 2) → n1 = nrm r1 → n2 = nrm r2 → d = r1 ⬝ᵥ r2 →
      Tri r1 r2 s c ((n1 - n2) / c) (Real.sqrt (1 - ((n1 - n2) / c) ^ 2)) (Real.sqrt (1 - c / s)) N from
    H _ _ _ p1 p2 hd1 hd2 hcs hN2 hs' rfl rfl rfl
  clear hs' hN2 hcs hd2 hd1 hd p1 p2
  intro n1 n2 d p1 p2 hd1 hd2 hcs hN2 hs' q1 q2 q3
  have hcp : 0 < c := by
    rcases hc0.lt_or_eq with h | h
    · exact h
    · rw [← h] at hcs
      nlinarith [sq_nonneg (n1 - n2)]
  have hc2 : c < n1 + n2 := by nlinarith
  have hc3 : (n1 - n2) ^ 2 < c ^ 2 := by nlinarith
  have hsp : 0 < s := by rw [hs']; linarith
  have hcs' : c < s := by rw [hs']; linarith
  have hl0 : 0 < 1 - c / s := by rw [sub_pos, div_lt_one hsp]; exact hcs'
  have hl1 : 1 - c / s < 1 := by have := div_pos hcp hsp; linarith
  have hσ0 : 0 < 1 - ((n1 - n2) / c) ^ 2 := by
    rw [div_pow, sub_pos, div_lt_one (by positivity)]; exact hc3
  have hl2 : Real.sqrt (1 - c / s) ^ 2 = 1 - c / s := Real.sq_sqrt hl0.le
  have hlp := Real.sqrt_pos.2 hl0
  have hσ2 : Real.sqrt (1 - ((n1 - n2) / c) ^ 2) ^ 2 = 1 - ((n1 - n2) / c) ^ 2 := Real.sq_sqrt hσ0.le
  have hσp := Real.sqrt_pos.2 hσ0
  generalize Real.sqrt (1 - c / s) = l at *
  generalize Real.sqrt (1 - ((n1 - n2) / c) ^ 2) = σ at *
  have hcl : c = s * (1 - l ^ 2) := by rw [hl2]; field_simp; ring
  have hdd : d = 2 * l ^ 2 * s ^ 2 - n1 * n2 := by
    have : l ^ 2 * s ^ 2 = s * (s - c) := by rw [hl2]; field_simp
    have h4 : s * (s - c) = (n1 * n2 + d) / 2 := by rw [hs']; nlinarith
    linarith
  refine ⟨hsp, hcp, hlp, ?_, hσp, hNp, hcl, hσ2, ?_, ?_, by rw [← q1, ← q2, ← q3]; exact hdd, ?_,
    by rw [← q1, ← q2, ← q3]; exact hN2⟩
  · by_contra h
    nlinarith
  · have : (n1 - n2) / c * (1 - l ^ 2) * s = n1 - n2 := by
      have : (1 - l ^ 2) * s = c := by rw [hcl]; ring
      rw [mul_assoc, this]; field_simp
    have h2 : s * (1 + l ^ 2) = n1 + n2 := by
      have : s * (1 + l ^ 2) = 2 * s - c := by rw [hcl]; ring
      rw [this, hs']; ring
    rw [← q1]; linarith
  · have : (n1 - n2) / c * (1 - l ^ 2) * s = n1 - n2 := by
      have : (1 - l ^ 2) * s = c := by rw [hcl]; ring
      rw [mul_assoc, this]; field_simp
    have h2 : s * (1 + l ^ 2) = n1 + n2 := by
      have : s * (1 + l ^ 2) = 2 * s - c := by rw [hcl]; ring
      rw [this, hs']; ring
    rw [← q2]; linarith
  · have h1 : c ^ 2 * σ ^ 2 = 2 * (n1 * n2 - d) := by
      rw [hσ2]; field_simp; linarith
    have h3 : N ^ 2 = (c * σ * l * s) ^ 2 := by
      rw [hN2]
      calc (n1 * n2) ^ 2 - d ^ 2 = (n1 * n2 - d) * (n1 * n2 + d) := by ring
        _ = (c ^ 2 * σ ^ 2 / 2) * (2 * l ^ 2 * s ^ 2) := by rw [h1, hdd]; ring
        _ = _ := by ring
    exact (pow_left_inj₀ hNp.le (by positivity) two_ne_zero).1 h3

/-- The normal that the solver uses is along `r1 × r2` or against it, according to the sign of its third component. -/
theorem planeNormal_eq {r1 r2 : V3} (hx : r1 ⨯₃ r2 ≠ 0) :
    planeNormal r1 r2 = some (if (r1 ⨯₃ r2) 2 < 0 then -((1 / nrm (r1 ⨯₃ r2)) • (r1 ⨯₃ r2))
      else (1 / nrm (r1 ⨯₃ r2)) • (r1 ⨯₃ r2)) := by
  obtain ⟨p1, p2⟩ := nrm_ne_zero_of_cross hx
  have hN : 0 < nrm (r1 ⨯₃ r2) := Verif.MathU.nrm_pos _ hx
  have e : ((1 / nrm r1) • r1) ⨯₃ ((1 / nrm r2) • r2) = (1 / (nrm r1 * nrm r2)) • (r1 ⨯₃ r2) := by
    rw [LinearMap.map_smul₂, map_smul, smul_smul]
    congr 1
    field_simp
  have hp : 0 < 1 / (nrm r1 * nrm r2) := by positivity
  have hn : nrm ((1 / (nrm r1 * nrm r2)) • (r1 ⨯₃ r2)) = 1 / (nrm r1 * nrm r2) * nrm (r1 ⨯₃ r2) := by
    have h1 : ∀ v : V3, nrm v = Real.sqrt (v ⬝ᵥ v) := fun v => rfl
    rw [h1, dotProduct_smul, smul_dotProduct, smul_eq_mul, smul_eq_mul, ← mul_assoc, ← nrm_sq]
    rw [show 1 / (nrm r1 * nrm r2) * (1 / (nrm r1 * nrm r2)) * (nrm (r1 ⨯₃ r2) * nrm (r1 ⨯₃ r2)) =
      (1 / (nrm r1 * nrm r2) * nrm (r1 ⨯₃ r2)) ^ 2 by ring]
    exact Real.sqrt_sq (by positivity)
  rw [planeNormal, e, hn, vdiv, if_neg (by positivity), Option.map_some, smul_smul]
  have e2 : 1 / (1 / (nrm r1 * nrm r2) * nrm (r1 ⨯₃ r2)) * (1 / (nrm r1 * nrm r2)) = 1 / nrm (r1 ⨯₃ r2) := by
    field_simp
  rw [e2]
  have hiff : ((1 / nrm (r1 ⨯₃ r2)) • (r1 ⨯₃ r2)) 2 < 0 ↔ (r1 ⨯₃ r2) 2 < 0 := by
    rw [Pi.smul_apply, smul_eq_mul]
    constructor
    · intro h
      by_contra h'
      have : 0 ≤ 1 / nrm (r1 ⨯₃ r2) * (r1 ⨯₃ r2) 2 := mul_nonneg (by positivity) (not_lt.1 h')
      linarith
    · intro h
      exact mul_neg_of_pos_of_neg (by positivity) h
  by_cases h : (r1 ⨯₃ r2) 2 < 0
  · rw [if_pos h, if_pos (hiff.2 h)]
  · rw [if_neg h, if_neg (fun h' => h (hiff.1 h'))]

/-- The sign of the tangential direction that the solver uses, relative to `(r1 × r2) × r`. -/
noncomputable def turn (dm : ℝ) (r1 r2 : V3) : ℝ := if (r1 ⨯₃ r2) 2 < 0 then -dm else dm

/-- The tangential direction at a position orthogonal to `r1 × r2`. -/
theorem tangent_eq {r1 r2 r : V3} (hx : r1 ⨯₃ r2 ≠ 0) {dm : ℝ} (hdm : dm = 1 ∨ dm = -1) (hr : 0 < nrm r)
    (ho : (r1 ⨯₃ r2) ⬝ᵥ r = 0) :
    ((planeNormal r1 r2).bind fun h => tangent dm h r) =
      some ((turn dm r1 r2 / (nrm (r1 ⨯₃ r2) * nrm r)) • ((r1 ⨯₃ r2) ⨯₃ r)) := by
  have hN : 0 < nrm (r1 ⨯₃ r2) := Verif.MathU.nrm_pos _ hx
  rw [planeNormal_eq hx, Option.bind_some]
  set w := r1 ⨯₃ r2 with hw
  have hunit : ∀ k : ℝ, k ^ 2 = 1 → nrm ((k / (nrm w * nrm r)) • (w ⨯₃ r)) = 1 := by
    intro k hk
    have h1 : ∀ v : V3, nrm v = Real.sqrt (v ⬝ᵥ v) := fun v => rfl
    rw [h1, dotProduct_smul, smul_dotProduct, smul_eq_mul, smul_eq_mul, lagrange, ho, ← nrm_sq, ← nrm_sq]
    have : k / (nrm w * nrm r) * (k / (nrm w * nrm r) * (nrm w * nrm w * (nrm r * nrm r) - 0 ^ 2)) = 1 := by
      field_simp
      rw [hk]; ring
    rw [this, Real.sqrt_one]
  have key : ∀ t : V3, ∀ k : ℝ, k ^ 2 = 1 → t = (k / (nrm w * nrm r)) • (w ⨯₃ r) → vdiv t (nrm t) = some t := by
    intro t k hk ht
    have : nrm t = 1 := by rw [ht]; exact hunit k hk
    rw [this, vdiv, if_neg one_ne_zero, div_one, one_smul]
  have hk : (turn dm r1 r2) ^ 2 = 1 := by
    rw [turn]; split_ifs <;> rcases hdm with h | h <;> rw [h] <;> norm_num
  simp only [tangent]
  have ht : (if dm < 0 then ((1 / nrm r) • r) ⨯₃ (if w 2 < 0 then -((1 / nrm w) • w) else (1 / nrm w) • w)
      else (if w 2 < 0 then -((1 / nrm w) • w) else (1 / nrm w) • w) ⨯₃ ((1 / nrm r) • r)) =
      (turn dm r1 r2 / (nrm w * nrm r)) • (w ⨯₃ r) := by
    have e : ((1 / nrm w) • w) ⨯₃ ((1 / nrm r) • r) = (1 / (nrm w * nrm r)) • (w ⨯₃ r) := by
      rw [LinearMap.map_smul₂, map_smul, smul_smul]
      congr 1
      field_simp
    have e' : ((1 / nrm r) • r) ⨯₃ ((1 / nrm w) • w) = -((1 / (nrm w * nrm r)) • (w ⨯₃ r)) := by
      rw [← cross_anticomm, e]
    rw [turn, ← hw]
    rcases hdm with h | h <;> rw [h] <;> by_cases hz : w 2 < 0
    · rw [if_neg (by norm_num), if_pos hz, if_pos hz, map_neg, LinearMap.neg_apply, e, neg_div, neg_smul]
    · rw [if_neg (by norm_num), if_neg hz, if_neg hz, e]
    · rw [if_pos (by norm_num), if_pos hz, if_pos hz, map_neg, e', neg_neg, neg_neg]
    · rw [if_pos (by norm_num), if_neg hz, if_neg hz, e', neg_div, neg_smul]
  rw [ht]
  exact key _ _ hk rfl

theorem cross_ortho1 (r1 r2 : V3) : (r1 ⨯₃ r2) ⬝ᵥ r1 = 0 := by
  simp only [dot3, cross0, cross1, cross2]; ring

theorem cross_ortho2 (r1 r2 : V3) : (r1 ⨯₃ r2) ⬝ᵥ r2 = 0 := by
  simp only [dot3, cross0, cross1, cross2]; ring

theorem triple1 (r1 r2 : V3) : (r1 ⨯₃ r2) ⨯₃ r1 = (nrm r1 ^ 2) • r2 - (r1 ⬝ᵥ r2) • r1 := by
  have : nrm r1 ^ 2 = r1 ⬝ᵥ r1 := by rw [← nrm_sq]; ring
  rw [this]
  refine ext3 ?_ ?_ ?_ <;>
    simp only [dot3, cross0, cross1, cross2, Pi.sub_apply, Pi.smul_apply, smul_eq_mul] <;> ring

theorem triple2 (r1 r2 : V3) : (r1 ⨯₃ r2) ⨯₃ r2 = (r1 ⬝ᵥ r2) • r2 - (nrm r2 ^ 2) • r1 := by
  have : nrm r2 ^ 2 = r2 ⬝ᵥ r2 := by rw [← nrm_sq]; ring
  rw [this]
  refine ext3 ?_ ?_ ?_ <;>
    simp only [dot3, cross0, cross1, cross2, Pi.sub_apply, Pi.smul_apply, smul_eq_mul] <;> ring

/-- The quantities of the solver by their names in the code. -/
theorem izzoLambda_eq {dm : ℝ} (hdm : dm = 1 ∨ dm = -1) (r1 r2 : V3) :
    izzoLambda dm r1 r2 = dm * Real.sqrt (1 - nrm (r2 - r1) / semi r1 r2) := by
  rw [izzoLambda]
  rcases hdm with h | h <;> rw [h]
  · rw [if_neg (by norm_num), one_mul]
  · rw [if_pos (by norm_num)]; ring

/-- The velocities of the solver, written in the basis of the two positions. -/
theorem izzoVelocities_eq {r1 r2 : V3} (hx : r1 ⨯₃ r2 ≠ 0) {dm : ℝ} (hdm : dm = 1 ∨ dm = -1) (mu x y : ℝ)
    {s c ρ σ l N : ℝ} (hs : s = semi r1 r2) (hc : c = nrm (r2 - r1)) (hρ : ρ = (nrm r1 - nrm r2) / c)
    (hσ : σ = Real.sqrt (1 - ρ ^ 2)) (hl : l = Real.sqrt (1 - c / s)) (hN : N = nrm (r1 ⨯₃ r2)) :
    izzoVelocities mu dm x y r1 r2 =
      (some ((Real.sqrt (mu * s / 2) * ((dm * l * y - x) - ρ * (dm * l * y + x)) / nrm r1 / nrm r1) • r1 +
        (Real.sqrt (mu * s / 2) * σ * (y + dm * l * x) / nrm r1 * (turn dm r1 r2 / (N * nrm r1))) •
          ((r1 ⨯₃ r2) ⨯₃ r1)),
       some ((-Real.sqrt (mu * s / 2) * ((dm * l * y - x) + ρ * (dm * l * y + x)) / nrm r2 / nrm r2) • r2 +
        (Real.sqrt (mu * s / 2) * σ * (y + dm * l * x) / nrm r2 * (turn dm r1 r2 / (N * nrm r2))) •
          ((r1 ⨯₃ r2) ⨯₃ r2))) := by
  obtain ⟨p1, p2⟩ := nrm_ne_zero_of_cross hx
  have t1 := tangent_eq hx hdm p1 (cross_ortho1 r1 r2)
  have t2 := tangent_eq hx hdm p2 (cross_ortho2 r1 r2)
  rw [planeNormal_eq hx, Option.bind_some] at t1 t2
  simp only [izzoVelocities, planeNormal_eq hx, Option.bind_some, t1, t2, Option.map_some, reconstruct,
    izzoLambda_eq hdm, smul_smul]
  rw [← hs, ← hc, ← hρ, ← hσ, ← hl, ← hN]
  congr 4
  · ring
  · ring

theorem dm_sq {dm : ℝ} (hdm : dm = 1 ∨ dm = -1) : dm ^ 2 = 1 := by rcases hdm with h | h <;> rw [h] <;> norm_num

theorem turn_sq {dm : ℝ} (hdm : dm = 1 ∨ dm = -1) (r1 r2 : V3) : turn dm r1 r2 ^ 2 = 1 := by
  rw [turn]; split_ifs <;> rcases hdm with h | h <;> rw [h] <;> norm_num

/-- `y` from `x`. -/
theorem computeY_sq {l x : ℝ} (hl : l ^ 2 ≤ 1) : computeY x l ^ 2 = 1 - l ^ 2 * (1 - x ^ 2) := by
  rw [computeY, Real.sq_sqrt]
  nlinarith [mul_nonneg (sq_nonneg l) (sq_nonneg x)]

theorem eta_pos {l x : ℝ} (hl : l ^ 2 < 1) : 0 < computeY x l - l * x := by
  have h := computeY_sq (x := x) hl.le
  have hy : 0 ≤ computeY x l := Real.sqrt_nonneg _
  by_contra h'
  have h1 : computeY x l ≤ l * x := by linarith
  nlinarith

/-- In the plane whose normal points to +z the velocities have the form of the ones of Gooding. -/
theorem izzo_as_gooding {r1 r2 : V3} (hx : r1 ⨯₃ r2 ≠ 0) {dm : ℝ} (hdm : dm = 1 ∨ dm = -1) {mu : ℝ} (hmu : 0 < mu)
    (x : ℝ) (hz : 0 ≤ (r1 ⨯₃ r2) 2) {l s : ℝ} (hl : l = izzoLambda dm r1 r2) (hs : s = semi r1 r2) :
    ∃ v1 v2, izzoVelocities mu dm x (computeY x l) r1 r2 = (some v1, some v2) ∧
      (Real.sqrt 2 * l * s * Real.sqrt (s * (computeY x l - l * x) ^ 2 / mu)) • v1 =
        r2 - (1 - s * (computeY x l - l * x) ^ 2 / nrm r1) • r1 ∧
      (Real.sqrt 2 * l * s * Real.sqrt (s * (computeY x l - l * x) ^ 2 / mu)) • v2 =
        (1 - s * (computeY x l - l * x) ^ 2 / nrm r2) • r2 - r1 := by
  obtain ⟨p1, p2⟩ := nrm_ne_zero_of_cross hx
  have T := tri_of hx
  have hv := izzoVelocities_eq hx hdm mu x (computeY x l) rfl rfl rfl rfl rfl rfl
  rw [izzoLambda_eq hdm] at hl
  rw [← hs] at T hv hl
  generalize Real.sqrt (1 - nrm (r2 - r1) / s) = k at *
  generalize Real.sqrt (1 - ((nrm r1 - nrm r2) / nrm (r2 - r1)) ^ 2) = σ at *
  generalize (nrm r1 - nrm r2) / nrm (r2 - r1) = ρ at *
  generalize nrm (r2 - r1) = c at *
  have hdd := dm_sq hdm
  have hl2 : l ^ 2 = k ^ 2 := by rw [hl]; linear_combination k ^ 2 * hdd
  have hl1 : l ^ 2 < 1 := by rw [hl2]; nlinarith [T.lp, T.l1]
  have hy2 := computeY_sq (x := x) hl1.le
  have he := eta_pos (x := x) hl1
  generalize computeY x l = y at *
  refine ⟨_, _, hv, ?_⟩
  have ht : turn dm r1 r2 = dm := by rw [turn, if_neg (not_lt.2 hz)]
  rw [triple1, triple2, ht]
  -- the products of the square roots
  have hg : Real.sqrt 2 * l * s * Real.sqrt (s * (y - l * x) ^ 2 / mu) * Real.sqrt (mu * s / 2) =
      l * s ^ 2 * (y - l * x) := by
    have e1 : Real.sqrt 2 * Real.sqrt (s * (y - l * x) ^ 2 / mu) * Real.sqrt (mu * s / 2) = s * (y - l * x) := by
      have sp := T.sp
      rw [← Real.sqrt_mul (by norm_num), ← Real.sqrt_mul (by positivity)]
      rw [show 2 * (s * (y - l * x) ^ 2 / mu) * (mu * s / 2) = (s * (y - l * x)) ^ 2 by field_simp]
      exact Real.sqrt_sq (by positivity)
    linear_combination l * s * e1
  generalize Real.sqrt 2 * l * s * Real.sqrt (s * (y - l * x) ^ 2 / mu) = g at *
  generalize Real.sqrt (mu * s / 2) = γ at *
  have sp := T.sp
  have Np := T.Np
  have hN := T.hN
  have hN2 := T.hN2
  generalize nrm (r1 ⨯₃ r2) = N at *
  have hn1 := T.n1
  have hn2 := T.n2
  have hd := T.d
  have hc := T.hc
  rw [← hl]
  -- the tangential component
  rw [← hl2] at hn1 hn2 hd hc
  have hgt : g * (γ * σ * (y + l * x)) * dm = N := by
    rw [hN, hc]
    have : k = l * dm := by rw [hl]; linear_combination -k * hdd
    rw [this]
    linear_combination σ * (y + l * x) * dm * hg + l * s ^ 2 * σ * dm * hy2
  generalize nrm r1 = n1 at *
  generalize nrm r2 = n2 at *
  generalize r1 ⬝ᵥ r2 = d at *
  have hs1 : n1 + n2 = s * (1 + l ^ 2) := by rw [hn1, hn2]; ring
  have hr1 : g * (γ * ((l * y - x) - ρ * (l * y + x))) = d - n1 ^ 2 + s * (y - l * x) ^ 2 * n1 := by
    have : l * s ^ 2 * (y - l * x) * ((l * y - x) - ρ * (l * y + x)) =
      2 * l ^ 2 * s ^ 2 - n1 * (n1 + n2) + s * (y - l * x) ^ 2 * n1 := by
      rw [hs1, hn1]
      linear_combination (l ^ 2 * s ^ 2 * (1 - ρ) - s ^ 2 * (1 + l ^ 2 + ρ * (1 - l ^ 2)) / 2) * hy2
    rw [hd]
    linear_combination this + ((l * y - x) - ρ * (l * y + x)) * hg
  have hr2 : g * (-γ * ((l * y - x) + ρ * (l * y + x))) = n2 ^ 2 - d - s * (y - l * x) ^ 2 * n2 := by
    have : -(l * s ^ 2 * (y - l * x) * ((l * y - x) + ρ * (l * y + x))) =
      n2 * (n1 + n2) - 2 * l ^ 2 * s ^ 2 - s * (y - l * x) ^ 2 * n2 := by
      rw [hs1, hn2]
      linear_combination (-(l ^ 2 * s ^ 2 * (1 + ρ)) + s ^ 2 * (1 + l ^ 2 - ρ * (1 - l ^ 2)) / 2) * hy2
    rw [hd]
    linear_combination this - ((l * y - x) + ρ * (l * y + x)) * hg
  have et : ∀ n : ℝ, 0 < n → g * (γ * σ * (y + l * x) / n * (dm / (N * n))) = 1 / n ^ 2 := by
    intro n hn
    calc g * (γ * σ * (y + l * x) / n * (dm / (N * n))) = (g * (γ * σ * (y + l * x)) * dm) / N / n ^ 2 := by
          field_simp
      _ = 1 / n ^ 2 := by rw [hgt, div_self Np.ne']
  constructor
  · rw [smul_add, smul_smul, smul_smul, et n1 p1]
    have e2 : g * (γ * ((l * y - x) - ρ * (l * y + x)) / n1 / n1) =
        (d - n1 ^ 2 + s * (y - l * x) ^ 2 * n1) / n1 ^ 2 := by rw [← hr1]; field_simp
    rw [e2]
    refine ext3 ?_ ?_ ?_ <;> simp only [Pi.add_apply, Pi.sub_apply, Pi.smul_apply, smul_eq_mul] <;> field_simp <;> ring
  · rw [smul_add, smul_smul, smul_smul, et n2 p2]
    have e2 : g * (-γ * ((l * y - x) + ρ * (l * y + x)) / n2 / n2) =
        (n2 ^ 2 - d - s * (y - l * x) ^ 2 * n2) / n2 ^ 2 := by rw [← hr2]; field_simp
    rw [e2]
    refine ext3 ?_ ?_ ?_ <;> simp only [Pi.add_apply, Pi.sub_apply, Pi.smul_apply, smul_eq_mul] <;> field_simp <;> ring

/-- The square of the coefficient, as in `velocities_conic`. -/
theorem izzo_a_sq {r1 r2 : V3} (hx : r1 ⨯₃ r2 ≠ 0) {dm : ℝ} (hdm : dm = 1 ∨ dm = -1) :
    (Real.sqrt 2 * izzoLambda dm r1 r2 * semi r1 r2) ^ 2 = nrm r1 * nrm r2 + r1 ⬝ᵥ r2 := by
  have T := tri_of hx
  have hd := T.d
  rw [izzoLambda_eq hdm, mul_pow, mul_pow, mul_pow, Real.sq_sqrt (by norm_num : (0 : ℝ) ≤ 2), dm_sq hdm]
  linarith

theorem izzoLambda_facts {r1 r2 : V3} (hx : r1 ⨯₃ r2 ≠ 0) {dm : ℝ} (hdm : dm = 1 ∨ dm = -1) :
    izzoLambda dm r1 r2 ≠ 0 ∧ izzoLambda dm r1 r2 ^ 2 < 1 ∧ 0 < dm * izzoLambda dm r1 r2 := by
  have T := tri_of hx
  rw [izzoLambda_eq hdm]
  have hl := T.lp
  have h1 := T.l1
  generalize Real.sqrt (1 - nrm (r2 - r1) / semi r1 r2) = k at *
  have h2 := dm_sq hdm
  refine ⟨?_, ?_, ?_⟩
  · rcases hdm with h | h <;> rw [h] <;> intro h' <;> linarith
  · rw [mul_pow, h2]; nlinarith
  · rw [← mul_assoc, ← pow_two, h2]; linarith

/-- In the plane whose normal points to +z the velocities for any value of `x` lie on one conic through the two
positions, traversed in the direction that the sign asks for. -/
theorem izzo_conic {r1 r2 : V3} (hx : r1 ⨯₃ r2 ≠ 0) {dm : ℝ} (hdm : dm = 1 ∨ dm = -1) {mu : ℝ} (hmu : 0 < mu) (x : ℝ)
    (hz : 0 ≤ (r1 ⨯₃ r2) 2) :
    ∃ v1 v2, izzoVelocities mu dm x (computeY x (izzoLambda dm r1 r2)) r1 r2 = (some v1, some v2) ∧
      r2 ⨯₃ v2 = r1 ⨯₃ v1 ∧ ecc mu r2 v2 = ecc mu r1 v1 ∧ energy mu r2 v2 = energy mu r1 v1 ∧
      ∃ k, 0 < k ∧ r1 ⨯₃ v1 = (dm * k) • (r1 ⨯₃ r2) := by
  obtain ⟨v1, v2, hv, h1, h2⟩ := izzo_as_gooding hx hdm hmu x hz rfl rfl
  have ha2 := izzo_a_sq hx hdm
  obtain ⟨l0, l1, ld⟩ := izzoLambda_facts hx hdm
  have he := eta_pos (x := x) l1
  have sp := (tri_of hx).sp
  have hY : 0 < semi r1 r2 * (computeY x (izzoLambda dm r1 r2) - izzoLambda dm r1 r2 * x) ^ 2 := by positivity
  generalize semi r1 r2 * (computeY x (izzoLambda dm r1 r2) - izzoLambda dm r1 r2 * x) ^ 2 = Y at *
  have ha : Real.sqrt 2 * izzoLambda dm r1 r2 * semi r1 r2 ≠ 0 := by positivity
  obtain ⟨c1, c2, c3, c4⟩ := velocities_conic hmu ha hY hx ha2 h1 h2
  refine ⟨v1, v2, hv, c2, c3, c4, ?_⟩
  have hq : 0 < Real.sqrt (Y / mu) := Real.sqrt_pos.2 (div_pos hY hmu)
  have hdd := dm_sq hdm
  refine ⟨1 / (Real.sqrt 2 * (dm * izzoLambda dm r1 r2) * semi r1 r2 * Real.sqrt (Y / mu)), by positivity, ?_⟩
  rw [← c1, smul_smul]
  have : dm * (1 / (Real.sqrt 2 * (dm * izzoLambda dm r1 r2) * semi r1 r2 * Real.sqrt (Y / mu))) *
      (Real.sqrt 2 * izzoLambda dm r1 r2 * semi r1 r2 * Real.sqrt (Y / mu)) = 1 := by
    have : dm ≠ 0 := by rcases hdm with h | h <;> rw [h] <;> norm_num
    field_simp
  rw [this, one_smul]

/-- A velocity with a component along the position and one in the plane across it. -/
theorem cross_split (w r : V3) (a b : ℝ) (ho : w ⬝ᵥ r = 0) :
    r ⨯₃ (a • r + b • (w ⨯₃ r)) = (b * nrm r ^ 2) • w := by
  have : nrm r ^ 2 = r ⬝ᵥ r := by rw [← nrm_sq]; ring
  rw [this]
  rw [dot3] at ho
  refine ext3 ?_ ?_ ?_ <;>
    simp only [dot3, cross0, cross1, cross2, Pi.add_apply, Pi.smul_apply, smul_eq_mul]
  · linear_combination -b * r 0 * ho
  · linear_combination -b * r 1 * ho
  · linear_combination -b * r 2 * ho

theorem square_split (w r : V3) (a b : ℝ) (ho : w ⬝ᵥ r = 0) :
    (a • r + b • (w ⨯₃ r)) ⬝ᵥ (a • r + b • (w ⨯₃ r)) = a ^ 2 * nrm r ^ 2 + b ^ 2 * nrm w ^ 2 * nrm r ^ 2 := by
  have h : ∀ v : V3, nrm v ^ 2 = v ⬝ᵥ v := fun v => by rw [← nrm_sq]; ring
  have e : (a • r + b • (w ⨯₃ r)) ⬝ᵥ (a • r + b • (w ⨯₃ r)) =
      a ^ 2 * (r ⬝ᵥ r) + b ^ 2 * ((w ⨯₃ r) ⬝ᵥ (w ⨯₃ r)) := by
    simp only [dot3, cross0, cross1, cross2, Pi.add_apply, Pi.smul_apply, smul_eq_mul]; ring
  rw [e, lagrange, ho, h, h]; ring

theorem ecc_split (μ : ℝ) (w r : V3) (a b : ℝ) (ho : w ⬝ᵥ r = 0) :
    ecc μ r (a • r + b • (w ⨯₃ r)) = (b * nrm r ^ 2 * a / μ) • (r ⨯₃ w) +
      (b * (b * nrm r ^ 2) * nrm w ^ 2 / μ - 1 / nrm r) • r := by
  rw [ecc, cross_split w r a b ho, map_smul]
  have h : ∀ v : V3, nrm v ^ 2 = v ⬝ᵥ v := fun v => by rw [← nrm_sq]; ring
  rw [h w]
  generalize nrm r ^ 2 = q
  generalize 1 / nrm r = k
  rw [dot3] at ho
  refine ext3 ?_ ?_ ?_ <;>
    simp only [dot3, cross0, cross1, cross2, Pi.add_apply, Pi.sub_apply, Pi.smul_apply, smul_eq_mul]
  · linear_combination -(1 / μ * (b * q) * b) * w 0 * ho
  · linear_combination -(1 / μ * (b * q) * b) * w 1 * ho
  · linear_combination -(1 / μ * (b * q) * b) * w 2 * ho

/-- **C58.** Whatever the plane of the transfer and the value of `x`, the velocities give the same angular momentum and
the same energy at both ends, the one of an orbit of semi-major axis `s / (2 (1 - x²))`. -/
theorem izzo_momentum_energy {r1 r2 : V3} (hx : r1 ⨯₃ r2 ≠ 0) {dm : ℝ} (hdm : dm = 1 ∨ dm = -1) {mu : ℝ}
    (hmu : 0 < mu) (x : ℝ) :
    ∃ v1 v2, izzoVelocities mu dm x (computeY x (izzoLambda dm r1 r2)) r1 r2 = (some v1, some v2) ∧
      r2 ⨯₃ v2 = r1 ⨯₃ v1 ∧ energy mu r1 v1 = -(mu * (1 - x ^ 2) / semi r1 r2) ∧
      energy mu r2 v2 = -(mu * (1 - x ^ 2) / semi r1 r2) := by
  obtain ⟨p1, p2⟩ := nrm_ne_zero_of_cross hx
  have T := tri_of hx
  obtain ⟨l0, l1, ld⟩ := izzoLambda_facts hx hdm
  have hv := izzoVelocities_eq hx hdm mu x (computeY x (izzoLambda dm r1 r2)) rfl rfl rfl rfl rfl rfl
  have hl := izzoLambda_eq hdm r1 r2
  generalize izzoLambda dm r1 r2 = l at *
  have o1 := cross_ortho1 r1 r2
  have o2 := cross_ortho2 r1 r2
  have hy2 := computeY_sq (x := x) l1.le
  have ht2 := turn_sq hdm r1 r2
  generalize semi r1 r2 = s at *
  generalize Real.sqrt (1 - nrm (r2 - r1) / s) = k at *
  generalize Real.sqrt (1 - ((nrm r1 - nrm r2) / nrm (r2 - r1)) ^ 2) = σ at *
  generalize (nrm r1 - nrm r2) / nrm (r2 - r1) = ρ at *
  generalize nrm (r2 - r1) = c at *
  generalize computeY x l = y at *
  generalize turn dm r1 r2 = ε at *
  rw [← hl] at hv
  have hdd := dm_sq hdm
  have hl2 : l ^ 2 = k ^ 2 := by rw [hl]; linear_combination k ^ 2 * hdd
  have hg : Real.sqrt (mu * s / 2) ^ 2 = mu * s / 2 := Real.sq_sqrt (by have := T.sp; positivity)
  generalize Real.sqrt (mu * s / 2) = γ at *
  have hn1 := T.n1
  have hn2 := T.n2
  have hσ := T.hσ
  have sp := T.sp
  have Np := T.Np
  rw [← hl2] at hn1 hn2
  refine ⟨_, _, hv, ?_, ?_, ?_⟩
  · rw [cross_split _ _ _ _ o1, cross_split _ _ _ _ o2]
    congr 1
    field_simp
  · rw [energy, square_split _ _ _ _ o1]
    generalize nrm (r1 ⨯₃ r2) = N at *
    generalize nrm r1 = n1 at *
    have e : (γ * (l * y - x - ρ * (l * y + x)) / n1 / n1) ^ 2 * n1 ^ 2 +
        (γ * σ * (y + l * x) / n1 * (ε / (N * n1))) ^ 2 * N ^ 2 * n1 ^ 2 =
        γ ^ 2 * ((l * y - x - ρ * (l * y + x)) ^ 2 + σ ^ 2 * (y + l * x) ^ 2 * ε ^ 2) / n1 ^ 2 := by
      field_simp
    rw [e, hg, hσ, ht2]
    have key : s / 2 * ((l * y - x - ρ * (l * y + x)) ^ 2 + (1 - ρ ^ 2) * (y + l * x) ^ 2) * s =
        2 * n1 * s - 2 * n1 ^ 2 * (1 - x ^ 2) := by
      rw [hn1]
      linear_combination (s / 2 * ((l - ρ * l) ^ 2 + (1 - ρ ^ 2)) * s) * hy2
    have key2 : (l * y - x - ρ * (l * y + x)) ^ 2 + (1 - ρ ^ 2) * (y + l * x) ^ 2 = 2 * (2 * n1 * s - 2 * n1 ^ 2 * (1 - x ^ 2)) / s ^ 2 := by
      rw [← key]; field_simp
    rw [mul_one, key2]
    field_simp
    ring
  · rw [energy, square_split _ _ _ _ o2]
    generalize nrm (r1 ⨯₃ r2) = N at *
    generalize nrm r2 = n2 at *
    have e : (-γ * (l * y - x + ρ * (l * y + x)) / n2 / n2) ^ 2 * n2 ^ 2 +
        (γ * σ * (y + l * x) / n2 * (ε / (N * n2))) ^ 2 * N ^ 2 * n2 ^ 2 =
        γ ^ 2 * ((l * y - x + ρ * (l * y + x)) ^ 2 + σ ^ 2 * (y + l * x) ^ 2 * ε ^ 2) / n2 ^ 2 := by
      field_simp
    rw [e, hg, hσ, ht2]
    have key : s / 2 * ((l * y - x + ρ * (l * y + x)) ^ 2 + (1 - ρ ^ 2) * (y + l * x) ^ 2) * s =
        2 * n2 * s - 2 * n2 ^ 2 * (1 - x ^ 2) := by
      rw [hn2]
      linear_combination (s / 2 * ((l + ρ * l) ^ 2 + (1 - ρ ^ 2)) * s) * hy2
    have key2 : (l * y - x + ρ * (l * y + x)) ^ 2 + (1 - ρ ^ 2) * (y + l * x) ^ 2 = 2 * (2 * n2 * s - 2 * n2 ^ 2 * (1 - x ^ 2)) / s ^ 2 := by
      rw [← key]; field_simp
    rw [mul_one, key2]
    field_simp
    ring

theorem flip_poly {l x y : ℝ} (s ρ : ℝ) (hy2 : y ^ 2 = 1 - l ^ 2 * (1 - x ^ 2)) :
    (s * (1 + l ^ 2 + ρ * (1 - l ^ 2)) / 2) ^ 2 * (s / 2 * (1 - ρ ^ 2) * (y + l * x) ^ 2 -
        s * (1 + l ^ 2 - ρ * (1 - l ^ 2)) / 2) =
      -(s / 2 * (1 - ρ ^ 2) * (y + l * x) * (l * y - x - ρ * (l * y + x)) * (s * (1 - l ^ 2) * l * s)) +
        (s / 2 * (1 - ρ ^ 2) * (y + l * x) ^ 2 - s * (1 + l ^ 2 + ρ * (1 - l ^ 2)) / 2) *
          (2 * l ^ 2 * s ^ 2 - s * (1 + l ^ 2 + ρ * (1 - l ^ 2)) / 2 * (s * (1 + l ^ 2 - ρ * (1 - l ^ 2)) / 2)) := by
  linear_combination ((s * (1 + l ^ 2 + ρ * (1 - l ^ 2)) / 2) ^ 2 * (s / 2 * (1 - ρ ^ 2)) +
    s / 2 * (1 - ρ ^ 2) * (l - ρ * l) * (s * (1 - l ^ 2) * l * s) - s / 2 * (1 - ρ ^ 2) * (2 * l ^ 2 * s ^ 2 -
    s * (1 + l ^ 2 + ρ * (1 - l ^ 2)) / 2 * (s * (1 + l ^ 2 - ρ * (1 - l ^ 2)) / 2))) * hy2

set_option maxHeartbeats 1000000 in
/-- When the third component of `r1 × r2` is negative, the eccentricity vectors at both ends differ, for all the
values of `x` if the positions are not at the same distance. -/
theorem izzo_flipped {r1 r2 : V3} (hx : r1 ⨯₃ r2 ≠ 0) {dm : ℝ} (hdm : dm = 1 ∨ dm = -1) {mu : ℝ} (hmu : 0 < mu)
    (x : ℝ) (hz : (r1 ⨯₃ r2) 2 < 0) (hn : nrm r1 ≠ nrm r2) {v1 v2 : V3}
    (hv : izzoVelocities mu dm x (computeY x (izzoLambda dm r1 r2)) r1 r2 = (some v1, some v2)) :
    ecc mu r2 v2 ≠ ecc mu r1 v1 := by
  obtain ⟨p1, p2⟩ := nrm_ne_zero_of_cross hx
  have T := tri_of hx
  obtain ⟨l0, l1, ld⟩ := izzoLambda_facts hx hdm
  have hv' := izzoVelocities_eq hx hdm mu x (computeY x (izzoLambda dm r1 r2)) rfl rfl rfl rfl rfl rfl
  rw [hv] at hv'
  have hl := izzoLambda_eq hdm r1 r2
  generalize izzoLambda dm r1 r2 = l at *
  have o1 := cross_ortho1 r1 r2
  have o2 := cross_ortho2 r1 r2
  have hy2 := computeY_sq (x := x) l1.le
  have hy0 : 0 ≤ computeY x l := Real.sqrt_nonneg _
  have ht : turn dm r1 r2 = -dm := by rw [turn, if_pos hz]
  rw [ht] at hv'
  generalize semi r1 r2 = s at *
  generalize Real.sqrt (1 - nrm (r2 - r1) / s) = k at *
  generalize Real.sqrt (1 - ((nrm r1 - nrm r2) / nrm (r2 - r1)) ^ 2) = σ at *
  have hρc : (nrm r1 - nrm r2) / nrm (r2 - r1) ≠ 0 := div_ne_zero (sub_ne_zero.2 hn) T.cp.ne'
  generalize (nrm r1 - nrm r2) / nrm (r2 - r1) = ρ at *
  generalize nrm (r2 - r1) = c at *
  generalize computeY x l = y at *
  rw [← hl] at hv'
  have hdd := dm_sq hdm
  have hl2 : l ^ 2 = k ^ 2 := by rw [hl]; linear_combination k ^ 2 * hdd
  have hk : dm * l = k := by rw [hl]; linear_combination k * hdd
  have hg : Real.sqrt (mu * s / 2) ^ 2 = mu * s / 2 := Real.sq_sqrt (by have := T.sp; positivity)
  have hgp : 0 < Real.sqrt (mu * s / 2) := Real.sqrt_pos.2 (by have := T.sp; positivity)
  generalize Real.sqrt (mu * s / 2) = γ at *
  have hn1 := T.n1
  have hn2 := T.n2
  have hσ := T.hσ
  have σp := T.σp
  have sp := T.sp
  have cp := T.cp
  have Np := T.Np
  have hN := T.hN
  have hc := T.hc
  have hd := T.d
  rw [← hl2] at hn1 hn2 hc hd
  rw [← hk] at hN
  rw [Prod.mk.injEq, Option.some.injEq, Option.some.injEq] at hv'
  obtain ⟨e1, e2⟩ := hv'
  intro h
  rw [e1, e2, ecc_split _ _ _ _ _ o1, ecc_split _ _ _ _ _ o2] at h
  have w1 : (r1 ⨯₃ (r1 ⨯₃ r2)) ⬝ᵥ r2 = -nrm (r1 ⨯₃ r2) ^ 2 := by
    rw [pow_two, nrm_sq]; simp only [dot3, cross0, cross1, cross2]; ring
  have w2 : (r2 ⨯₃ (r1 ⨯₃ r2)) ⬝ᵥ r1 = nrm (r1 ⨯₃ r2) ^ 2 := by
    rw [pow_two, nrm_sq]; simp only [dot3, cross0, cross1, cross2]; ring
  have z1 : (r1 ⨯₃ (r1 ⨯₃ r2)) ⬝ᵥ r1 = 0 := by simp only [dot3, cross0, cross1, cross2]; ring
  have z2 : (r2 ⨯₃ (r1 ⨯₃ r2)) ⬝ᵥ r2 = 0 := by simp only [dot3, cross0, cross1, cross2]; ring
  have q1 : r1 ⬝ᵥ r1 = nrm r1 ^ 2 := by rw [← nrm_sq]; ring
  have q2 : r2 ⬝ᵥ r2 = nrm r2 ^ 2 := by rw [← nrm_sq]; ring
  have f2 := congrArg (fun v => v ⬝ᵥ r2) h
  have f1 := congrArg (fun v => v ⬝ᵥ r1) h
  simp only [add_dotProduct, smul_dotProduct, smul_eq_mul, w1, w2, z1, z2, q1, q2, dotProduct_comm r2 r1] at f1 f2
  clear h e1 e2 w1 w2 z1 z2 q1 q2 o1 o2
  generalize nrm (r1 ⨯₃ r2) = N at *
  generalize nrm r1 = n1 at *
  generalize nrm r2 = n2 at *
  generalize r1 ⬝ᵥ r2 = d at *
  have hC : 0 < y + l * x := by
    have h1 : (y + l * x) * (y - l * x) = 1 - l ^ 2 := by linear_combination hy2
    by_contra h'
    have h2 : y - l * x ≥ 0 := by linarith
    nlinarith
  have hdN : dm * N = c * σ * l * s := by rw [hN]; linear_combination c * σ * l * s * hdd
  have tt : ∀ n : ℝ, 0 < n → γ * σ * (y + l * x) / n * (-dm / (N * n)) *
      (γ * σ * (y + l * x) / n * (-dm / (N * n)) * n ^ 2) * N ^ 2 / mu = s / 2 * σ ^ 2 * (y + l * x) ^ 2 / n ^ 2 := by
    intro n hn
    calc _ = γ ^ 2 * σ ^ 2 * (y + l * x) ^ 2 * dm ^ 2 / (mu * n ^ 2) := by field_simp
      _ = _ := by rw [hg, hdd]; field_simp
  have uu : ∀ n A : ℝ, 0 < n → γ * σ * (y + l * x) / n * (-dm / (N * n)) * n ^ 2 * (γ * A / n / n) / mu * N ^ 2 =
      -(s / 2 * σ * (y + l * x) * A * (c * σ * l * s) / n ^ 2) := by
    intro n A hn
    calc _ = -(γ ^ 2 * σ * (y + l * x) * A * (dm * N) / (mu * n ^ 2)) := by field_simp
      _ = _ := by rw [hg, hdN]; field_simp
  rw [tt n1 p1, tt n2 p2, mul_zero, zero_add, mul_neg, uu n1 _ p1] at f2
  rw [tt n1 p1, tt n2 p2, mul_zero, zero_add, show -γ * (l * y - x + ρ * (l * y + x)) =
    γ * (-(l * y - x + ρ * (l * y + x))) by ring, uu n2 _ p2] at f1
  have g2 : n1 ^ 2 * (s / 2 * σ ^ 2 * (y + l * x) ^ 2 - n2) =
      s / 2 * σ ^ 2 * (y + l * x) * (l * y - x - ρ * (l * y + x)) * (c * l * s) +
        (s / 2 * σ ^ 2 * (y + l * x) ^ 2 - n1) * d := by
    have := congrArg (fun z => n1 ^ 2 * z) f2
    field_simp at this
    linear_combination this / 2
  have g1 : n2 ^ 2 * (s / 2 * σ ^ 2 * (y + l * x) ^ 2 - n1) =
      s / 2 * σ ^ 2 * (y + l * x) * (l * y - x + ρ * (l * y + x)) * (c * l * s) +
        (s / 2 * σ ^ 2 * (y + l * x) ^ 2 - n2) * d := by
    have := congrArg (fun z => n2 ^ 2 * z) f1
    field_simp at this
    linear_combination -this / 2
  have i2 : n1 ^ 2 * (s / 2 * σ ^ 2 * (y + l * x) ^ 2 - n2) =
      -(s / 2 * σ ^ 2 * (y + l * x) * (l * y - x - ρ * (l * y + x)) * (c * l * s)) +
        (s / 2 * σ ^ 2 * (y + l * x) ^ 2 - n1) * d := by
    have := flip_poly s ρ hy2
    rw [hσ, hc, hd, hn1, hn2]
    linear_combination this
  have i1 : n2 ^ 2 * (s / 2 * σ ^ 2 * (y + l * x) ^ 2 - n1) =
      -(s / 2 * σ ^ 2 * (y + l * x) * (l * y - x + ρ * (l * y + x)) * (c * l * s)) +
        (s / 2 * σ ^ 2 * (y + l * x) ^ 2 - n2) * d := by
    have := flip_poly s (-ρ) hy2
    rw [hσ, hc, hd, hn1, hn2]
    linear_combination this
  have k2 : s * σ ^ 2 * (y + l * x) * c * l * s * (l * y - x - ρ * (l * y + x)) = 0 := by linarith
  have k1 : s * σ ^ 2 * (y + l * x) * c * l * s * (l * y - x + ρ * (l * y + x)) = 0 := by linarith
  have kn : s * σ ^ 2 * (y + l * x) * c * l * s ≠ 0 := by positivity
  have a2 := (mul_eq_zero.1 k2).resolve_left kn
  have a1 := (mul_eq_zero.1 k1).resolve_left kn
  have hx0 : l * y = x := by linarith
  have hb : ρ * (l * y + x) = 0 := by linarith
  have hb' := (mul_eq_zero.1 hb).resolve_left hρc
  have x0 : x = 0 := by linarith
  rw [x0] at hy2 hx0
  have y0 := (mul_eq_zero.1 hx0).resolve_left l0
  rw [y0] at hy2
  nlinarith

/-- So no motion joins the two states, whatever its duration. -/
theorem izzo_flipped_unreachable {r1 r2 : V3} (hx : r1 ⨯₃ r2 ≠ 0) {dm : ℝ} (hdm : dm = 1 ∨ dm = -1) {mu : ℝ}
    (hmu : 0 < mu) (x : ℝ) (hz : (r1 ⨯₃ r2) 2 < 0) (hn : nrm r1 ≠ nrm r2) {v1 v2 : V3}
    (hv : izzoVelocities mu dm x (computeY x (izzoLambda dm r1 r2)) r1 r2 = (some v1, some v2)) (T : ℝ) :
    ¬ Reaches mu r1 v1 r2 v2 T :=
  fun h => izzo_flipped hx hdm hmu x hz hn hv (h.conserved hmu).2.1

end Verif.Lambert
