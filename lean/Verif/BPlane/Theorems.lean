import Verif.BPlane.Reals

/-!
Theorems on the B-plane: C72 and C168.
-/
namespace Verif.BPlane
open Verif.MathU Matrix
open Verif.Mc (Out orErr unwrap)
open Verif.Force (Dual M3 Tracks lin lin_apply)

/-- Specification: the incoming asymptote of a hyperbola, a line of direction `S` at the offset `B` from the center, run at the speed `w`. The motion on
the line has the energy, the angular momentum and the Laplace vector of the orbit; far away on the line the unit vector to the spacecraft is `-S`. -/
structure Asymptote (mu : ℝ) (p v S B : V3) (w : ℝ) : Prop where
  unit : S ⬝ᵥ S = 1
  perp : B ⬝ᵥ S = 0
  speed : 0 < w
  energy : w ^ 2 / 2 = v ⬝ᵥ v / 2 - mu / nrm p
  momentum : p ⨯₃ v = w • (B ⨯₃ S)
  laplace : (1 / mu) • (v ⨯₃ (p ⨯₃ v)) - (1 / nrm p) • p = (1 / mu) • ((w • S) ⨯₃ (p ⨯₃ v)) + S

/-- An orbit has one asymptote at most. -/
theorem Asymptote.unique {mu : ℝ} {p v S B S' B' : V3} {w w' : ℝ} (h : Asymptote mu p v S B w) (h' : Asymptote mu p v S' B' w') :
    S = S' ∧ B = B' ∧ w = w' := by
  have hw : w = w' := by
    have e : w ^ 2 = w' ^ 2 := by linarith [h.energy, h'.energy]
    exact (sq_eq_sq₀ h.speed.le h'.speed.le).mp e
  subst hw
  have hS : S = S' := by
    have e := h.laplace.symm.trans h'.laplace
    have e0 := congrFun e 0
    have e1 := congrFun e 1
    have e2 := congrFun e 2
    simp only [Pi.add_apply, Pi.smul_apply, smul_eq_mul, cross0, cross1, cross2] at e0 e1 e2
    have k : (S 0 - S' 0) ^ 2 + (S 1 - S' 1) ^ 2 + (S 2 - S' 2) ^ 2 = 0 := by
      linear_combination (S 0 - S' 0) * e0 + (S 1 - S' 1) * e1 + (S 2 - S' 2) * e2
    refine ext3 ?_ ?_ ?_ <;> nlinarith [sq_nonneg (S 0 - S' 0), sq_nonneg (S 1 - S' 1), sq_nonneg (S 2 - S' 2)]
  subst hS
  refine ⟨rfl, ?_, rfl⟩
  have key : ∀ C : V3, C ⬝ᵥ S = 0 → p ⨯₃ v = w • (C ⨯₃ S) → w • C = S ⨯₃ (p ⨯₃ v) := by
    intro C hC hm
    have hu := h.unit
    rw [dot3] at hC hu
    rw [hm]
    refine ext3 ?_ ?_ ?_ <;> simp only [Pi.smul_apply, smul_eq_mul, cross0, cross1, cross2]
    · linear_combination -w * C 0 * hu + w * S 0 * hC
    · linear_combination -w * C 1 * hu + w * S 1 * hC
    · linear_combination -w * C 2 * hu + w * S 2 * hC
  have e := (key B h.perp h.momentum).trans (key B' h'.perp h'.momentum).symm
  funext i
  have := congrFun e i
  simp only [Pi.smul_apply, smul_eq_mul] at this
  exact mul_left_cancel₀ h.speed.ne' this

section
variable {mu : ℝ} {x : Fin 6 → ℝ}

theorem h_ne (hmu : mu ≠ 0) (hp : pos x ≠ 0) (he : 1 < eccF mu x) : hF x ≠ 0 := by
  intro h
  have e := ecc_energy mu x hmu hp
  have z : nrm (0 : V3) = 0 := by simp [nrm]
  rw [h, z] at e
  norm_num at e
  nlinarith

theorem vel_ne (hh : hF x ≠ 0) : vel x ≠ 0 := by
  intro h
  apply hh
  unfold hF
  rw [h]
  simp

/-- The unit vectors of the orbit. -/
theorem hats (hh : hF x ≠ 0) (he : 1 < eccF mu x) :
    eHatF mu x ⬝ᵥ eHatF mu x = 1 ∧ hHatF x ⬝ᵥ hHatF x = 1 ∧ hHatF x ⬝ᵥ eHatF mu x = 0 ∧ nHatF mu x ⬝ᵥ nHatF mu x = 1 ∧
      eHatF mu x ⬝ᵥ nHatF mu x = 0 := by
  have a1 : eccF mu x ≠ 0 := by linarith
  have a2 := (nrm_pos _ hh).ne'
  have b1 : eccF mu x * eccF mu x = eF mu x ⬝ᵥ eF mu x := nrm_sq _
  have b2 : nrm (hF x) * nrm (hF x) = hF x ⬝ᵥ hF x := nrm_sq _
  have b3 := h_dot_e mu x
  have c1 : eHatF mu x ⬝ᵥ eHatF mu x = 1 := by
    rw [dot3] at b1 ⊢
    simp only [eHatF]
    field_simp
    linarith
  have c2 : hHatF x ⬝ᵥ hHatF x = 1 := by
    rw [dot3] at b2 ⊢
    simp only [hHatF]
    field_simp
    linarith
  have c3 : hHatF x ⬝ᵥ eHatF mu x = 0 := by
    rw [dot3] at b3 ⊢
    simp only [hHatF, eHatF]
    field_simp
    linarith
  refine ⟨c1, c2, c3, ?_, ?_⟩
  · unfold nHatF
    rw [dot3] at c1 c2 c3
    simp only [dot3, cross0, cross1, cross2]
    linear_combination (hHatF x 0 ^ 2 + hHatF x 1 ^ 2 + hHatF x 2 ^ 2) * c1 + c2 - (hHatF x 0 * eHatF mu x 0 + hHatF x 1 * eHatF mu x 1 + hHatF x 2 * eHatF mu x 2) * c3
  · unfold nHatF
    simp only [dot3, cross0, cross1, cross2]
    ring

theorem fact_sq (he : 1 < eccF mu x) : factF mu x ^ 2 = 1 - (1 / eccF mu x) ^ 2 := by
  unfold factF
  rw [Real.sq_sqrt]
  have : (1 / eccF mu x) ^ 2 ≤ 1 := by
    rw [div_pow, one_pow]
    exact div_le_one_of_le₀ (by nlinarith) (by positivity)
  linarith

theorem s_unit (hh : hF x ≠ 0) (he : 1 < eccF mu x) : sF mu x ⬝ᵥ sF mu x = 1 ∧ sHatF mu x = sF mu x := by
  obtain ⟨c1, -, -, c4, c5⟩ := hats hh he
  have hf := fact_sq he
  have e : sF mu x ⬝ᵥ sF mu x = 1 := by
    rw [dot3] at c1 c4 c5 ⊢
    simp only [sF]
    linear_combination (1 / eccF mu x) ^ 2 * c1 + factF mu x ^ 2 * c4 + 2 * factF mu x / eccF mu x * c5 + hf
  refine ⟨e, ?_⟩
  funext i
  have : nrm (sF mu x) = 1 := by
    unfold nrm
    rw [e, Real.sqrt_one]
  unfold sHatF
  rw [this, div_one]

theorem b_dot_s (hh : hF x ≠ 0) (he : 1 < eccF mu x) : bF mu x ⬝ᵥ sHatF mu x = 0 := by
  obtain ⟨c1, -, -, c4, c5⟩ := hats hh he
  rw [(s_unit hh he).2]
  rw [dot3] at c1 c4 c5 ⊢
  simp only [bF, sF]
  linear_combination semiF mu x * (factF mu x / eccF mu x * c1 - factF mu x / eccF mu x * c4 + (factF mu x ^ 2 - (1 / eccF mu x) ^ 2) * c5)

/-- The components of the plane are those of the asymptote. -/
theorem asymptote_of (hmu : 0 < mu) (hp : pos x ≠ 0) (he : 1 < eccF mu x) :
    ∃ w, Asymptote mu (pos x) (vel x) (sHatF mu x) (bF mu x) w := by
  have hh := h_ne hmu.ne' hp he
  obtain ⟨c1, c2, c3, c4, c5⟩ := hats hh he
  have hf := fact_sq he
  obtain ⟨s1, s2⟩ := s_unit hh he
  have hm := nrm_pos _ hh
  have he0 : 0 < eccF mu x := by linarith
  have hq : 0 < eccF mu x ^ 2 - 1 := by nlinarith
  set q := Real.sqrt (eccF mu x ^ 2 - 1) with hqd
  have hq0 : 0 < q := Real.sqrt_pos.mpr hq
  have hq2 : q ^ 2 = eccF mu x ^ 2 - 1 := Real.sq_sqrt hq.le
  have hfq : factF mu x = q / eccF mu x := by
    unfold factF
    rw [show 1 - (1 / eccF mu x) ^ 2 = (eccF mu x ^ 2 - 1) / eccF mu x ^ 2 by field_simp, Real.sqrt_div hq.le, Real.sqrt_sq he0.le]
  have hsemi : semiF mu x = nrm (hF x) ^ 2 / (mu * q) := rfl
  have hH : ∀ i, hF x i = nrm (hF x) * hHatF x i := by
    intro i
    unfold hHatF
    field_simp
  have hE : ∀ i, eF mu x i = eccF mu x * eHatF mu x i := by
    intro i
    unfold eHatF
    field_simp
  -- n × h = e and e × n = h
  have n0 : ∀ i, (nHatF mu x ⨯₃ hHatF x) i = eHatF mu x i := by
    have d2 := c2
    have d3 := c3
    rw [dot3] at d2 d3
    intro i
    unfold nHatF
    fin_cases i
    · show (_ ⨯₃ _) 0 = eHatF mu x 0
      simp only [cross0, cross1, cross2]
      linear_combination eHatF mu x 0 * d2 - hHatF x 0 * d3
    · show (_ ⨯₃ _) 1 = eHatF mu x 1
      simp only [cross0, cross1, cross2]
      linear_combination eHatF mu x 1 * d2 - hHatF x 1 * d3
    · show (_ ⨯₃ _) 2 = eHatF mu x 2
      simp only [cross0, cross1, cross2]
      linear_combination eHatF mu x 2 * d2 - hHatF x 2 * d3
  have n1 : ∀ i, (eHatF mu x ⨯₃ nHatF mu x) i = hHatF x i := by
    have d1 := c1
    have d3 := c3
    rw [dot3] at d1 d3
    intro i
    unfold nHatF
    fin_cases i
    · show (_ ⨯₃ _) 0 = hHatF x 0
      simp only [cross0, cross1, cross2]
      linear_combination hHatF x 0 * d1 - eHatF mu x 0 * d3
    · show (_ ⨯₃ _) 1 = hHatF x 1
      simp only [cross0, cross1, cross2]
      linear_combination hHatF x 1 * d1 - eHatF mu x 1 * d3
    · show (_ ⨯₃ _) 2 = hHatF x 2
      simp only [cross0, cross1, cross2]
      linear_combination hHatF x 2 * d1 - eHatF mu x 2 * d3
  refine ⟨mu * q / nrm (hF x), by rw [s2]; exact s1, b_dot_s hh he, by positivity, ?_, ?_, ?_⟩
  · have e := ecc_energy mu x hmu.ne' hp
    rw [← hq2] at e
    have e4 : nrm (vel x) ^ 2 = vel x ⬝ᵥ vel x := by rw [← nrm_sq, sq]
    rw [← e4, div_pow, mul_pow, e]
    field_simp
  · show hF x = _
    rw [s2]
    have key : ∀ i, (bF mu x ⨯₃ sF mu x) i = semiF mu x * hHatF x i := by
      intro i
      rw [← n1 i]
      fin_cases i
      · show (_ ⨯₃ _) 0 = _ * (_ ⨯₃ _) 0
        simp only [cross0, bF, sF]
        linear_combination semiF mu x * (eHatF mu x 1 * nHatF mu x 2 - eHatF mu x 2 * nHatF mu x 1) * hf
      · show (_ ⨯₃ _) 1 = _ * (_ ⨯₃ _) 1
        simp only [cross1, bF, sF]
        linear_combination semiF mu x * (eHatF mu x 2 * nHatF mu x 0 - eHatF mu x 0 * nHatF mu x 2) * hf
      · show (_ ⨯₃ _) 2 = _ * (_ ⨯₃ _) 2
        simp only [cross2, bF, sF]
        linear_combination semiF mu x * (eHatF mu x 0 * nHatF mu x 1 - eHatF mu x 1 * nHatF mu x 0) * hf
    funext i
    rw [Pi.smul_apply, smul_eq_mul, key i, hH i, hsemi]
    field_simp
  · have l : (1 / mu) • (vel x ⨯₃ (pos x ⨯₃ vel x)) - (1 / nrm (pos x)) • pos x = eF mu x := by
      have e4 : nrm (vel x) ^ 2 = vel x ⬝ᵥ vel x := by rw [← nrm_sq, sq]
      have hr := (nrm_pos _ hp).ne'
      have hmu' := hmu.ne'
      refine ext3 ?_ ?_ ?_ <;> simp only [Pi.sub_apply, Pi.smul_apply, smul_eq_mul, cross0, cross1, cross2, eF, e4, dot3] <;> field_simp <;> ring
    rw [l, s2]
    have key : ∀ i, (sF mu x ⨯₃ hF x) i = nrm (hF x) * (factF mu x * eHatF mu x i - nHatF mu x i / eccF mu x) := by
      intro i
      have hn : ∀ i, nHatF mu x i = (hHatF x ⨯₃ eHatF mu x) i := fun _ => rfl
      rw [← n0 i, hn i]
      fin_cases i
      · show (_ ⨯₃ _) 0 = _ * (_ * (_ ⨯₃ _) 0 - (_ ⨯₃ _) 0 / _)
        simp only [cross0, sF, hH]
        ring
      · show (_ ⨯₃ _) 1 = _ * (_ * (_ ⨯₃ _) 1 - (_ ⨯₃ _) 1 / _)
        simp only [cross1, sF, hH]
        ring
      · show (_ ⨯₃ _) 2 = _ * (_ * (_ ⨯₃ _) 2 - (_ ⨯₃ _) 2 / _)
        simp only [cross2, sF, hH]
        ring
    funext i
    rw [Pi.add_apply, Pi.smul_apply, LinearMap.map_smul₂, Pi.smul_apply, smul_eq_mul, smul_eq_mul]
    show _ = 1 / mu * (mu * q / nrm (hF x) * (sF mu x ⨯₃ hF x) i) + sF mu x i
    rw [key i, hE i, hfq]
    simp only [sF, hfq]
    field_simp
    linear_combination -eHatF mu x i * hq2

/-- What `from_dual` returns, by the functions that its components track. -/
theorem fromDual_eq (g : Grad) (hg : GradTracks mu x g) (hh : hF x ≠ 0) (he : 1 < eccF mu x) :
    (tF mu x = 0 → fromDual g = .ok none) ∧ (tF mu x ≠ 0 → ∃ pl, fromDual g = .ok (some pl) ∧
      Tracks x (fun y => bF mu y ⬝ᵥ tHatF mu y) pl.bT ∧ Tracks x (fun y => bF mu y ⬝ᵥ rHatF mu y) pl.bR ∧
      Tracks x (fun y => bF mu y ⬝ᵥ sHatF mu y / nrm (vel y)) pl.ltof ∧ pl.dcm = of ![sHatF mu x, tHatF mu x, rHatF mu x]) := by
  have c0 := fun c : ℝ => Tracks.ofReal (x := x) c
  have e0 : eccF mu x ≠ 0 := by linarith
  have k1 := hg.evec.divs hg.ecc e0
  have k2 := hg.hvec.divs hg.hmag (nrm_pos _ hh).ne'
  have k3 := k2.cross k1
  have hf0 : 1 - (1 / eccF mu x) ^ 2 ≠ 0 := by
    have : (1 / eccF mu x) ^ 2 < 1 := by
      rw [div_pow, one_pow]
      exact (div_lt_one (by positivity)).mpr (by nlinarith)
    linarith
  have k4 : Tracks x (factF mu) _ := ((c0 1).sub (((c0 1).div hg.ecc e0).powi 2)).sqrt hf0
  have k5 : TracksV x (sF mu) _ := fun i => ((k1 i).div hg.ecc e0).add (k4.mul (k3 i))
  have hs0 : sF mu x ≠ 0 := by
    intro h
    have := (s_unit hh he).1
    rw [h] at this
    simp at this
  have k6 : TracksV x (sHatF mu) _ := k5.divs (Tracks.norm3 k5 hs0) (nrm_pos _ hs0).ne'
  have k7 : TracksV x (bF mu) _ := fun i => hg.semi.mul ((k4.mul (k1 i)).sub (((c0 1).div hg.ecc e0).mul (k3 i)))
  have hz : TracksV x (fun _ => ![0, 0, 1]) ![Dual.ofReal 0, Dual.ofReal 0, Dual.ofReal 1] := by
    intro i
    fin_cases i
    · exact c0 0
    · exact c0 0
    · exact c0 1
  have k8 : TracksV x (tF mu) _ := k6.cross hz
  have hecc : g.ecc.re = eccF mu x := hg.ecc.1
  have hn : ∀ v, TracksV x (tF mu) v → (Dual.norm3 v).re = nrm (tF mu x) := by
    intro v hv
    show Real.sqrt ((v 0).re ^ 2 + (v 1).re ^ 2 + (v 2).re ^ 2) = _
    rw [(hv 0).1, (hv 1).1, (hv 2).1]
    unfold nrm
    rw [dot3]
    congr 1
    ring
  constructor
  · intro ht
    unfold fromDual
    rw [if_pos (by rw [hecc]; exact he)]
    simp only
    rw [if_pos]
    rw [hn _ k8, ht]
    simp [nrm]
  · intro ht
    have k9 : TracksV x (tHatF mu) _ := k8.divs (Tracks.norm3 k8 ht) (nrm_pos _ ht).ne'
    have k10 : TracksV x (rHatF mu) _ := k6.cross k9
    have hv := vel_ne hh
    unfold fromDual
    rw [if_pos (by rw [hecc]; exact he)]
    simp only
    rw [if_neg (by rw [hn _ k8]; exact (nrm_pos _ ht).ne')]
    refine ⟨_, rfl, k7.dot k9, k7.dot k10, (k7.dot k6).div hg.vmag (nrm_pos _ hv).ne', ?_⟩
    have q1 : (fun i => sHatF mu x i) = _ := funext fun i => (k6 i).1.symm
    have q2 : (fun i => tHatF mu x i) = _ := funext fun i => (k9 i).1.symm
    have q3 : (fun i => rHatF mu x i) = _ := funext fun i => (k10 i).1.symm
    show of ![_, _, _] = of ![fun i => sHatF mu x i, fun i => tHatF mu x i, fun i => rHatF mu x i]
    rw [q1, q2, q3]

end

end Verif.BPlane
