import Verif.Rk.Uniform
import Verif.Rk.Stm
import Mathlib.Analysis.Matrix.Normed
/-!
C220: what the propagated state transition matrix (nyx-core/src/dynamics/spacecraft.rs:191-247) converges to as the steps become short.
-/
namespace Verif.Rk
open Finset Filter Topology

variable {E : Type} [NormedAddCommGroup E] [NormedSpace ℝ E] [Module ℚ E]

theorem weights_close (m : Method) : |∑ i ∈ range m.tab.stages, m.tab.b i - 1| ≤ treeTol m false := by
  rw [← sum_range_list]
  cases m <;> decide +kernel

/-! ### Convergence of the first order -/

/-- The stages of a step whose stage points are no further from its start than those of the method. -/
theorem stage_points (t : Tab) {g : E → E} {z x : E} {r B : ℝ} {A : ℚ} (hA : ∀ i < t.stages, ∑ j ∈ range i, |t.a i j| ≤ A) (hB : 0 ≤ B)
    (hg : ∀ v, ‖v‖ ≤ r → ‖g (z + v)‖ ≤ B) {h : ℚ} (hh : ‖x - z‖ + |(h : ℝ)| * (A * B) ≤ r) (P K : Nat → E) (hK : ∀ i < t.stages, K i = g (P i))
    (hP : ∀ i < t.stages, ‖P i - x‖ ≤ ‖h • ∑ j ∈ range i, t.a i j • K j‖) :
    ∀ i < t.stages, ‖K i‖ ≤ B ∧ ‖P i - z‖ ≤ ‖x - z‖ + |(h : ℝ)| * (A * B) := by
  intro i
  induction i using Nat.strong_induction_on with
  | _ i ih =>
    intro hi
    have e1 : ‖h • ∑ j ∈ range i, t.a i j • K j‖ ≤ |(h : ℝ)| * (A * B) := by
      rw [norm_qsmul]
      exact mul_le_mul_of_nonneg_left (norm_combination i (fun j => t.a i j) K B hB (fun j hj => (ih j hj (hj.trans hi)).1) A
        (hA i hi)) (abs_nonneg _)
    have e2 : ‖P i - z‖ ≤ ‖x - z‖ + |(h : ℝ)| * (A * B) := by
      have := norm_sub_le_norm_sub_add_norm_sub (P i) x z
      have := hP i hi
      linarith
    refine ⟨?_, e2⟩
    rw [hK i hi]
    have := hg (P i - z) (e2.trans hh)
    rwa [add_sub_cancel] at this

/-- A scheme with the weights of a method, whose stages are evaluated near the state, converges at least with the first order. -/
theorem first_order [CompleteSpace E] (m : Method) (g : E → E) (z : ℝ → E) (a b : ℝ) (hab : a ≤ b) (hz : Auto g 1 z a b) (T : ℝ) (hT : 0 ≤ T) :
    ∃ c h0 ρ : ℝ, 0 ≤ c ∧ 0 < h0 ∧ 0 < ρ ∧ ∀ (H η : ℝ) (δ : Nat → ℝ) (x : Nat → E) (P K : Nat → Nat → E) (t : Nat → ℝ) (h : Nat → ℚ) (n : Nat),
      0 ≤ H → H ≤ h0 → 0 ≤ η → η ≤ 1 → (∀ k ≤ n, t k ∈ Set.Icc a b) → (∀ k < n, |t (k + 1) - (t k + h k)| ≤ η * |(h k : ℝ)|) → (∀ k < n, |(h k : ℝ)| ≤ H) →
      ∑ k ∈ range n, |(h k : ℝ)| ≤ T →
      (∀ k < n, ∀ i < m.tab.stages, K k i = g (P k i)) →
      (∀ k < n, ∀ i < m.tab.stages, ‖P k i - x k‖ ≤ ‖h k • ∑ j ∈ range i, m.tab.a i j • K k j‖) →
      (∀ k < n, 0 ≤ δ k) →
      (∀ k < n, ‖x (k + 1) - z (t (k + 1))‖ ≤ ‖x k + h k • ∑ i ∈ range m.tab.stages, m.tab.b i • K k i - z (t (k + 1))‖ + δ k) →
      c * (‖x 0 - z (t 0)‖ + H + treeTol m false + η + ∑ k ∈ range n, δ k) ≤ ρ →
      ‖x n - z (t n)‖ ≤ c * (‖x 0 - z (t 0)‖ + H + treeTol m false + η + ∑ k ∈ range n, δ k) := by
  have hzc : ContinuousOn z (Set.Icc a b) := fun t ht => (hz.solves t ht).self_of_nhds.continuousAt.continuousWithinAt
  obtain ⟨r, C, L, hr, hn, -⟩ := near_uniform (isCompact_Icc.image_of_continuousOn hzc) 1 le_rfl (f := g) (by
    rintro _ ⟨t, ht, rfl⟩
    exact hz.smooth t ht)
  have hn' : ∀ t ∈ Set.Icc a b, Near g (fun w => (taylorAt g (z t)).partialSum 1 (w - z t)) (z t) 1 r C L :=
    fun t ht => hn _ ⟨t, ht, rfl⟩
  -- the speed of the trajectory, also a little before and after
  obtain ⟨w, hw0, hw⟩ := hz.wide hab
  obtain ⟨S, hS⟩ : ∃ S, ∀ t ∈ Set.Icc (a - w / 2) (b + w / 2), ‖g (z t)‖ ≤ S := by
    have h1 : ContinuousOn (fun t => g (z t)) (Set.Icc (a - w / 2) (b + w / 2)) := fun t ht => by
      obtain ⟨w1, w2⟩ := hw t (by linarith [ht.1]) (by linarith [ht.2])
      exact (ContinuousAt.comp (f := z) w2 w1.continuousAt).continuousWithinAt
    obtain ⟨S, hS⟩ := (isCompact_Icc (a := a - w / 2) (b := b + w / 2)).exists_bound_of_continuousOn h1
    exact ⟨S, hS⟩
  have hS0 : 0 ≤ S := (norm_nonneg _).trans (hS a ⟨by linarith, by linarith⟩)
  have hspeed : ∀ s ∈ Set.Icc (a - w / 2) (b + w / 2), ∀ u ∈ Set.Icc (a - w / 2) (b + w / 2), ‖z u - z s‖ ≤ S * ‖u - s‖ := fun s hs u hu =>
    Convex.norm_image_sub_le_of_norm_hasDerivWithin_le (f' := fun t => g (z t))
      (fun t ht => (hw t (by linarith [ht.1]) (by linarith [ht.2])).1.hasDerivWithinAt) hS (convex_Icc _ _) hs hu
  have hL := (hn' a ⟨le_rfl, hab⟩).L_pos
  have hr1 := (hn' a ⟨le_rfl, hab⟩).r_le
  have hG : ∀ t ∈ Set.Icc a b, ‖g (z t)‖ ≤ S := fun t ht => hS t ⟨by linarith [ht.1], by linarith [ht.2]⟩
  obtain ⟨A, hAd⟩ : ∃ A : ℚ, A = max 1 (rowMax m.tab) := ⟨_, rfl⟩
  have hA1 : (1 : ℝ) ≤ A := by
    rw [hAd]
    exact_mod_cast le_max_left _ _
  have hrow : ∀ i < m.tab.stages, ∑ j ∈ range i, |m.tab.a i j| ≤ A := fun i hi => (row_le m.tab i hi).trans (by rw [hAd]; exact le_max_right _ _)
  have hW : (0 : ℝ) ≤ weightSum m.tab := by
    rw [weightSum_eq]
    exact_mod_cast sum_nonneg fun i _ => abs_nonneg _
  have htol : (0 : ℝ) ≤ treeTol m false := by exact_mod_cast treeTol_nonneg m false
  obtain ⟨W, hWd⟩ : ∃ W : ℝ, W = (weightSum m.tab : ℝ) := ⟨_, rfl⟩
  rw [← hWd] at hW
  obtain ⟨Q, hQd⟩ : ∃ Q : ℝ, Q = A * (S + L) := ⟨_, rfl⟩
  have hQ : 0 < Q := by
    rw [hQd]
    positivity
  -- the constant of one step
  obtain ⟨c1, hc1d⟩ : ∃ c1 : ℝ, c1 = W * L * Q + S + L * S := ⟨_, rfl⟩
  have hc1 : 0 ≤ c1 := by
    rw [hc1d]
    positivity
  have hWL : 0 ≤ W * L := by positivity
  refine ⟨Real.exp (W * L * T) * (1 + c1 * T), min (w / 2) (min (r / 2 / Q) (r / (S + 1))), r / 2, by positivity, by positivity, by positivity, ?_⟩
  intro H η δ x P K t h n hH0 hH hη0 hη1 ht hstep hhH hsum hK hP hδ hx hρ
  have q0 : ∀ k < n, |(h k : ℝ)| ≤ w / 2 := fun k hk => (hhH k hk).trans (hH.trans (min_le_left _ _))
  have q1 : ∀ k < n, |(h k : ℝ)| * Q ≤ r / 2 := fun k hk => by
    have := (hhH k hk).trans (hH.trans ((min_le_right _ _).trans (min_le_left _ _)))
    rwa [le_div_iff₀ hQ] at this
  have q2 : ∀ k < n, |(h k : ℝ)| * (S + 1) ≤ r := fun k hk => by
    have := (hhH k hk).trans (hH.trans ((min_le_right _ _).trans (min_le_right _ _)))
    rwa [le_div_iff₀ (by positivity)] at this
  obtain ⟨D, hDd⟩ : ∃ D : ℝ, D = c1 * (H + treeTol m false + η) := ⟨_, rfl⟩
  have hD : 0 ≤ D := by
    rw [hDd]
    positivity
  have hSum0 : 0 ≤ ∑ k ∈ range n, |(h k : ℝ)| := sum_nonneg fun k _ => abs_nonneg _
  have hcomp : Real.exp (W * L * ∑ k ∈ range n, |(h k : ℝ)|) * (‖x 0 - z (t 0)‖ + D * ∑ k ∈ range n, |(h k : ℝ)| + ∑ k ∈ range n, δ k) ≤
      Real.exp (W * L * T) * (1 + c1 * T) * (‖x 0 - z (t 0)‖ + H + treeTol m false + η + ∑ k ∈ range n, δ k) := by
    rw [mul_assoc (Real.exp (W * L * T))]
    have e0 := norm_nonneg (x 0 - z (t 0))
    have hR : 0 ≤ ∑ k ∈ range n, δ k := sum_nonneg fun k hk => hδ k (mem_range.1 hk)
    generalize ∑ k ∈ range n, δ k = R at *
    have e1 : ‖x 0 - z (t 0)‖ + D * ∑ k ∈ range n, |(h k : ℝ)| + R ≤ ‖x 0 - z (t 0)‖ + D * T + R := by gcongr
    have e2 : ‖x 0 - z (t 0)‖ + D * T + R ≤ (1 + c1 * T) * (‖x 0 - z (t 0)‖ + H + treeTol m false + η + R) := by
      have f1 : 0 ≤ c1 * T * ‖x 0 - z (t 0)‖ := by positivity
      have f5 : 0 ≤ c1 * T * R := by positivity
      rw [hDd]
      linarith
    exact mul_le_mul (Real.exp_le_exp.2 (mul_le_mul_of_nonneg_left hsum hWL)) (e1.trans e2) (by positivity) (by positivity)
  refine (accumulate n (fun k => ‖x k - z (t k)‖) (fun k => |(h k : ℝ)|) δ (W * L) D hWL hD (fun k _ => abs_nonneg _)
    hδ (norm_nonneg _) (r / 2) (hcomp.trans hρ) fun k hk hek => ?_).trans hcomp
  have hnk := hn' (t k) (ht k hk.le)
  have hGk := hG (t k) (ht k hk.le)
  have hball : ‖x k - z (t k)‖ + |(h k : ℝ)| * (A * (S + L)) ≤ r := by
    have := q1 k hk
    rw [hQd] at this
    linarith
  have hst := stage_points m.tab hrow (by positivity : 0 ≤ S + L) (fun v hv => near_bound hnk hGk v hv) hball (P k) (K k) (hK k hk) (hP k hk)
  rw [← hQd] at hst hball
  -- the stages against the slope of the trajectory
  have hslope : ∀ i < m.tab.stages, ‖K k i - g (z (t k))‖ ≤ L * (‖x k - z (t k)‖ + |(h k : ℝ)| * Q) := by
    intro i hi
    have e := hnk.lip (P k i - z (t k)) 0 ((hst i hi).2.trans hball) (by simpa using hr.le)
    rw [add_sub_cancel, add_zero, sub_zero, ← hK k hk i hi] at e
    exact e.trans (mul_le_mul_of_nonneg_left (hst i hi).2 (by linarith))
  have g1 := ht k hk.le
  have g2 := ht (k + 1) hk
  have g3 := abs_le.1 (q0 k hk)
  have s0 : ‖z (t k + h k) - z (t (k + 1))‖ ≤ S * η * |(h k : ℝ)| := by
    refine (hspeed (t (k + 1)) ⟨by linarith [g2.1], by linarith [g2.2]⟩ (t k + h k) ⟨by linarith [g1.1], by linarith [g1.2]⟩).trans ?_
    rw [mul_assoc, Real.norm_eq_abs, abs_sub_comm]
    exact mul_le_mul_of_nonneg_left (hstep k hk) hS0
  -- the trajectory over one step
  have s1 : ‖z (t k + h k) - z (t k) - (h k : ℝ) • g (z (t k))‖ ≤ L * S * |(h k : ℝ)| * |(h k : ℝ)| := by
    have hseg : ∀ u ∈ Set.uIcc (t k) (t k + h k), |u - t k| ≤ |(h k : ℝ)| := fun u hu => by
      have := Set.abs_sub_left_of_mem_uIcc hu
      simpa using this
    have hin : ∀ u ∈ Set.uIcc (t k) (t k + h k), u ∈ Set.Icc (a - w / 2) (b + w / 2) := fun u hu => by
      have h1 := abs_le.1 ((hseg u hu).trans (q0 k hk))
      exact ⟨by linarith [g1.1, h1.1], by linarith [g1.2, h1.2]⟩
    have key := Convex.norm_image_sub_le_of_norm_hasDerivWithin_le (f := fun u => z u - (u - t k) • g (z (t k))) (f' := fun u => g (z u) - g (z (t k)))
      (C := L * S * |(h k : ℝ)|) (s := Set.uIcc (t k) (t k + h k)) (x := t k) (y := t k + h k)
      (fun u hu => by
        have h1 := (hw u (by linarith [(hin u hu).1]) (by linarith [(hin u hu).2])).1
        have h2 : HasDerivAt (fun u : ℝ => (u - t k) • g (z (t k))) ((1 : ℝ) • g (z (t k))) u := ((hasDerivAt_id u).sub_const (t k)).smul_const _
        rw [one_smul] at h2
        exact (h1.sub h2).hasDerivWithinAt)
      (fun u hu => by
        have h1 := hspeed (t k) ⟨by linarith [g1.1], by linarith [g1.2]⟩ u (hin u hu)
        rw [Real.norm_eq_abs] at h1
        have h2 : ‖z u - z (t k)‖ ≤ S * |(h k : ℝ)| := h1.trans (mul_le_mul_of_nonneg_left (hseg u hu) hS0)
        have h3 : ‖z u - z (t k)‖ ≤ r := h2.trans (by have := q2 k hk; have := abs_nonneg (h k : ℝ); linarith)
        have e := hnk.lip (z u - z (t k)) 0 h3 (by simpa using hr.le)
        rw [add_sub_cancel, add_zero, sub_zero] at e
        rw [mul_assoc]
        exact e.trans (mul_le_mul_of_nonneg_left h2 (by linarith)))
      (convex_uIcc _ _) Set.left_mem_uIcc Set.right_mem_uIcc
    simp only [add_sub_cancel_left, sub_self, zero_smul, sub_zero, Real.norm_eq_abs] at key
    rw [sub_right_comm] at key
    exact key
  have s3 := hx k hk
  refine s3.trans ?_
  -- the sum of the stages
  have hsumK : ‖∑ i ∈ range m.tab.stages, m.tab.b i • (K k i - g (z (t k)))‖ ≤ W * (L * (‖x k - z (t k)‖ + |(h k : ℝ)| * Q)) := by
    rw [hWd]
    exact norm_combination m.tab.stages m.tab.b _ _ (by positivity) hslope _ (weightSum_eq m.tab).ge
  have hb : ‖(∑ i ∈ range m.tab.stages, m.tab.b i - 1) • g (z (t k))‖ ≤ treeTol m false * S := by
    rw [norm_qsmul]
    refine mul_le_mul ?_ hGk (norm_nonneg _) htol
    rw [← Rat.cast_abs]
    exact_mod_cast weights_close m
  have hid : x k + h k • ∑ i ∈ range m.tab.stages, m.tab.b i • K k i - z (t (k + 1)) =
      (x k - z (t k)) + h k • ∑ i ∈ range m.tab.stages, m.tab.b i • (K k i - g (z (t k))) +
      h k • ((∑ i ∈ range m.tab.stages, m.tab.b i - 1) • g (z (t k))) -
      (z (t k + h k) - z (t k) - (h k : ℝ) • g (z (t k))) + (z (t k + h k) - z (t (k + 1))) := by
    simp only [smul_sub, sum_sub_distrib, ← sum_smul, sub_smul, one_smul]
    rw [Rat.cast_smul_eq_qsmul ℝ (h k) (g (z (t k)))]
    abel
  rw [hid]
  have n1 := norm_add_le ((x k - z (t k)) + h k • ∑ i ∈ range m.tab.stages, m.tab.b i • (K k i - g (z (t k))) +
      h k • ((∑ i ∈ range m.tab.stages, m.tab.b i - 1) • g (z (t k))) -
      (z (t k + h k) - z (t k) - (h k : ℝ) • g (z (t k)))) (z (t k + h k) - z (t (k + 1)))
  have n2 := norm_sub_le ((x k - z (t k)) + h k • ∑ i ∈ range m.tab.stages, m.tab.b i • (K k i - g (z (t k))) +
      h k • ((∑ i ∈ range m.tab.stages, m.tab.b i - 1) • g (z (t k)))) (z (t k + h k) - z (t k) - (h k : ℝ) • g (z (t k)))
  have n3 := norm_add₃_le (a := x k - z (t k)) (b := h k • ∑ i ∈ range m.tab.stages, m.tab.b i • (K k i - g (z (t k))))
    (c := h k • ((∑ i ∈ range m.tab.stages, m.tab.b i - 1) • g (z (t k))))
  rw [norm_qsmul, norm_qsmul] at n3
  have hh0 := abs_nonneg (h k : ℝ)
  have hhk := hhH k hk
  have m1 := mul_le_mul_of_nonneg_left hsumK hh0
  have m2 := mul_le_mul_of_nonneg_left hb hh0
  generalize ‖x k - z (t k)‖ = e at *
  generalize |(h k : ℝ)| = u at *
  have m3 : W * L * Q * u * u ≤ W * L * Q * H * u := by gcongr
  have m4 : L * S * u * u ≤ L * S * H * u := by gcongr
  have m5 : 0 ≤ (W * L * Q + L * S) * treeTol m false * u := by positivity
  have m6 : 0 ≤ (W * L * Q + L * S) * η * u := by positivity
  have m7 : 0 ≤ S * H * u := by positivity
  rw [hDd, hc1d]
  linarith

end Verif.Rk
