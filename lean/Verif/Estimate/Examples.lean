import Verif.Estimate.Theorems
/-!
The hypotheses of the theorems on estimates can be met.
-/
namespace Verif.Estimate
open Verif.Spacecraft Matrix MeasureTheory
open Verif.Mc (Out Ext Disp mvnNew fromCov Gen coords IsCov StdDraws SvdOk EigOk Dispersed)
open ProbabilityTheory (gaussianReal)

/-- An estimate built from dispersions exists, is within a third of a sigma, and its position along X is the mirror of
the dispersed one. -/
example (z : Fin 9 → ℝ) : ∃ (e : Kf (Craft ℝ Unit) 9) (d : Craft ℝ Unit), fromDispersions Mc.cartExt Mc.craft0 Mc.disps0 z = .ok e ∧ e.within (1 / 3) = true ∧
    coords (e.state Craft.add) 0 = 2 * 7000 - coords d 0 := by
  obtain ⟨g, hg⟩ := Mc.generator_exists
  obtain ⟨s, hs⟩ := Mc.samples_exist g hg z
  have he : ∃ e, fromDispersions Mc.cartExt Mc.craft0 Mc.disps0 z = .ok e := by
    unfold fromDispersions
    rw [hg]
    simp only [Out.bind, hs]
    exact ⟨_, rfl⟩
  obtain ⟨e, he⟩ := he
  obtain ⟨-, -, -, -, -, -, -, -, -, -, -, h1⟩ := dispersions_partial _ _ _ _ e he
  obtain ⟨g', d, -, -, h2⟩ := dispersions_mirrored _ _ _ _ e he
  exact ⟨e, d.state, he, h1, (h2 0 (by decide)).1⟩

/-- An estimate with the identity as covariance, at two sigma. -/
noncomputable def est0 : Kf (Craft ℝ Unit) 9 := ⟨Mc.craft0, ![2, 0, 0, 0, 0, 0, 0, 0, 0], 1, 1, false, 1⟩

theorem est0_cov : IsCov est0.covar := (Mc.isCov_iff _).2 PosSemidef.one

example : est0.within 2 = true ∧ est0.within 1 ≠ true := by
  have hc : ∀ i, 0 ≤ est0.covar i i := fun i => by simp [est0]
  refine ⟨(within_iff_partial est0 2 hc).1.2 fun i => ?_, fun h => ?_⟩
  · fin_cases i <;> simp [est0]
  · have := (within_iff_partial est0 1 hc).1.1 h 0
    simp [est0] at this

example : (Kf.mk Mc.craft0 (fun _ => 1000) (diagonal fun _ => -1) 0 true 1 : Kf (Craft ℝ Unit) 9).within 1 = true :=
  within_negative_variance _ 1 fun i => by simp

/-- A standard deviation of 10 m is displayed as 0.1 m. -/
example : (fromDiag Mc.craft0 (fun _ => (0.01 : ℝ) ^ 2) : Kf (Craft ℝ Unit) 9).shown[0]? ≠ some (1000 * (0.01 : ℝ)) := by
  have := (displayed_variances (fromDiag Mc.craft0 (fun _ => (0.01 : ℝ) ^ 2) : Kf (Craft ℝ Unit) 9) 0 0.01 (by norm_num)
    (by simp [fromDiag])).2.2.1
  intro h
  rcases this.1 h with h | h <;> norm_num at h

/-- An uncertainty in the inertial frame. -/
noncomputable def unc0 : Unc Bool Unit := ⟨Mc.craft0, none, ![1, 2, 3, 4, 5, 6], 0.1, 0.2, 0.3⟩

noncomputable def dcm0 : Craft ℝ Unit → Bool → Option (Matrix (Fin 6) (Fin 6) ℝ)
  | _, true => some 1
  | _, false => some ricYZ

example : ∃ e, unc0.toEstimate true dcm0 = some e ∧ e.covar 1 1 = 2 ^ 2 ∧ e.covar 0 1 = 0 ∧ e.covar 8 8 = 0.3 ^ 2 := by
  have hpos : (∀ i, 0 ≤ unc0.sig i) ∧ 0 ≤ unc0.cr ∧ 0 ≤ unc0.cd ∧ 0 ≤ unc0.mass := by
    refine ⟨fun i => ?_, by norm_num [unc0], by norm_num [unc0], by norm_num [unc0]⟩
    fin_cases i <;> simp [unc0]
  obtain ⟨e, he⟩ := (uncertainty_partial true dcm0 unc0).1.2 ⟨hpos, rfl⟩
  obtain ⟨-, -, -, -, h2, h3⟩ := (uncertainty_partial true dcm0 unc0).2 e 1 he rfl
  have h4 := h3 (.inl transpose_one)
  have hv : ∀ i j : Fin 6, inertialCov 1 unc0.sig i j = if i = j then unc0.sig i ^ 2 else 0 := by
    intro i j
    unfold inertialCov
    by_cases h : i = j
    · subst h
      simp [Matrix.one_apply]
    · rw [if_neg h]
      refine Finset.sum_eq_zero fun k _ => ?_
      by_cases hk : i = k
      · subst hk; rw [Matrix.one_apply_ne (Ne.symm h), mul_zero]
      · rw [Matrix.one_apply_ne hk, zero_mul, zero_mul]
  refine ⟨e, he, ?_, ?_, ?_⟩
  · have := h4 1 1
    rw [hv] at this
    exact this
  · have := h4 0 1
    rw [hv] at this
    exact this
  · have := h2 8 8 (.inl (by decide))
    rw [if_pos rfl] at this
    exact this

/-- The uncertainties equal on the three axes, in the frame radial, in-track, cross-track. -/
example : ∃ e, (Unc.mk Mc.craft0 (some false) ![1, 1, 1, 2, 2, 2] 0 0 0).toEstimate true dcm0 = some e ∧
    ∀ i j : Fin 6, e.covar (i.castLE (by decide)) (j.castLE (by decide)) = inertialCov ricYZ ![1, 1, 1, 2, 2, 2] i j := by
  have hpos : (∀ i : Fin 6, 0 ≤ (![1, 1, 1, 2, 2, 2] : Fin 6 → ℝ) i) := by
    intro i
    fin_cases i <;> simp
  obtain ⟨e, he⟩ := (uncertainty_partial true dcm0 (Unc.mk Mc.craft0 (some false) ![1, 1, 1, 2, 2, 2] 0 0 0)).1.2
    ⟨⟨hpos, le_refl _, le_refl _, le_refl _⟩, rfl⟩
  refine ⟨e, he, ((uncertainty_partial true dcm0 _).2 e ricYZ he rfl).2.2.2.2.2 (.inr ⟨!![0, 0, 1; 1, 0, 0; 0, 1, 0], 1, 2, ?_, ?_, rfl⟩)⟩
  · ext i j
    fin_cases i <;> fin_cases j <;> simp [Matrix.mul_apply, Fin.sum_univ_three]
  · ext i j
    fin_cases i <;> fin_cases j <;> rfl

example : ∃ e, (Unc.mk Mc.craft0 (some false) ![1, 0, 0, 0, 0, 0] 0 0 0).toEstimate true dcm0 = some e ∧ e.covar 2 2 = 1 := by
  obtain ⟨e, he, -, -, -, h⟩ := uncertainty_wrong_axes true false dcm0 Mc.craft0 rfl
  exact ⟨e, he, h⟩

/-- The components of the nine standard draws are an error with the covariance of `est0`. -/
example : ∃ s, est0.sigmaFor (fun _ (i : Fin 6) => some (Pi.single i 2)) 0 = .ok (some s) ∧ s ^ 2 = 4 := by
  have hd := Mc.std_draws_gaussian
  obtain ⟨h1, h2⟩ := element_uncertainty (fun _ (i : Fin 6) => some (Pi.single i 2)) est0 est0_cov (fun w => w) hd.int2
    (by intro i j; rw [hd.cov]; rfl) _ (fun g w => rfl)
  obtain ⟨s, hs, hs0, hs2⟩ := h1 0 _ rfl
  obtain ⟨k, hk, -, hk2, hk3⟩ := h2 id (fun i => Pi.single i 2) (fun i => rfl)
  refine ⟨s, hs, ?_⟩
  rw [hs2]
  have e : ∀ w : Fin 9 → ℝ, (∑ i : Fin 6, (Pi.single 0 2 : Fin 6 → ℝ) i * w (i.castLE (by decide))) ^ 2 = 4 * (w 0 * w 0) := by
    intro w
    simp [Pi.single_apply]
    ring
  simp_rw [e]
  rw [integral_const_mul, hd.cov]
  norm_num

example : ((est0.setEpoch 5).state Craft.add).epoch ≠ 5 := set_epoch_ignored est0 5 (by
  show (0 : Int) ≠ 5
  decide)

example : compOf [true, false] ![1, 2] false = .ok (some 2) :=
  (residual_by_type [true, false] ![1, 2] (by decide)).1 1 false rfl

/-- The random variable of an estimate with a deviation exists, and its mean is not zero. -/
example : ∃ (g : Gen (Fin 6) Unit) (smp : (Fin 9 → ℝ) → Dispersed (Fin 6) Unit), est0.toRandom Mc.cartExt id = .ok g ∧
    (∀ w, g.sample Mc.cartExt w = .ok (smp w)) ∧
    ¬ ∀ i, ∫ w, (coords (smp w).state i - coords est0.nominal i) ∂(Measure.pi fun _ : Fin 9 => gaussianReal 0 1) = 0 := by
  have hacc := (Mc.from_cov_accepts Mc.cartExt Mc.cartExt_eigOk id Mc.craft0 (1 : Matrix (Fin 9) (Fin 9) ℝ) transpose_one est0.dev
    (by simp [Mc.cartExt]) (Mc.cartExt_svd_some _ est0_cov)).2 est0_cov.2
  obtain ⟨g, hg⟩ := hacc
  have hsmp : ∀ w, ∃ d, g.sample Mc.cartExt w = .ok d := by
    intro w
    unfold fromCov at hg
    obtain ⟨ev, -, h⟩ := Mc.bind_eq_ok.1 hg
    split at h
    · cases h
    obtain ⟨⟨v, s⟩, hv, h⟩ := Mc.bind_eq_ok.1 h
    cases h
    exact ⟨_, rfl⟩
  refine ⟨g, fun w => (hsmp w).choose, hg, fun w => (hsmp w).choose_spec, fun h => ?_⟩
  have := (random_variable_mean Mc.std_draws_gaussian Mc.cartExt Mc.cartExt_svdOk id est0 est0_cov g hg _
    (fun w => (hsmp w).choose_spec)).1 h
  have := congrFun this 0
  simp [est0] at this

example (d : Matrix (Fin 6) (Fin 6) ℝ) (i j : Fin 6) := inertialCov_spec (P := Measure.dirac ()) d 0 (fun _ => 0) (by simp) (by simp) i j

end Verif.Estimate
