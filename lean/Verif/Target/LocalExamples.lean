import Verif.Target.Local
import Verif.Target.DualLocal
import Verif.Target.Examples
/-!
Concrete cases of the hypotheses of the local convergence of the targeter (C223).
-/
namespace Verif.Target
open Matrix
open Verif.Spacecraft (Craft)
open Verif.MathU (V3 nrm pseudoInverse)

/-- The velocity never changes; the target is a function `f` of the first component of the
velocity, with the partial `g`. -/
noncomputable def shaped (f g : ℝ → ℝ) (o : Objective Unit) : Cfg Unit Unit Unit 1 1 where
  prop := fun _ _ x t => some { x with epoch := t }
  transform := fun _ o => some o
  bplane := fun _ => none
  element := fun _ o => some (f (o.vel 0), Pi.single 3 (g (o.vel 0)))
  dcm := fun _ _ => none
  secs := fun _ => 0
  objs := fun _ => o
  vars := fun _ => vx 4
  objFrame := none
  corrFrame := none
  iterations := 100

theorem shaped_plain (f g : ℝ → ℝ) (o : Objective Unit) : Plain (shaped f g o) where
  state := fun _ => rfl
  valid := fun _ => by
    refine ⟨?_, ?_, ?_⟩
    · show ¬ (4 : ℝ) < 0
      norm_num
    · show ¬ (5 : ℝ) < 0
      norm_num
    · show ¬ (-5 : ℝ) > 5
      norm_num
  frame := rfl
  pert := fun _ => by show (1 / 10000 : ℝ) ≠ 0; norm_num
  guess := fun _ => rfl
  some_objective := by norm_num
  enough := le_rfl

theorem shaped_shift (f g : ℝ → ℝ) (o : Objective Unit) (w : Fin 1 → ℝ) : shift (shaped f g o) w 3 = w 0 := by
  show (∑ j : Fin 1, if some 3 = some 3 then w j else 0) = w 0
  simp

theorem shaped_objectives (f g : ℝ → ℝ) (d tol mult : ℝ) (x : Craft ℝ Unit) (t : Int) (ρ : ℝ) :
    Objectives (shaped f g ⟨.element (), d, tol, mult, 0⟩) x t ρ fun w _ => f (x.vel 0 + w 0) := by
  intro w _
  have hB : ∀ y, (shaped f g ⟨.element (), d, tol, mult, 0⟩).bp y = some none := fun y => by
    rw [Cfg.bp, if_neg]
    simp [Cfg.isB, shaped, Param.isB]
  refine ⟨_, _, none, rfl, rfl, hB _, fun i => ⟨Pi.single 3 (g (x.vel 0 + w 0)), ?_⟩⟩
  show Res.ok (f (x.vel 0 + shift (shaped f g ⟨.element (), d, tol, mult, 0⟩) w 3), (Pi.single 3 (g (x.vel 0 + shift (shaped f g ⟨.element (), d, tol, mult, 0⟩) w 3)) : Fin 6 → ℝ)) = _
  rw [shaped_shift]

theorem nrm_one_dim (v : Fin 1 → ℝ) : nrm v = |v 0| := by
  rw [nrm, ← Real.sqrt_sq_eq_abs]
  simp [dotProduct, sq]

/-- The square of the velocity has a bounded curvature, and a bounded slope around the velocity one. -/
theorem square_smooth : Smooth (fun (w : Fin 1 → ℝ) (_ : Fin 1) => ((1 : ℝ) + w 0) ^ 2)
    (fun w => of fun _ _ => 2 * (1 + w 0)) (1 / 4) 2 (2 / 3) where
  remainder := by
    intro v w _ _
    rw [nrm_one_dim, nrm_one_dim]
    simp only [Pi.sub_apply, mulVec, dotProduct, of_apply, Fin.sum_univ_one, sq_abs]
    have : (1 + v 0) ^ 2 - (1 + w 0) ^ 2 - 2 * (1 + w 0) * (v 0 - w 0) = (v 0 - w 0) ^ 2 := by ring
    rw [this, abs_of_nonneg (sq_nonneg _)]
    linarith
  regular := by
    intro w hw
    rw [nrm_one_dim] at hw
    have hw' := abs_le.1 hw
    have h1 : (3 / 2 : ℝ) ≤ 2 * (1 + w 0) := by linarith
    refine ⟨of fun _ _ => (2 * (1 + w 0))⁻¹, ?_, fun e => ?_⟩
    · ext i j
      have : i = j := Subsingleton.elim _ _
      subst this
      simp only [mul_apply, of_apply, Fin.sum_univ_one, one_apply_eq]
      exact mul_inv_cancel₀ (by linarith)
    · rw [nrm_one_dim, nrm_one_dim]
      simp only [mulVec, dotProduct, of_apply, Fin.sum_univ_one, abs_mul]
      refine mul_le_mul_of_nonneg_right ?_ (abs_nonneg _)
      rw [abs_of_pos (by positivity), show (2 / 3 : ℝ) = (3 / 2)⁻¹ by norm_num]
      exact inv_anti₀ (by norm_num) h1
  curvature := by norm_num
  bound := by norm_num

/-- `smooth_of_lipschitz`. -/
example : Smooth (fun (w : Fin 1 → ℝ) (_ : Fin 1) => ((1 : ℝ) + w 0) ^ 2)
    (fun w => of fun _ _ => 2 * (1 + w 0)) (1 / 4) 2 (2 / 3) := by
  refine smooth_of_lipschitz (fun w _ d i => ?_) (fun v w _ _ d => ?_) square_smooth.regular (by norm_num) (by norm_num)
  · have h1 : HasDerivAt (fun s : ℝ => 1 + (w 0 + s * d 0)) (d 0) 0 := by
      simpa using (((hasDerivAt_id (0 : ℝ)).mul_const (d 0)).const_add (w 0)).const_add 1
    refine (h1.pow 2).congr_deriv ?_
    simp [mulVec, dotProduct]
  · rw [nrm_one_dim, nrm_one_dim, nrm_one_dim]
    simp only [Pi.sub_apply, mulVec, dotProduct, of_apply, Fin.sum_univ_one]
    rw [← sub_mul, abs_mul, show 2 * (1 + v 0) - 2 * (1 + w 0) = 2 * (v 0 - w 0) by ring, abs_mul, abs_of_pos (by norm_num : (0 : ℝ) < 2)]

noncomputable def wantSquare : Objective Unit := ⟨.element (), 121 / 100, 1 / 1000, 1, 0⟩

noncomputable def atOne : Craft ℝ Unit := craft ![7000, 0, 0] ![1, 0, 0] none

theorem square_first : nrm (errs (shaped (· ^ 2) (19 / 10 * ·) wantSquare) (fun w _ => ((1 : ℝ) + w 0) ^ 2) 0) = 21 / 100 := by
  rw [nrm_one_dim]
  show |(1 : ℝ) * (121 / 100 - (1 + 0) ^ 2) + 0| = 21 / 100
  norm_num [abs_of_pos]

/-- `local_convergence`: the square of the velocity from 1 to 1.21, in at most three corrections. -/
example : ∃ s, (shaped (· ^ 2) (19 / 10 * ·) wantSquare).tryAchieve atOne 0 60 = .ok s ∧ s.iterations ≤ 3 := by
  have hp : nrm (fun j : Fin 1 => ((shaped (· ^ 2) (19 / 10 * ·) wantSquare).vars j).pert) = 1 / 10000 := by
    rw [nrm_one_dim]
    show |(1 / 10000 : ℝ)| = _
    norm_num [abs_of_pos]
  obtain ⟨s, h1, h2, -⟩ := local_convergence (C := shaped (· ^ 2) (19 / 10 * ·) wantSquare) (x0 := atOne) (t0 := 0) (t := 60)
    (start := { atOne with epoch := 0 }) (θ := 0) (M := 1) (ε := 1 / 10000) (κ := (2 / 3) / (1 - (2 / 3) * (1 / 10000)))
    (q := 1 / 10) (η := 21 / 100) (τ := 1 / 1000) (N := 3) (ρ := 1 / 4) (L := 2) (β := 2 / 3) (shaped_plain _ _ _) rfl
    (shaped_objectives (· ^ 2) _ _ _ _ _ _ _) square_smooth
    { factor := fun i => by
        show |1 - (1 : ℝ)| ≤ 0 ∧ |(1 : ℝ)| ≤ 1
        norm_num
      perturbation := by rw [hp]; norm_num
      well_posed := by norm_num
      gain := rfl
      first := square_first.symm
      contraction := by norm_num
      contracts := by norm_num
      room := fun j => by
        show _ + |(1 / 10000 : ℝ)| ≤ _
        rw [abs_of_pos (by norm_num)]
        norm_num
      limits := fun j => by
        show _ ≤ (4 : ℝ) ∧ (-5 : ℝ) ≤ _ ∧ _ ≤ (5 : ℝ)
        norm_num
      tolerance := fun i => le_refl (1 / 1000 : ℝ)
      visible := by norm_num }
    (by norm_num) (by show 3 ≤ 100; omega)
  exact ⟨s, h1, h2⟩

/-- `slow_convergence_refused`: a velocity of 2e-10 to reach at the tolerance 1e-11 with the factor one half. -/
example : (shaped id (fun _ => 1) ⟨.element (), 2 / 10000000000, 1 / 100000000000, 1 / 2, 0⟩).tryAchieve atRest 0 60 =
    .err .ineffective := by
  set o : Objective Unit := ⟨.element (), 2 / 10000000000, 1 / 100000000000, 1 / 2, 0⟩ with ho
  have haff : Affine (shaped id (fun _ => 1) o) ({ atRest with epoch := 0 } : Craft ℝ Unit) 60 (fun _ => 0)
      (of fun _ => Pi.single 3 1) := by
    intro c
    have hB : ∀ y, (shaped id (fun _ => 1) o).bp y = some none := fun y => by
      rw [Cfg.bp, if_neg]
      simp [Cfg.isB, shaped, Param.isB, ho]
    refine ⟨_, _, none, rfl, rfl, hB _, fun i => ⟨Pi.single 3 1, ?_⟩⟩
    have : (({ atRest with epoch := 0 } : Craft ℝ Unit).add6 c).vel 0 =
        0 + ((of fun (_ : Fin 1) => Pi.single (3 : Fin 6) (1 : ℝ)) *ᵥ c) i := by
      show (0 : ℝ) + c 3 = 0 + Pi.single (3 : Fin 6) (1 : ℝ) ⬝ᵥ c
      rw [single_one_dotProduct]
    show Res.ok ((({ atRest with epoch := 0 } : Craft ℝ Unit).add6 c).vel 0, _) = _
    rw [this]
  obtain ⟨P, hP, hPe⟩ := pinv_one (q := 1) one_ne_zero
  have hsl : slopes (shaped id (fun _ => 1) o) (of fun _ => Pi.single 3 1) = of fun _ _ => 1 := still_slopes 0 0
  refine slow_convergence_refused (shaped_plain _ _ _) rfl (P := P) (G := of fun _ => Pi.single 3 1) (a := fun _ => 0)
    ⟨by rw [hsl, hP], fun j => ?_⟩ haff (fun _ => rfl) (by show 1 ≤ 100; omega) ⟨0, ?_⟩ (fun _ => ?_) ?_
  · rw [hPe]
    show |((1 / 2 : ℝ) * (2 / 10000000000 - 0) + 0) / 1| ≤ 4 ∧ (-5 : ℝ) ≤ ((1 / 2 : ℝ) * (2 / 10000000000 - 0) + 0) / 1 ∧
      ((1 / 2 : ℝ) * (2 / 10000000000 - 0) + 0) / 1 ≤ 5
    norm_num [abs_of_pos]
  · show 2 * (1 / 100000000000 : ℝ) < |(1 / 2 : ℝ) * (2 / 10000000000 - 0) + 0|
    norm_num [abs_of_pos]
  · show (0 : ℝ) ≤ 1 / 100000000000
    norm_num
  · rw [nrm_one_dim]
    show |(1 / 2 : ℝ) * (2 / 10000000000 - 0) + 0| < 2 / 10000000000
    norm_num [abs_of_pos]

/-- `dual_local_convergence`: the same problem, with a partial which is wrong by five percents. -/
example : ∃ s, (shaped (· ^ 2) (19 / 10 * ·) wantSquare).tryDual atOne 0 60 = .ok s ∧ s.iterations ≤ 4 := by
  set C := shaped (· ^ 2) (19 / 10 * ·) wantSquare with hC
  have hB : ∀ y, C.bp y = some none := fun y => by
    rw [Cfg.bp, if_neg]
    simp [Cfg.isB, hC, shaped, Param.isB, wantSquare]
  have hnamed : ∀ w : Fin 1 → ℝ, named C w 3 = w 0 := fun w => by
    show (∑ j : Fin 1, if Vary.velocityX = component 3 then w j else 0) = w 0
    simp [component]
  have hF : StmObjectives C { atOne with epoch := 0 } 60 (1 / 4) (fun w _ => ((1 : ℝ) + w 0) ^ 2)
      (fun w => of fun _ _ => 19 / 10 * (1 + w 0)) := by
    intro w _
    refine ⟨_, _, none, 1, rfl, rfl, rfl, hB _, fun i => ⟨Pi.single 3 (19 / 10 * (1 + w 0)), ?_, fun j k hk => ?_⟩⟩
    · show Res.ok (((1 : ℝ) + named C w 3) ^ 2, (Pi.single 3 (19 / 10 * ((1 : ℝ) + named C w 3)) : Fin 6 → ℝ)) = _
      rw [hnamed]
    · have hk3 : k = 3 := by
        have : Vary.velocityX = component k := hk
        rw [← stateIndex_component] at this
        exact (Option.some.inj this).symm
      subst hk3
      rw [Finset.sum_eq_single 3]
      · simp
      · intro b _ hb
        rw [Pi.single_eq_of_ne hb, zero_mul]
      · simp
  obtain ⟨s, h1, h2, -⟩ := dual_local_convergence (C := C) (x0 := atOne) (t0 := 0) (t := 60)
    (start := { atOne with epoch := 0 }) (θ := 0) (M := 1) (ε := 1 / 8) (κ := (2 / 3) / (1 - (2 / 3) * (1 / 8)))
    (q := 1 / 4) (η := 21 / 100) (τ := 1 / 1000) (N := 4) (ρ := 1 / 4) (L := 2) (β := 2 / 3) (by norm_num) le_rfl
    (fun _ => ⟨3, rfl⟩) (fun _ => rfl) rfl hF square_smooth
    { factor := fun i => by
        show |1 - (1 : ℝ)| ≤ 0 ∧ |(1 : ℝ)| ≤ 1
        norm_num
      jacobian := fun w hw v => by
        rw [nrm_one_dim] at hw
        rw [nrm_one_dim, nrm_one_dim]
        simp only [Pi.sub_apply, mulVec, dotProduct, of_apply, Fin.sum_univ_one]
        rw [← sub_mul, abs_mul]
        refine mul_le_mul_of_nonneg_right ?_ (abs_nonneg _)
        have := abs_le.1 hw
        rw [abs_le]
        constructor <;> linarith
      error_nonneg := by norm_num
      well_posed := by norm_num
      gain := rfl
      first := square_first.symm
      contraction := by norm_num
      contracts := by norm_num
      room := by norm_num
      limits := fun j => by
        show _ ≤ (4 : ℝ) ∧ (-5 : ℝ) ≤ _ ∧ _ ≤ (5 : ℝ)
        norm_num
      tolerance := fun i => le_refl (1 / 1000 : ℝ)
      visible := by norm_num }
    (by norm_num) (by show 4 ≤ 100; omega)
  exact ⟨s, h1, h2⟩

end Verif.Target
