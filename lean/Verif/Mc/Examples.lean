import Verif.Mc.Theorems
import Verif.Mc.Runs
import Mathlib.Probability.Independence.Integration
/-!
The hypotheses of the theorems on the Monte Carlo generator are met: independent standard normal values, a
decomposition of every covariance, a generator with two dispersions.
-/
namespace Verif.Mc
open Matrix Verif.Spacecraft MeasureTheory ProbabilityTheory

/-- Nine independent standard normal values are standard draws. -/
theorem std_draws_gaussian :
    StdDraws (Measure.pi fun _ : Fin 9 => gaussianReal 0 1) (fun w : Fin 9 → ℝ => w) := by
  have hm2 : MemLp (id : ℝ → ℝ) 2 (gaussianReal 0 1) := memLp_id_gaussianReal 2
  have h1 : ∀ i : Fin 9, Integrable (fun w : Fin 9 → ℝ => w i) (Measure.pi fun _ : Fin 9 => gaussianReal 0 1) :=
    fun i => integrable_comp_eval (μ := fun _ : Fin 9 => gaussianReal 0 1) (i := i) (f := fun y : ℝ => y)
      (hm2.integrable (by norm_num))
  have h2 : ∀ i : Fin 9, MemLp (fun w : Fin 9 → ℝ => w i) 2 (Measure.pi fun _ : Fin 9 => gaussianReal 0 1) :=
    fun i => hm2.comp_measurePreserving (measurePreserving_eval _ i)
  have hmean : ∀ i : Fin 9, ∫ w : Fin 9 → ℝ, w i ∂(Measure.pi fun _ : Fin 9 => gaussianReal 0 1) = 0 := by
    intro i
    have := integral_comp_eval (μ := fun _ : Fin 9 => gaussianReal 0 1) (i := i) (f := fun y : ℝ => y)
      measurable_id.aestronglyMeasurable
    rw [this, integral_id_gaussianReal]
  refine ⟨inferInstance, h1, fun i j => (h2 i).integrable_mul (h2 j), hmean, ?_⟩
  intro i j
  by_cases hij : i = j
  · subst hij
    rw [if_pos rfl]
    have := integral_comp_eval (μ := fun _ : Fin 9 => gaussianReal 0 1) (i := i) (f := fun y : ℝ => y * y)
      (measurable_id.mul measurable_id).aestronglyMeasurable
    rw [this]
    have hv : Var[id; gaussianReal 0 1] = 1 := by rw [variance_id_gaussianReal]; rfl
    rw [variance_eq_integral measurable_id.aemeasurable] at hv
    simpa [integral_id_gaussianReal, pow_two] using hv
  · rw [if_neg hij]
    have hind : iIndepFun (fun (i : Fin 9) (w : Fin 9 → ℝ) => w i) (Measure.pi fun _ : Fin 9 => gaussianReal 0 1) :=
      iIndepFun_pi (X := fun _ => id) fun _ => measurable_id.aemeasurable
    have := (hind.indepFun hij).integral_fun_mul_eq_mul_integral
      (h1 i).aestronglyMeasurable (h1 j).aestronglyMeasurable
    rw [this, hmean i, zero_mul]

/-- Every covariance has a singular value decomposition. -/
theorem svd_exists (c : Matrix (Fin 9) (Fin 9) ℝ) (hc : IsCov c) : ∃ v s, IsSvd c v s := by
  have hp := (isCov_iff c).1 hc
  have hH := hp.1
  have hs := hH.spectral_theorem
  rw [Unitary.conjStarAlgAut_apply] at hs
  have hu : (hH.eigenvectorUnitary : Matrix (Fin 9) (Fin 9) ℝ)ᵀ * hH.eigenvectorUnitary = 1 := by
    have := Unitary.coe_star_mul_self hH.eigenvectorUnitary
    rwa [star_eq_conjTranspose, conjTranspose_eq_transpose_of_trivial] at this
  refine ⟨hH.eigenvectorUnitary, hH.eigenvalues, ⟨hH.eigenvectorUnitary, hu, ?_⟩, hu, hp.eigenvalues_nonneg⟩
  rw [star_eq_conjTranspose, conjTranspose_eq_transpose_of_trivial] at hs
  exact hs

/-- Where the elements are the six Cartesian coordinates. The decomposition is any one that exists. -/
noncomputable def cartExt : Ext (Fin 6) Unit :=
  open Classical in
  { elemValue := fun s e => some (coords s ⟨e.val, by omega⟩)
    elemPartial := fun _ e => some (Pi.single e 1)
    otherValue := fun _ _ => none
    bplaneOk := fun _ => true
    svd := fun c => if h : ∃ p : Matrix (Fin 9) (Fin 9) ℝ × (Fin 9 → ℝ), IsSvd c p.1 p.2 then some h.choose else none
    eigenvalues := fun c =>
      if h : c.IsHermitian then some h.eigenvalues else none }

theorem cartExt_svdOk : SvdOk cartExt := by
  intro c v s h
  simp only [cartExt] at h
  split at h
  · next hp =>
    have := hp.choose_spec
    rw [Option.some.inj h] at this
    exact this
  · cases h

theorem cartExt_svd_some (c : Matrix (Fin 9) (Fin 9) ℝ) (hc : IsCov c) : (cartExt.svd c).isSome := by
  obtain ⟨v, s, h⟩ := svd_exists c hc
  have : ∃ p : Matrix (Fin 9) (Fin 9) ℝ × (Fin 9 → ℝ), IsSvd c p.1 p.2 := ⟨(v, s), h⟩
  simp [cartExt, this]

def craft0 : Craft ℝ Unit :=
  ⟨(), 0, ![7000, 0, 0], ![0, 7, 0], 100, 10, 0, 1, 1.8, 1, 2.2, none, .coast, none, none⟩

/-- A dispersion of the position along X (mean 1, standard deviation 2) and one of Cr. -/
noncomputable def disps0 : List (Disp (Fin 6)) := [⟨.elem 0, some 1, some 2⟩, ⟨.cr, some 3, some 1⟩]

theorem generator_exists : ∃ g, mvnNew cartExt craft0 disps0 = .ok g := by
  have hfil : disps0.filter (fun d => d.param.isOrbital) = [⟨.elem 0, some 1, some 2⟩] := by
    simp [disps0, Par.isOrbital]
  have hgs : partialsOf cartExt craft0 [⟨.elem 0, some 1, some 2⟩] = .ok [(Pi.single 0 1 : Fin 6 → ℝ)] := rfl
  obtain ⟨ji, hji⟩ : ∃ ji, MathU.pseudoInverse (jacobian [(Pi.single 0 1 : Fin 6 → ℝ)]) = some ji := by
    rw [← Option.ne_none_iff_exists']
    rw [ne_eq, MathU.pseudo_inverse_fails, if_pos (by decide)]
    rintro ⟨y, hy, h⟩
    apply hy
    funext i
    have h0 := congrFun h 0
    have hi : i = 0 := Fin.ext (by simp)
    subst hi
    simpa [jacobian, mulVec, dotProduct] using h0
  have hb : (disps0.any fun d => d.param.isBPlane) = false := by simp [disps0, Par.isBPlane]
  have horb : ∃ c m, orbitPart cartExt craft0 disps0 = .ok (c, m) ∧ ∃ W : Matrix (Fin 9) (Fin 1) ℝ,
      c = W * Wᵀ ∧ c 7 7 = 0 := by
    refine ⟨_, writeMean (ji *ᵥ meansOf [⟨.elem 0, some 1, some 2⟩] 1), ?_, orbFactor ji (fun i => ((disps0.filter fun d => d.param.isOrbital).map
      fun d => d.std.getD 0).getD i.val 0), writeOrbit_eq ji _, ?_⟩
    · unfold orbitPart
      simp only [hfil, List.length_singleton, gt_iff_lt, Nat.lt_one_iff, if_true, Out.bind, hgs, hji, orErr]
      rfl
    · simp [writeOrbit]
  obtain ⟨c, m, horb, W, hW, h77⟩ := horb
  have hoth : otherPart c disps0 = .ok (setDiag c 7 (3 ^ 2)) := rfl
  have hcov : IsCov (setDiag c 7 (3 ^ 2)) := by
    rw [setDiag_add h77, isCov_iff]
    refine PosSemidef.add ?_ (PosSemidef.diagonal fun i => ?_)
    · rw [hW, ← isCov_iff]; exact isCov_mul_transpose W
    · simp only [Pi.single_apply, Pi.zero_apply]
      split <;> norm_num
  obtain ⟨vs, hvs⟩ := Option.isSome_iff_exists.1 (cartExt_svd_some _ hcov)
  unfold mvnNew
  simp only [hb, Bool.false_and, Bool.false_eq_true, if_false, horb, Out.bind, hoth, hvs, orErr]
  exact ⟨_, rfl⟩

theorem samples_exist (g : Gen (Fin 6) Unit) (h : mvnNew cartExt craft0 disps0 = .ok g) (z : Fin 9 → ℝ) :
    ∃ d, g.sample cartExt z = .ok d := by
  obtain ⟨-, hd, -⟩ := mvnNew_ok cartExt cartExt_svdOk craft0 disps0 g h
  unfold Gen.sample
  rw [hd]
  exact ⟨_, rfl⟩

/-- With this generator the change of X has mean 1 and variance 4. -/
example : ∃ (g : Gen (Fin 6) Unit) (smp : (Fin 9 → ℝ) → Dispersed (Fin 6) Unit),
    mvnNew cartExt craft0 disps0 = .ok g ∧ (∀ w, g.sample cartExt w = .ok (smp w)) ∧
    ∫ w, (Pi.single 0 1 : Fin 6 → ℝ) ⬝ᵥ moved (smp w).state craft0
      ∂(Measure.pi fun _ : Fin 9 => gaussianReal 0 1) = 1 := by
  obtain ⟨g, hg⟩ := generator_exists
  refine ⟨g, fun w => (samples_exist g hg w).choose, hg, fun w => (samples_exist g hg w).choose_spec, ?_⟩
  have := (orbital_statistics_partial std_draws_gaussian cartExt cartExt_svdOk craft0 disps0 g hg
    (fun w => (samples_exist g hg w).choose) (fun w => (samples_exist g hg w).choose_spec)
    [⟨.elem 0, some 1, some 2⟩] (by simp [disps0, Par.isOrbital]) (by simp) 0 0 (by simp) (by simp) 0 0
    (Pi.single 0 1) (Pi.single 0 1) rfl rfl rfl rfl).1
  simpa using this

/-- The drag coefficient has for variance the square of the mean configured for Cr. -/
example : ∃ (g : Gen (Fin 6) Unit) (smp : (Fin 9 → ℝ) → Dispersed (Fin 6) Unit),
    mvnNew cartExt craft0 disps0 = .ok g ∧ (∀ w, g.sample cartExt w = .ok (smp w)) ∧
    ∫ w, ((smp w).state.cd - craft0.cd) ^ 2 ∂(Measure.pi fun _ : Fin 9 => gaussianReal 0 1) = 3 ^ 2 := by
  obtain ⟨g, hg⟩ := generator_exists
  refine ⟨g, fun w => (samples_exist g hg w).choose, hg, fun w => (samples_exist g hg w).choose_spec, ?_⟩
  have := (cd_prop_variance std_draws_gaussian cartExt cartExt_svdOk craft0 disps0 g hg
    (fun w => (samples_exist g hg w).choose) (fun w => (samples_exist g hg w).choose_spec)).2.1
  simpa [disps0, lastMean, Par.isCr] using this

/-- The other theorems on the generator and its samples. -/
example : ∃ (g : Gen (Fin 6) Unit) (d : Dispersed (Fin 6) Unit) (z : Fin 9 → ℝ),
    g.sample cartExt z = .ok d ∧ d.state.cr = craft0.cr ∧ d.actual.map Prod.fst = [.elem 0, .cr] := by
  obtain ⟨g, hg⟩ := generator_exists
  obtain ⟨d, hd⟩ := samples_exist g hg fun _ => 1
  refine ⟨g, d, fun _ => 1, hd, cr_never_dispersed cartExt cartExt_svdOk craft0 disps0 g hg _ d hd, ?_⟩
  have h1 := (reported_opposite_partial cartExt g _ d hd).1
  rw [(mvnNew_ok cartExt cartExt_svdOk craft0 disps0 g hg).2.1] at h1
  exact h1

/-- A covariance is accepted. -/
theorem cartExt_eigOk : EigOk cartExt := by
  intro c ev h l
  simp only [cartExt] at h
  split at h
  swap
  · cases h
  next hH =>
  cases h
  constructor
  · rintro ⟨i, rfl⟩
    refine ⟨⇑(hH.eigenvectorBasis i), ?_, hH.mulVec_eigenvectorBasis i⟩
    intro h0
    have h1 : hH.eigenvectorBasis i = 0 := by
      ext a
      exact congrFun h0 a
    have := hH.eigenvectorBasis.orthonormal.1 i
    rw [h1, norm_zero] at this
    exact zero_ne_one this
  · rintro ⟨w, hw, h⟩
    have hmem : l ∈ spectrum ℝ c := by
      rw [spectrum.mem_iff]
      intro hun
      apply hw
      have hd : (algebraMap ℝ (Matrix (Fin 9) (Fin 9) ℝ) l - c) *ᵥ w = 0 := by
        rw [sub_mulVec, h, Algebra.algebraMap_eq_smul_one, smul_mulVec, one_mulVec, sub_self]
      obtain ⟨u, hu⟩ := hun
      rw [← hu] at hd
      have := congrArg (fun y => (↑u⁻¹ : Matrix (Fin 9) (Fin 9) ℝ) *ᵥ y) hd
      simpa [mulVec_mulVec] using this
    rw [hH.spectrum_real_eq_range_eigenvalues] at hmem
    exact hmem

example (mean : Fin 9 → ℝ) (s : Fin 9 → ℝ) (hs : ∀ i, 0 ≤ s i) :
    ∃ g, fromCov cartExt id craft0 (diagonal s) mean = .ok g := by
  have hc : IsCov (diagonal s) := (isCov_iff _).2 (PosSemidef.diagonal hs)
  refine (from_cov_accepts cartExt cartExt_eigOk id craft0 (diagonal s) (diagonal_transpose s) mean ?_
    (cartExt_svd_some _ hc)).2 hc.2
  simp [cartExt]

example (mean s : Fin 9 → ℝ) (g : Gen (Fin 6) Unit)
    (h : fromCov cartExt id craft0 (diagonal s) mean = .ok g) (hs : ∀ i, 0 ≤ s i) :
    ∃ smp : (Fin 9 → ℝ) → Dispersed (Fin 6) Unit, (∀ w, g.sample cartExt w = .ok (smp w)) ∧
    ∫ w, (coords (smp w).state 0 - coords craft0 0) ∂(Measure.pi fun _ : Fin 9 => gaussianReal 0 1) = mean 0 := by
  have hsmp : ∀ w, ∃ d, g.sample cartExt w = .ok d := by
    intro w
    unfold fromCov at h
    obtain ⟨ev, -, h⟩ := bind_eq_ok.1 h
    split at h
    · cases h
    obtain ⟨⟨v, s⟩, hv, h⟩ := bind_eq_ok.1 h
    cases h
    exact ⟨_, rfl⟩
  refine ⟨fun w => (hsmp w).choose, fun w => (hsmp w).choose_spec, ?_⟩
  exact (from_cov_statistics std_draws_gaussian cartExt cartExt_svdOk id craft0 (diagonal s)
    ((isCov_iff _).2 (PosSemidef.diagonal hs)) mean g h _ (fun w => (hsmp w).choose_spec) 0 0).1

/-- A dispersion of Cd with a standard deviation of 1 disperses nothing with `zero_mean`. -/
example : ∃ (g : Gen (Fin 6) Unit) (d : Dispersed (Fin 6) Unit),
    mvnZeroMean cartExt craft0 [⟨.cd, none, some 1⟩] = .ok g ∧ g.sample cartExt (fun _ => 1) = .ok d ∧
    d.state.cd = craft0.cd := by
  have hcov : IsCov (setDiag 0 8 (0 ^ 2)) := by
    rw [setDiag_add rfl, isCov_iff, zero_add]
    refine PosSemidef.diagonal fun i => ?_
    simp only [Pi.single_apply, Pi.zero_apply]
    split <;> norm_num
  obtain ⟨vs, hvs⟩ := Option.isSome_iff_exists.1 (cartExt_svd_some _ hcov)
  have hg : mvnZeroMean cartExt craft0 [⟨.cd, none, some 1⟩] = .ok
      ⟨craft0, [⟨.cd, some 0, some 1⟩], 0, sqrtSV vs.1 vs.2⟩ := by
    have ho : orbitPart cartExt craft0 [⟨.cd, some 0, some 1⟩] = .ok (0, 0) := rfl
    have hp : otherPart (0 : Matrix (Fin 9) (Fin 9) ℝ) [(⟨.cd, some 0, some 1⟩ : Disp (Fin 6))] =
      .ok (setDiag 0 8 (0 ^ 2)) := rfl
    simp only [mvnZeroMean, mvnNew, List.map_cons, List.map_nil, ho, Out.bind, hp, hvs, orErr]
    rfl
  refine ⟨_, ⟨_, _⟩, hg, rfl, ?_⟩
  exact (zero_mean_coefficients cartExt cartExt_svdOk craft0 _ _ hg (fun _ => 1) _ rfl).2.1

example := new_accepts cartExt cartExt_svdOk craft0 disps0 _ generator_exists.choose_spec

example (z : Fin 9 → ℝ) := sample_only_coordinates cartExt generator_exists.choose z _ (samples_exist _ generator_exists.choose_spec z).choose_spec

example (mean : Fin 9 → ℝ) : ∃ g : Gen (Fin 6) Unit, ∃ d ∈ g.disps, d.std = some 4 ∧ d.std ≠ some 2 := by
  have hs : ∀ i : Fin 9, (0 : ℝ) ≤ (fun _ => 4 : Fin 9 → ℝ) i := fun _ => by norm_num
  have hc : IsCov (diagonal fun _ : Fin 9 => (4 : ℝ)) := (isCov_iff _).2 (PosSemidef.diagonal hs)
  obtain ⟨g, hg⟩ := (from_cov_accepts cartExt cartExt_eigOk id craft0 _ (diagonal_transpose _) mean (by simp [cartExt])
    (cartExt_svd_some _ hc)).2 hc.2
  obtain ⟨d, hd, h1, -⟩ := recorded_are_variances cartExt id craft0 _ mean g hg 0
  refine ⟨g, d, hd, by simpa using h1, ?_⟩
  rw [h1]
  simp

end Verif.Mc
