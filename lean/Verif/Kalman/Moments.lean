import Verif.Kalman.Chol
import Mathlib.MeasureTheory.Function.L2Space
import Mathlib.MeasureTheory.Integral.Bochner.ContinuousLinearMap
import Mathlib.Probability.ProbabilityMassFunction.Integrals
import Mathlib.Probability.Distributions.Uniform
/-!
C213 and C214: the covariance of the filter is that of its errors; the mean square of the residual ratio. The errors are random variables on a probability space; the histories of the filter
(`KF.run` of `Verif/Kalman/Model.lean`) are those of the samples.
-/
namespace Verif.Kalman
open Matrix MeasureTheory

variable {F Ω Θ : Type} {s a : Nat} [MeasurableSpace Θ]

/-- Second moments of two random vectors. -/
noncomputable def mom {m n : Nat} (μ : Measure Θ) (x : Θ → Fin m → ℝ) (y : Θ → Fin n → ℝ) : Matrix (Fin m) (Fin n) ℝ :=
  Matrix.of fun i j => ∫ θ, x θ i * y θ j ∂μ

/-- Random vectors with second moments. -/
def L2 {n : Nat} (μ : Measure Θ) (x : Θ → Fin n → ℝ) : Prop := ∀ i, MemLp (fun θ => x θ i) 2 μ

section moments
variable {μ : Measure Θ} {m n k : Nat}

theorem L2.int {x : Θ → Fin m → ℝ} {y : Θ → Fin n → ℝ} (hx : L2 μ x) (hy : L2 μ y) (i : Fin m) (j : Fin n) :
    Integrable (fun θ => x θ i * y θ j) μ := (hx i).integrable_mul (hy j)

theorem L2.add {x y : Θ → Fin n → ℝ} (hx : L2 μ x) (hy : L2 μ y) : L2 μ fun θ => x θ + y θ := fun i => (hx i).add (hy i)

theorem L2.sub {x y : Θ → Fin n → ℝ} (hx : L2 μ x) (hy : L2 μ y) : L2 μ fun θ => x θ - y θ := fun i => (hx i).sub (hy i)

theorem L2.mul {x : Θ → Fin n → ℝ} (A : Matrix (Fin m) (Fin n) ℝ) (hx : L2 μ x) : L2 μ fun θ => A *ᵥ x θ := by
  intro i
  have := memLp_finset_sum (s := Finset.univ) (f := fun j θ => A i j * x θ j) (p := 2) (μ := μ) fun j _ => (hx j).const_mul (A i j)
  exact this

theorem mom_swap (x : Θ → Fin m → ℝ) (y : Θ → Fin n → ℝ) : mom μ y x = (mom μ x y)ᵀ := by
  ext i j
  simp only [mom, of_apply, transpose_apply]
  congr 1
  funext θ
  ring

theorem mom_mul {x : Θ → Fin n → ℝ} {y : Θ → Fin k → ℝ} (A : Matrix (Fin m) (Fin n) ℝ) (hx : L2 μ x) (hy : L2 μ y) :
    mom μ (fun θ => A *ᵥ x θ) y = A * mom μ x y := by
  ext i j
  simp only [mom, of_apply, mul_apply, mulVec, dotProduct]
  rw [← show ∫ θ, ∑ l, A i l * (x θ l * y θ j) ∂μ = ∑ l, A i l * ∫ θ, x θ l * y θ j ∂μ from ?_]
  · congr 1
    funext θ
    rw [Finset.sum_mul]
    exact Finset.sum_congr rfl fun l _ => by ring
  · rw [integral_finsetSum _ fun l _ => (hx.int hy l j).const_mul _]
    exact Finset.sum_congr rfl fun l _ => integral_const_mul _ _

theorem mom_add {x x' : Θ → Fin n → ℝ} {y : Θ → Fin k → ℝ} (hx : L2 μ x) (hx' : L2 μ x') (hy : L2 μ y) :
    mom μ (fun θ => x θ + x' θ) y = mom μ x y + mom μ x' y := by
  ext i j
  simp only [mom, of_apply, Matrix.add_apply, Pi.add_apply, add_mul]
  exact integral_add (hx.int hy i j) (hx'.int hy i j)

theorem mom_sub {x x' : Θ → Fin n → ℝ} {y : Θ → Fin k → ℝ} (hx : L2 μ x) (hx' : L2 μ x') (hy : L2 μ y) :
    mom μ (fun θ => x θ - x' θ) y = mom μ x y - mom μ x' y := by
  ext i j
  simp only [mom, of_apply, Matrix.sub_apply, Pi.sub_apply, sub_mul]
  exact integral_sub (hx.int hy i j) (hx'.int hy i j)

/-- The second moment of a combination of uncorrelated vectors. -/
theorem mom_comb {x : Θ → Fin n → ℝ} {y : Θ → Fin k → ℝ} (A : Matrix (Fin m) (Fin n) ℝ) (B : Matrix (Fin m) (Fin k) ℝ) (hx : L2 μ x)
    (hy : L2 μ y) (h : mom μ x y = 0) :
    mom μ (fun θ => A *ᵥ x θ + B *ᵥ y θ) (fun θ => A *ᵥ x θ + B *ᵥ y θ) = A * mom μ x x * Aᵀ + B * mom μ y y * Bᵀ := by
  have hAx := hx.mul A
  have hBy := hy.mul B
  have h' : mom μ y x = 0 := by rw [mom_swap x y, h, transpose_zero]
  rw [mom_add hAx hBy (hAx.add hBy), mom_mul A hx (hAx.add hBy), mom_mul B hy (hAx.add hBy), mom_swap (fun θ => A *ᵥ x θ + B *ᵥ y θ) x,
    mom_swap (fun θ => A *ᵥ x θ + B *ᵥ y θ) y, mom_add hAx hBy hx, mom_add hAx hBy hy, mom_mul A hx hx, mom_mul A hx hy, mom_mul B hy hx,
    mom_mul B hy hy, h, h']
  have e1 : (mom μ x x)ᵀ = mom μ x x := (mom_swap x x).symm
  have e2 : (mom μ y y)ᵀ = mom μ y y := (mom_swap y y).symm
  simp only [Matrix.mul_zero, add_zero, zero_add, transpose_mul, e1, e2, Matrix.mul_assoc]

end moments

/-- A measurement of a history: size, computed observation, sensitivity, covariance of the noise, and the noise of each sample. -/
structure Meas (Θ : Type) (s : Nat) where
  m : Nat
  computed : Fin m → ℝ
  H : Matrix (Fin m) (Fin s) ℝ
  R : Matrix (Fin m) (Fin m) ℝ
  v : Θ → Fin m → ℝ

/-- A step of a history: the reference state with its transition matrix, the process noise of each sample and its covariance, and the measurement, if
any. -/
structure Step (Θ Ω : Type) (s : Nat) where
  x : Nominal Ω s
  w : Θ → Fin s → ℝ
  C : Matrix (Fin s) (Fin s) ℝ
  msr : Option (Meas Θ s)

/-- The true deviation from the reference after a step. -/
noncomputable def Step.truth (st : Step Θ Ω s) (d : Θ → Fin s → ℝ) : Θ → Fin s → ℝ := fun θ => (st.x.stm.getD 1) *ᵥ d θ + st.w θ

/-- The operation on the filter in a step: the observation is that of the true deviation, with its noise. -/
noncomputable def Step.op (st : Step Θ Ω s) (d : Θ → Fin s → ℝ) (θ : Θ) : Op Ω s :=
  match st.msr with
  | none => .time st.x
  | some z => .msr st.x z.m ⟨z.computed + z.H *ᵥ st.truth d θ + z.v θ, z.computed, z.R, z.H⟩ none

/-- The operations of a history. -/
noncomputable def ops : List (Step Θ Ω s) → (Θ → Fin s → ℝ) → Θ → List (Op Ω s)
  | [], _, _ => []
  | st :: rest, d, θ => st.op d θ :: ops rest (st.truth d) θ

/-- The true deviation at the end of a history. -/
noncomputable def finalTruth : List (Step Θ Ω s) → (Θ → Fin s → ℝ) → Θ → Fin s → ℝ
  | [], d => d
  | st :: rest, d => finalTruth rest (st.truth d)

/-- The random variables of the noises of a step. -/
def Step.vars (st : Step Θ Ω s) : List (Θ → ℝ) :=
  (List.ofFn fun i => fun θ => st.w θ i) ++ (match st.msr with | none => [] | some z => List.ofFn fun i => fun θ => z.v θ i)

/-- Specification of the noises of a step: second moments as declared, process and measurement noises uncorrelated. -/
def Step.Noisy (μ : Measure Θ) (st : Step Θ Ω s) : Prop :=
  L2 μ st.w ∧ mom μ st.w st.w = st.C ∧ ∀ z, st.msr = some z → L2 μ z.v ∧ mom μ z.v z.v = z.R ∧ mom μ st.w z.v = 0

/-- Two lists of random variables are uncorrelated. -/
def Uncorrelated (μ : Measure Θ) (l l' : List (Θ → ℝ)) : Prop := ∀ u ∈ l, ∀ v ∈ l', ∫ θ, u θ * v θ ∂μ = 0

/-- The matrix which the loop over the process noises adds. -/
def sncAdded : Option (Nat × Matrix (Fin s) (Fin s) ℝ) → Matrix (Fin s) (Fin s) ℝ
  | none => 0
  | some p => p.2

/-- The covariances declared by the steps are those which the process noises of the filter add. -/
def Adds (dcm : F → Ω → Option (Matrix (Fin 3) (Fin 3) ℝ)) : List (Noise F a) → Int → List (Step Θ Ω s) → Prop
  | _, _, [] => True
  | ns, e, st :: rest =>
    (∀ o, sncLoop dcm st.x (st.x.epoch - e) ns.zipIdx.reverse = .ok o → st.C = sncAdded o) ∧
    Adds dcm (ns.map fun q => { q with prevEpoch := some st.x.epoch }) st.x.epoch rest

theorem mem_vars_w (st : Step Θ Ω s) (i : Fin s) : (fun θ => st.w θ i) ∈ st.vars :=
  List.mem_append_left _ (List.mem_ofFn.2 ⟨i, rfl⟩)

theorem mem_vars_v (st : Step Θ Ω s) (z : Meas Θ s) (hz : st.msr = some z) (i : Fin z.m) : (fun θ => z.v θ i) ∈ st.vars := by
  refine List.mem_append_right _ ?_
  rw [hz]
  exact List.mem_ofFn.2 ⟨i, rfl⟩

theorem predict_added {dcm : F → Ω → Option (Matrix (Fin 3) (Fin 3) ℝ)} {kf : KF F Ω s a} {x : Nominal Ω s} {stm : Matrix (Fin s) (Fin s) ℝ}
    {pu : Matrix (Fin s) (Fin s) ℝ × Nat} (h : kf.predict dcm x stm = .ok pu) :
    ∃ o, sncLoop dcm x (x.epoch - kf.prev.nominal.epoch) kf.noises.zipIdx.reverse = .ok o ∧ pu.1 = stm * kf.prev.covar * stmᵀ + sncAdded o := by
  unfold KF.predict at h
  obtain ⟨o, h1, h2⟩ := Res.bind_eq_ok.1 h
  refine ⟨o, h1, ?_⟩
  rcases o with _ | ⟨i, C⟩
  · cases h2
    simp [sncAdded]
  · cases h2
    rfl

/-- One step: what the filter does to its covariance and to its error. -/
theorem step_error (chol : Chol) (dcm : F → Ω → Option (Matrix (Fin 3) (Fin 3) ℝ)) (kf kf' : KF F Ω s a) (hv : kf.variant = .deviationTracking)
    (st : Step Θ Ω s) (d : Θ → Fin s → ℝ) (θ : Θ) (rest : List (Op Ω s)) (h : kf.run chol dcm (st.op d θ :: rest) = .ok kf') :
    ∃ stm o k1, st.x.stm = some stm ∧ sncLoop dcm st.x (st.x.epoch - kf.prev.nominal.epoch) kf.noises.zipIdx.reverse = .ok o ∧
      KF.run chol dcm k1 rest = .ok kf' ∧ k1.variant = .deviationTracking ∧ k1.prev.nominal = st.x ∧
      k1.noises = kf.noises.map (fun q => { q with prevEpoch := some st.x.epoch }) ∧
      ((st.msr = none ∧ k1.prev.covar = stm * kf.prev.covar * stmᵀ + sncAdded o ∧
        k1.prev.dev - st.truth d θ = stm *ᵥ (kf.prev.dev - d θ) - st.w θ) ∨
      ∃ z K, st.msr = some z ∧
        gainOf chol (stm * kf.prev.covar * stmᵀ + sncAdded o) z.H (z.H * ((stm * kf.prev.covar * stmᵀ + sncAdded o) * z.Hᵀ) + z.R) = .ok K ∧
        k1.prev.covar = joseph (stm * kf.prev.covar * stmᵀ + sncAdded o) z.H z.R K ∧
        k1.prev.dev - st.truth d θ = (1 - K * z.H) *ᵥ (stm *ᵥ (kf.prev.dev - d θ) - st.w θ) + K *ᵥ z.v θ) := by
  unfold Step.op at h
  cases hm : st.msr with
  | none =>
    rw [hm] at h
    obtain ⟨⟨k1, e⟩, h1, h2⟩ := Res.bind_eq_ok.1 h
    obtain ⟨stm, pu, hs, hp, hk, he⟩ := timeUpdate_ok h1
    obtain ⟨o, ho, hpu⟩ := predict_added hp
    refine ⟨stm, o, k1, hs, ho, h2, by rw [hk]; exact hv, by rw [hk, he]; rfl, by rw [hk, he]; rfl, Or.inl ⟨rfl, ?_, ?_⟩⟩
    · rw [hk, he, ← hpu]
      rfl
    · have : k1.prev.dev = stm *ᵥ kf.prev.dev := by
        rw [hk, he]
        exact if_pos hv
      rw [this]
      simp only [Step.truth, hs, Option.getD_some, mulVec_sub]
      abel
  | some z =>
    rw [hm] at h
    obtain ⟨⟨k1, e, r, g⟩, h1, h2⟩ := Res.bind_eq_ok.1 h
    obtain ⟨stm, pu, L, hs, hp, -, -, -, -, -, -, -, hr, hcase⟩ := measurementUpdate_ok h1
    obtain ⟨o, ho, hpu⟩ := predict_added hp
    rcases hcase with ⟨hrej, -⟩ | ⟨-, K, -, hK, he, -, hk⟩
    · obtain ⟨n, hn, -⟩ := hr.1 hrej
      cases hn
    · rw [hpu] at hK he
      refine ⟨stm, o, k1, hs, ho, h2, by rw [hk]; exact hv, by rw [hk, he]; rfl, by rw [hk, he]; rfl, Or.inr ⟨z, K, rfl, hK, ?_, ?_⟩⟩
      · rw [hk, he]
        rfl
      · have : k1.prev.dev = stm *ᵥ kf.prev.dev + K *ᵥ (z.computed + z.H *ᵥ st.truth d θ + z.v θ - z.computed - z.H *ᵥ (stm *ᵥ kf.prev.dev)) := by
          rw [hk, he, hv]
          rfl
        have hp' : stm *ᵥ (kf.prev.dev - d θ) - st.w θ = stm *ᵥ kf.prev.dev - st.truth d θ := by
          simp only [Step.truth, hs, Option.getD_some, mulVec_sub]
          abel
        rw [this, hp']
        generalize stm *ᵥ kf.prev.dev = p
        generalize st.truth d θ = q
        have : z.computed + z.H *ᵥ q + z.v θ - z.computed - z.H *ᵥ p = z.v θ - z.H *ᵥ (p - q) := by
          rw [mulVec_sub]
          abel
        rw [this, sub_mulVec, one_mulVec, mulVec_sub K, ← mulVec_mulVec]
        abel

theorem vars_L2 {μ : Measure Θ} {st : Step Θ Ω s} (h : st.Noisy μ) {u : Θ → ℝ} (hu : u ∈ st.vars) : MemLp u 2 μ := by
  obtain ⟨hw, -, hz⟩ := h
  rcases List.mem_append.1 hu with h1 | h1
  · obtain ⟨i, rfl⟩ := List.mem_ofFn.1 h1
    exact hw i
  · cases hm : st.msr with
    | none =>
      rw [hm] at h1
      cases h1
    | some z =>
      rw [hm] at h1
      obtain ⟨i, rfl⟩ := List.mem_ofFn.1 h1
      exact (hz z hm).1 i

/-- Uncorrelated with a random variable, as a matrix of moments. -/
theorem mom_one {μ : Measure Θ} {n : Nat} (x : Θ → Fin n → ℝ) (u : Θ → ℝ) :
    mom μ x (fun θ (_ : Fin 1) => u θ) = 0 ↔ ∀ i, ∫ θ, x θ i * u θ ∂μ = 0 := by
  constructor
  · intro h i
    exact congrFun (congrFun h i) 0
  · intro h
    ext i j
    exact h i

/-- The errors after the operations, their second moment, and that the covariance is the same in all samples. -/
theorem consistent_gen (μ : Measure Θ) (chol : Chol) (dcm : F → Ω → Option (Matrix (Fin 3) (Fin 3) ℝ)) :
    ∀ (steps : List (Step Θ Ω s)) (kf kf' : Θ → KF F Ω s a) (d : Θ → Fin s → ℝ) (P : Matrix (Fin s) (Fin s) ℝ) (e : Int) (ns : List (Noise F a)),
      (∀ θ, (kf θ).variant = .deviationTracking ∧ (kf θ).prev.covar = P ∧ (kf θ).prev.nominal.epoch = e ∧ (kf θ).noises = ns) →
      L2 μ (fun θ => (kf θ).prev.dev - d θ) → mom μ (fun θ => (kf θ).prev.dev - d θ) (fun θ => (kf θ).prev.dev - d θ) = P →
      (∀ st ∈ steps, st.Noisy μ) →
      (∀ st ∈ steps, Uncorrelated μ (List.ofFn fun i => fun θ => ((kf θ).prev.dev - d θ) i) st.vars) →
      steps.Pairwise (fun st st' => Uncorrelated μ st.vars st'.vars) →
      Adds dcm ns e steps →
      (∀ θ, (kf θ).run chol dcm (ops steps d θ) = .ok (kf' θ)) →
      (∀ θ₀, (kf' θ₀).prev.covar =
        mom μ (fun θ => (kf' θ).prev.dev - finalTruth steps d θ) (fun θ => (kf' θ).prev.dev - finalTruth steps d θ)) ∧
      ∀ u : Θ → ℝ, MemLp u 2 μ → (∀ i, ∫ θ, ((kf θ).prev.dev - d θ) i * u θ ∂μ = 0) →
        (∀ st ∈ steps, ∀ n ∈ st.vars, ∫ θ, n θ * u θ ∂μ = 0) → ∀ i, ∫ θ, ((kf' θ).prev.dev - finalTruth steps d θ) i * u θ ∂μ = 0 := by
  intro steps
  induction steps with
  | nil =>
    intro kf kf' d P e ns hkf _ hP _ _ _ _ hrun
    have : ∀ θ, kf' θ = kf θ := fun θ => by
      have := hrun θ
      injection this with this
      exact this.symm
    simp only [this, finalTruth]
    exact ⟨fun θ₀ => by rw [hP, (hkf θ₀).2.1], fun u _ h _ => h⟩
  | cons st rest ih =>
    intro kf kf' d P e ns hkf hL hP hN hU hPw hA hrun
    by_cases hne : Nonempty Θ
    swap
    · have hem : IsEmpty Θ := not_nonempty_iff.1 hne
      refine ⟨fun θ₀ => (hem.false θ₀).elim, fun u _ _ _ i => ?_⟩
      rw [Subsingleton.elim (fun θ => ((kf' θ).prev.dev - finalTruth (st :: rest) d θ) i * u θ) (fun _ => 0), integral_zero]
    obtain ⟨θ₀⟩ := hne
    obtain ⟨hL2w, hw, hmeas⟩ := hN st (List.mem_cons_self ..)
    have hex := fun θ => step_error chol dcm (kf θ) (kf' θ) (hkf θ).1 st d θ (ops rest (st.truth d) θ) (hrun θ)
    simp only [(hkf _).2.1, (hkf _).2.2.1, (hkf _).2.2.2] at hex
    obtain ⟨stm, o, -, hs, ho, -⟩ := hex θ₀
    have hC := hA.1 o ho
    have hu0 : mom μ (fun θ => (kf θ).prev.dev - d θ) st.w = 0 := by
      ext i j
      exact hU st (List.mem_cons_self ..) _ (List.mem_ofFn.2 ⟨i, rfl⟩) _ (mem_vars_w st j)
    -- the predicted error
    have hLp : L2 μ (fun θ => stm *ᵥ ((kf θ).prev.dev - d θ) - st.w θ) := (hL.mul stm).sub hL2w
    have hmp : mom μ (fun θ => stm *ᵥ ((kf θ).prev.dev - d θ) - st.w θ) (fun θ => stm *ᵥ ((kf θ).prev.dev - d θ) - st.w θ) =
        stm * P * stmᵀ + sncAdded o := by
      have hcomb := mom_comb stm (-1 : Matrix (Fin s) (Fin s) ℝ) hL hL2w hu0
      simp only [neg_mulVec, one_mulVec, ← sub_eq_add_neg] at hcomb
      rw [hcomb, hP, hw, hC]
      simp
    have hup : ∀ {n : Nat} (y : Θ → Fin n → ℝ), L2 μ y → mom μ (fun θ => (kf θ).prev.dev - d θ) y = 0 → mom μ st.w y = 0 →
        mom μ (fun θ => stm *ᵥ ((kf θ).prev.dev - d θ) - st.w θ) y = 0 := by
      intro n y hy h1 h2
      rw [mom_sub (hL.mul stm) hL2w hy, mom_mul stm hL hy, h1, h2]
      simp
    have hlater : ∀ st' ∈ rest, ∀ u ∈ st'.vars, L2 μ (fun θ (_ : Fin 1) => u θ) ∧
        mom μ (fun θ => stm *ᵥ ((kf θ).prev.dev - d θ) - st.w θ) (fun θ (_ : Fin 1) => u θ) = 0 := by
      intro st' hst' u hu
      have hLu : L2 μ (fun θ (_ : Fin 1) => u θ) := fun _ => vars_L2 (hN st' (List.mem_cons_of_mem _ hst')) hu
      refine ⟨hLu, hup _ hLu ?_ ?_⟩
      · exact (mom_one _ u).2 fun i => hU st' (List.mem_cons_of_mem _ hst') _ (List.mem_ofFn.2 ⟨i, rfl⟩) u hu
      · exact (mom_one _ u).2 fun i => (List.pairwise_cons.1 hPw).1 st' hst' _ (mem_vars_w st i) u hu
    have hN' : ∀ st' ∈ rest, st'.Noisy μ := fun st' h => hN st' (List.mem_cons_of_mem _ h)
    have hPw' := (List.pairwise_cons.1 hPw).2
    choose stm' o' k1 hs' ho' hrun' hv' hnom hns hcase using hex
    have hstm : ∀ θ, stm' θ = stm := fun θ => by
      have := hs' θ
      rw [hs] at this
      injection this with this
      exact this.symm
    have hoo : ∀ θ, o' θ = o := fun θ => by
      have := ho' θ
      rw [ho] at this
      injection this with this
      exact this.symm
    simp only [hstm, hoo] at hcase
    cases hm : st.msr with
    | none =>
      have hc : ∀ θ, (k1 θ).prev.covar = stm * P * stmᵀ + sncAdded o ∧
          (k1 θ).prev.dev - st.truth d θ = stm *ᵥ ((kf θ).prev.dev - d θ) - st.w θ := fun θ => by
        rcases hcase θ with ⟨-, h1, h2⟩ | ⟨z, K, h1, -⟩
        · exact ⟨h1, h2⟩
        · rw [hm] at h1
          cases h1
      have hih := ih k1 kf' (st.truth d) (stm * P * stmᵀ + sncAdded o) st.x.epoch _
        (fun θ => ⟨hv' θ, (hc θ).1, by rw [hnom θ], hns θ⟩) ?_ ?_ hN' ?_ hPw' hA.2 hrun'
      · refine ⟨hih.1, fun u hu hue hun => hih.2 u hu ?_ fun st' h => hun st' (List.mem_cons_of_mem _ h)⟩
        simp only [(hc _).2]
        exact (mom_one _ u).1 (hup _ (fun _ => hu) ((mom_one _ u).2 hue)
          ((mom_one _ u).2 fun i => hun st (List.mem_cons_self ..) _ (mem_vars_w st i)))
      · simp only [(hc _).2]
        exact hLp
      · simp only [(hc _).2]
        exact hmp
      · simp only [(hc _).2]
        intro st' hst' u hu v hv
        obtain ⟨i, rfl⟩ := List.mem_ofFn.1 hu
        exact (mom_one _ v).1 (hlater st' hst' v hv).2 i
    | some z =>
      obtain ⟨hLv, hR, hwv⟩ := hmeas z hm
      obtain ⟨K, hK⟩ : ∃ K, gainOf chol (stm * P * stmᵀ + sncAdded o) z.H (z.H * ((stm * P * stmᵀ + sncAdded o) * z.Hᵀ) + z.R) = .ok K := by
        rcases hcase θ₀ with ⟨h1, -⟩ | ⟨z', K, h1, h2, -⟩
        · rw [hm] at h1
          cases h1
        · rw [hm] at h1
          cases h1
          exact ⟨K, h2⟩
      have hc : ∀ θ, (k1 θ).prev.covar = joseph (stm * P * stmᵀ + sncAdded o) z.H z.R K ∧
          (k1 θ).prev.dev - st.truth d θ = (1 - K * z.H) *ᵥ (stm *ᵥ ((kf θ).prev.dev - d θ) - st.w θ) + K *ᵥ z.v θ := fun θ => by
        rcases hcase θ with ⟨h1, -⟩ | ⟨z', K', h1, h2, h3, h4⟩
        · rw [hm] at h1
          cases h1
        · rw [hm] at h1
          cases h1
          rw [hK] at h2
          cases h2
          exact ⟨h3, h4⟩
      have hev : mom μ (fun θ => stm *ᵥ ((kf θ).prev.dev - d θ) - st.w θ) z.v = 0 := by
        refine hup _ hLv ?_ hwv
        ext i j
        exact hU st (List.mem_cons_self ..) _ (List.mem_ofFn.2 ⟨i, rfl⟩) _ (mem_vars_v st z hm j)
      have hpost := mom_comb (1 - K * z.H) K hLp hLv hev
      have hih := ih k1 kf' (st.truth d) (joseph (stm * P * stmᵀ + sncAdded o) z.H z.R K) st.x.epoch _
        (fun θ => ⟨hv' θ, (hc θ).1, by rw [hnom θ], hns θ⟩) ?_ ?_ hN' ?_ hPw' hA.2 hrun'
      · refine ⟨hih.1, fun u hu hue hun => hih.2 u hu ?_ fun st' h => hun st' (List.mem_cons_of_mem _ h)⟩
        simp only [(hc _).2]
        have hLu : L2 μ (fun θ (_ : Fin 1) => u θ) := fun _ => hu
        refine (mom_one _ u).1 ?_
        rw [mom_add (hLp.mul _) (hLv.mul K) hLu, mom_mul _ hLp hLu, mom_mul K hLv hLu,
          hup _ hLu ((mom_one _ u).2 hue) ((mom_one _ u).2 fun i => hun st (List.mem_cons_self ..) _ (mem_vars_w st i)),
          (mom_one z.v u).2 fun i => hun st (List.mem_cons_self ..) _ (mem_vars_v st z hm i)]
        simp
      · simp only [(hc _).2]
        exact (hLp.mul _).add (hLv.mul K)
      · simp only [(hc _).2]
        have hsym := mom_swap (μ := μ) (fun θ => (1 - K * z.H) *ᵥ (stm *ᵥ ((kf θ).prev.dev - d θ) - st.w θ) + K *ᵥ z.v θ)
          (fun θ => (1 - K * z.H) *ᵥ (stm *ᵥ ((kf θ).prev.dev - d θ) - st.w θ) + K *ᵥ z.v θ)
        rw [hpost, hmp, hR] at hsym
        rw [hpost, hmp, hR]
        unfold joseph
        simp only
        rw [← hsym, ← two_smul ℝ, smul_smul]
        norm_num
      · simp only [(hc _).2]
        intro st' hst' u hu v hv
        obtain ⟨i, rfl⟩ := List.mem_ofFn.1 hu
        obtain ⟨hLu, h1⟩ := hlater st' hst' v hv
        refine (mom_one _ v).1 ?_ i
        rw [mom_add (hLp.mul _) (hLv.mul K) hLu, mom_mul _ hLp hLu, mom_mul K hLv hLu, h1,
          (mom_one z.v v).2 fun i => (List.pairwise_cons.1 hPw).1 st' hst' _ (mem_vars_v st z hm i) v hv]
        simp

/-- **C213.** A filter in the mode of deviation tracking runs over a history, without rejection. The reference states, the transition matrices, the
sensitivities and the covariances of the noises are those of the history; the true deviation follows the transition matrices with the process
noises, and the observations are those of the true deviation with the measurement noises. When the initial covariance is the second moment of the
initial error, the noises have the second moments which the filter uses for them, and noises of different steps, process and measurement noises, and
the initial error are uncorrelated, then the covariance at the end is the second moment of the error at the end, whatever the gains. If in addition
the initial error and the noises have zero mean, so has the error at the end. -/
theorem covariance_of_errors (μ : Measure Θ) [IsProbabilityMeasure μ] (chol : Chol) (dcm : F → Ω → Option (Matrix (Fin 3) (Fin 3) ℝ))
    (steps : List (Step Θ Ω s)) (kf : KF F Ω s a) (kf' : Θ → KF F Ω s a) (d : Θ → Fin s → ℝ) (hv : kf.variant = .deviationTracking)
    (hd : L2 μ d) (hP : ∀ i j, ∫ θ, (kf.prev.dev i - d θ i) * (kf.prev.dev j - d θ j) ∂μ = kf.prev.covar i j)
    (hN : ∀ st ∈ steps, st.Noisy μ)
    (hU : ∀ st ∈ steps, Uncorrelated μ (List.ofFn fun i => fun θ => kf.prev.dev i - d θ i) st.vars)
    (hW : steps.Pairwise (fun st st' => Uncorrelated μ st.vars st'.vars)) (hA : Adds dcm kf.noises kf.prev.nominal.epoch steps)
    (hrun : ∀ θ, kf.run chol dcm (ops steps d θ) = .ok (kf' θ)) :
    (∀ θ₀ i j, (kf' θ₀).prev.covar i j =
      ∫ θ, ((kf' θ).prev.dev i - finalTruth steps d θ i) * ((kf' θ).prev.dev j - finalTruth steps d θ j) ∂μ) ∧
    ((∀ i, ∫ θ, (kf.prev.dev i - d θ i) ∂μ = 0) → (∀ st ∈ steps, ∀ n ∈ st.vars, ∫ θ, n θ ∂μ = 0) →
      ∀ i, ∫ θ, ((kf' θ).prev.dev i - finalTruth steps d θ i) ∂μ = 0) := by
  have hL : L2 μ (fun θ => kf.prev.dev - d θ) := L2.sub (fun i => memLp_const _) hd
  obtain ⟨h1, h2⟩ := consistent_gen μ chol dcm steps (fun _ => kf) kf' d kf.prev.covar kf.prev.nominal.epoch kf.noises
    (fun _ => ⟨hv, rfl, rfl, rfl⟩) hL (by ext i j; exact hP i j) hN hU hW hA hrun
  refine ⟨fun θ₀ i j => congrFun (congrFun (h1 θ₀) i) j, fun h3 h4 i => ?_⟩
  have := h2 (fun _ => 1) (memLp_const _) (fun i => by simpa using h3 i) (fun st hst n hn => by simpa using h4 st hst n hn) i
  simpa using this

/-! ### C214 -/

theorem quad_mom {μ : Measure Θ} {n : Nat} {y : Θ → Fin n → ℝ} (hy : L2 μ y) (A : Matrix (Fin n) (Fin n) ℝ) :
    ∫ θ, y θ ⬝ᵥ (A *ᵥ y θ) ∂μ = (A * mom μ y y).trace := by
  have : (A * mom μ y y).trace = ∑ i, ∑ j, A i j * ∫ θ, y θ j * y θ i ∂μ := by
    simp only [Matrix.trace, diag_apply, mul_apply, mom, of_apply]
  rw [this]
  simp only [dotProduct, mulVec]
  rw [show (∑ i, ∑ j, A i j * ∫ θ, y θ j * y θ i ∂μ) = ∑ i, ∑ j, ∫ θ, A i j * (y θ j * y θ i) ∂μ from
    Finset.sum_congr rfl fun i _ => Finset.sum_congr rfl fun j _ => (integral_const_mul _ _).symm]
  have hi : ∀ i j, Integrable (fun θ => A i j * (y θ j * y θ i)) μ := fun i j => (hy.int hy j i).const_mul _
  simp only [← integral_finsetSum Finset.univ (fun j (_ : j ∈ Finset.univ) => hi _ j)]
  rw [← integral_finsetSum]
  · congr 1
    funext θ
    refine Finset.sum_congr rfl fun i _ => ?_
    rw [Finset.mul_sum]
    exact Finset.sum_congr rfl fun j _ => by ring
  · intro i _
    exact integrable_finsetSum _ fun j _ => hi i j

theorem innovation_pd {chol : Chol} (hc : CholSpec chol) (dcm : F → Ω → Option (Matrix (Fin 3) (Fin 3) ℝ)) (kf : KF F Ω s a) (st : Step Θ Ω s)
    (z : Meas Θ s) (stm : Matrix (Fin s) (Fin s) ℝ) (t : Option ℝ) (d : Θ → Fin s → ℝ)
    (out : KF F Ω s a × Est Ω s × Resid z.m × Option (Matrix (Fin s) (Fin z.m) ℝ)) (hpsd : SymPsd kf.prev.covar)
    (hq : ∀ q ∈ kf.noises, ∀ i, 0 ≤ q.diag i) (hR : SymPsd z.R) (hs : st.x.stm = some stm)
    (hA : Adds dcm kf.noises kf.prev.nominal.epoch [st]) {θ₀ : Θ}
    (h : kf.measurementUpdate chol dcm st.x ⟨z.computed + z.H *ᵥ st.truth d θ₀ + z.v θ₀, z.computed, z.R, z.H⟩ t = .ok out) :
    (z.H * (stm * kf.prev.covar * stmᵀ + st.C) * z.Hᵀ + z.R).PosDef := by
  obtain ⟨k, e, r, g⟩ := out
  obtain ⟨stm', pu, L, g1, g2, -⟩ := measurementUpdate_ok h
  rw [hs] at g1
  cases g1
  obtain ⟨o, ho, hpu⟩ := predict_added g2
  have := (singular_innovation hc kf st.x _ t stm pu hpsd hq hR hs g2).1 ⟨_, h⟩
  rw [hpu, ← hA.1 o ho, ← Matrix.mul_assoc] at this
  exact this

/-- **C214.** The mean square of the residual ratio of a measurement, for a filter whose covariances are those of its errors: one, plus the term of
the observation of the propagated deviation in the metric of the innovation covariance. -/
theorem ratio_mean_square (μ : Measure Θ) [IsProbabilityMeasure μ] {chol : Chol} (hc : CholSpec chol)
    (dcm : F → Ω → Option (Matrix (Fin 3) (Fin 3) ℝ)) (kf : KF F Ω s a) (st : Step Θ Ω s) (z : Meas Θ s) (stm : Matrix (Fin s) (Fin s) ℝ)
    (t : Option ℝ) (d : Θ → Fin s → ℝ) (out : Θ → KF F Ω s a × Est Ω s × Resid z.m × Option (Matrix (Fin s) (Fin z.m) ℝ))
    (hz : 0 < z.m) (hpsd : SymPsd kf.prev.covar) (hq : ∀ q ∈ kf.noises, ∀ i, 0 ≤ q.diag i) (hR : SymPsd z.R) (hs : st.x.stm = some stm)
    (hm : st.msr = some z) (hd : L2 μ d)
    (hP : ∀ i j, ∫ θ, (kf.prev.dev i - d θ i) * (kf.prev.dev j - d θ j) ∂μ = kf.prev.covar i j)
    (hN : st.Noisy μ) (hU : Uncorrelated μ (List.ofFn fun i => fun θ => kf.prev.dev i - d θ i) st.vars)
    (hA : Adds dcm kf.noises kf.prev.nominal.epoch [st])
    (h0 : ∀ i, ∫ θ, (kf.prev.dev i - d θ i) ∂μ = 0) (h1 : ∀ n ∈ st.vars, ∫ θ, n θ ∂μ = 0)
    (hrun : ∀ θ, kf.measurementUpdate chol dcm st.x ⟨z.computed + z.H *ᵥ st.truth d θ + z.v θ, z.computed, z.R, z.H⟩ t = .ok (out θ)) :
    ∫ θ, (out θ).2.2.1.ratio ^ 2 ∂μ =
      1 + (z.H *ᵥ (stm *ᵥ kf.prev.dev)) ⬝ᵥ ((z.H * (stm * kf.prev.covar * stmᵀ + st.C) * z.Hᵀ + z.R)⁻¹ *ᵥ (z.H *ᵥ (stm *ᵥ kf.prev.dev))) / z.m := by
  have hne : Nonempty Θ := by
    by_contra h
    have hem : IsEmpty Θ := not_nonempty_iff.1 h
    have := measure_univ (μ := μ)
    rw [Set.eq_empty_of_isEmpty (Set.univ : Set Θ), measure_empty] at this
    exact zero_ne_one this
  obtain ⟨θ₀⟩ := hne
  obtain ⟨hLw, hw, hmeas⟩ := hN
  obtain ⟨hLv, hRv, hwv⟩ := hmeas z hm
  -- the predicted covariance
  have hbar : ∀ θ, (out θ).2.1.covarBar = stm * kf.prev.covar * stmᵀ + st.C := by
    intro θ
    have h := hrun θ
    generalize out θ = r at h ⊢
    obtain ⟨k, e, r, g⟩ := r
    obtain ⟨stm', pu, L, g1, g2, -, -, -, -, -, -, -, -, hcase⟩ := measurementUpdate_ok h
    rw [hs] at g1
    cases g1
    obtain ⟨o, ho, hpu⟩ := predict_added g2
    rw [hA.1 o ho, ← hpu]
    rcases hcase with ⟨_, _, _, g4⟩ | ⟨_, K, _, _, g5, _⟩
    · obtain ⟨stm', pu', k1, k2, _, k4⟩ := timeUpdate_ok g4
      rw [hs] at k1
      cases k1
      rw [g2] at k2
      cases k2
      rw [k4]
    · rw [g5]
  have hSd := innovation_pd hc dcm kf st z stm t d _ hpsd hq hR hs hA (hrun θ₀)
  have hdet := posDef_isUnit_det hSd
  -- the error of the prediction and the innovation
  have hL : L2 μ (fun θ => kf.prev.dev - d θ) := L2.sub (fun i => memLp_const _) hd
  have hone : L2 μ (fun (_ : Θ) (_ : Fin 1) => (1 : ℝ)) := fun _ => memLp_const _
  have hLp : L2 μ (fun θ => stm *ᵥ (kf.prev.dev - d θ) - st.w θ) := (hL.mul stm).sub hLw
  have hu0 : mom μ (fun θ => kf.prev.dev - d θ) st.w = 0 := by
    ext i j
    exact hU _ (List.mem_ofFn.2 ⟨i, rfl⟩) _ (mem_vars_w st j)
  have huv : mom μ (fun θ => kf.prev.dev - d θ) z.v = 0 := by
    ext i j
    exact hU _ (List.mem_ofFn.2 ⟨i, rfl⟩) _ (mem_vars_v st z hm j)
  have hmp : mom μ (fun θ => stm *ᵥ (kf.prev.dev - d θ) - st.w θ) (fun θ => stm *ᵥ (kf.prev.dev - d θ) - st.w θ) =
      stm * kf.prev.covar * stmᵀ + st.C := by
    have hcomb := mom_comb stm (-1 : Matrix (Fin s) (Fin s) ℝ) hL hLw hu0
    simp only [neg_mulVec, one_mulVec, ← sub_eq_add_neg] at hcomb
    rw [hcomb, hw, show mom μ (fun θ => kf.prev.dev - d θ) (fun θ => kf.prev.dev - d θ) = kf.prev.covar from by ext i j; exact hP i j]
    simp
  have hpv : mom μ (fun θ => stm *ᵥ (kf.prev.dev - d θ) - st.w θ) z.v = 0 := by
    rw [mom_sub (hL.mul stm) hLw hLv, mom_mul stm hL hLv, huv, hwv]
    simp
  have hp1 : mom μ (fun θ => stm *ᵥ (kf.prev.dev - d θ) - st.w θ) (fun (_ : Θ) (_ : Fin 1) => (1 : ℝ)) = 0 := by
    rw [mom_sub (hL.mul stm) hLw hone, mom_mul stm hL hone, (mom_one (fun θ => kf.prev.dev - d θ) _).2 fun i => by simpa using h0 i,
      (mom_one st.w _).2 fun i => by simpa using h1 _ (mem_vars_w st i)]
    simp
  have hq2 := mom_comb (-z.H) (1 : Matrix (Fin z.m) (Fin z.m) ℝ) hLp hLv hpv
  have hLq : L2 μ (fun θ => (-z.H) *ᵥ (stm *ᵥ (kf.prev.dev - d θ) - st.w θ) + (1 : Matrix (Fin z.m) (Fin z.m) ℝ) *ᵥ z.v θ) :=
    (hLp.mul _).add (hLv.mul _)
  have hq1 : mom μ (fun θ => (-z.H) *ᵥ (stm *ᵥ (kf.prev.dev - d θ) - st.w θ) + (1 : Matrix (Fin z.m) (Fin z.m) ℝ) *ᵥ z.v θ)
      (fun (_ : Θ) (_ : Fin 1) => (1 : ℝ)) = 0 := by
    rw [mom_add (hLp.mul _) (hLv.mul _) hone, mom_mul _ hLp hone, mom_mul _ hLv hone, hp1,
      (mom_one z.v _).2 fun i => by simpa using h1 _ (mem_vars_v st z hm i)]
    simp
  rw [hmp, hRv] at hq2
  -- the prefit residual
  have hy : ∀ θ, z.computed + z.H *ᵥ st.truth d θ + z.v θ - z.computed = z.H *ᵥ (stm *ᵥ kf.prev.dev) +
      ((-z.H) *ᵥ (stm *ᵥ (kf.prev.dev - d θ) - st.w θ) + (1 : Matrix (Fin z.m) (Fin z.m) ℝ) *ᵥ z.v θ) := by
    intro θ
    simp only [Step.truth, hs, Option.getD_some, mulVec_sub, mulVec_add, neg_mulVec, one_mulVec]
    abel
  obtain ⟨q, hqd⟩ : ∃ q, q = fun θ => (-z.H) *ᵥ (stm *ᵥ (kf.prev.dev - d θ) - st.w θ) + (1 : Matrix (Fin z.m) (Fin z.m) ℝ) *ᵥ z.v θ := ⟨_, rfl⟩
  rw [← hqd] at hq2 hLq hq1
  replace hy : ∀ θ, z.computed + z.H *ᵥ st.truth d θ + z.v θ - z.computed = z.H *ᵥ (stm *ᵥ kf.prev.dev) + q θ := fun θ => by rw [hy θ, hqd]
  obtain ⟨g, hg⟩ : ∃ g, g = z.H *ᵥ (stm *ᵥ kf.prev.dev) := ⟨_, rfl⟩
  rw [← hg] at hy ⊢
  obtain ⟨S, hS⟩ : ∃ S, S = z.H * (stm * kf.prev.covar * stmᵀ + st.C) * z.Hᵀ + z.R := ⟨_, rfl⟩
  rw [← hS] at hdet ⊢
  have hqS : mom μ q q = S := by
    rw [hq2, hS]
    simp
  have hratio : ∀ θ, (out θ).2.2.1.ratio ^ 2 = (g + q θ) ⬝ᵥ (S⁻¹ *ᵥ (g + q θ)) / z.m := by
    intro θ
    have h := hrun θ
    have hb := hbar θ
    generalize out θ = r at h hb ⊢
    obtain ⟨k, e, r, gg⟩ := r
    have := (ratio_mahalanobis hc kf k st.x _ t e r gg hz hpsd hq hR h).2
    simp only at this hb ⊢
    rw [hb, hy θ, ← hS] at this
    rw [← this]
    field_simp
  simp only [hratio]
  rw [integral_div]
  have hgL : L2 μ (fun _ : Θ => g) := fun i => memLp_const _
  rw [quad_mom (hgL.add hLq)]
  have hmean : ∀ i, ∫ θ, q θ i ∂μ = 0 := fun i => by simpa using (mom_one q _).1 hq1 i
  have hgq : mom μ (fun _ : Θ => g) q = 0 := by
    ext i j
    simp only [mom, of_apply, integral_const_mul, hmean, mul_zero, Matrix.zero_apply]
  have hgg : mom μ (fun _ : Θ => g) (fun _ => g) = vecMulVec g g := by
    ext i j
    simp [mom, vecMulVec]
  have hall : mom μ (fun θ => g + q θ) (fun θ => g + q θ) = vecMulVec g g + S := by
    have := mom_comb (1 : Matrix (Fin z.m) (Fin z.m) ℝ) (1 : Matrix (Fin z.m) (Fin z.m) ℝ) hgL hLq hgq
    simp only [one_mulVec, transpose_one, Matrix.one_mul, Matrix.mul_one, hgg, hqS] at this
    exact this
  rw [hall, Matrix.mul_add, nonsing_inv_mul _ hdet, trace_add, trace_one, Fintype.card_fin, mul_vecMulVec, trace_vecMulVec]
  have hz' : (z.m : ℝ) ≠ 0 := by exact_mod_cast hz.ne'
  rw [dotProduct_comm]
  field_simp
  ring

/-! The filter of the examples with an error of one, of random sign, a measurement noise of one, of random sign, and a deviation `c`. -/

/-- A sign. -/
def sg (b : Bool) : ℝ := if b then 1 else -1

/-- Two independent signs. -/
noncomputable def exMu : Measure (Bool × Bool) := (PMF.uniformOfFintype (Bool × Bool)).toMeasure

noncomputable instance : IsProbabilityMeasure exMu := PMF.toMeasure.isProbabilityMeasure _

theorem exInt (f : Bool × Bool → ℝ) :
    ∫ θ, f θ ∂exMu = (f (true, true) + f (true, false) + f (false, true) + f (false, false)) / 4 := by
  unfold exMu
  rw [PMF.integral_eq_sum, Fintype.sum_prod_type]
  simp [PMF.uniformOfFintype_apply]
  ring

theorem exMem (f : Bool × Bool → ℝ) : MemLp f 2 exMu := MemLp.of_discrete

/-- The filter with the deviation `c`. -/
noncomputable def exKfD (c : ℝ) : KF Unit Unit 1 3 :=
  { prev := { nominal := { orbit := (), epoch := 0, stm := some 1 }, dev := fun _ => c, covar := 1, covarBar := 1, stm := 1, predicted := false }
    noises := [], variant := .deviationTracking, prevUsedSnc := 0 }

/-- The true deviation: that of the filter, less the error. -/
noncomputable def exD (c : ℝ) : Bool × Bool → Fin 1 → ℝ := fun θ _ => c - sg θ.1

/-- The measurement: sensitivity one, noise one. -/
noncomputable abbrev exMeas : Meas (Bool × Bool) 1 := { m := 1, computed := 0, H := 1, R := 1, v := fun θ _ => sg θ.2 }

/-- The step: no motion, no process noise, the measurement. -/
noncomputable abbrev exStep : Step (Bool × Bool) Unit 1 := { x := exX, w := 0, C := 0, msr := some exMeas }

theorem exNoisy : exStep.Noisy exMu := by
  refine ⟨fun i => exMem _, ?_, fun z hz => ?_⟩
  · ext i j
    simp [mom, exStep]
  · cases hz
    refine ⟨fun i => exMem _, ?_, ?_⟩
    · ext (i : Fin 1) (j : Fin 1)
      rw [Subsingleton.elim i 0, Subsingleton.elim j 0]
      show ∫ θ : Bool × Bool, sg θ.2 * sg θ.2 ∂exMu = 1
      simp only [exInt, sg]
      norm_num
    · ext i j
      simp [mom, exStep]

theorem exVars {u : Bool × Bool → ℝ} (hu : u ∈ exStep.vars) : u = 0 ∨ u = fun θ => sg θ.2 := by
  rcases List.mem_append.1 hu with h | h
  · obtain ⟨i, rfl⟩ := List.mem_ofFn.1 h
    exact Or.inl rfl
  · obtain ⟨i, rfl⟩ := List.mem_ofFn.1 h
    exact Or.inr rfl

theorem exUnc (c : ℝ) : Uncorrelated exMu (List.ofFn fun i => fun θ => (exKfD c).prev.dev i - exD c θ i) exStep.vars := by
  intro u hu v hv
  obtain ⟨i, rfl⟩ := List.mem_ofFn.1 hu
  rcases exVars hv with rfl | rfl
  · simp
  · simp only [exInt, exKfD, exD, sg]
    norm_num

theorem exAdds (c : ℝ) : Adds (fun _ _ => none) (exKfD c).noises (exKfD c).prev.nominal.epoch [exStep] := by
  refine ⟨fun o ho => ?_, trivial⟩
  have : sncLoop (F := Unit) (a := 3) (fun _ _ => none) exStep.x (exStep.x.epoch - (exKfD c).prev.nominal.epoch) [] = .ok none := by
    simp [sncLoop]
  have h2 : (exKfD c).noises.zipIdx.reverse = [] := rfl
  rw [h2, this] at ho
  cases ho
  rfl

theorem exMsr (c y : ℝ) (t : Option ℝ) : ∃ out, (exKfD c).measurementUpdate someChol (fun _ _ => none) exX (exZ y) t = .ok out := by
  have hp : (exKfD c).predict (fun _ _ => none) exX 1 = .ok (1, 0) := by simp [KF.predict, exKfD, sncLoop, Res.bind]
  refine (singular_innovation someChol_spec (exKfD c) exX (exZ y) t 1 (1, 0) exSymPsd (by simp [exKfD]) exSymPsd rfl hp).2 ?_
  simp only [exZ, Matrix.one_mul, transpose_one]
  exact PosDef.one.add PosDef.one

theorem exRun (c : ℝ) (t : Option ℝ) : ∃ out : Bool × Bool → _, ∀ θ, (exKfD c).measurementUpdate someChol (fun _ _ => none) exStep.x
    ⟨exMeas.computed + exMeas.H *ᵥ exStep.truth (exD c) θ + exMeas.v θ, exMeas.computed, exMeas.R, exMeas.H⟩ t = .ok (out θ) := by
  have : ∀ θ, ∃ out, (exKfD c).measurementUpdate someChol (fun _ _ => none) exStep.x
      ⟨exMeas.computed + exMeas.H *ᵥ exStep.truth (exD c) θ + exMeas.v θ, exMeas.computed, exMeas.R, exMeas.H⟩ t = .ok out := by
    intro θ
    obtain ⟨out, h⟩ := exMsr c (exMeas.computed 0 + (exMeas.H *ᵥ exStep.truth (exD c) θ) 0 + exMeas.v θ 0) t
    refine ⟨out, Eq.trans ?_ h⟩
    congr 2
    funext (i : Fin 1)
    rw [Subsingleton.elim i 0]
    rfl
  choose out h using this
  exact ⟨out, h⟩

/-- The hypotheses of C213 are met by the filter of the example. -/
example (c : ℝ) (kf' : Bool × Bool → KF Unit Unit 1 3)
    (h : ∀ θ, (exKfD c).run someChol (fun _ _ => none) (ops [exStep] (exD c) θ) = .ok (kf' θ)) :=
  covariance_of_errors exMu someChol (fun _ _ => none) [exStep] (exKfD c) kf' (exD c) rfl (fun i => exMem _)
    (fun i j => by
      rw [Subsingleton.elim i 0, Subsingleton.elim j 0, exInt]
      simp only [exKfD, exD, sg]
      norm_num)
    (by simpa using exNoisy) (by simpa using exUnc c) (by simp) (exAdds c) h

example (c : ℝ) : ∃ kf' : Bool × Bool → _, ∀ θ, (exKfD c).run someChol (fun _ _ => none) (ops [exStep] (exD c) θ) = .ok (kf' θ) := by
  obtain ⟨out, h⟩ := exRun c none
  exact ⟨fun θ => (out θ).1, fun θ => Res.bind_eq_ok.2 ⟨out θ, h θ, rfl⟩⟩

/-- **C214 in part.** With covariances which are those of the errors, the mean square of the ratio of a measurement is one exactly when the
propagated deviation is not observed; it is never below one. -/
theorem ratio_mean_square_partial (μ : Measure Θ) [IsProbabilityMeasure μ] {chol : Chol} (hc : CholSpec chol)
    (dcm : F → Ω → Option (Matrix (Fin 3) (Fin 3) ℝ)) (kf : KF F Ω s a) (st : Step Θ Ω s) (z : Meas Θ s) (stm : Matrix (Fin s) (Fin s) ℝ)
    (t : Option ℝ) (d : Θ → Fin s → ℝ) (out : Θ → KF F Ω s a × Est Ω s × Resid z.m × Option (Matrix (Fin s) (Fin z.m) ℝ))
    (hz : 0 < z.m) (hpsd : SymPsd kf.prev.covar) (hq : ∀ q ∈ kf.noises, ∀ i, 0 ≤ q.diag i) (hR : SymPsd z.R) (hs : st.x.stm = some stm)
    (hm : st.msr = some z) (hd : L2 μ d)
    (hP : ∀ i j, ∫ θ, (kf.prev.dev i - d θ i) * (kf.prev.dev j - d θ j) ∂μ = kf.prev.covar i j)
    (hN : st.Noisy μ) (hU : Uncorrelated μ (List.ofFn fun i => fun θ => kf.prev.dev i - d θ i) st.vars)
    (hA : Adds dcm kf.noises kf.prev.nominal.epoch [st])
    (h0 : ∀ i, ∫ θ, (kf.prev.dev i - d θ i) ∂μ = 0) (h1 : ∀ n ∈ st.vars, ∫ θ, n θ ∂μ = 0)
    (hrun : ∀ θ, kf.measurementUpdate chol dcm st.x ⟨z.computed + z.H *ᵥ st.truth d θ + z.v θ, z.computed, z.R, z.H⟩ t = .ok (out θ)) :
    1 ≤ ∫ θ, (out θ).2.2.1.ratio ^ 2 ∂μ ∧ (∫ θ, (out θ).2.2.1.ratio ^ 2 ∂μ = 1 ↔ z.H *ᵥ (stm *ᵥ kf.prev.dev) = 0) := by
  have hne : Nonempty Θ := by
    by_contra h
    have hem : IsEmpty Θ := not_nonempty_iff.1 h
    have := measure_univ (μ := μ)
    rw [Set.eq_empty_of_isEmpty (Set.univ : Set Θ), measure_empty] at this
    exact zero_ne_one this
  obtain ⟨θ₀⟩ := hne
  have hSd : (z.H * (stm * kf.prev.covar * stmᵀ + st.C) * z.Hᵀ + z.R).PosDef := innovation_pd hc dcm kf st z stm t d _ hpsd hq hR hs hA (hrun θ₀)
  rw [ratio_mean_square μ hc dcm kf st z stm t d out hz hpsd hq hR hs hm hd hP hN hU hA h0 h1 hrun]
  have hi := hSd.inv
  have hz' : (0 : ℝ) < z.m := by exact_mod_cast hz
  by_cases hg : z.H *ᵥ (stm *ᵥ kf.prev.dev) = 0
  · rw [hg]
    simp
  · have hp := hi.dotProduct_mulVec_pos hg
    simp only [star_trivial] at hp
    have := div_pos hp hz'
    exact ⟨by linarith, fun h => absurd h (by linarith), fun h => absurd h hg⟩

/-- **C214 is false of the code.** The filter of the example, with the deviation one, has the covariance of its errors, and the mean square of
the ratio is three halves. -/
theorem ratio_mean_square_fails : ∃ out : Bool × Bool → KF Unit Unit 1 3 × Est Unit 1 × Resid 1 × Option (Matrix (Fin 1) (Fin 1) ℝ),
    (∀ θ, (exKfD 1).measurementUpdate someChol (fun _ _ => none) exX
      ⟨fun _ => 1 - sg θ.1 + sg θ.2, 0, 1, 1⟩ none = .ok (out θ)) ∧
    (∀ i j, ∫ θ, ((exKfD 1).prev.dev i - (1 - sg θ.1)) * ((exKfD 1).prev.dev j - (1 - sg θ.1)) ∂exMu = (exKfD 1).prev.covar i j) ∧
    ∫ θ, (out θ).2.2.1.ratio ^ 2 ∂exMu = 3 / 2 := by
  obtain ⟨out, h⟩ := exRun 1 none
  have hP : ∀ i j, ∫ θ, ((exKfD 1).prev.dev i - exD 1 θ i) * ((exKfD 1).prev.dev j - exD 1 θ j) ∂exMu = (exKfD 1).prev.covar i j := fun i j => by
    rw [Subsingleton.elim i 0, Subsingleton.elim j 0, exInt]
    simp only [exKfD, exD, sg]
    norm_num
  refine ⟨out, fun θ => ?_, hP, ?_⟩
  · refine Eq.trans ?_ (h θ)
    congr 2
    funext (i : Fin 1)
    rw [Subsingleton.elim i 0]
    simp [exMeas, exStep, Step.truth, exX, exD, sg]
  · have := ratio_mean_square exMu someChol_spec (fun _ _ => none) (exKfD 1) exStep exMeas 1 none (exD 1) out (by simp [exMeas]) exSymPsd
      (by simp [exKfD]) exSymPsd rfl rfl (fun i => exMem _) hP exNoisy (exUnc 1) (exAdds 1)
      (fun i => by
        simp only [exInt, exKfD, exD, sg]
        norm_num)
      (fun n hn => by
        rcases exVars hn with rfl | rfl
        · simp
        · simp only [exInt, sg]
          norm_num) h
    rw [this]
    have hS : (exMeas.H * ((1 : Matrix (Fin 1) (Fin 1) ℝ) * (exKfD 1).prev.covar * (1 : Matrix (Fin 1) (Fin 1) ℝ)ᵀ + exStep.C) * exMeas.Hᵀ + exMeas.R)⁻¹ =
        (1 / 2 : ℝ) • (1 : Matrix (Fin 1) (Fin 1) ℝ) := by
      refine inv_eq_left_inv ?_
      simp only [exMeas, exKfD, exStep, transpose_one, Matrix.mul_one, add_zero, smul_mul_assoc, Matrix.one_mul]
      rw [← two_smul ℝ (1 : Matrix (Fin 1) (Fin 1) ℝ), smul_smul]
      norm_num
    rw [hS]
    simp only [exMeas, exKfD, one_mulVec, smul_mulVec, dotProduct_smul]
    simp [dotProduct]
    norm_num

example (c : ℝ) : ∃ out : Bool × Bool → KF Unit Unit 1 3 × Est Unit 1 × Resid 1 × Option (Matrix (Fin 1) (Fin 1) ℝ),
    1 ≤ ∫ θ, (out θ).2.2.1.ratio ^ 2 ∂exMu ∧ (∫ θ, (out θ).2.2.1.ratio ^ 2 ∂exMu = 1 ↔ c = 0) := by
  obtain ⟨out, h⟩ := exRun c none
  have := ratio_mean_square_partial exMu someChol_spec (fun _ _ => none) (exKfD c) exStep exMeas 1 none (exD c) out one_pos exSymPsd
    (by simp [exKfD]) exSymPsd rfl rfl (fun i => exMem _)
    (fun i j => by
      rw [Subsingleton.elim i 0, Subsingleton.elim j 0, exInt]
      simp only [exKfD, exD, sg]
      norm_num)
    exNoisy (exUnc c) (exAdds c)
    (fun i => by
      rw [exInt]
      simp only [exKfD, exD, sg]
      norm_num)
    (fun n hn => by
      rcases exVars hn with rfl | rfl
      · simp
      · simp only [exInt, sg]
        norm_num) h
  refine ⟨out, this.1, this.2.trans ⟨fun h => ?_, fun h => ?_⟩⟩
  · simpa [exKfD] using congrFun h (0 : Fin 1)
  · funext i
    simp [exKfD, h, mulVec, dotProduct]

end Verif.Kalman
