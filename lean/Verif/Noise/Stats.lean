import Verif.Noise.Theorems
import Mathlib.Probability.Distributions.Gaussian.Real
import Mathlib.Probability.Independence.InfinitePi
import Mathlib.Probability.Independence.Integration
/-!
C118: the mean and the variance of the samples, against the covariance used by the filter.
-/
namespace Verif.Noise
open MeasureTheory ProbabilityTheory

/-! ### Specification -/

/-- The values drawn by the generator are standard: zero mean, unit variance, no correlation. -/
structure StdSeq {Ω : Type} [MeasurableSpace Ω] (P : Measure Ω) (z : Ω → ℕ → ℝ) : Prop where
  prob : IsProbabilityMeasure P
  int1 : ∀ i, Integrable (fun w => z w i) P
  int2 : ∀ i j, Integrable (fun w => z w i * z w j) P
  mean : ∀ i, ∫ w, z w i ∂P = 0
  cov : ∀ i j, ∫ w, z w i * z w j ∂P = if i = j then 1 else 0

/-- The generator which returns the values of a sequence in turn. -/
def rngOf (z : ℕ → ℝ) : Rng ℕ := ⟨fun i => (z i, i + 1)⟩

/-- Mean of a random value. -/
noncomputable def meanOf {Ω : Type} [MeasurableSpace Ω] (P : Measure Ω) (f : Ω → ℝ) : ℝ := ∫ w, f w ∂P

/-- Variance of a random value. -/
noncomputable def varOf {Ω : Type} [MeasurableSpace Ω] (P : Measure Ω) (f : Ω → ℝ) : ℝ :=
  ∫ w, (f w - meanOf P f) ^ 2 ∂P

/-- The constant part of a noise: the mean of its white noise and the offset of its bias. -/
noncomputable def offset (n : Stoch) : ℝ := n.white.elim 0 White.mean + n.bias.elim 0 fun b => b.const.getD 0

/-- The bias was never sampled. -/
def Fresh (n : Stoch) : Prop := ∀ b, n.bias = some b → b.prev = none ∧ b.init = none

/-! ### Lemmas -/

/-- Mean and variance of a combination of three different draws. -/
theorem three_stats {Ω : Type} [MeasurableSpace Ω] {P : Measure Ω} {z : Ω → ℕ → ℝ} (hz : StdSeq P z)
    (a b c m : ℝ) (i j k : ℕ) (hij : i ≠ j) (hik : i ≠ k) (hjk : j ≠ k) :
    meanOf P (fun w => a * z w i + b * z w j + c * z w k + m) = m ∧
    varOf P (fun w => a * z w i + b * z w j + c * z w k + m) = a ^ 2 + b ^ 2 + c ^ 2 := by
  have := hz.prob
  have h1 : meanOf P (fun w => a * z w i + b * z w j + c * z w k + m) = m := by
    have ia := (hz.int1 i).const_mul a
    have ib := (hz.int1 j).const_mul b
    have ic := (hz.int1 k).const_mul c
    have e1 : ∫ w, (a * z w i + b * z w j + c * z w k + m) ∂P =
        ∫ w, (a * z w i + b * z w j + c * z w k) ∂P + ∫ _, m ∂P :=
      integral_add ((ia.add ib).add ic) (integrable_const m)
    have e2 : ∫ w, (a * z w i + b * z w j + c * z w k) ∂P =
        ∫ w, (a * z w i + b * z w j) ∂P + ∫ w, c * z w k ∂P := integral_add (ia.add ib) ic
    have e3 : ∫ w, (a * z w i + b * z w j) ∂P = ∫ w, a * z w i ∂P + ∫ w, b * z w j ∂P := integral_add ia ib
    unfold meanOf
    rw [e1, e2, e3]
    simp [integral_const_mul, hz.mean]
  refine ⟨h1, ?_⟩
  unfold varOf
  rw [h1]
  have h2 : ∀ w, (a * z w i + b * z w j + c * z w k + m - m) ^ 2 =
      ∑ p : Fin 3, ∑ q : Fin 3, ![a, b, c] p * ![a, b, c] q * (z w (![i, j, k] p) * z w (![i, j, k] q)) := by
    intro w
    simp only [Fin.sum_univ_three, Matrix.cons_val]
    ring
  simp_rw [h2]
  rw [integral_finsetSum _ fun p _ => integrable_finsetSum _ fun q _ => (hz.int2 _ _).const_mul _]
  simp_rw [integral_finsetSum _ fun q (_ : q ∈ Finset.univ) => (hz.int2 _ (![i, j, k] q)).const_mul _,
    integral_const_mul, hz.cov]
  simp only [Fin.sum_univ_three, Matrix.cons_val]
  simp [hij, hik, hjk, hij.symm, hik.symm, hjk.symm]
  ring

/-- The number of draws of the white noise for one sample. -/
def wd (n : Stoch) : ℕ := n.white.elim 0 fun _ => 1

/-- The white part of a sample. -/
theorem whitePart_eq (z : ℕ → ℝ) (n : Stoch) (i : ℕ) :
    n.whitePart (rngOf z) i =
      (n.white.elim 0 White.mean + n.white.elim 0 White.sigma * z i, i + wd n) := by
  obtain ⟨w, b⟩ := n
  cases w <;> simp [Stoch.whitePart, White.sample, rngOf, wd]

/-- Samples of a bias which was sampled before. -/
theorem later_samples (z : ℕ → ℝ) (w : Option White) (tau : Int) (q v : ℝ) (c : Option ℝ) (t0 : Int)
    (ts : List Int) (i k : ℕ) (d : Int) (hk : (gaps t0 ts)[k]? = some d) :
    (Stoch.history (rngOf z) ⟨w, some ⟨tau, q, c, some t0, some v⟩⟩ ts i)[k]? =
      some (w.elim 0 White.mean + w.elim 0 White.sigma * z (i + k * (w.elim 0 (fun _ => 1) + 1)) +
        (v * Real.exp (-seconds d / seconds tau) +
         0.5 * q * seconds tau * (1 - Real.exp (-seconds d / seconds tau)) *
          z (i + k * (w.elim 0 (fun _ => 1) + 1) + w.elim 0 (fun _ => 1)) + c.getD 0)) := by
  induction ts generalizing t0 i k with
  | nil => simp [gaps] at hk
  | cons t ts ih =>
    cases k with
    | zero =>
      simp only [gaps, List.getElem?_cons_zero, Option.some.injEq] at hk
      subst hk
      simp only [Stoch.history, List.getElem?_cons_zero, Option.some.injEq]
      simp only [Stoch.sample, whitePart_eq, wd]
      simp [Stoch.biasPart, Gm.sample, Gm.start, Gm.decay, Gm.steady, Gm.dt, rngOf]
    | succ k =>
      simp only [gaps, List.getElem?_cons_succ] at hk
      have h1 : (Stoch.sample (rngOf z) ⟨w, some ⟨tau, q, c, some t0, some v⟩⟩ t i).2 =
          (⟨w, some ⟨tau, q, c, some t, some v⟩⟩, i + w.elim 0 (fun _ => 1) + 1) := by
        simp only [Stoch.sample, whitePart_eq, wd]
        simp [Stoch.biasPart, Gm.sample, Gm.start, rngOf]
      simp only [Stoch.history, List.getElem?_cons_succ, h1]
      rw [ih t _ _ hk]
      have h2 : i + w.elim 0 (fun _ => 1) + 1 + k * (w.elim 0 (fun _ => 1) + 1) =
          i + (k + 1) * (w.elim 0 (fun _ => 1) + 1) := by ring
      rw [h2]

/-! ### Statements -/

/-- C118 (partial). The first sample of every noise has the mean configured (mean of the white noise plus
offset of the bias), and its variance is the covariance used by the filter. For a white noise without bias
this holds of every sample.
What is missing: the later samples of a bias, see `later_variance` and `covariance_wrong`. -/
theorem first_sample_partial {Ω : Type} [MeasurableSpace Ω] {P : Measure Ω} {z : Ω → ℕ → ℝ} (hz : StdSeq P z)
    (n : Stoch) (hn : Fresh n) (t : Int) (i : ℕ) :
    meanOf P (fun w => (n.sample (rngOf (z w)) t i).1) = offset n ∧
    varOf P (fun w => (n.sample (rngOf (z w)) t i).1) = n.covariance ∧
    (n.bias = none → ∀ (w : Ω), (n.sample (rngOf (z w)) t i).2.1 = n) := by
  obtain ⟨wn, b⟩ := n
  have h3 := fun (a b c m : ℝ) => three_stats hz a b c m i (i + 1) (i + 2) (by omega) (by omega) (by omega)
  cases b with
  | none =>
    have e : ∀ w, (Stoch.sample (rngOf (z w)) ⟨wn, none⟩ t i).1 =
        wn.elim 0 White.sigma * z w i + 0 * z w (i + 1) + 0 * z w (i + 2) + offset ⟨wn, none⟩ := by
      intro w
      simp only [Stoch.sample, whitePart_eq, offset, Stoch.biasPart, Option.elim_none]
      ring
    simp_rw [e]
    obtain ⟨h4, h5⟩ := h3 (wn.elim 0 White.sigma) 0 0 (offset ⟨wn, none⟩)
    refine ⟨h4, h5.trans ?_, fun _ _ => rfl⟩
    cases wn <;> simp [Stoch.covariance, White.covariance]
  | some b =>
    obtain ⟨hp, hi⟩ := hn b rfl
    have e : ∃ j k, i ≠ j ∧ i ≠ k ∧ j ≠ k ∧ ∀ w, (Stoch.sample (rngOf (z w)) ⟨wn, some b⟩ t i).1 =
        wn.elim 0 White.sigma * z w i + (wn.elim 0 fun _ => b.noise) * z w j + (wn.elim b.noise fun _ => 0) * z w i
          + offset ⟨wn, some b⟩ := by
      refine ⟨i + 1, i + 2, by omega, by omega, by omega, fun w => ?_⟩
      cases wn <;>
      · simp only [Stoch.sample, whitePart_eq, offset, Stoch.biasPart, Option.elim_some, Option.elim_none, wd]
        simp only [Gm.sample, Gm.start, Gm.decay, Gm.steady, Gm.dt, hp, hi, rngOf, seconds]
        simp
        try ring
    obtain ⟨j, k, hij, hik, hjk, e⟩ := e
    simp_rw [e]
    have e2 : ∀ w, wn.elim 0 White.sigma * z w i + (wn.elim 0 fun _ => b.noise) * z w j +
        (wn.elim b.noise fun _ => 0) * z w i + offset ⟨wn, some b⟩ =
        (wn.elim b.noise White.sigma) * z w i + (wn.elim 0 fun _ => b.noise) * z w j + 0 * z w k
          + offset ⟨wn, some b⟩ := by
      intro w
      cases wn <;> simp
    simp_rw [e2]
    obtain ⟨h4, h5⟩ := three_stats hz (wn.elim b.noise White.sigma) (wn.elim 0 fun _ => b.noise) 0
      (offset ⟨wn, some b⟩) i j k hij hik hjk
    refine ⟨h4, h5.trans ?_, fun h => by cases h⟩
    cases wn <;> simp [Stoch.covariance, White.covariance, Gm.covariance]

/-- C118. The variance of the later samples: the `k`-th sample after the first one, taken `d` after the
previous one, has the variance of the white noise, plus that of the initial sample attenuated over `d`,
plus the square of `q tau (1 - exp (-d/tau)) / 2`. -/
theorem later_variance {Ω : Type} [MeasurableSpace Ω] {P : Measure Ω} {z : Ω → ℕ → ℝ} (hz : StdSeq P z)
    (wn : Option White) (b : Gm) (hn : Fresh ⟨wn, some b⟩) (t0 : Int) (ts : List Int) (k : ℕ) (d : Int)
    (hk : (gaps t0 ts)[k]? = some d) :
    ∃ f : Ω → ℝ,
      (∀ w, (Stoch.history (rngOf (z w)) ⟨wn, some b⟩ (t0 :: ts) 0)[k + 1]? = some (f w)) ∧
      meanOf P f = offset ⟨wn, some b⟩ ∧
      varOf P f = wn.elim 0 (fun w => w.sigma ^ 2) +
        b.noise ^ 2 * Real.exp (-2 * (d / 1000000000 : ℝ) / (b.tau / 1000000000)) +
        (b.noise * (b.tau / 1000000000) / 2 * (1 - Real.exp (-(d / 1000000000 : ℝ) / (b.tau / 1000000000)))) ^ 2 := by
  obtain ⟨tau, q, c, p, ini⟩ := b
  obtain ⟨hp, hi⟩ := hn _ rfl
  simp only at hp hi
  subst hp hi
  set a := wn.elim 0 (fun _ : White => 1) with ha
  set E := Real.exp (-seconds d / seconds tau) with hE
  have hidx : ∀ w, (Stoch.history (rngOf (z w)) ⟨wn, some ⟨tau, q, c, none, none⟩⟩ (t0 :: ts) 0)[k + 1]? =
      some (wn.elim 0 White.mean + wn.elim 0 White.sigma * z w (a + 2 + k * (a + 1)) +
        (q * z w a * E + 0.5 * q * seconds tau * (1 - E) * z w (a + 2 + k * (a + 1) + a) + c.getD 0)) := by
    intro w
    have h1 : (Stoch.sample (rngOf (z w)) ⟨wn, some ⟨tau, q, c, none, none⟩⟩ t0 0).2 =
        (⟨wn, some ⟨tau, q, c, some t0, some (q * z w a)⟩⟩, a + 2) := by
      simp only [Stoch.sample, whitePart_eq, wd]
      simp [Stoch.biasPart, Gm.sample, Gm.start, rngOf, ha]
    simp only [Stoch.history, List.getElem?_cons_succ, h1]
    rw [later_samples (z w) wn tau q _ c t0 ts (a + 2) k d hk]
  have hoff : offset ⟨wn, some ⟨tau, q, c, none, none⟩⟩ = wn.elim 0 White.mean + c.getD 0 := rfl
  have hE2 : E ^ 2 = Real.exp (-2 * (d / 1000000000 : ℝ) / (tau / 1000000000)) := by
    rw [hE, ← Real.exp_nat_mul]
    congr 1
    unfold seconds
    push_cast
    ring
  refine ⟨_, hidx, ?_⟩
  rw [hoff, ← hE2]
  change _ ∧ _ = _ + (q * seconds tau / 2 * (1 - E)) ^ 2
  cases wn with
  | none =>
    simp only [Option.elim_none] at ha ⊢
    have e : ∀ w, 0 + 0 * z w (a + 2 + k * (a + 1)) +
        (q * z w a * E + 0.5 * q * seconds tau * (1 - E) * z w (a + 2 + k * (a + 1) + a) + c.getD 0) =
        (q * E) * z w 0 + (q * seconds tau / 2 * (1 - E)) * z w (k + 2) + 0 * z w 1 + (0 + c.getD 0) := by
      intro w
      rw [ha]
      have : 0 + 2 + k * (0 + 1) + 0 = k + 2 := by omega
      rw [this]
      ring
    simp_rw [e]
    obtain ⟨h1, h2⟩ := three_stats hz (q * E) (q * seconds tau / 2 * (1 - E)) 0 (0 + c.getD 0) 0 (k + 2) 1
      (by omega) (by omega) (by omega)
    exact ⟨h1, h2.trans (by ring)⟩
  | some wn =>
    simp only [Option.elim_some] at ha ⊢
    have e : ∀ w, wn.mean + wn.sigma * z w (a + 2 + k * (a + 1)) +
        (q * z w a * E + 0.5 * q * seconds tau * (1 - E) * z w (a + 2 + k * (a + 1) + a) + c.getD 0) =
        wn.sigma * z w (2 * k + 3) + (q * E) * z w 1 + (q * seconds tau / 2 * (1 - E)) * z w (2 * k + 4) +
          (wn.mean + c.getD 0) := by
      intro w
      rw [ha]
      have h1 : 1 + 2 + k * (1 + 1) = 2 * k + 3 := by omega
      rw [h1]
      ring
    simp_rw [e]
    obtain ⟨h1, h2⟩ := three_stats hz wn.sigma (q * E) (q * seconds tau / 2 * (1 - E)) (wn.mean + c.getD 0)
      (2 * k + 3) 1 (2 * k + 4) (by omega) (by omega) (by omega)
    exact ⟨h1, h2.trans (by ring)⟩

/-- C118, refuted. The covariance used by the filter is not the variance of the samples, and neither is the
documented variance `p exp (-2 d / tau) + q tau / 2 (1 - exp (-2 d / tau))`, with `p` the variance of the
initial sample and `q` either the process noise or its square: for the default range bias sampled every
minute, the variance of every sample after the first one is more than 300 times the covariance, and
differs from both readings of the documented value. -/
theorem covariance_wrong {Ω : Type} [MeasurableSpace Ω] {P : Measure Ω} {z : Ω → ℕ → ℝ} (hz : StdSeq P z)
    (k : ℕ) :
    ∃ f : Ω → ℝ,
      (∀ w, (Stoch.history (rngOf (z w)) ⟨none, some Gm.defaultRange⟩
        (0 :: every 0 60000000000 (k + 1)) 0)[k + 1]? = some (f w)) ∧
      300 * (Stoch.covariance ⟨none, some Gm.defaultRange⟩) < varOf P f ∧
      ∀ q ∈ [Gm.defaultRange.noise, Gm.defaultRange.noise ^ 2],
        varOf P f ≠ Gm.defaultRange.noise ^ 2 * Real.exp (-2 * 60 / 60) +
          q * 60 / 2 * (1 - Real.exp (-2 * 60 / 60)) := by
  obtain ⟨f, hf, _, hv⟩ := later_variance hz none Gm.defaultRange (by rintro b ⟨⟩; exact ⟨rfl, rfl⟩) 0
    (every 0 60000000000 (k + 1)) k 60000000000 (by rw [gaps_every]; simp)
  refine ⟨f, hf, ?_⟩
  have h1 : Real.exp 1 > 2.7182818283 := Real.exp_one_gt_d9
  have h2 : Real.exp 1 < 2.7182818286 := Real.exp_one_lt_d9
  have h3 : Real.exp (-1) < 0.37 := by
    rw [Real.exp_neg, inv_lt_comm₀ (by positivity) (by norm_num)]
    exact lt_trans (by norm_num) h1
  have h4 : 0 < Real.exp (-1) := Real.exp_pos _
  have h5 : Real.exp (-2) = Real.exp (-1) ^ 2 := by
    rw [← Real.exp_nat_mul]; norm_num
  have e1 : (-2 * (((60000000000 : Int) : ℝ) / 1000000000) / (((Gm.defaultRange.tau : Int) : ℝ) / 1000000000)) = -2 := by
    norm_num [Gm.defaultRange]
  have e2 : (-(((60000000000 : Int) : ℝ) / 1000000000) / (((Gm.defaultRange.tau : Int) : ℝ) / 1000000000)) = -1 := by
    norm_num [Gm.defaultRange]
  rw [e1, e2, h5] at hv
  rw [hv]
  set y := Real.exp (-1) with hy
  have e3 : (-2 * 60 / 60 : ℝ) = -2 := by norm_num
  rw [e3, h5]
  simp only [Stoch.covariance, Gm.covariance, Gm.defaultRange, Option.elim_none, Option.elim_some, zero_add]
  push_cast
  refine ⟨by nlinarith [sq_nonneg y, sq_nonneg (0.63 - (1 - y))], ?_⟩
  intro q hq
  simp only [List.mem_cons, List.not_mem_nil, or_false] at hq
  rcases hq with rfl | rfl
  · intro h
    nlinarith [sq_nonneg y]
  · intro h
    nlinarith [sq_nonneg y]

/-! ### The hypotheses can be met -/

/-- Independent standard normal values. -/
theorem std_seq_gaussian :
    StdSeq (Measure.infinitePi fun _ : ℕ => gaussianReal 0 1) (fun w : ℕ → ℝ => w) := by
  have hm2 : MemLp (id : ℝ → ℝ) 2 (gaussianReal 0 1) := memLp_id_gaussianReal 2
  have hp : ∀ i : ℕ, MeasurePreserving (fun w : ℕ → ℝ => w i)
      (Measure.infinitePi fun _ : ℕ => gaussianReal 0 1) (gaussianReal 0 1) :=
    fun i => measurePreserving_eval_infinitePi (fun _ : ℕ => gaussianReal 0 1) i
  have h2 : ∀ i : ℕ, MemLp (fun w : ℕ → ℝ => w i) 2 (Measure.infinitePi fun _ : ℕ => gaussianReal 0 1) :=
    fun i => hm2.comp_measurePreserving (hp i)
  have hmean : ∀ i : ℕ, ∫ w : ℕ → ℝ, w i ∂(Measure.infinitePi fun _ : ℕ => gaussianReal 0 1) = 0 := by
    intro i
    have := integral_map (μ := Measure.infinitePi fun _ : ℕ => gaussianReal 0 1) (hp i).measurable.aemeasurable (f := fun y : ℝ => y)
      measurable_id.aestronglyMeasurable
    rw [(hp i).map_eq, integral_id_gaussianReal] at this
    exact this.symm
  refine ⟨inferInstance, fun i => (h2 i).integrable (by norm_num), fun i j => (h2 i).integrable_mul (h2 j),
    hmean, ?_⟩
  intro i j
  by_cases hij : i = j
  · subst hij
    rw [if_pos rfl]
    have := integral_map (μ := Measure.infinitePi fun _ : ℕ => gaussianReal 0 1) (hp i).measurable.aemeasurable (f := fun y : ℝ => y * y)
      (measurable_id.mul measurable_id).aestronglyMeasurable
    rw [(hp i).map_eq] at this
    rw [← this]
    have hv : Var[id; gaussianReal 0 1] = 1 := by rw [variance_id_gaussianReal]; rfl
    rw [variance_eq_integral measurable_id.aemeasurable] at hv
    simpa [integral_id_gaussianReal, pow_two] using hv
  · rw [if_neg hij]
    have hind : iIndepFun (fun (i : ℕ) (w : ℕ → ℝ) => w i) (Measure.infinitePi fun _ : ℕ => gaussianReal 0 1) :=
      iIndepFun_infinitePi (P := fun _ : ℕ => gaussianReal 0 1) (X := fun _ y => y) fun _ => measurable_id
    have := (hind.indepFun hij).integral_mul_eq_mul_integral (h2 i).aestronglyMeasurable
      (h2 j).aestronglyMeasurable
    rw [hmean i, hmean j, mul_zero] at this
    exact this

example : meanOf (Measure.infinitePi fun _ : ℕ => gaussianReal 0 1)
    (fun w => (Stoch.defaultRange.sample (rngOf w) 5 0).1) = offset Stoch.defaultRange :=
  (first_sample_partial std_seq_gaussian Stoch.defaultRange (by rintro b ⟨⟩) 5 0).1

/-- The fifth sample of the default bias is far noisier than the filter assumes. -/
example : ∃ f : (ℕ → ℝ) → ℝ, 300 * (Stoch.covariance ⟨none, some Gm.defaultRange⟩) <
    varOf (Measure.infinitePi fun _ : ℕ => gaussianReal 0 1) f :=
  let ⟨f, _, h, _⟩ := covariance_wrong std_seq_gaussian 4
  ⟨f, h⟩

end Verif.Noise
