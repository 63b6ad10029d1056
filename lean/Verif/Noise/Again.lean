import Verif.Noise.Stats
import Mathlib.Analysis.SpecialFunctions.Log.Deriv
import Mathlib.Analysis.Complex.ExponentialBounds
/-!
C254: `generate_measurements` called again on the same simulator. The noise processes belong to the
devices of the simulator (`self.devices.iter_mut()`, od/simulator/arc.rs:180), so they keep their state from
one call to the next.
-/
namespace Verif.Noise
open MeasureTheory ProbabilityTheory

/-! ### Model -/

/-- A process and the generator after its samples at successive epochs (`GroundStation::noises` samples the
process in place, ground_station/mod.rs:214-223). -/
noncomputable def Stoch.after {S : Type} (g : Rng S) : Stoch → List Int → S → Stoch × S
  | n, [], s => (n, s)
  | n, t :: ts, s => Stoch.after g (n.sample g t s).2.1 ts (n.sample g t s).2.2

/-- The noises of the measurements of successive calls of `generate_measurements`, od/simulator/arc.rs:174-257,
for one device with one measurement type, seen at the epochs `ts` of its strands: the trajectory and the
strands are the same for each call, the process and the generator are those left by the previous call.
Simplified: the other devices, which only take further draws from the generator, are not there. -/
noncomputable def calls {S : Type} (g : Rng S) (ts : List Int) : ℕ → Stoch → S → List (List ℝ)
  | 0, _, _ => []
  | k + 1, n, s => n.history g ts s :: calls g ts k (n.after g ts s).1 (n.after g ts s).2

/-- `Normal::new(0.0, steady_noise).unwrap()`, gauss_markov.rs:154-155, on floating point numbers of which the
greatest is `fmax`: `exp` overflows to infinity, so does the product, and `Normal::new` refuses a standard
deviation which is not finite. `none` is the panic. Simplified: values up to `fmax` are exact. -/
noncomputable def Gm.sampleF {S : Type} (fmax : ℝ) (g : Rng S) (b : Gm) (t : Int) (s : S) : Option (ℝ × Gm × S) :=
  if b.decay t ≤ fmax ∧ |b.steady t| ≤ fmax then some (b.sample g t s) else none

/-- The samples of a process at successive epochs, or a panic. -/
noncomputable def Gm.historyF {S : Type} (fmax : ℝ) (g : Rng S) : Gm → List Int → S → Option (List ℝ × Gm × S)
  | b, [], s => some ([], b, s)
  | b, t :: ts, s => (b.sampleF fmax g t s).bind fun q =>
      (Gm.historyF fmax g q.2.1 ts q.2.2).map fun r => (q.1 :: r.1, r.2)

/-- `f64::MAX` (core): `(2 - 2^-52) * 2^1023`. -/
noncomputable def f64max : ℝ := (2 - 1 / 2 ^ 52) * 2 ^ 1023

/-! ### Lemmas -/

theorem history_append {S : Type} (g : Rng S) (n : Stoch) (l m : List Int) (s : S) :
    n.history g (l ++ m) s = n.history g l s ++ (n.after g l s).1.history g m (n.after g l s).2 := by
  induction l generalizing n s with
  | nil => rfl
  | cons t l ih => simp only [List.cons_append, Stoch.history, Stoch.after, ih]

theorem history_length {S : Type} (g : Rng S) (n : Stoch) (l : List Int) (s : S) :
    (n.history g l s).length = l.length := by
  induction l generalizing n s with
  | nil => rfl
  | cons t l ih => simp only [Stoch.history, List.length_cons, ih]

theorem gaps_return (t0 a : Int) (ts rest : List Int) :
    (gaps t0 (ts ++ a :: rest))[ts.length]? = some (a - (t0 :: ts).getLast (by simp)) := by
  induction ts generalizing t0 with
  | nil => simp [gaps]
  | cons t ts ih =>
    simp only [List.cons_append, gaps, List.length_cons, List.getElem?_cons_succ, ih]
    simp

theorem white_after (z : ℕ → ℝ) (w : White) (ts : List Int) (i : ℕ) :
    Stoch.after (rngOf z) ⟨some w, none⟩ ts i = (⟨some w, none⟩, i + ts.length) := by
  induction ts generalizing i with
  | nil => rfl
  | cons t ts ih =>
    have : (Stoch.sample (rngOf z) ⟨some w, none⟩ t i).2 = (⟨some w, none⟩, i + 1) := rfl
    simp only [Stoch.after, this, ih, List.length_cons]
    congr 1
    omega

theorem white_history (z : ℕ → ℝ) (w : White) (ts : List Int) (i : ℕ) :
    Stoch.history (rngOf z) ⟨some w, none⟩ ts i =
      (List.range ts.length).map fun j => w.mean + w.sigma * z (i + j) := by
  induction ts generalizing i with
  | nil => rfl
  | cons t ts ih =>
    have : (Stoch.sample (rngOf z) ⟨some w, none⟩ t i).2 = (⟨some w, none⟩, i + 1) := rfl
    have h2 : (Stoch.sample (rngOf z) ⟨some w, none⟩ t i).1 = w.mean + w.sigma * z i := by
      simp [Stoch.sample, Stoch.whitePart, Stoch.biasPart, White.sample, rngOf]
    simp only [Stoch.history, this, ih, h2, List.length_cons, List.range_succ_eq_map, List.map_cons,
      List.map_map, add_zero]
    congr 1
    apply List.map_congr_left
    intro j _
    simp only [Function.comp]
    congr 3
    omega

/-! ### Statements -/

/-- C254 (partial). With a white noise and no bias, each call gives another sample of the same law: the
measurement of each epoch of each call has its own draw, with the mean and the deviation configured.
Missing: the noises with a bias, for which the claim is false, see `again_variance` and `again_panics`. -/
theorem again_white_partial (z : ℕ → ℝ) (w : White) (ts : List Int) (m : ℕ) (i : ℕ) :
    calls (rngOf z) ts m ⟨some w, none⟩ i =
      (List.range m).map fun k => (List.range ts.length).map fun j =>
        w.mean + w.sigma * z (i + k * ts.length + j) := by
  induction m generalizing i with
  | zero => rfl
  | succ m ih =>
    simp only [calls, white_after, white_history, ih, List.range_succ_eq_map, List.map_cons, List.map_map]
    congr 1
    · simp
    · apply List.map_congr_left
      intro k _
      simp only [Function.comp]
      apply List.map_congr_left
      intro j _
      congr 3
      simp only [Nat.succ_eq_add_one]
      ring

/-- Three calls of two measurements: six draws. -/
example : calls (rngOf fun i => (i : ℝ)) [0, 60] 3 ⟨some ⟨1, 2⟩, none⟩ 0 = [[1, 3], [5, 7], [9, 11]] := by
  rw [again_white_partial]
  norm_num [List.range_succ]

/-- C254, refuted. With a bias, the first measurement of the second call does not have the law of the first
measurement of the first call: its variance is greater, whatever the process and the epochs, as soon as the
arc lasts. The bias is carried backward in time over the arc, which multiplies it by `exp (arc / tau)`. -/
theorem again_variance {Ω : Type} [MeasurableSpace Ω] {P : Measure Ω} {z : Ω → ℕ → ℝ} (hz : StdSeq P z)
    (wn : Option White) (b : Gm) (hn : Fresh ⟨wn, some b⟩) (hq : b.noise ≠ 0) (ht : 0 < b.tau)
    (t0 : Int) (ts : List Int) (hl : t0 < (t0 :: ts).getLast (by simp)) :
    ∃ f1 f2 : Ω → ℝ,
      (∀ w, ∃ r1 r2, calls (rngOf (z w)) (t0 :: ts) 2 ⟨wn, some b⟩ 0 = [f1 w :: r1, f2 w :: r2]) ∧
      meanOf P f1 = meanOf P f2 ∧
      varOf P f2 ≥ varOf P f1 + b.noise ^ 2 *
        (Real.exp (2 * ((t0 :: ts).getLast (by simp) - t0 : ℝ) / b.tau) - 1) ∧
      varOf P f1 < varOf P f2 := by
  obtain ⟨hm1, hv1, _⟩ := first_sample_partial hz ⟨wn, some b⟩ hn t0 0
  obtain ⟨f2, hf2, hm2, hv2⟩ := later_variance hz wn b hn t0 (ts ++ t0 :: ts) ts.length _
    (gaps_return t0 t0 ts ts)
  refine ⟨_, f2, ?_, hm1.trans hm2.symm, ?_⟩
  · intro w
    have h := hf2 w
    rw [← List.cons_append, history_append, List.getElem?_append_right (by rw [history_length]; simp),
      history_length] at h
    simp only [List.length_cons, Nat.sub_self] at h
    have h3 : ∀ (n : Stoch) (s : ℕ), ∃ r, n.history (rngOf (z w)) (t0 :: ts) s =
        (n.sample (rngOf (z w)) t0 s).1 :: r := fun n s => ⟨_, rfl⟩
    obtain ⟨r1, h4⟩ := h3 ⟨wn, some b⟩ 0
    obtain ⟨r2, h5⟩ := h3 (Stoch.after (rngOf (z w)) ⟨wn, some b⟩ (t0 :: ts) 0).1
      (Stoch.after (rngOf (z w)) ⟨wn, some b⟩ (t0 :: ts) 0).2
    rw [h5] at h
    simp only [List.getElem?_cons_zero, Option.some.injEq] at h
    refine ⟨r1, r2, ?_⟩
    simp only [calls]
    rw [h5, h4, h]
  · set L := (t0 :: ts).getLast (by simp) with hL
    have hb : (0 : ℝ) < b.tau := by exact_mod_cast ht
    have hLt : (0 : ℝ) < (L : ℝ) - t0 := by
      have : (t0 : ℝ) < L := by exact_mod_cast hl
      linarith
    have e1 : -2 * (((t0 - L : Int) : ℝ) / 1000000000) / ((b.tau : ℝ) / 1000000000) =
        2 * ((L : ℝ) - t0) / b.tau := by
      push_cast
      field_simp
      ring
    rw [e1] at hv2
    have hc : Stoch.covariance ⟨wn, some b⟩ = wn.elim 0 (fun w => w.sigma ^ 2) + b.noise ^ 2 := by
      cases wn <;> simp [Stoch.covariance, White.covariance, Gm.covariance]
    have hq2 : 0 < b.noise ^ 2 := by positivity
    have hE : 1 < Real.exp (2 * ((L : ℝ) - t0) / b.tau) := by
      rw [Real.one_lt_exp_iff]
      positivity
    have h1 : varOf P f2 ≥ varOf P (fun w => (Stoch.sample (rngOf (z w)) ⟨wn, some b⟩ t0 0).1) + b.noise ^ 2 *
        (Real.exp (2 * ((L : ℝ) - t0) / b.tau) - 1) := by
      rw [hv1, hv2, hc]
      nlinarith [sq_nonneg (b.noise * (b.tau / 1000000000) / 2 *
        (1 - Real.exp (-(((t0 - L : Int) : ℝ) / 1000000000) / (b.tau / 1000000000))))]
    exact ⟨h1, by nlinarith⟩

/-- Two hours of tracking with the default range bias: its deviation is multiplied by more than `exp 120`. -/
example := again_variance std_seq_gaussian none Gm.defaultRange (by rintro b ⟨⟩; exact ⟨rfl, rfl⟩)
  (by norm_num [Gm.defaultRange]) (by norm_num [Gm.defaultRange]) 0 [7200000000000] (by decide)

theorem exp720 : f64max * 100 < Real.exp 720 := by
  have h1 : Real.log 2 < 0.6931471808 := Real.log_two_lt_d9
  have h2 : (2 : ℝ) ^ 1032 ≤ Real.exp 720 := by
    have : (2 : ℝ) ^ 1032 = Real.exp (1032 * Real.log 2) := by
      rw [show (1032 : ℝ) * Real.log 2 = ((1032 : ℕ) : ℝ) * Real.log 2 by norm_num, Real.exp_nat_mul,
        Real.exp_log (by norm_num)]
    rw [this]
    apply Real.exp_le_exp.mpr
    linarith
  refine lt_of_lt_of_le ?_ h2
  unfold f64max
  rw [show (2 : ℝ) ^ 1032 = 512 * 2 ^ 1023 by rw [show (1032 : ℕ) = 9 + 1023 from rfl, pow_add]; norm_num]
  have h3 : (0 : ℝ) < 2 ^ 1023 := by positivity
  have h4 : (2 - 1 / 2 ^ 52 : ℝ) ≤ 2 := by norm_num
  generalize (2 : ℝ) ^ 1023 = x at h3 ⊢
  calc (2 - 1 / 2 ^ 52 : ℝ) * x * 100 ≤ 2 * x * 100 := by gcongr
    _ < 512 * x := by linarith

theorem one_le_f64max : 1 ≤ f64max := by
  unfold f64max
  have h3 : (1 : ℝ) ≤ 2 ^ 1023 := one_le_pow₀ (by norm_num)
  have h4 : (1 : ℝ) ≤ 2 - 1 / 2 ^ 52 := by norm_num
  exact one_le_mul_of_one_le_of_one_le h4 h3

theorem historyF_forward {S : Type} (g : Rng S) (b : Gm) (ts : List Int) (s : S) (h1 : b.tau = Gm.defaultRange.tau)
    (h2 : b.noise = Gm.defaultRange.noise) (hs : ts.Pairwise (· ≤ ·))
    (hp : ∀ p, b.prev = some p → ∀ t ∈ ts, p ≤ t) :
    ∃ r b' s', Gm.historyF f64max g b ts s = some (r, b', s') ∧ r.length = ts.length ∧
      b'.tau = Gm.defaultRange.tau ∧ b'.noise = Gm.defaultRange.noise ∧
      ∀ h : ts ≠ [], b'.prev = some (ts.getLast h) := by
  induction ts generalizing b s with
  | nil => exact ⟨[], b, s, rfl, rfl, h1, h2, fun h => absurd rfl h⟩
  | cons t ts ih =>
    rw [List.pairwise_cons] at hs
    have hdt : 0 ≤ b.dt t := by
      unfold Gm.dt seconds
      cases hb : b.prev with
      | none => simp
      | some p =>
        have : (0 : ℝ) ≤ ((t - p : Int) : ℝ) := by
          have := hp p hb t List.mem_cons_self
          exact_mod_cast (by omega : (0 : Int) ≤ t - p)
        simp only [Option.elim_some]
        positivity
    have htau : seconds b.tau = 60 := by rw [h1]; norm_num [seconds, Gm.defaultRange]
    have hd1 : b.decay t ≤ 1 := by
      unfold Gm.decay
      rw [htau, Real.exp_le_one_iff]
      linarith
    have hd0 : 0 < b.decay t := Real.exp_pos _
    have hst : |b.steady t| ≤ 1 := by
      unfold Gm.steady
      rw [htau, h2, abs_le]
      simp only [Gm.defaultRange]
      constructor <;> linarith
    have hsam : b.sampleF f64max g t s = some (b.sample g t s) := by
      unfold Gm.sampleF
      rw [if_pos ⟨hd1.trans one_le_f64max, hst.trans one_le_f64max⟩]
    obtain ⟨r, b', s', e, hlen, ht', hn', hl'⟩ := ih (b.sample g t s).2.1 (b.sample g t s).2.2 h1 h2 hs.2 (by
      intro p hpp u hu
      have : t = p := by simpa [Gm.sample] using hpp
      exact this ▸ hs.1 u hu)
    refine ⟨_ :: r, b', s', by simp only [Gm.historyF, hsam, Option.bind_some, e, Option.map_some]; rfl,
      by simp [hlen], ht', hn', fun _ => ?_⟩
    by_cases hts : ts = []
    · subst hts
      simp only [Gm.historyF, Option.some.injEq, Prod.mk.injEq] at e
      rw [← e.2.1]
      rfl
    · rw [hl' hts, List.getLast_cons hts]

/-- C254, refuted. With the default bias of the ranges (time constant of one minute), the second call panics
on its first measurement as soon as the arc lasts twelve hours, whereas the first call, of any increasing
epochs, never panics: the factor `exp (arc / tau)` is not a finite floating point number. -/
theorem again_panics {S : Type} (g : Rng S) (t0 : Int) (ts : List Int)
    (hs : (t0 :: ts).Pairwise (· ≤ ·)) (hl : t0 + 43200000000000 ≤ (t0 :: ts).getLast (by simp)) (s : S) :
    ∃ r b' s', Gm.historyF f64max g Gm.defaultRange (t0 :: ts) s = some (r, b', s') ∧
      r.length = ts.length + 1 ∧
      Gm.historyF f64max g b' (t0 :: ts) s' = none := by
  obtain ⟨r, b', s', e, hlen, ht, hn, hp⟩ := historyF_forward g Gm.defaultRange (t0 :: ts) s rfl rfl hs
    (by intro p hp; cases hp)
  refine ⟨r, b', s', e, by simpa using hlen, ?_⟩
  have hp := hp (by simp)
  set L := (t0 :: ts).getLast (by simp) with hL
  have hexp : Real.exp 720 ≤ b'.decay t0 := by
    unfold Gm.decay Gm.dt
    rw [hp, ht]
    apply Real.exp_le_exp.mpr
    have : (43200000000000 : ℝ) ≤ L - t0 := by
      have : (t0 : ℝ) + 43200000000000 ≤ L := by exact_mod_cast hl
      linarith
    simp only [Option.elim_some, seconds, Gm.defaultRange]
    push_cast
    linarith
  have h0 := one_le_f64max
  have : b'.sampleF f64max g t0 s' = none := by
    unfold Gm.sampleF
    rw [if_neg]
    rintro ⟨h, _⟩
    linarith [exp720]
  simp only [Gm.historyF, this, Option.bind_none]

/-- A day of tracking, a measurement every twelve hours. -/
example := again_panics (rngOf fun _ => 1) 0 [43200000000000, 86400000000000] (by simp) (by decide) 0

end Verif.Noise
