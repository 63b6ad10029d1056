import Verif.Noise.Model
import Mathlib.Tactic.Linarith
import Mathlib.Tactic.Ring
import Mathlib.Tactic.FieldSimp
import Mathlib.Tactic.Positivity
import Mathlib.Tactic.NormNum
import Mathlib.Analysis.Complex.ExponentialBounds
/-!
C75: Gauss-Markov samples, constructors, covariances. C119: scaling of the noises. C120: the diagnostic
simulation. C121: the noises of a link.
-/
namespace Verif.Noise

/-! ### C75: decay of the bias -/

/-- Specification: the differences between successive epochs, starting from `t0`. -/
def gaps : Int → List Int → List Int
  | _, [] => []
  | t0, t :: ts => (t - t0) :: gaps t ts

/-- Specification: `n` epochs after `t0`, `d` apart. -/
def every (t0 d : Int) (n : Nat) : List Int := (List.range n).map fun (k : Nat) => t0 + ((k : Int) + 1) * d

/-- C75 (partial). A bias without process noise returns, at every epoch, its initial sample attenuated by
the exponential of the time since the *previous sample* over the time constant.
What is missing: the documented process decays from the initial epoch, see `gm_never_decays`. -/
theorem gm_decay_partial {S : Type} (g : Rng S) (tau t0 : Int) (v c : ℝ) (ts : List Int) (s : S) :
    Stoch.history g ⟨none, some ⟨tau, 0, some c, some t0, some v⟩⟩ ts s =
      (gaps t0 ts).map fun d : Int => v * Real.exp (-((d : ℝ) / 1000000000) / (tau / 1000000000)) + c := by
  induction ts generalizing t0 s with
  | nil => rfl
  | cons t ts ih =>
    simp only [Stoch.history, gaps, List.map_cons]
    congr 1
    · simp [Stoch.sample, Stoch.whitePart, Stoch.biasPart, Gm.sample, Gm.start, Gm.decay, Gm.steady, Gm.dt,
        seconds]
    · exact ih t _

theorem gaps_every (t0 d : Int) (n : Nat) : gaps t0 (every t0 d n) = List.replicate n d := by
  induction n generalizing t0 with
  | zero => rfl
  | succ n ih =>
    have : every t0 d (n + 1) = (t0 + d) :: every (t0 + d) d n := by
      unfold every
      rw [List.range_succ_eq_map]
      simp only [List.map_cons, List.map_map]
      congr 1
      · push_cast; ring
      · refine List.map_congr_left fun k _ => ?_
        simp only [Function.comp]
        push_cast
        ring
    rw [this]
    simp only [gaps, ih, List.replicate_succ]
    congr 1
    ring

/-- C75, refuted. The documented bias, without process noise, is `v * exp (-(t - t0) / tau)`. Sampled at
a constant rate, the model returns the same value for ever: no sample after the first one is the
documented value. -/
theorem gm_never_decays {S : Type} (g : Rng S) (tau t0 d : Int) (v : ℝ) (n : Nat) (s : S)
    (htau : 0 < tau) (hd : 0 < d) (hv : v ≠ 0) :
    (Stoch.history g ⟨none, some ⟨tau, 0, none, some t0, some v⟩⟩ (every t0 d n) s =
      List.replicate n (v * Real.exp (-(d : ℝ) / tau))) ∧
    ∀ k : Nat, 1 < k → v * Real.exp (-(d : ℝ) / tau) ≠ v * Real.exp (-((t0 + k * d : Int) - t0 : ℝ) / tau) := by
  have ht : (0 : ℝ) < tau := by exact_mod_cast htau
  have hd' : (0 : ℝ) < d := by exact_mod_cast hd
  constructor
  · have h1 : Stoch.history g ⟨none, some ⟨tau, 0, none, some t0, some v⟩⟩ (every t0 d n) s =
        Stoch.history g ⟨none, some ⟨tau, 0, some 0, some t0, some v⟩⟩ (every t0 d n) s := by
      generalize every t0 d n = ts
      induction ts generalizing t0 s with
      | nil => rfl
      | cons t ts ih =>
        simp only [Stoch.history]
        congr 1
        exact ih t _
    rw [h1, gm_decay_partial, gaps_every, List.map_replicate]
    congr 1
    have : (-((d : ℝ) / 1000000000) / (tau / 1000000000)) = -(d : ℝ) / tau := by field_simp
    rw [this, add_zero]
  · intro k hk h
    have h1 := mul_left_cancel₀ hv h
    have h2 := Real.exp_injective h1
    rw [div_left_inj' ht.ne'] at h2
    push_cast at h2
    have hk' : (1 : ℝ) < k := by exact_mod_cast hk
    have h3 : (d : ℝ) = k * d := by linarith
    nlinarith

/-- C75. The constructors: `WhiteNoise::new` accepts exactly a non negative noise and a positive
integration time, and stores the noise per second; `GaussMarkov::new` accepts exactly a positive time
constant. -/
theorem constructors (p : ℝ) (t : Int) :
    (∀ w, White.new p t = some w ↔ 0 ≤ p ∧ 0 < t ∧ w = ⟨0, p / ((t : ℝ) / 1000000000)⟩) ∧
    (∀ b, Gm.new t p = some b ↔ 0 < t ∧ b = ⟨t, p, none, none, none⟩) := by
  constructor
  · intro w
    have h : seconds t ≤ 0 ↔ t ≤ 0 := by
      unfold seconds
      rw [div_nonpos_iff]
      constructor
      · rintro (⟨_, h⟩ | ⟨h, _⟩)
        · norm_num at h
        · exact_mod_cast h
      · intro h
        exact Or.inr ⟨by exact_mod_cast h, by norm_num⟩
    unfold White.new
    split
    · simp; intro; linarith
    · split
      · rename_i h1 h2
        have := h.1 h2
        simp; intro _ _; omega
      · rename_i h1 h2
        rw [h] at h2
        simp only [Option.some.injEq, seconds]
        constructor
        · intro e; exact ⟨by linarith, by omega, e.symm⟩
        · intro e; exact e.2.2.symm
  · intro b
    unfold Gm.new
    split
    · simp; intro; omega
    · simp only [Option.some.injEq]
      constructor
      · intro e; exact ⟨by omega, e.symm⟩
      · intro e; exact e.2.symm

/-- C75, refuted. A negative sigma is not rejected by the Gauss-Markov constructor nor by
`constant_white_noise`. -/
theorem negative_sigma_accepted (p : ℝ) (hp : p < 0) (t : Int) (ht : 0 < t) :
    (∃ b, Gm.new t p = some b ∧ b.noise < 0) ∧ (White.constant p).sigma < 0 :=
  ⟨⟨_, ((constructors p t).2 _).2 ⟨ht, rfl⟩, hp⟩, hp⟩

/-- C75. The covariance of every noise is non negative, and zero exactly for noises without any sigma. -/
theorem covariance_nonneg (n : Stoch) :
    0 ≤ n.covariance ∧
    (n.covariance = 0 ↔ (∀ w, n.white = some w → w.sigma = 0) ∧ ∀ b, n.bias = some b → b.noise = 0) := by
  obtain ⟨w, b⟩ := n
  cases w with
  | none =>
    cases b with
    | none => simp [Stoch.covariance]
    | some b => simp [Stoch.covariance, Gm.covariance, sq_nonneg]
  | some w =>
    cases b with
    | none => simp [Stoch.covariance, White.covariance, sq_nonneg]
    | some b =>
      simp only [Stoch.covariance, White.covariance, Gm.covariance, Option.elim_some, zero_add,
        Option.some.injEq, forall_eq']
      refine ⟨by positivity, ?_⟩
      constructor
      · intro h
        have h1 := sq_nonneg w.sigma
        have h2 := sq_nonneg b.noise
        exact ⟨pow_eq_zero_iff (two_ne_zero) |>.1 (by linarith), pow_eq_zero_iff (two_ne_zero) |>.1 (by linarith)⟩
      · rintro ⟨h1, h2⟩
        rw [h1, h2]; norm_num

/-! ### C119: scaling -/

/-- C119 (partial). Scaling a noise by `k` multiplies its covariance by the square of `k` and leaves the
mean of the white noise and the time constant.
What is missing: the samples themselves are not scaled, see `scaling_loses_offsets`. -/
theorem scaling_partial (n : Stoch) (k : ℝ) :
    (n.mul k).covariance = k ^ 2 * n.covariance ∧
    (n.mul k).white.map White.mean = n.white.map White.mean ∧
    (n.mul k).bias.map Gm.tau = n.bias.map Gm.tau := by
  obtain ⟨w, b⟩ := n
  cases w <;> cases b <;>
    simp [Stoch.mul, Stoch.covariance, White.covariance, Gm.covariance, White.mul, Gm.mul] <;> ring

/-- C119, refuted. Scaling by one is not the identity: the constant offset of the bias and its history are
lost; and scaling by `k` does not scale the samples: the mean of the white noise is kept as it is. -/
theorem scaling_loses_offsets :
    (∀ (b : Gm) (c : ℝ), b.const = some c → Stoch.mul ⟨none, some b⟩ 1 ≠ ⟨none, some b⟩) ∧
    (∀ {S : Type} (g : Rng S) (w : White) (k : ℝ) (t : Int) (s : S),
      ((Stoch.mul ⟨some w, none⟩ k).sample g t s).1 = k * (Stoch.sample g ⟨some w, none⟩ t s).1 ↔
        k = 1 ∨ w.mean = 0) := by
  constructor
  · intro b c hc h
    have h1 := congrArg (fun n : Stoch => n.bias.bind Gm.const) h
    simp [Stoch.mul, Gm.mul, hc] at h1
  · intro S g w k t s
    simp only [Stoch.mul, Stoch.sample, Stoch.whitePart, Stoch.biasPart, White.sample, White.mul,
      Option.map_some, Option.map_none, Option.elim_some, Option.elim_none, zero_add, add_zero]
    constructor
    · intro h
      have h1 : (1 - k) * w.mean = 0 := by linarith
      rcases mul_eq_zero.1 h1 with h2 | h2
      · exact Or.inl (by linarith)
      · exact Or.inr h2
    · rintro (h | h)
      · subst h; ring
      · rw [h]; ring

/-! ### C120: the diagnostic simulation -/

/-- Specification: an epoch, in nanoseconds after the start, which is outside of the gap. -/
def outsideGap (d : Int) : Prop := d ≤ 21600000000000 ∨ 43200000000000 ≤ d

instance (d : Int) : Decidable (outsideGap d) := inferInstanceAs (Decidable (_ ∨ _))

theorem skipped_iff (start t : Int) : skipped start t = false ↔ outsideGap (t - start) := by
  unfold skipped outsideGap
  simp only [gt_iff_lt, Bool.and_eq_false_iff, decide_eq_false_iff_not, not_lt]
  constructor
  · rintro (h | h)
    · left; omega
    · right; omega
  · rintro (h | h)
    · left; omega
    · right; omega

theorem simLoop_spec {S : Type} (g : Rng S) (start : Int) (run : Nat) (n : Stoch) (ts : List Int) (s : S) :
    (simLoop g start run n ts s).map Row.dt = (ts.filter fun t => outsideGap (t - start)).map (· - start) ∧
    (simLoop g start run n ts s).map Row.sample =
      Stoch.history g n (ts.filter fun t => outsideGap (t - start)) s ∧
    ∀ r ∈ simLoop g start run n ts s, r.run = run ∧ r.variance = n.covariance := by
  induction ts generalizing n s with
  | nil => simp [simLoop, Stoch.history]
  | cons t ts ih =>
    unfold simLoop
    by_cases h : skipped start t = true
    · have h1 : ¬ outsideGap (t - start) := by
        rw [← skipped_iff, h]; simp
      rw [if_pos h, List.filter_cons_of_neg (by simpa using h1)]
      exact ih n s
    · have h1 : outsideGap (t - start) := (skipped_iff _ _).1 (by simpa using h)
      rw [if_neg h, List.filter_cons_of_pos (by simpa using h1)]
      obtain ⟨i1, i2, i3⟩ := ih (n.sample g t s).2.1 (n.sample g t s).2.2
      refine ⟨by simp [i1], by simp [i2, Stoch.history], ?_⟩
      intro r hr
      rcases List.mem_cons.1 hr with rfl | hr
      · exact ⟨rfl, rfl⟩
      · obtain ⟨j1, j2⟩ := i3 r hr
        refine ⟨j1, j2.trans ?_⟩
        obtain ⟨w, b⟩ := n
        cases b <;> rfl

theorem filter_shift (start : Int) (l : List Nat) :
    (l.map fun k : Nat => start + (k : Int) * 60000000000).filter (fun t => outsideGap (t - start)) =
      ((l.map fun k : Nat => (k : Int) * 60000000000).filter fun d => outsideGap d).map (start + ·) := by
  induction l with
  | nil => rfl
  | cons k l ih =>
    simp only [List.map_cons, List.filter_cons, ih]
    have h : start + (k : Int) * 60000000000 - start = (k : Int) * 60000000000 := by ring
    rw [h]
    split <;> simp

theorem series_filter (start : Int) :
    (series start).filter (fun t => outsideGap (t - start)) =
      (((List.range 1441).map fun k : Nat => (k : Int) * 60000000000).filter fun d => outsideGap d).map
        (start + ·) := filter_shift start _

theorem series_count :
    (((List.range 1441).map fun k : Nat => (k : Int) * 60000000000).filter fun d => outsideGap d).length =
      1082 := by decide +kernel

/-- C120. `simulate` returns 1082 samples for every run, in the order of the runs; the epochs are whole
minutes within 24 hours, none of them strictly between 6 and 12 hours after the start; each row carries
the covariance of the noise, and the samples of a run are those of a fresh copy of the noise with the
generator of that run. -/
theorem simulate_rows {S : Type} (g : Rng S) (n : Stoch) (start : Int) (runs : Option Nat) (seeds : Nat → S) :
    (n.simulate g start runs seeds).length = runs.getD 25 * 1082 ∧
    (∀ r ∈ n.simulate g start runs seeds, r.run < runs.getD 25 ∧ r.variance = n.covariance ∧
      0 ≤ r.dt ∧ r.dt ≤ 86400000000000 ∧ 60000000000 ∣ r.dt ∧
      ¬(21600000000000 < r.dt ∧ r.dt < 43200000000000)) ∧
    ∀ run < runs.getD 25, ∃ ts : List Int, ts.length = 1082 ∧
      ((n.simulate g start runs seeds).filter fun r => r.run = run).map Row.sample =
        Stoch.history g n ts (seeds run) ∧
      ((n.simulate g start runs seeds).filter fun r => r.run = run).map (fun r => start + r.dt) = ts := by
  unfold Stoch.simulate
  generalize runs.getD 25 = m
  have hlen : ∀ run, (simLoop g start run n (series start) (seeds run)).length = 1082 := by
    intro run
    have := congrArg List.length (simLoop_spec g start run n (series start) (seeds run)).1
    rw [List.length_map, List.length_map, series_filter, List.length_map, series_count] at this
    exact this
  refine ⟨?_, ?_, ?_⟩
  · rw [List.length_flatMap]
    simp [hlen]
  · intro r hr
    obtain ⟨run, h1, h2⟩ := List.mem_flatMap.1 hr
    obtain ⟨s1, s2, s3⟩ := simLoop_spec g start run n (series start) (seeds run)
    obtain ⟨e1, e2⟩ := s3 r h2
    refine ⟨by rw [e1]; exact List.mem_range.1 h1, e2, ?_⟩
    have h3 : r.dt ∈ (simLoop g start run n (series start) (seeds run)).map Row.dt :=
      List.mem_map.2 ⟨r, h2, rfl⟩
    rw [s1, series_filter, List.map_map] at h3
    obtain ⟨d, h4, h5⟩ := List.mem_map.1 h3
    have h6 : r.dt = d := by rw [← h5]; simp
    rw [h6]
    obtain ⟨h7, h8⟩ := List.mem_filter.1 h4
    obtain ⟨k, h9, h10⟩ := List.mem_map.1 h7
    have hk := List.mem_range.1 h9
    have h8 : outsideGap d := by simpa using h8
    subst h10
    refine ⟨by omega, by omega, ⟨k, by ring⟩, ?_⟩
    rintro ⟨a, b⟩
    rcases h8 with h | h <;> omega
  · intro run hrun
    refine ⟨(series start).filter fun t => outsideGap (t - start), ?_, ?_⟩
    · rw [series_filter, List.length_map, series_count]
    · have hf : ((List.range m).flatMap fun r => simLoop g start r n (series start) (seeds r)).filter
          (fun r => r.run = run) = simLoop g start run n (series start) (seeds run) := by
        have key : ∀ l : List Nat, l.Nodup →
            (l.flatMap fun r => simLoop g start r n (series start) (seeds r)).filter (fun r => r.run = run) =
              if run ∈ l then simLoop g start run n (series start) (seeds run) else [] := by
          intro l hl
          induction l with
          | nil => simp
          | cons a l ih =>
            rw [List.nodup_cons] at hl
            rw [List.flatMap_cons, List.filter_append, ih hl.2]
            have hall := (simLoop_spec g start a n (series start) (seeds a)).2.2
            by_cases ha : a = run
            · subst ha
              rw [List.filter_eq_self.2 fun r hr => by simp [(hall r hr).1], if_neg hl.1]
              simp
            · rw [List.filter_eq_nil_iff.2 fun r hr => by simp [(hall r hr).1, ha]]
              have : run ∈ a :: l ↔ run ∈ l := by simp [Ne.symm ha]
              simp [this]
        rw [key _ List.nodup_range, if_pos (List.mem_range.2 hrun)]
      rw [hf]
      obtain ⟨s1, s2, _⟩ := simLoop_spec g start run n (series start) (seeds run)
      refine ⟨s2, ?_⟩
      have : (fun r : Row => start + r.dt) = (start + ·) ∘ Row.dt := rfl
      rw [this, ← List.map_map, s1, List.map_map]
      refine (List.map_congr_left fun t _ => ?_).trans (List.map_id _)
      simp

/-! ### C121: the noise of a link -/

/-- Specification: a power ratio of `db` dB-Hz, in Hz. -/
noncomputable def dbHz (db : ℝ) : ℝ := (10 : ℝ) ^ (db / 10)

/-- C121. The presets of the power to noise ratios have the documented values in dB-Hz. -/
theorem presets :
    (SN0.hz .strong = dbHz 65 ∧ SN0.hz .average = dbHz 50 ∧ SN0.hz .poor = dbHz 40) ∧
    (CN0.hz .strong = dbHz 70 ∧ CN0.hz .average = dbHz 55 ∧ CN0.hz .poor = dbHz 45) ∧
    ∀ v, SN0.hz (.manualDbHz v) = dbHz v ∧ CN0.hz (.manualDbHz v) = dbHz v := by
  simp only [SN0.hz, CN0.hz, dbHz]
  refine ⟨⟨by norm_num, ?_, ?_⟩, ⟨?_, by norm_num, by norm_num⟩, fun v => ⟨trivial, trivial⟩⟩ <;>
  · rw [← Real.rpow_natCast]; norm_num

theorem sn0_pos (s : SN0) : 0 < s.hz := by
  cases s <;> simp only [SN0.hz] <;> positivity

theorem cn0_pos (s : CN0) : 0 < s.hz := by
  cases s <;> simp only [CN0.hz] <;> positivity

/-- C121. The range noise: its variance is the sum of the thermal and of the clock variances; it decreases
when the signal to noise ratio or the chip rate increase and does not decrease when the clock is worse. -/
theorem range_noise (c allan chip : ℝ) (t : Int) (s : SN0) (hc : 0 < c) (ha : 0 ≤ allan) (hchip : 0 < chip)
    (ht : 0 ≤ t) :
    (Stoch.fromRange c allan t chip s).covariance =
      c ^ 2 / (8 * Real.pi ^ 2 * chip ^ 2 * s.hz) + (c * allan * (t / 1000000000)) ^ 2 / 3 ∧
    (∀ s' : SN0, s.hz < s'.hz →
      (Stoch.fromRange c allan t chip s').covariance < (Stoch.fromRange c allan t chip s).covariance) ∧
    (∀ chip', chip < chip' →
      (Stoch.fromRange c allan t chip' s).covariance < (Stoch.fromRange c allan t chip s).covariance) ∧
    (∀ allan', allan ≤ allan' →
      (Stoch.fromRange c allan t chip s).covariance ≤ (Stoch.fromRange c allan' t chip s).covariance) := by
  have key : ∀ (a : ℝ) (k : ℝ) (r : SN0), 0 < k → (Stoch.fromRange c a t k r).covariance =
      c ^ 2 / (8 * Real.pi ^ 2 * k ^ 2 * r.hz) + (c * a * (t / 1000000000)) ^ 2 / 3 := by
    intro a k r hk
    have hr := sn0_pos r
    simp only [Stoch.covariance, Stoch.fromRange, White.covariance, White.constant, Option.elim_some,
      Option.elim_none, seconds]
    rw [Real.sq_sqrt (by positivity), div_pow, div_pow, mul_pow (2 * Real.pi * k), Real.sq_sqrt (by norm_num),
      Real.sq_sqrt (by positivity)]
    have := Real.pi_pos
    field_simp
    ring
  have hs := sn0_pos s
  have hpi := Real.pi_pos
  have ht' : (0 : ℝ) ≤ t := by exact_mod_cast ht
  refine ⟨key _ _ _ hchip, ?_, ?_, ?_⟩
  · intro s' h
    rw [key _ _ _ hchip, key _ _ _ hchip]
    gcongr
  · intro chip' h
    rw [key _ _ _ hchip, key _ _ _ (hchip.trans h)]
    gcongr
  · intro allan' h
    rw [key _ _ _ hchip, key _ _ _ hchip]
    gcongr

/-- C121. The Doppler noise: its variance is the sum of the thermal and of the clock variances; it
decreases when the carrier to noise ratio, the carrier frequency or the integration time increase. -/
theorem doppler_noise (c allan carrier : ℝ) (t : Int) (s : CN0) (hc : 0 < c) (hcar : 0 < carrier)
    (ht : 0 < t) :
    (Stoch.fromDoppler c allan t carrier s).covariance =
      c ^ 2 / (8 * Real.pi ^ 2 * carrier ^ 2 * s.hz * (t / 1000000000)) + (c * allan) ^ 2 ∧
    (∀ s' : CN0, s.hz < s'.hz →
      (Stoch.fromDoppler c allan t carrier s').covariance < (Stoch.fromDoppler c allan t carrier s).covariance) ∧
    (∀ carrier', carrier < carrier' →
      (Stoch.fromDoppler c allan t carrier' s).covariance < (Stoch.fromDoppler c allan t carrier s).covariance) ∧
    (∀ t', t < t' →
      (Stoch.fromDoppler c allan t' carrier s).covariance < (Stoch.fromDoppler c allan t carrier s).covariance) := by
  have key : ∀ (k : ℝ) (u : Int) (r : CN0), 0 < k → 0 < u → (Stoch.fromDoppler c allan u k r).covariance =
      c ^ 2 / (8 * Real.pi ^ 2 * k ^ 2 * r.hz * (u / 1000000000)) + (c * allan) ^ 2 := by
    intro k u r hk hu
    have hr := cn0_pos r
    have hu' : (0 : ℝ) < u := by exact_mod_cast hu
    simp only [Stoch.covariance, Stoch.fromDoppler, White.covariance, White.constant, Option.elim_some,
      Option.elim_none, seconds]
    rw [Real.sq_sqrt (by positivity), div_pow, mul_pow (2 * Real.pi * k), Real.sq_sqrt (by positivity)]
    have := Real.pi_pos
    field_simp
    ring
  have hs := cn0_pos s
  have hpi := Real.pi_pos
  have ht' : (0 : ℝ) < t := by exact_mod_cast ht
  refine ⟨key _ _ _ hcar ht, ?_, ?_, ?_⟩
  · intro s' h
    rw [key _ _ _ hcar ht, key _ _ _ hcar ht]
    gcongr
  · intro carrier' h
    rw [key _ _ _ hcar ht, key _ _ _ (hcar.trans h) ht]
    gcongr
  · intro t' h
    have : (t : ℝ) < t' := by exact_mod_cast h
    rw [key _ _ _ hcar ht, key _ _ _ hcar (ht.trans h)]
    gcongr

/-! ### The hypotheses can be met -/

/-- A bias of 1 with a time constant of a minute, sampled every minute. -/
example {S : Type} (g : Rng S) (s : S) :
    Stoch.history g ⟨none, some ⟨60000000000, 0, none, some 0, some 1⟩⟩ (every 0 60000000000 3) s =
      List.replicate 3 (1 * Real.exp (-((60000000000 : Int) : ℝ) / (60000000000 : Int))) :=
  (gm_never_decays g 60000000000 0 60000000000 1 3 s (by norm_num) (by norm_num) (by norm_num)).1

example : (∃ b, Gm.new 1 (-1) = some b ∧ b.noise < 0) ∧ (White.constant (-1)).sigma < 0 :=
  negative_sigma_accepted (-1) (by norm_num) 1 (by norm_num)

/-- A constant bias is lost by a multiplication by one. -/
example : Stoch.mul ⟨none, some ⟨1, 0, some 5, none, none⟩⟩ 1 ≠ ⟨none, some ⟨1, 0, some 5, none, none⟩⟩ :=
  scaling_loses_offsets.1 _ 5 rfl

/-- The default number of runs. -/
example {S : Type} (g : Rng S) (seeds : Nat → S) :
    (Stoch.simulate g Stoch.defaultRange 0 none seeds).length = 25 * 1082 :=
  (simulate_rows g _ 0 none seeds).1

/-- A strong link is less noisy than an average one. -/
example : (Stoch.fromRange 299792.458 1e-14 60000000000 1e6 .strong).covariance <
    (Stoch.fromRange 299792.458 1e-14 60000000000 1e6 .average).covariance :=
  (range_noise 299792.458 1e-14 1e6 60000000000 .average (by norm_num) (by norm_num) (by norm_num)
    (by norm_num)).2.1 .strong (by
      rw [presets.1.1, presets.1.2.1]
      unfold dbHz
      exact Real.rpow_lt_rpow_of_exponent_lt (by norm_num) (by norm_num))

example : (Stoch.fromDoppler 299792.458 1e-14 120000000000 8.4e9 .strong).covariance <
    (Stoch.fromDoppler 299792.458 1e-14 60000000000 8.4e9 .strong).covariance :=
  (doppler_noise 299792.458 1e-14 8.4e9 60000000000 .strong (by norm_num) (by norm_num)
    (by norm_num)).2.2.2 _ (by norm_num)

end Verif.Noise
