import Mathlib.Analysis.SpecialFunctions.Exp
import Mathlib.Analysis.SpecialFunctions.Pow.Real
import Mathlib.Analysis.SpecialFunctions.Trigonometric.Basic
/-!
Model of the noise processes: `nyx-core/src/od/noise/{mod,white,gauss_markov,link_specific}.rs`.

* Epochs and durations are integers (nanoseconds); `f64` is modelled by the real numbers.
* The random number generator is a state `S` with a function `draw` which returns the next standard
  normal value and the next state. `rng.sample(Normal::new(m, s).unwrap())` is `m + s * z`, which is how
  `rand_distr` samples (`Normal::new` refuses only a standard deviation which is not finite, so the
  `unwrap` cannot panic on real numbers).
-/
namespace Verif.Noise

/-- The random number generator: the next standard normal value and the next state
(`rand::Rng` with `rand_distr::StandardNormal`, external). -/
structure Rng (S : Type) where
  draw : S → ℝ × S

/-- `WhiteNoise`, white.rs:37-42. -/
@[ext] structure White where
  mean : ℝ
  sigma : ℝ

/-- `GaussMarkov`, gauss_markov.rs:52-64. -/
@[ext] structure Gm where
  tau : Int
  noise : ℝ
  const : Option ℝ
  prev : Option Int
  init : Option ℝ

/-- `StochasticNoise`, od/noise/mod.rs:68-71. -/
@[ext] structure Stoch where
  white : Option White
  bias : Option Gm

/-- `Duration::to_seconds` (hifitime). -/
noncomputable def seconds (d : Int) : ℝ := (d : ℝ) / 1000000000

/-- `Duration::MAX` (hifitime): 32768 centuries. -/
def durMax : Int := 32768 * 3155760000000000000

/-! ### White noise -/

/-- `WhiteNoise::new`, white.rs:47-62. The sign bit of zero is not modelled: `is_sign_negative` is `< 0`. -/
noncomputable def White.new (p : ℝ) (t : Int) : Option White :=
  if p < 0 then none
  else if seconds t ≤ 0 then none
  else some ⟨0, p / seconds t⟩

/-- `WhiteNoise::constant_white_noise`, white.rs:66-71. -/
def White.constant (p : ℝ) : White := ⟨0, p⟩

/-- `WhiteNoise::from_pr_n0`, white.rs:80-85, `c` is the speed of light in km/s. -/
noncomputable def White.fromPrN0 (c prN0 bandwidth : ℝ) : White :=
  ⟨0, c / (2 * bandwidth * Real.sqrt prN0)⟩

/-- `Stochastics::covariance` for `WhiteNoise`, white.rs:106-108. -/
def White.covariance (w : White) : ℝ := w.sigma ^ 2

/-- `Stochastics::sample` for `WhiteNoise`, white.rs:110-112. -/
def White.sample {S : Type} (g : Rng S) (w : White) (s : S) : ℝ × S :=
  (w.mean + w.sigma * (g.draw s).1, (g.draw s).2)

/-- `Mul<f64>` for `WhiteNoise`, white.rs:119-122. -/
def White.mul (w : White) (k : ℝ) : White := ⟨w.mean, w.sigma * k⟩

/-! ### Gauss-Markov process -/

/-- `GaussMarkov::new`, gauss_markov.rs:81-95. -/
def Gm.new (tau : Int) (p : ℝ) : Option Gm :=
  if tau ≤ 0 then none else some ⟨tau, p, none, none, none⟩

/-- `GaussMarkov::ZERO`, gauss_markov.rs:98-104. -/
def Gm.zero : Gm := ⟨durMax, 0, none, none, none⟩

/-- `GaussMarkov::default_range_km`, gauss_markov.rs:108-116. -/
noncomputable def Gm.defaultRange : Gm := ⟨60000000000, 60 / 100000, none, none, none⟩

/-- `Stochastics::covariance` for `GaussMarkov`, gauss_markov.rs:132-134. -/
def Gm.covariance (b : Gm) : ℝ := b.noise ^ 2

/-- The time since the previous sample, gauss_markov.rs:139-143. -/
noncomputable def Gm.dt (b : Gm) (t : Int) : ℝ := seconds (b.prev.elim 0 fun p => t - p)

/-- The initial sample, drawn when there is none, gauss_markov.rs:147-149. -/
def Gm.start {S : Type} (g : Rng S) (b : Gm) (s : S) : ℝ × S :=
  b.init.elim (b.noise * (g.draw s).1, (g.draw s).2) fun v => (v, s)

/-- `decay`, gauss_markov.rs:151. -/
noncomputable def Gm.decay (b : Gm) (t : Int) : ℝ := Real.exp (-(b.dt t) / seconds b.tau)

/-- `steady_noise`, gauss_markov.rs:152-155. -/
noncomputable def Gm.steady (b : Gm) (t : Int) : ℝ := 0.5 * b.noise * seconds b.tau * (1 - b.decay t)

/-- `Stochastics::sample` for `GaussMarkov`, gauss_markov.rs:137-159: the value, the process and the
generator after it. -/
noncomputable def Gm.sample {S : Type} (g : Rng S) (b : Gm) (t : Int) (s : S) : ℝ × Gm × S :=
  ((b.start g s).1 * b.decay t + b.steady t * (g.draw (b.start g s).2).1 + b.const.getD 0,
   ⟨b.tau, b.noise, b.const, some t, some (b.start g s).1⟩,
   (g.draw (b.start g s).2).2)

/-- `Mul<f64>` for `GaussMarkov`, gauss_markov.rs:166-172. -/
def Gm.mul (b : Gm) (k : ℝ) : Gm := ⟨b.tau, b.noise * k, none, none, none⟩

/-! ### Stochastic noise -/

/-- `StochasticNoise::ZERO`, od/noise/mod.rs:75-78. -/
def Stoch.zero : Stoch := ⟨none, none⟩

/-- `StochasticNoise::default_range_km`, od/noise/mod.rs:91-101. -/
noncomputable def Stoch.defaultRange : Stoch := ⟨some ⟨0, 2 / 1000⟩, none⟩

/-- The white part of `StochasticNoise::sample`, od/noise/mod.rs:133-135. -/
def Stoch.whitePart {S : Type} (g : Rng S) (n : Stoch) (s : S) : ℝ × S :=
  n.white.elim (0, s) fun w => w.sample g s

/-- The bias part of `StochasticNoise::sample`, od/noise/mod.rs:136-138. -/
noncomputable def Stoch.biasPart {S : Type} (g : Rng S) (n : Stoch) (t : Int) (s : S) :
    ℝ × Option Gm × S :=
  n.bias.elim (0, none, s) fun b => ((b.sample g t s).1, some (b.sample g t s).2.1, (b.sample g t s).2.2)

/-- `StochasticNoise::sample`, od/noise/mod.rs:131-140. -/
noncomputable def Stoch.sample {S : Type} (g : Rng S) (n : Stoch) (t : Int) (s : S) : ℝ × Stoch × S :=
  (0 + (n.whitePart g s).1 + (n.biasPart g t (n.whitePart g s).2).1,
   ⟨n.white, (n.biasPart g t (n.whitePart g s).2).2.1⟩,
   (n.biasPart g t (n.whitePart g s).2).2.2)

/-- `StochasticNoise::covariance`, od/noise/mod.rs:276-285. -/
def Stoch.covariance (n : Stoch) : ℝ :=
  0 + n.white.elim 0 White.covariance + n.bias.elim 0 Gm.covariance

/-- `Mul<f64>` for `StochasticNoise`, od/noise/mod.rs:384-393. -/
def Stoch.mul (n : Stoch) (k : ℝ) : Stoch := ⟨n.white.map fun w => w.mul k, n.bias.map fun b => b.mul k⟩

/-- The samples of a process at successive epochs. -/
noncomputable def Stoch.history {S : Type} (g : Rng S) : Stoch → List Int → S → List ℝ
  | _, [], _ => []
  | n, t :: ts, s => (n.sample g t s).1 :: Stoch.history g (n.sample g t s).2.1 ts (n.sample g t s).2.2

/-! ### The diagnostic simulation -/

/-- A row of the simulation, `StochasticState`, od/noise/mod.rs:439-444 (`dt` in nanoseconds). -/
structure Row where
  run : Nat
  dt : Int
  sample : ℝ
  variance : ℝ

/-- `TimeSeries::inclusive(start, end, step)` with `end = start + 24 h`, `step = 1 min`
(hifitime): the epochs `start + k step` up to the end, included; od/noise/mod.rs:169,179. -/
def series (start : Int) : List Int := (List.range 1441).map fun k : Nat => start + (k : Int) * 60000000000

/-- The epochs skipped, od/noise/mod.rs:180-183. -/
def skipped (start t : Int) : Bool := t > start + 6 * 3600000000000 && t < start + 12 * 3600000000000

/-- The loop over the epochs, od/noise/mod.rs:179-192. -/
noncomputable def simLoop {S : Type} (g : Rng S) (start : Int) (run : Nat) :
    Stoch → List Int → S → List Row
  | _, [], _ => []
  | n, t :: ts, s =>
    if skipped start t then simLoop g start run n ts s
    else ⟨run, t - start, (n.sample g t s).1, n.covariance⟩ ::
      simLoop g start run (n.sample g t s).2.1 ts (n.sample g t s).2.2

/-- `StochasticNoise::simulate`, od/noise/mod.rs:166-193 and 233. `start` is the time of the call, `seeds` the
generators of the runs (system entropy in the code). The Parquet file (od/noise/mod.rs:195-231) is not modelled. -/
noncomputable def Stoch.simulate {S : Type} (g : Rng S) (n : Stoch) (start : Int) (runs : Option Nat)
    (seeds : Nat → S) : List Row :=
  (List.range (runs.getD 25)).flatMap fun run => simLoop g start run n (series start) (seeds run)

/-! ### Noise of a link -/

/-- `SN0`, link_specific.rs:40-49. -/
inductive SN0 where
  | strong | average | poor
  | manualDbHz (v : ℝ)

/-- `SN0::value_hz`, link_specific.rs:53-60. -/
noncomputable def SN0.hz : SN0 → ℝ
  | .strong => (10 : ℝ) ^ (6.5 : ℝ)
  | .average => (10 : ℝ) ^ 5
  | .poor => (10 : ℝ) ^ 4
  | .manualDbHz v => (10 : ℝ) ^ (v / 10)

/-- `CN0`, link_specific.rs:80-89. -/
inductive CN0 where
  | strong | average | poor
  | manualDbHz (v : ℝ)

/-- `CN0::value_hz`, link_specific.rs:99-106. -/
noncomputable def CN0.hz : CN0 → ℝ
  | .strong => (10 : ℝ) ^ 7
  | .average => (10 : ℝ) ^ (5.5 : ℝ)
  | .poor => (10 : ℝ) ^ (4.5 : ℝ)
  | .manualDbHz v => (10 : ℝ) ^ (v / 10)

/-- `StochasticNoise::from_hardware_range_km`, link_specific.rs:179-199. The chip rate is given by its
value (`ChipRate::value_chip_s`, a table), `c` is the speed of light in km/s. -/
noncomputable def Stoch.fromRange (c allan : ℝ) (t : Int) (chip : ℝ) (sn0 : SN0) : Stoch :=
  ⟨some (White.constant (Real.sqrt
    ((c * allan * seconds t / Real.sqrt 3) ^ 2 +
     (c / (2 * Real.pi * chip * Real.sqrt (2 * sn0.hz))) ^ 2))), none⟩

/-- `StochasticNoise::from_hardware_doppler_km_s`, link_specific.rs:201-222. The carrier is given by its
frequency (`CarrierFreq::value_hz`, a table). -/
noncomputable def Stoch.fromDoppler (c allan : ℝ) (t : Int) (carrier : ℝ) (cn0 : CN0) : Stoch :=
  ⟨some (White.constant (Real.sqrt
    ((c * allan) ^ 2 +
     (c / (2 * Real.pi * carrier * Real.sqrt (2 * cn0.hz * seconds t))) ^ 2))), none⟩

end Verif.Noise
