import Verif.Kalman.Snc
/-!
C209: process noise given as a velocity error over a time.
-/
namespace Verif.Kalman
open Matrix
set_option linter.unusedSectionVars false

variable {F Ω : Type} {s : Nat} {dcm : F → Ω → Option (Matrix (Fin 3) (Fin 3) ℝ)}

/-- `ProcessNoise3D::from_velocity_km_s`, od/snc.rs:297-317. -/
noncomputable def fromVelocity (v : Fin 3 → ℝ) (duration disable : Int) (frame : Option F) : Noise F 3 :=
  ⟨none, frame, disable, none, fun i => v i / toSec duration, none, none⟩

/-- The covariances added by successive updates, one per interval of `dts`, from an epoch on; `none` if one of them adds none.
Simplification: the previous epoch stored in the noise by the filter (od/kalman/filtering.rs:96, 312) is left unset; the test made with it is the
one already made with the interval. -/
noncomputable def added (q : Noise F 3) (o : Ω) (s : Nat) (dcm : F → Ω → Option (Matrix (Fin 3) (Fin 3) ℝ)) :
    Int → List Int → Option (Matrix (Fin s) (Fin s) ℝ)
  | _, [] => some 0
  | e, dt :: l => match q.propagate s dcm o (e + dt) dt with
    | .ok (some C) => (added q o s dcm (e + dt) l).map (C + ·)
    | _ => none

theorem fromVelocity_velocity (v : Fin 3 → ℝ) (T disable : Int) (o : Ω) (epoch dt : Int)
    (C : Matrix (Fin s) (Fin s) ℝ)
    (h : (fromVelocity (F := F) v T disable none).propagate s dcm o epoch dt = .ok (some C)) (k : Fin 3)
    (i : Fin s) (hi : i.val = k.val + 3) : C i i = toSec dt ^ 2 * (v k / toSec T) := by
  have hv := process_noise_value (fromVelocity (F := F) v T disable none) o epoch dt C rfl
    (fun i => v i / toSec T) (Or.inl ⟨rfl, fun _ => rfl⟩) h i i
  rw [if_pos rfl] at hv
  have e : (⟨i.val % 3, Nat.mod_lt _ (by omega)⟩ : Fin 3) = k := by
    apply Fin.ext
    show i.val % 3 = k.val
    omega
  rw [e] at hv
  rw [hv]
  have hw : weight (toSec dt) i.val = toSec dt := by
    rw [weight, if_neg (by omega), if_pos (by omega)]
  rw [hw]
  ring

/-- C209 (partial). With the noise built from a velocity error `v` (km/s) over a duration `T`, `n` updates of the filter
spaced by `T / n`, so that the time elapsed is `T`, add in total `v T / n` to the variance of the velocity along the axis (`T` in seconds).
What is missing: that this is the square of the velocity error, see `velocity_noise_square_iff`. -/
theorem velocity_noise_partial (v : Fin 3 → ℝ) (T disable : Int) (hT : 0 < T) (o : Ω) (n : Nat) (dt : Int)
    (hn : n * dt = T) (e : Int) (C : Matrix (Fin s) (Fin s) ℝ)
    (h : added (fromVelocity (F := F) v T disable none) o s dcm e (List.replicate n dt) = some C) (k : Fin 3) (i : Fin s)
    (hi : i.val = k.val + 3) : C i i = v k * toSec T / n := by
  have key : ∀ (n : Nat) (e : Int) (C : Matrix (Fin s) (Fin s) ℝ),
      added (fromVelocity (F := F) v T disable none) o s dcm e (List.replicate n dt) = some C →
      C i i = n * (toSec dt ^ 2 * (v k / toSec T)) := by
    intro n
    induction n with
    | zero => intro e C h; simp only [List.replicate_zero, added, Option.some.injEq] at h; rw [← h]; simp
    | succ n ih =>
      intro e C h
      rw [List.replicate_succ, added] at h
      split at h
      · rename_i C1 h1
        obtain ⟨C2, h2, rfl⟩ := Option.map_eq_some_iff.1 h
        rw [Matrix.add_apply, ih _ _ h2, fromVelocity_velocity v T disable o _ dt C1 h1 k i hi]
        push_cast
        ring
      · cases h
  rw [key n e C h]
  have hn0 : (n : ℝ) ≠ 0 := by
    rintro h0
    have : n = 0 := by exact_mod_cast h0
    subst this
    simp at hn
    omega
  have hTs : toSec T ≠ 0 := by
    unfold toSec
    have : (T : ℝ) ≠ 0 := by exact_mod_cast hT.ne'
    positivity
  have hdt : toSec dt = toSec T / n := by
    rw [eq_div_iff hn0]
    unfold toSec
    rw [← hn]
    push_cast
    ring
  rw [hdt]
  field_simp

/-- C209, refuted. A single update after the duration `T` adds the square of the velocity error only if the error in km/s is the
duration in seconds (or zero). -/
theorem velocity_noise_square_iff (v : Fin 3 → ℝ) (T disable : Int) (hT : 0 < T) (o : Ω) (e : Int)
    (C : Matrix (Fin s) (Fin s) ℝ)
    (h : (fromVelocity (F := F) v T disable none).propagate s dcm o (e + T) T = .ok (some C)) (k : Fin 3) (i : Fin s)
    (hi : i.val = k.val + 3) : C i i = v k ^ 2 ↔ v k = 0 ∨ v k = toSec T := by
  have h1 : added (fromVelocity (F := F) v T disable none) o s dcm e (List.replicate 1 T) = some (C + 0) := by
    rw [List.replicate_one, added, h]
    simp [added]
  have h2 := velocity_noise_partial v T disable hT o 1 T (by simp) e (C + 0) h1 k i hi
  rw [add_zero] at h2
  rw [h2, Nat.cast_one, div_one]
  constructor
  · intro h3
    have : v k * (toSec T - v k) = 0 := by ring_nf; linarith
    rcases mul_eq_zero.1 this with h4 | h4
    · exact Or.inl h4
    · exact Or.inr (by linarith)
  · rintro (h3 | h3) <;> rw [h3] <;> ring

/-- The noise of `fromVelocity` applies, without a local frame, in any interval not longer than the disable time. -/
theorem fromVelocity_applies (v : Fin 3 → ℝ) (T disable : Int) (o : Ω) (e dt : Int) (hd : dt ≤ disable) (hs : 6 ≤ s) :
    ∃ C, (fromVelocity (F := F) v T disable none).propagate s dcm o e dt = .ok (some C) := by
  have hg : ∃ G, gamma s 3 (toSec dt) = .ok G := by
    unfold gamma
    rw [if_pos]
    · exact ⟨_, rfl⟩
    · have hw : gammaWrites 3 =
        [(0, 0, true), (3, 0, false), (1, 1, true), (4, 1, false), (2, 2, true), (5, 2, false)] := by decide
      rw [hw]
      simp only [List.all_cons, List.all_nil, Bool.and_true, Bool.and_eq_true, decide_eq_true_eq]
      omega
  obtain ⟨G, hG⟩ := hg
  have hd : (fromVelocity (F := F) v T disable none).toDiag e = .ok (some fun i => v i / toSec T) := rfl
  refine ⟨G * Matrix.diagonal (fun i => v i / toSec T) * Gᵀ, ?_⟩
  unfold Noise.propagate
  rw [hd, Res.bind_ok]
  show (if dt > disable then Res.ok none else _) = _
  rw [if_neg (by omega), hG]
  rfl

/-- C209, refuted: the noise added over the same time depends on the number of updates. One metre per second over an hour: a single update after
the hour adds 3.6 km²/s² to the variance, sixty updates one minute apart add 0.06 km²/s²; the square of the velocity error is 1e-6 km²/s². -/
theorem velocity_noise_cadence (o : Ω) (i : Fin 9) (hi : i.val = 3) :
    ∃ C1 C60, added (fromVelocity (F := F) (fun _ => 1 / 1000) 3600000000000 7200000000000 none) o 9 dcm 0 [3600000000000] = some C1 ∧
      added (fromVelocity (F := F) (fun _ => 1 / 1000) 3600000000000 7200000000000 none) o 9 dcm 0
        (List.replicate 60 60000000000) = some C60 ∧
      C1 i i = 36 / 10 ∧ C60 i i = 6 / 100 ∧ (1 / 1000 : ℝ) ^ 2 = 1 / 1000000 := by
  have run : ∀ (n : Nat) (dt : Int), dt ≤ 7200000000000 → ∀ e : Int, ∃ C, added (fromVelocity (F := F) (fun _ => 1 / 1000)
      3600000000000 7200000000000 none) o 9 dcm e (List.replicate n dt) = some C := by
    intro n dt hdt
    induction n with
    | zero => exact fun e => ⟨0, rfl⟩
    | succ n ih =>
      intro e
      obtain ⟨C1, h1⟩ := fromVelocity_applies (F := F) (dcm := dcm) (s := 9) (fun _ => (1 / 1000 : ℝ)) 3600000000000
        7200000000000 o (e + dt) dt hdt (by norm_num)
      obtain ⟨C2, h2⟩ := ih (e + dt)
      exact ⟨C1 + C2, by rw [List.replicate_succ, added, h1]; simp only; rw [h2]; rfl⟩
  obtain ⟨C1, h1⟩ := run 1 3600000000000 (by norm_num) 0
  obtain ⟨C2, h2⟩ := run 60 60000000000 (by norm_num) 0
  have v1 := velocity_noise_partial (fun _ => (1 / 1000 : ℝ)) 3600000000000 7200000000000 (by norm_num) o 1 3600000000000
    (by norm_num) 0 C1 h1 0 i hi
  have v2 := velocity_noise_partial (fun _ => (1 / 1000 : ℝ)) 3600000000000 7200000000000 (by norm_num) o 60 60000000000
    (by norm_num) 0 C2 h2 0 i hi
  refine ⟨C1, C2, h1, h2, ?_, ?_, by norm_num⟩
  · rw [v1]; norm_num [toSec]
  · rw [v2]; norm_num [toSec]

/-- The hypotheses of `velocity_noise_square_iff` are met: the noise applies over the hour, and the axis is that of `i`. -/
example (o : Ω) : ∃ C : Matrix (Fin 9) (Fin 9) ℝ, (fromVelocity (F := F) (fun _ => 1 / 1000) 3600000000000 7200000000000 none).propagate 9 dcm o
    (0 + 3600000000000) 3600000000000 = .ok (some C) ∧ C 3 3 ≠ (1 / 1000) ^ 2 := by
  obtain ⟨C, h⟩ := fromVelocity_applies (F := F) (dcm := dcm) (s := 9) (fun _ => (1 / 1000 : ℝ)) 3600000000000
    7200000000000 o (0 + 3600000000000) 3600000000000 (by norm_num) (by norm_num)
  refine ⟨C, h, fun hc => ?_⟩
  have := (velocity_noise_square_iff (fun _ => (1 / 1000 : ℝ)) 3600000000000 7200000000000 (by norm_num) o 0 C h 0 3 rfl).1 hc
  norm_num [toSec] at this

example (dcm : Unit → Unit → Option (Matrix (Fin 3) (Fin 3) ℝ)) := velocity_noise_cadence (dcm := dcm) () 3 rfl

end Verif.Kalman
