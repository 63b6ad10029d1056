import Verif.Kalman.Velocity
/-!
C229: process noise given as accelerations in the Python interface, `ProcessNoise.from_accel_m_s2`
(nyx-py/src/py_od.rs:79-105).
-/
namespace Verif.Py
open Verif.Kalman Matrix

variable {F Ω : Type} {s : Nat} {dcm : F → Ω → Option (Matrix (Fin 3) (Fin 3) ℝ)}

/-- `ProcessNoise::from_diagonal`. nyx-core/src/od/snc.rs:111-136. -/
def fromDiagonal (disable : Int) (frame : Option F) (values : Fin 3 → ℝ) : Noise F 3 :=
  ⟨none, frame, disable, none, values, none, none⟩

/-- `from_accel_m_s2`: the decays not given are zero if one is given. nyx-py/src/py_od.rs:79-105. -/
noncomputable def fromAccel (a : Fin 3 → ℝ) (disable : Int) (frame : Option F) (decay : Fin 3 → Option ℝ) : Noise F 3 :=
  let inner := fromDiagonal disable frame fun i => a i * (1 / 1000)
  if (decay 0).isSome ∨ (decay 1).isSome ∨ (decay 2).isSome then
    { inner with decay := some fun i => (decay i).getD 0 }
  else inner

/-- Time constant of an axis at an epoch: the factor of its noise. -/
noncomputable def decayed (decay : Fin 3 → Option ℝ) (e0 epoch : Int) (k : Fin 3) : ℝ :=
  match decay k with
  | none => 1
  | some d => Real.exp (-(d * (((epoch - e0 : Int) : ℝ) / 1000000000)))

/-- **C229 (partial).** With the accelerations `a` (m/s²) along inertial axes, an update of the filter after `dt` adds
`(a / 1000) dt²` to the variance (km²/s²) of the velocity along the axis, `(a / 1000) dt⁴ / 4` to that of the position
and `(a / 1000) dt³ / 2` to the covariance of both, and nothing between different axes; with decays, the noise of an axis with a decay `d`
is multiplied by `exp(-d t)`, `t` the time since the start of the filter, and that of an axis without decay is not.
Missing: that it is the effect of an acceleration of that size, `((a / 1000) dt)²`. -/
theorem accel_noise_partial (a : Fin 3 → ℝ) (disable : Int) (decay : Fin 3 → Option ℝ) (e0 : Int) (o : Ω) (epoch dt : Int)
    (C : Matrix (Fin s) (Fin s) ℝ)
    (h : { fromAccel (F := F) a disable none decay with initEpoch := some e0 }.propagate s dcm o epoch dt = .ok (some C))
    (k : Fin 3) (i j : Fin s) (hi : i.val = k.val) (hj : j.val = k.val + 3) :
    C j j = a k / 1000 * decayed decay e0 epoch k * toSec dt ^ 2 ∧
    C i i = a k / 1000 * decayed decay e0 epoch k * toSec dt ^ 4 / 4 ∧
    C i j = a k / 1000 * decayed decay e0 epoch k * toSec dt ^ 3 / 2 ∧
    ∀ r : Fin s, r.val % 3 ≠ k.val → C i r = 0 ∧ C j r = 0 := by
  have hv := process_noise_value { fromAccel (F := F) a disable none decay with initEpoch := some e0 } o epoch dt C
    (by unfold fromAccel; simp only; split <;> rfl)
    (fun k => a k * (1 / 1000) * decayed decay e0 epoch k) ?_ h
  · have ek : ∀ r : Fin s, r.val % 3 = k.val → (⟨r.val % 3, Nat.mod_lt _ (by omega)⟩ : Fin 3) = k := fun r hr => Fin.ext hr
    have wi : weight (toSec dt) i.val = toSec dt ^ 2 / 2 := by rw [weight, if_pos (by omega)]
    have wj : weight (toSec dt) j.val = toSec dt := by rw [weight, if_neg (by omega), if_pos (by omega)]
    have hkl : k.val < 3 := k.isLt
    refine ⟨?_, ?_, ?_, fun r hr => ⟨?_, ?_⟩⟩
    · rw [hv, if_pos rfl, ek j (by omega), wj]; ring
    · rw [hv, if_pos rfl, ek i (by omega), wi]; ring
    · rw [hv, if_pos (by omega), ek i (by omega), wi, wj]; ring
    · rw [hv, if_neg (by omega)]
    · rw [hv, if_neg (by omega)]
  · by_cases hd : (decay 0).isSome ∨ (decay 1).isSome ∨ (decay 2).isSome
    · right
      refine ⟨fun i => (decay i).getD 0, e0, ?_, rfl, fun k => ?_⟩
      · simp [fromAccel, hd]
      · have e1 : (fromAccel (F := F) a disable none decay).diag k = a k * (1 / 1000) := by
          unfold fromAccel
          simp only
          split <;> rfl
        show a k * (1 / 1000) * decayed decay e0 epoch k = (fromAccel (F := F) a disable none decay).diag k * _
        rw [e1]
        congr 1
        unfold decayed
        show _ = Real.exp (-((decay k).getD 0 * _))
        cases hk : decay k <;> simp
    · left
      refine ⟨by simp [fromAccel, hd, fromDiagonal], fun k => ?_⟩
      have hk : decay k = none := by
        simp only [not_or, Option.not_isSome_iff_eq_none] at hd
        fin_cases k
        · exact hd.1
        · exact hd.2.1
        · exact hd.2.2
      simp [fromAccel, hd, fromDiagonal, decayed, hk]

/-- **C229 refuted.** Without decay, an update after a time that is not zero adds the variance of the velocity error caused by
an acceleration of the given size only for an acceleration of 0 or of 1000 m/s². -/
theorem accel_noise_square_iff (a : Fin 3 → ℝ) (disable : Int) (o : Ω) (epoch dt : Int) (hdt : dt ≠ 0)
    (C : Matrix (Fin s) (Fin s) ℝ)
    (h : { fromAccel (F := F) a disable none (fun _ => none) with initEpoch := some epoch }.propagate s dcm o epoch dt = .ok (some C))
    (k : Fin 3) (i j : Fin s) (hi : i.val = k.val) (hj : j.val = k.val + 3) :
    C j j = (a k / 1000 * toSec dt) ^ 2 ↔ a k = 0 ∨ a k = 1000 := by
  have hv := (accel_noise_partial a disable (fun _ => none) epoch o epoch dt C h k i j hi hj).1
  rw [hv]
  have ht : toSec dt ≠ 0 := by
    unfold toSec
    have : (dt : ℝ) ≠ 0 := by exact_mod_cast hdt
    positivity
  simp only [decayed, mul_one]
  constructor
  · intro h
    have h1 : a k / 1000 * (a k / 1000 - 1) * toSec dt ^ 2 = 0 := by ring_nf at h ⊢; linarith
    rcases mul_eq_zero.1 h1 with h2 | h2
    · rcases mul_eq_zero.1 h2 with h3 | h3
      · left; linarith
      · right; linarith
    · exact absurd h2 (pow_ne_zero _ ht)
  · rintro (h | h) <;> rw [h] <;> ring

/-- A noise of 1 mm/s², an update after one second: the added variance of the velocity is that of 1 m/s, not of 1 mm/s. -/
example : ∃ C : Matrix (Fin 9) (Fin 9) ℝ,
    { fromAccel (F := Unit) (fun _ => 1 / 1000) 60000000000 none (fun _ => none) with initEpoch := some 0 }.propagate 9
      (fun _ (_ : Unit) => none) () 1000000000 1000000000 = .ok (some C) ∧
    C 3 3 = (1 / 1000) ^ 2 ∧ (1 / 1000) ^ 2 ≠ ((1 / 1000 : ℝ) / 1000 * 1) ^ 2 := by
  obtain ⟨C, h⟩ := fromVelocity_applies (F := Unit) (Ω := Unit) (dcm := fun _ _ => none) (s := 9)
    (fun _ => (1 / 1000 : ℝ) * (1 / 1000)) 1000000000 60000000000 () 1000000000 1000000000 (by norm_num) (by norm_num)
  have e : (fromVelocity (F := Unit) (fun _ => (1 / 1000 : ℝ) * (1 / 1000)) 1000000000 60000000000 none).propagate 9
      (fun _ (_ : Unit) => none) () 1000000000 1000000000 =
      { fromAccel (F := Unit) (fun _ => 1 / 1000) 60000000000 none (fun _ => none) with initEpoch := some 0 }.propagate 9
      (fun _ (_ : Unit) => none) () 1000000000 1000000000 := by
    simp [Noise.propagate, Noise.toDiag, Noise.applies, fromVelocity, fromAccel, fromDiagonal, toSec]
  rw [e] at h
  refine ⟨C, h, ?_, by norm_num⟩
  rw [(accel_noise_partial (fun _ => 1 / 1000) 60000000000 (fun _ => none) 0 () 1000000000 1000000000 C h 0 0 3 rfl rfl).1]
  norm_num [decayed, toSec]

end Verif.Py
