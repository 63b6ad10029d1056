import Verif.BPlane.Model
import Verif.MathU.Vectors

/-!
The components of the B-plane as functions of the position and velocity, and the hyperdual numbers that track them.
-/
namespace Verif.BPlane
open Verif.MathU Matrix
open Verif.Mc (Out orErr unwrap)
open Verif.Force (Dual M3 Tracks lin lin_apply)

/-- Position of a state. -/
def pos (x : Fin 6 → ℝ) : V3 := ![x 0, x 1, x 2]
/-- Velocity of a state. -/
def vel (x : Fin 6 → ℝ) : V3 := ![x 3, x 4, x 5]

noncomputable def hF (x : Fin 6 → ℝ) : V3 := pos x ⨯₃ vel x
noncomputable def eF (mu : ℝ) (x : Fin 6 → ℝ) : V3 := fun i =>
  ((nrm (vel x) ^ 2 - mu / nrm (pos x)) * pos x i - (pos x ⬝ᵥ vel x) * vel x i) / mu
noncomputable def eccF (mu : ℝ) (x : Fin 6 → ℝ) : ℝ := nrm (eF mu x)
noncomputable def eHatF (mu : ℝ) (x : Fin 6 → ℝ) : V3 := fun i => eF mu x i / eccF mu x
noncomputable def hHatF (x : Fin 6 → ℝ) : V3 := fun i => hF x i / nrm (hF x)
noncomputable def nHatF (mu : ℝ) (x : Fin 6 → ℝ) : V3 := hHatF x ⨯₃ eHatF mu x
noncomputable def factF (mu : ℝ) (x : Fin 6 → ℝ) : ℝ := Real.sqrt (1 - (1 / eccF mu x) ^ 2)
noncomputable def sF (mu : ℝ) (x : Fin 6 → ℝ) : V3 := fun i => eHatF mu x i / eccF mu x + factF mu x * nHatF mu x i
noncomputable def sHatF (mu : ℝ) (x : Fin 6 → ℝ) : V3 := fun i => sF mu x i / nrm (sF mu x)
noncomputable def semiF (mu : ℝ) (x : Fin 6 → ℝ) : ℝ := nrm (hF x) ^ 2 / (mu * Real.sqrt (eccF mu x ^ 2 - 1))
noncomputable def bF (mu : ℝ) (x : Fin 6 → ℝ) : V3 := fun i => semiF mu x * (factF mu x * eHatF mu x i - (1 / eccF mu x) * nHatF mu x i)
noncomputable def tF (mu : ℝ) (x : Fin 6 → ℝ) : V3 := sHatF mu x ⨯₃ ![0, 0, 1]
noncomputable def tHatF (mu : ℝ) (x : Fin 6 → ℝ) : V3 := fun i => tF mu x i / nrm (tF mu x)
noncomputable def rHatF (mu : ℝ) (x : Fin 6 → ℝ) : V3 := sHatF mu x ⨯₃ tHatF mu x

section
variable {n : ℕ} {x : Fin n → ℝ}

/-- Specification: a vector of hyperdual numbers tracks the components of a function. -/
def TracksV (x : Fin n → ℝ) (F : (Fin n → ℝ) → V3) (v : Fin 3 → Dual n) : Prop := ∀ i, Tracks x (fun y => F y i) (v i)

theorem TracksV.cross {F G : (Fin n → ℝ) → V3} {a b : Fin 3 → Dual n} (ha : TracksV x F a) (hb : TracksV x G b) :
    TracksV x (fun y => F y ⨯₃ G y) (dcross a b) := by
  intro i
  fin_cases i
  · exact (((ha 1).mul (hb 2)).sub ((ha 2).mul (hb 1))).congr fun y => (cross0 _ _).symm
  · exact (((ha 2).mul (hb 0)).sub ((ha 0).mul (hb 2))).congr fun y => (cross1 _ _).symm
  · exact (((ha 0).mul (hb 1)).sub ((ha 1).mul (hb 0))).congr fun y => (cross2 _ _).symm

theorem TracksV.dot {F G : (Fin n → ℝ) → V3} {a b : Fin 3 → Dual n} (ha : TracksV x F a) (hb : TracksV x G b) :
    Tracks x (fun y => F y ⬝ᵥ G y) (ddot a b) :=
  ((((ha 0).mul (hb 0)).add ((ha 1).mul (hb 1))).add ((ha 2).mul (hb 2))).congr fun _ => (dot3 _ _).symm

theorem TracksV.divs {F : (Fin n → ℝ) → V3} {g : (Fin n → ℝ) → ℝ} {a : Fin 3 → Dual n} {b : Dual n} (ha : TracksV x F a) (hb : Tracks x g b)
    (h0 : g x ≠ 0) : TracksV x (fun y i => F y i / g y) (fun i => a i / b) := fun i => (ha i).div hb h0

end

theorem pos_tracks (x : Fin 6 → ℝ) : TracksV x pos ![Dual.vars x 0, Dual.vars x 1, Dual.vars x 2] := by
  intro i
  fin_cases i
  · exact Tracks.var 0
  · exact Tracks.var 1
  · exact Tracks.var 2

theorem vel_tracks (x : Fin 6 → ℝ) : TracksV x vel ![Dual.vars x 3, Dual.vars x 4, Dual.vars x 5] := by
  intro i
  fin_cases i
  · exact Tracks.var 3
  · exact Tracks.var 4
  · exact Tracks.var 5

theorem pos_stack (p v : V3) : pos (Force.stack p v) = p := by
  funext i; fin_cases i <;> rfl

theorem vel_stack (p v : V3) : vel (Force.stack p v) = v := by
  funext i; fin_cases i <;> rfl

theorem stack_pos_vel (x : Fin 6 → ℝ) : Force.stack (pos x) (vel x) = x := by
  funext i; fin_cases i <;> rfl

/-- What a gradient of an orbit has to track for the plane to be exact. -/
structure GradTracks (mu : ℝ) (x : Fin 6 → ℝ) (g : Grad) : Prop where
  evec : TracksV x (eF mu) g.evec
  ecc : Tracks x (eccF mu) g.ecc
  hvec : TracksV x hF g.hvec
  hmag : Tracks x (fun y => nrm (hF y)) g.hmag
  semi : Tracks x (semiF mu) g.semiMinor
  vmag : Tracks x (fun y => nrm (vel y)) g.vmag

theorem grad_tracks (mu : ℝ) (x : Fin 6 → ℝ) (hmu : mu ≠ 0) (hp : pos x ≠ 0) (hv : vel x ≠ 0) (hh : hF x ≠ 0) (he : 1 < eccF mu x) :
    GradTracks mu x (grad mu (pos x) (vel x)) := by
  have hr := pos_tracks x
  have hw := vel_tracks x
  have c0 := fun c : ℝ => Tracks.ofReal (x := x) c
  have h1 := hr.cross hw
  have h2 : TracksV x (eF mu) (grad mu (pos x) (vel x)).evec := by
    intro i
    unfold grad
    rw [stack_pos_vel]
    exact (((((Tracks.norm3 hw hv).powi 2).sub ((c0 mu).div (Tracks.norm3 hr hp) (nrm_pos _ hp).ne')).mul (hr i)).sub ((hr.dot hw).mul (hw i))).div (c0 mu) hmu
  have he0 : eF mu x ≠ 0 := by
    intro h
    unfold eccF at he
    rw [h] at he
    simp [nrm] at he
    linarith
  have h3 : Tracks x (eccF mu) (grad mu (pos x) (vel x)).ecc := Tracks.norm3 h2 he0
  have h4 : Tracks x (fun y => nrm (hF y)) (grad mu (pos x) (vel x)).hmag := by
    unfold grad
    rw [stack_pos_vel]
    exact Tracks.norm3 h1 hh
  have h5 : eccF mu x ^ 2 - 1 ≠ 0 := by nlinarith
  refine ⟨h2, h3, ?_, h4, ?_, ?_⟩
  · unfold grad
    rw [stack_pos_vel]
    exact h1
  · refine (h4.powi 2).div ((c0 mu).mul (((h3.powi 2).sub (c0 1)).sqrt h5)) (mul_ne_zero hmu ?_)
    refine (Real.sqrt_pos.mpr ?_).ne'
    nlinarith
  · unfold grad
    rw [stack_pos_vel]
    exact Tracks.norm3 hw hv

/-! ### Geometry -/

/-- The angular momentum and the excentricity vector are orthogonal. -/
theorem h_dot_e (mu : ℝ) (x : Fin 6 → ℝ) : hF x ⬝ᵥ eF mu x = 0 := by
  simp only [dot3, hF, cross0, cross1, cross2, eF]
  ring

/-- The eccentricity by the energy and the angular momentum. -/
theorem ecc_energy (mu : ℝ) (x : Fin 6 → ℝ) (hmu : mu ≠ 0) (hp : pos x ≠ 0) :
    eccF mu x ^ 2 - 1 = (nrm (vel x) ^ 2 - 2 * mu / nrm (pos x)) * nrm (hF x) ^ 2 / mu ^ 2 := by
  have hr := (nrm_pos _ hp).ne'
  have e1 : eccF mu x ^ 2 = eF mu x ⬝ᵥ eF mu x := by rw [← nrm_sq, eccF, sq]
  have e2 : nrm (hF x) ^ 2 = hF x ⬝ᵥ hF x := by rw [← nrm_sq, sq]
  have e3 : nrm (pos x) ^ 2 = pos x ⬝ᵥ pos x := by rw [← nrm_sq, sq]
  have e4 : nrm (vel x) ^ 2 = vel x ⬝ᵥ vel x := by rw [← nrm_sq, sq]
  have l : hF x ⬝ᵥ hF x = (pos x ⬝ᵥ pos x) * (vel x ⬝ᵥ vel x) - (pos x ⬝ᵥ vel x) ^ 2 := by
    simp only [dot3, hF, cross0, cross1, cross2]
    ring
  have k : eF mu x ⬝ᵥ eF mu x = ((nrm (vel x) ^ 2 - mu / nrm (pos x)) ^ 2 * (pos x ⬝ᵥ pos x) -
      2 * (nrm (vel x) ^ 2 - mu / nrm (pos x)) * (pos x ⬝ᵥ vel x) ^ 2 + (pos x ⬝ᵥ vel x) ^ 2 * (vel x ⬝ᵥ vel x)) / mu ^ 2 := by
    simp only [dot3, eF]
    ring
  rw [e1, k, e2, l, ← e3, ← e4]
  field_simp
  ring

end Verif.BPlane
