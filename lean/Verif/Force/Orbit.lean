import Verif.Force.Model
import Verif.MathU.Vectors
import Mathlib.Analysis.Calculus.FDeriv.Add
import Mathlib.Analysis.Calculus.FDeriv.Comp

/-!
The equations of motion of an orbit and their gradient (C158, C159).
-/
namespace Verif.Force
open Verif.MathU Matrix
variable {Fr : Type}

/-- The orbit `o` with another position and velocity. -/
def Orb.at (o : Orb Fr) (x : Fin 6 → ℝ) : Orb Fr := ⟨o.frame, o.epoch, ![x 0, x 1, x 2], ![x 3, x 4, x 5]⟩

/-- The same derivative written in another way. -/
theorem hdf {n : ℕ} {f : (Fin n → ℝ) → ℝ} {L L' : (Fin n → ℝ) →L[ℝ] ℝ} {x : Fin n → ℝ} (h : HasFDerivAt f L x)
    (e : L = L') : HasFDerivAt f L' x := e ▸ h

/-- The first three components. -/
def posPart (x : Fin 6 → ℝ) : V3 := ![x 0, x 1, x 2]

/-- Specification of an acceleration model with exact partials at `o`: around `o` the acceleration is a function of
the position alone and the gradient is its derivative. -/
def Exact (m : AModel Fr) (o : Orb Fr) : Prop :=
  ∃ F : V3 → V3, (∀ᶠ x in nhds (stack o.pos o.vel), m.eom (o.at x) = some (F (posPart x))) ∧
    ∃ G, m.gradient o = some (F o.pos, G) ∧ HasFDerivAt F (linM G) o.pos

theorem at_stack (o : Orb Fr) : o.at (stack o.pos o.vel) = o := by
  cases o with
  | mk f e p v =>
    simp only [Orb.at, stack]
    congr 1
    · funext i; fin_cases i <;> rfl
    · funext i; fin_cases i <;> rfl

theorem posPart_stack (p v : V3) : posPart (stack p v) = p := by
  funext i; fin_cases i <;> rfl

/-- The matrix of the projection on the position. -/
def Ppos : Matrix (Fin 3) (Fin 6) ℝ := of fun i j => if j.val = i.val then 1 else 0

theorem posPart_deriv (x : Fin 6 → ℝ) : HasFDerivAt posPart (linM Ppos) x := by
  refine hasFDerivAt_pi.mpr fun i => ?_
  have h := hasFDerivAt_apply (𝕜 := ℝ) (Fin.castLE (by omega) i : Fin 6) x
  have e : (ContinuousLinearMap.proj (Fin.castLE (by omega) i : Fin 6) : (Fin 6 → ℝ) →L[ℝ] ℝ) = lin (Ppos i) :=
    lin_congr fun v => by
      simp only [Ppos, dotProduct, of_apply]
      fin_cases i <;> simp [Fin.sum_univ_succ]
  rw [e] at h
  refine h.congr_of_eventuallyEq (Filter.Eventually.of_forall fun y => ?_)
  fin_cases i <;> rfl

/-- The acceleration of the central body. -/
noncomputable def central (mu : ℝ) (p : V3) : V3 := (-mu / nrm p ^ 3) • p

theorem central_tracks (mu : ℝ) (x : Fin 6 → ℝ) (h0 : posPart x ≠ 0) (i : Fin 3) :
    Tracks x (fun y => central mu (posPart y) i) (bodyAccD mu x i) := by
  have hv : ∀ k : Fin 3, Tracks x (fun y => posPart y k) ((![Dual.vars x 0, Dual.vars x 1, Dual.vars x 2] : Fin 3 → Dual 6) k) := by
    intro k
    fin_cases k
    · exact Tracks.var (x := x) 0
    · exact Tracks.var (x := x) 1
    · exact Tracks.var (x := x) 2
  have hn := (Tracks.norm3 hv h0).powi 3
  have hne : nrm (posPart x) ^ 3 ≠ 0 := pow_ne_zero _ (nrm_pos _ h0).ne'
  refine ((hv i).mul ((Tracks.ofReal (-mu)).div hn hne)).congr fun y => ?_
  simp only [central, Pi.smul_apply, smul_eq_mul]
  ring

/-- Partials with respect to the position, with zeros for the velocity. -/
def wide (G : M3) : Matrix (Fin 3) (Fin 6) ℝ := of fun i j => if hj : j.val < 3 then G i ⟨j, hj⟩ else 0

theorem wide_mulVec (G : M3) (v : Fin 6 → ℝ) : wide G *ᵥ v = G *ᵥ (Ppos *ᵥ v) := by
  have h : Ppos *ᵥ v = ![v 0, v 1, v 2] := by
    funext i
    fin_cases i <;> simp [Ppos, mulVec, dotProduct, Fin.sum_univ_succ]
  rw [h]
  funext i
  simp [wide, mulVec, dotProduct, Fin.sum_univ_succ]

theorem addModels_exact (ms : List (AModel Fr)) (o : Orb Fr) (hm : ∀ m ∈ ms, Exact m o) :
    ∃ S : V3 → V3, (∀ᶠ x in nhds (stack o.pos o.vel), ∀ a, addModels ms (o.at x) a = some (a + S (posPart x))) ∧
      ∃ GS : M3, HasFDerivAt S (linM GS) o.pos ∧
        ∀ a g, addGradients ms o (a, g) = some (a + S o.pos, g + wide GS) := by
  induction ms with
  | nil =>
    refine ⟨fun _ => 0, Filter.Eventually.of_forall fun x a => by simp [addModels], 0, ?_, fun a g => ?_⟩
    · have h := hasFDerivAt_const (𝕜 := ℝ) (0 : V3) o.pos
      rwa [show (0 : V3 →L[ℝ] V3) = linM 0 from ContinuousLinearMap.ext fun v => by
        rw [linM_apply]; simp] at h
    · simp only [addGradients, add_zero, Option.some.injEq, Prod.mk.injEq, true_and]
      ext i j
      simp [wide]
  | cons m ms ih =>
    obtain ⟨F, hF, G, hG, hd⟩ := hm m List.mem_cons_self
    obtain ⟨S, hS, GS, hdS, hg⟩ := ih fun m' h' => hm m' (List.mem_cons_of_mem _ h')
    refine ⟨fun p => F p + S p, ?_, G + GS, ?_, fun a g => ?_⟩
    · filter_upwards [hF, hS] with x h1 h2 a
      simp only [addModels, h1, h2]
      rw [add_assoc]
    · have h := hd.add hdS
      rwa [show linM G + linM GS = linM (G + GS) from ContinuousLinearMap.ext fun v => by
        rw [_root_.add_apply, linM_apply, linM_apply, linM_apply, add_mulVec]] at h
    · simp only [addGradients, hG, hg]
      rw [add_assoc]
      simp only [Option.some.injEq, Prod.mk.injEq, true_and]
      ext i j
      by_cases hj : j.val < 3
      · simp [wide, hj, add_assoc]
      · simp [wide, hj]

/-- C158: with exact acceleration models, and away from the center, the equations of motion of an orbit are
defined around it, `dual_eom` returns the same derivative, and its matrix is the
derivative of the equations of motion with respect to position and velocity. -/
theorem orb_gradient (alm : Alm Fr) (ms : List (AModel Fr)) (o : Orb Fr) (mu : ℝ)
    (hmu : alm.mu o.frame = some mu) (h0 : o.pos ≠ 0) (hm : ∀ m ∈ ms, Exact m o) :
    ∃ F : (Fin 6 → ℝ) → Fin 6 → ℝ, (∀ᶠ x in nhds (stack o.pos o.vel), orbEom alm ms (o.at x) = some (F x)) ∧
      (∀ x, F x 0 = x 3 ∧ F x 1 = x 4 ∧ F x 2 = x 5) ∧
      ∃ A, orbDual alm ms o = some (F (stack o.pos o.vel), A) ∧
        orbEom alm ms o = some (F (stack o.pos o.vel)) ∧
        HasFDerivAt F (linM A) (stack o.pos o.vel) := by
  obtain ⟨S, hS, GS, hdS, hg⟩ := addModels_exact ms o hm
  set x0 := stack o.pos o.vel with hx0
  have hp0 : posPart x0 = o.pos := posPart_stack _ _
  let F : (Fin 6 → ℝ) → Fin 6 → ℝ := fun x => stack ![x 3, x 4, x 5] (central mu (posPart x) + S (posPart x))
  have hE : ∀ᶠ x in nhds x0, orbEom alm ms (o.at x) = some (F x) := by
    filter_upwards [hS] with x hS
    have e : (-mu / nrm (o.at x).pos ^ 3) • (o.at x).pos = central mu (posPart x) := rfl
    simp only [orbEom, show (o.at x).frame = o.frame from rfl, hmu]
    rw [e, hS]
    rfl
  have hT := fun i => central_tracks mu x0 (by rw [hp0]; exact h0) i
  obtain ⟨hre, hdc⟩ := Tracks.vector hT
  have hdS' : HasFDerivAt (fun x => S (posPart x)) ((linM GS).comp (linM Ppos)) x0 :=
    HasFDerivAt.comp x0 (by rw [hp0]; exact hdS) (posPart_deriv x0)
  refine ⟨F, hE, fun x => ⟨rfl, rfl, rfl⟩, ?_⟩
  have hcre : (fun i => (bodyAccD mu x0 i).re) = central mu (posPart x0) := hre.symm
  refine ⟨of fun i j => if h : i.val < 3 then (Dual.vars x0 ⟨i + 3, by omega⟩).eps j
    else ((of fun i j => (bodyAccD mu x0 i).eps j) + wide GS) ⟨i - 3, by omega⟩ j, ?_, ?_, ?_⟩
  · simp only [orbDual, hmu, hg]
    rw [Option.some.injEq, Prod.mk.injEq]
    refine ⟨?_, rfl⟩
    rw [← hx0, hcre, ← hp0]
    simp only [F]
    rfl
  · have h := hE.self_of_nhds
    rwa [hx0, at_stack] at h
  · refine hasFDerivAt_pi.mpr fun i => ?_
    by_cases hi : i.val < 3
    · have h := hasFDerivAt_apply (𝕜 := ℝ) (⟨i + 3, by omega⟩ : Fin 6) x0
      have e : (ContinuousLinearMap.proj (⟨i + 3, by omega⟩ : Fin 6) : (Fin 6 → ℝ) →L[ℝ] ℝ) =
          lin (Dual.vars x0 ⟨i + 3, by omega⟩).eps := lin_congr fun v => by simp [Dual.vars, dotProduct]
      rw [e] at h
      have h' : HasFDerivAt (fun x => F x i) (lin (Dual.vars x0 ⟨i + 3, by omega⟩).eps) x0 := by
        refine h.congr_of_eventuallyEq (Filter.Eventually.of_forall fun y => ?_)
        obtain ⟨i, hlt⟩ := i
        interval_cases i <;> simp_all [F, stack]
      refine hdf h' (congrArg lin ?_)
      funext j
      simp [hi]
    · have hk : i.val - 3 < 3 := by omega
      have h1 := hasFDerivAt_pi.mp hdc ⟨i - 3, hk⟩
      have h2 : HasFDerivAt (fun x => S (posPart x) ⟨i - 3, hk⟩) (lin (wide GS ⟨i - 3, hk⟩)) x0 := by
        have := (hasFDerivAt_apply (𝕜 := ℝ) (⟨i - 3, hk⟩ : Fin 3) (S (posPart x0))).comp x0 hdS'
        rwa [show (ContinuousLinearMap.proj (⟨i - 3, hk⟩ : Fin 3) : V3 →L[ℝ] ℝ).comp
          ((linM GS).comp (linM Ppos)) = lin (wide GS ⟨i - 3, hk⟩) from lin_congr fun v => by
            show (linM GS (linM Ppos v)) ⟨i - 3, hk⟩ = _
            rw [linM_apply, linM_apply, ← wide_mulVec]
            rfl] at this
      have h3 := h1.add h2
      have h' : HasFDerivAt (fun x => F x i) (lin (fun j => (bodyAccD mu x0 ⟨i - 3, hk⟩).eps j) +
          lin (wide GS ⟨i - 3, hk⟩)) x0 := by
        refine h3.congr_of_eventuallyEq (Filter.Eventually.of_forall fun y => ?_)
        obtain ⟨i, hlt⟩ := i
        interval_cases i
        · rfl
        · rfl
        · rfl
      refine hdf h' (lin_congr fun v => ?_)
      rw [_root_.add_apply, lin_apply, lin_apply, ← add_dotProduct]
      congr 1
      funext j
      simp [hi]

end Verif.Force
