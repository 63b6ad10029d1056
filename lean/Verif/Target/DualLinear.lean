import Verif.Target.Dual
import Verif.Target.Linear
/-!
C112: the targeter which uses the state transition matrix, on a problem affine in the state.
-/
namespace Verif.Target
open Matrix
open Verif.Spacecraft (Craft)
open Verif.MathU (V3 nrm pseudoInverse)

variable {Fr E LF : Type} {nv no : Nat} {C : Cfg Fr E LF nv no}

/-- Specification: from the state `x`, the value of the objective `i` at the epoch `t` is affine in the
change `c` of position and velocity; the partials of the objective at the end and the state transition matrix
give its slopes by the chain rule. -/
def AffineStm (C : Cfg Fr E LF nv no) (x : Craft ℝ Fr) (t : Int) (a : Fin no → ℝ) (G : Matrix (Fin no) (Fin 6) ℝ) :
    Prop :=
  ∀ c : Fin 6 → ℝ, ∃ xf y bp Φ, C.prop none none (x.resetStm.add6 c) t = some xf ∧ xf.stm = some Φ ∧
    C.view (orbitOf xf) = some y ∧ C.bp y = some bp ∧
    ∀ i, ∃ g, C.value bp y (C.objs i).param = .ok (a i + (G *ᵥ c) i, g) ∧
      ∀ k : Fin 6, G i k = ∑ r : Fin 6, g r * Φ ⟨r.val, by omega⟩ ⟨k.val, by omega⟩

/-- Specification: the slopes with respect to the variables. -/
noncomputable def slopesOf (C : Cfg Fr E LF nv no) (G : Matrix (Fin no) (Fin 6) ℝ) : Matrix (Fin no) (Fin nv) ℝ :=
  of fun i j => ∑ k : Fin 6, if (C.vars j).comp = component k then G i k else 0

theorem affineStm_shift {x : Craft ℝ Fr} {t : Int} {a : Fin no → ℝ} {G : Matrix (Fin no) (Fin 6) ℝ}
    (h : AffineStm C x t a G) (c : Fin 6 → ℝ) {x' : Craft ℝ Fr} (hx : x'.resetStm = x.resetStm.add6 c) :
    AffineStm C x' t (fun i => a i + (G *ᵥ c) i) G := by
  intro d
  obtain ⟨xf, y, bp, Φ, h1, h2, h3, h4, h5⟩ := h (c + d)
  refine ⟨xf, y, bp, Φ, by rw [hx, add6_add6]; exact h1, h2, h3, h4, fun i => ?_⟩
  obtain ⟨g, hg, hk⟩ := h5 i
  exact ⟨g, by rw [hg, mulVec_add, Pi.add_apply, add_assoc], hk⟩

theorem slopesOf_eq {G : Matrix (Fin no) (Fin 6) ℝ} (i : Fin no) {j : Fin nv} {k : Fin 6}
    (h : (C.vars j).comp = component k) : slopesOf C G i j = G i k := by
  simp only [slopesOf, of_apply]
  rw [Finset.sum_eq_single k]
  · rw [if_pos h]
  · intro b _ hb
    rw [if_neg]
    rw [← stateIndex_component] at h ⊢
    rw [h]
    simpa using Ne.symm hb
  · simp

theorem ok_then {α β : Type} (x : α) (f : α → Res β) : (Res.ok x).bind f = f x := rfl

theorem dualEval_affine {x : Craft ℝ Fr} {t : Int} {a : Fin no → ℝ} {G : Matrix (Fin no) (Fin 6) ℝ}
    (h : AffineStm C x t a G) (hv : ∀ j, ∃ k, (C.vars j).comp = component k) :
    ∃ ev, C.dualEval x t = .ok ev ∧ (∀ i, ev.2.met i = decide (|(C.objs i).error (a i)| ≤ (C.objs i).tol)) ∧
      (∀ i, ev.2.err i = (C.objs i).error (a i)) ∧ ev.2.jac = slopesOf C G := by
  obtain ⟨xf, y, bp, Φ, h1, h2, h3, h4, h5⟩ := h 0
  rw [add6_zero] at h1
  choose g hg hk using h5
  choose k hkv using hv
  refine ⟨(xf, ⟨orbitOf xf, fun i => (C.objs i).met (a i), fun i => (C.objs i).error (a i), slopesOf C G⟩), ?_,
    fun i => rfl, fun i => rfl, rfl⟩
  refine bind_ok.2 ⟨xf, orErr_ok.2 h1, bind_ok.2 ⟨Φ, by rw [h2]; rfl, bind_ok.2 ⟨y, orErr_ok.2 h3, bind_ok.2 ⟨bp,
    orErr_ok.2 h4, bind_ok.2 ⟨fun i => (a i, fun j => slopesOf C G i j), seqFin_ok.2 fun i => ?_, rfl⟩⟩⟩⟩⟩
  refine bind_ok.2 ⟨(a i, g i), by rw [hg, mulVec_zero]; simp, bind_ok.2 ⟨fun j => slopesOf C G i j,
    seqFin_ok.2 fun j => ?_, rfl⟩⟩
  refine bind_ok.2 ⟨k j, by rw [(stateIndex_component _ _).2 (hkv j)]; rfl, ?_⟩
  rw [slopesOf_eq i (hkv j), hk i]
  rfl

theorem slopesOf_mulVec (C : Cfg Fr E LF nv no) (G : Matrix (Fin no) (Fin 6) ℝ) (w : Fin nv → ℝ) :
    slopesOf C G *ᵥ w = G *ᵥ named C w := by
  funext i
  simp only [mulVec, dotProduct, slopesOf, of_apply, Finset.sum_mul, named, Finset.mul_sum]
  rw [Finset.sum_comm]
  refine Finset.sum_congr rfl fun k _ => Finset.sum_congr rfl fun j _ => ?_
  split <;> simp

theorem dualCorr_total (hv : ∀ j, ∃ k, (C.vars j).comp = component k) (x : Craft ℝ Fr) (w : Fin nv → ℝ) :
    C.dualCorr x w = .ok (x.add6 (named C w)) := by
  have : ∀ (l : List (Fin nv)) (x : Craft ℝ Fr), ∃ y, foldRes (fun x i =>
      (orErr (C.vars i).comp.stateIndex .unsupported).bind fun k => Res.ok (x.add6 (Pi.single k (w i)))) l x = .ok y := by
    intro l
    induction l with
    | nil => exact fun x => ⟨x, rfl⟩
    | cons i l ih =>
      intro x
      obtain ⟨k, hk⟩ := hv i
      obtain ⟨y, hy⟩ := ih (x.add6 (Pi.single k (w i)))
      refine ⟨y, ?_⟩
      rw [foldRes, (stateIndex_component _ _).2 hk]
      exact hy
  obtain ⟨y, hy⟩ := this (List.finRange nv) x
  have h2 : C.dualCorr x w = .ok y := hy
  rw [h2, (dualCorr_ok h2).1]

theorem dualStep_free (v : Variable) {d : ℝ} (h1 : |d| ≤ v.maxStep) (h2 : v.minValue ≤ d) (h3 : d ≤ v.maxValue) :
    v.dualStep d = d := by
  unfold Variable.dualStep
  rw [if_neg (not_lt.2 h1), if_neg (not_lt.2 h3), if_neg (not_lt.2 h2)]

/-- C112. On a problem affine in the state, with variables of the position and velocity which start from zero,
at least as many variables as objectives, independent objectives, unit factors, and a correction within the
bounds, `try_achieve_dual` succeeds after at most one correction, and after one correction the errors are
exactly zero: the Jacobian which it assembles from the state transition matrix is that of the objectives. -/
theorem dual_affine_solved {x0 start : Craft ℝ Fr} {t0 t : Int} (hno : no ≠ 0) (hle : no ≤ nv)
    (hv : ∀ j, ∃ k, (C.vars j).comp = component k) (hguess : ∀ j, (C.vars j).guess = 0)
    (hs : C.prop none none x0 t0 = some start) {a : Fin no → ℝ} {G : Matrix (Fin no) (Fin 6) ℝ}
    (h : AffineStm C start t a G) {P : Matrix (Fin nv) (Fin no) ℝ} (hP : pseudoInverse (slopesOf C G) = some P)
    (hfree : ∀ j, |(P *ᵥ fun i => (C.objs i).error (a i)) j| ≤ (C.vars j).maxStep ∧
      (C.vars j).minValue ≤ (P *ᵥ fun i => (C.objs i).error (a i)) j ∧
      (P *ᵥ fun i => (C.objs i).error (a i)) j ≤ (C.vars j).maxValue)
    (hmult : ∀ i, (C.objs i).mult = 1) (htol : ∀ i, 0 ≤ (C.objs i).tol) (hit : 1 ≤ C.iterations) :
    ∃ s, C.tryDual x0 t0 t = .ok s ∧ s.iterations ≤ 1 ∧ (s.iterations = 1 → ∀ i, s.errors i = 0) := by
  have fin : ∀ (x : Craft ℝ Fr) (a' : Fin no → ℝ) (fuel it : Nat) (prev : Option ℝ) (total : Fin nv → ℝ),
      AffineStm C x t a' G → (∀ i, |(C.objs i).error (a' i)| ≤ (C.objs i).tol) →
      ∃ s, C.dualLoop start t (fuel + 1) it prev x total = .ok s ∧ s.iterations = it ∧
        ∀ i, s.errors i = (C.objs i).error (a' i) := by
    intro x a' fuel it prev total ha hmet
    obtain ⟨ev, hev, hm, he, -⟩ := dualEval_affine ha hv
    refine ⟨⟨start.add6 (named C total), ev.1, total, ev.2.err, it⟩, ?_, rfl, he⟩
    rw [Cfg.dualLoop, hev, ok_then, if_pos (fun i => by rw [hm, decide_eq_true_eq]; exact hmet i),
      dualCorr_total hv, ok_then]
  have h0 : named C (fun i => (C.vars i).guess) = 0 := by
    funext k
    simp [named, hguess]
  have hstart : C.tryDual x0 t0 t = C.dualLoop start t (C.iterations + 1) 0 none start fun i => (C.vars i).guess := by
    rw [Cfg.tryDual, if_neg hno, orErr_ok.2 hs, ok_then, dualCorr_total hv, ok_then, h0, add6_zero]
  rw [hstart]
  by_cases hm : ∀ i, |(C.objs i).error (a i)| ≤ (C.objs i).tol
  · obtain ⟨s, h1, h2, -⟩ := fin start a C.iterations 0 none _ h hm
    exact ⟨s, h1, by omega, by omega⟩
  · obtain ⟨n, hn⟩ : ∃ n, C.iterations = n + 1 := ⟨C.iterations - 1, by omega⟩
    rw [hn]
    obtain ⟨ev, hev, hmet, herr, hjac⟩ := dualEval_affine h hv
    have herr' : ev.2.err = fun i => (C.objs i).error (a i) := funext herr
    have hstep : (fun i => (C.vars i).dualStep ((P *ᵥ ev.2.err) i)) = P *ᵥ ev.2.err := by
      funext j
      rw [herr']
      exact dualStep_free _ (hfree j).1 (hfree j).2.1 (hfree j).2.2
    rw [Cfg.dualLoop, hev, ok_then, if_neg (fun hall => hm fun i => by
      have := hall i
      rwa [hmet, decide_eq_true_eq] at this), if_neg (by simp [stalled]), hjac, orErr_ok.2 hP, ok_then,
      dualCorr_total hv, ok_then, hstep]
    have h2 := affineStm_shift h (named C (P *ᵥ ev.2.err)) (x' := start.resetStm.add6 (named C (P *ᵥ ev.2.err))) rfl
    have h4 : ∀ i, (C.objs i).error (a i + (G *ᵥ named C (P *ᵥ ev.2.err)) i) = 0 := by
      intro i
      rw [← slopesOf_mulVec, right_inverse hle hP, herr]
      simp only [Objective.error, hmult]
      ring
    obtain ⟨s, k1, k2, k3⟩ := fin _ _ n 1 (some (nrm ev.2.err))
      (fun i => (C.vars i).guess + (C.vars i).dualStep ((P *ᵥ ev.2.err) i)) h2
      fun i => by rw [h4, abs_zero]; exact htol i
    exact ⟨s, k1, by omega, fun _ i => by rw [k3, h4]⟩

end Verif.Target
