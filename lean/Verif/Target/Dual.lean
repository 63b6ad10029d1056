import Verif.Target.Theorems
import Mathlib.Tactic.FinCases
import Mathlib.Tactic.Push
/-!
C112: the targeter which uses the state transition matrix (`try_achieve_dual`).
-/
namespace Verif.Target
open Matrix
open Verif.Spacecraft (Craft)
open Verif.MathU (V3 nrm pseudoInverse)

variable {Fr E LF : Type} {nv no : Nat} {C : Cfg Fr E LF nv no}

/-- Specification: the components of the position and of the velocity, in order. -/
def component : Fin 6 → Vary := ![.positionX, .positionY, .positionZ, .velocityX, .velocityY, .velocityZ]

/-- Specification: the change of position and velocity made by the corrections `w` of the variables. -/
noncomputable def named (C : Cfg Fr E LF nv no) (w : Fin nv → ℝ) : Fin 6 → ℝ :=
  fun k => ∑ i, if (C.vars i).comp = component k then w i else 0

theorem stateIndex_component (v : Vary) (k : Fin 6) : v.stateIndex = some k ↔ v = component k := by
  fin_cases k <;> cases v <;> simp [Vary.stateIndex, component]

theorem stateIndex_none (v : Vary) : v.stateIndex = none ↔ ∀ k, v ≠ component k := by
  constructor
  · intro h k hk
    rw [← stateIndex_component] at hk
    rw [h] at hk
    cases hk
  · intro h
    cases hv : v.stateIndex with
    | none => rfl
    | some k => exact absurd ((stateIndex_component v k).1 hv) (h k)

theorem named_add (C : Cfg Fr E LF nv no) (w w' : Fin nv → ℝ) :
    named C (fun i => w i + w' i) = named C w + named C w' := by
  funext k
  simp only [named, Pi.add_apply, ← Finset.sum_add_distrib]
  refine Finset.sum_congr rfl fun i _ => ?_
  split <;> simp

theorem dualCorr_fold (C : Cfg Fr E LF nv no) (w : Fin nv → ℝ) : ∀ (l : List (Fin nv)) {x y : Craft ℝ Fr},
    foldRes (fun x i => (orErr (C.vars i).comp.stateIndex .unsupported).bind fun k => Res.ok (x.add6 (Pi.single k (w i))))
      l x = .ok y →
    y = x.add6 (fun k => (l.map fun i => if (C.vars i).comp.stateIndex = some k then w i else 0).sum) ∧
    ∀ i ∈ l, (C.vars i).comp.stateIndex ≠ none
  | [], x, y, h => by cases h; simp [Craft.add6]
  | i :: l, x, y, h => by
    simp only [foldRes] at h
    obtain ⟨z, hz, h⟩ := bind_ok.1 h
    obtain ⟨k, hk, hz⟩ := bind_ok.1 hz
    rw [orErr_ok] at hk
    cases hz
    obtain ⟨h1, h2⟩ := dualCorr_fold C w l h
    constructor
    · rw [h1]
      have : ∀ (c d : Fin 6 → ℝ), (x.add6 c).add6 d = x.add6 (c + d) := add6_add6 x
      rw [this]
      congr 1
      funext j
      simp only [Pi.add_apply, List.map_cons, List.sum_cons, hk, Option.some.injEq, Pi.single_apply]
      congr 1
      simp [eq_comm]
    · intro j hj
      rcases List.mem_cons.1 hj with rfl | hj
      · simp [hk]
      · exact h2 j hj

theorem dualCorr_ok {w : Fin nv → ℝ} {x y : Craft ℝ Fr} (h : C.dualCorr x w = .ok y) :
    y = x.add6 (named C w) ∧ ∀ i, (C.vars i).comp.stateIndex ≠ none := by
  obtain ⟨h1, h2⟩ := dualCorr_fold C w _ h
  refine ⟨?_, fun i => h2 i (List.mem_finRange i)⟩
  rw [h1]
  congr 1
  funext k
  simp only [stateIndex_component]
  rfl

theorem dual_loop_ok {start : Craft ℝ Fr} {t : Int} :
    ∀ (fuel it : Nat) (prev : Option ℝ) (x : Craft ℝ Fr) (total : Fin nv → ℝ) (s : Sol Fr nv no),
      x.resetStm = (start.add6 (named C total)).resetStm →
      C.dualLoop start t fuel it prev x total = .ok s →
      ∃ x' ev, x'.resetStm = (start.add6 (named C s.correction)).resetStm ∧ C.dualEval x' t = .ok ev ∧
        (∀ i, ev.2.met i = true) ∧ s.corrected = start.add6 (named C s.correction) ∧ s.achieved = ev.1 ∧
        s.errors = ev.2.err ∧ s.iterations < it + fuel ∧ it ≤ s.iterations
  | 0, _, _, _, _, _, _, h => by simp [Cfg.dualLoop] at h
  | fuel + 1, it, prev, x, total, s, h0, h => by
    rw [Cfg.dualLoop] at h
    obtain ⟨ev, hev, h⟩ := bind_ok.1 h
    split at h
    · rename_i hm
      obtain ⟨z, hz, h⟩ := bind_ok.1 h
      cases h
      obtain ⟨rfl, -⟩ := dualCorr_ok hz
      exact ⟨x, ev, h0, hev, hm, rfl, rfl, rfl, by simp only; omega, by simp⟩
    · split at h
      · simp at h
      · obtain ⟨P, -, h⟩ := bind_ok.1 h
        obtain ⟨x', hx, h⟩ := bind_ok.1 h
        obtain ⟨rfl, -⟩ := dualCorr_ok hx
        obtain ⟨x2, ev2, k1, k2, k3, k4, k5, k6, k7, k8⟩ := dual_loop_ok fuel (it + 1) _ _ _ s (by
          rw [named_add, ← add6_add6]
          have : ∀ (u : Craft ℝ Fr) (c : Fin 6 → ℝ), (u.resetStm.add6 c).resetStm = u.resetStm.add6 c := by
            intros; rfl
          rw [this, h0]
          rfl) h
        exact ⟨x2, ev2, k1, k2, k3, k4, k5, k6, by omega, by omega⟩

/-- C112. If `try_achieve_dual` returns a solution, then propagating the corrected state with its state
transition matrix to the achievement epoch gives exactly the achieved state; the corrected state is the
state at the correction epoch plus the reported corrections of the named components; every objective is
within tolerance at the achieved state; and there were at most the allowed number of iterations.
Missing: the correction frame, which is ignored (`dual_ignores_frame`). -/
theorem dual_solution_partial {x0 : Craft ℝ Fr} {t0 t : Int} {s : Sol Fr nv no} (h : C.tryDual x0 t0 t = .ok s) :
    C.prop none none s.corrected.resetStm t = some s.achieved ∧
    (∃ start, C.prop none none x0 t0 = some start ∧ s.corrected = start.add6 (named C s.correction)) ∧
    (∃ y, C.view (orbitOf s.achieved) = some y ∧ ∀ i, ∃ v, ValueAt C y (C.objs i).param v ∧
      s.errors i = (C.objs i).mult * ((C.objs i).desired - v) + (C.objs i).add ∧ |s.errors i| ≤ (C.objs i).tol) ∧
    s.iterations ≤ C.iterations ∧ ∀ i, ∃ k, (C.vars i).comp = component k := by
  unfold Cfg.tryDual at h
  split at h
  · simp at h
  · obtain ⟨start, hs, h⟩ := bind_ok.1 h
    rw [orErr_ok] at hs
    obtain ⟨x, hx, h⟩ := bind_ok.1 h
    obtain ⟨rfl, hsup⟩ := dualCorr_ok hx
    obtain ⟨x', ev, k1, k2, k3, k4, k5, k6, k7, -⟩ := dual_loop_ok _ _ _ _ _ s rfl h
    unfold Cfg.dualEval at k2
    obtain ⟨xf, hxf, k2⟩ := bind_ok.1 k2
    obtain ⟨Φ, hΦ, k2⟩ := bind_ok.1 k2
    obtain ⟨y, hy, k2⟩ := bind_ok.1 k2
    obtain ⟨bp, hbp, k2⟩ := bind_ok.1 k2
    obtain ⟨r, hr, k2⟩ := bind_ok.1 k2
    rw [orErr_ok] at hxf hy hbp
    rw [seqFin_ok] at hr
    cases k2
    refine ⟨?_, ⟨start, hs, k4⟩, ⟨y, by rw [k5]; exact hy, fun i => ?_⟩, by omega, fun i => ?_⟩
    rotate_left 2
    · by_contra hcon
      push Not at hcon
      exact hsup i ((stateIndex_none _).2 hcon)
    · rw [k4, k5, ← k1, hxf]
    · obtain ⟨w, hw, hri⟩ := bind_ok.1 (hr i)
      obtain ⟨row, -, hri⟩ := bind_ok.1 hri
      have hr1 : (r i).1 = w.1 := by
        cases hh : r i
        rw [hh] at hri
        cases hri
        rfl
      have hm := k3 i
      simp only [hr1] at hm
      rw [Objective.met, decide_eq_true_eq] at hm
      refine ⟨w.1, value_at hbp i hw, by rw [k6]; simp only [hr1]; rfl, by rw [k6]; simp only [hr1]; exact hm⟩

/-- C112, refuted for the correction frame. `try_achieve_dual` ignores it: the corrections are always along
the axes of the integration frame. -/
theorem dual_ignores_frame (C : Cfg Fr E LF nv no) (f : Option LF) (x0 : Craft ℝ Fr) (t0 t : Int) :
    { C with corrFrame := f }.tryDual x0 t0 t = C.tryDual x0 t0 t := by
  have hl : ∀ (start : Craft ℝ Fr) (fuel it : Nat) (prev : Option ℝ) (x : Craft ℝ Fr) (total : Fin nv → ℝ),
      Cfg.dualLoop { C with corrFrame := f } start t fuel it prev x total = C.dualLoop start t fuel it prev x total := by
    intro start fuel
    induction fuel with
    | zero => intros; rfl
    | succ n ih =>
      intro it prev x total
      rw [Cfg.dualLoop, Cfg.dualLoop]
      simp only [ih]
      rfl
  unfold Cfg.tryDual
  simp only [hl]
  rfl

/-- C112. A variable of another kind is refused. -/
theorem dual_unsupported {x0 start : Craft ℝ Fr} {t0 t : Int} (hno : no ≠ 0) (hs : C.prop none none x0 t0 = some start)
    (h : ∃ i, ∀ k, (C.vars i).comp ≠ component k) : C.tryDual x0 t0 t = .err .unsupported := by
  rw [Cfg.tryDual, if_neg hno, hs]
  show Res.bind (C.dualCorr start _) _ = _
  have : ∀ (l : List (Fin nv)) (x : Craft ℝ Fr), (∃ i ∈ l, (C.vars i).comp.stateIndex = none) →
      foldRes (fun x i => (orErr (C.vars i).comp.stateIndex .unsupported).bind
        fun k => Res.ok (x.add6 (Pi.single k (C.vars i).guess))) l x = .err .unsupported := by
    intro l
    induction l with
    | nil => intro x h; simp at h
    | cons i l ih =>
      intro x hx
      simp only [foldRes]
      cases hi : (C.vars i).comp.stateIndex with
      | none => rfl
      | some k =>
        obtain ⟨j, hj, hn⟩ := hx
        rcases List.mem_cons.1 hj with rfl | hj
        · rw [hi] at hn; simp at hn
        · exact ih _ ⟨j, hj, hn⟩
  obtain ⟨i, hi⟩ := h
  rw [← stateIndex_none] at hi
  rw [Cfg.dualCorr, this _ _ ⟨i, List.mem_finRange i, hi⟩]
  rfl

end Verif.Target
