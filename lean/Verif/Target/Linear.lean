import Verif.Target.Theorems
import Verif.MathU.Vectors
import Mathlib.Tactic.Ring
/-!
C109: the targeter on a problem whose objectives are affine in the state at the correction epoch.
-/
namespace Verif.Target
open Matrix
open Verif.Spacecraft (Craft)
open Verif.MathU (V3 nrm pseudoInverse)

variable {Fr E LF : Type} {nv no : Nat} {C : Cfg Fr E LF nv no}

/-- Specification: from the state `x`, the value of the objective `i` at the epoch `t` is affine in the
change `c` of position and velocity, with the constant `a i` and the slopes `G i`. -/
def Affine (C : Cfg Fr E LF nv no) (x : Craft ℝ Fr) (t : Int) (a : Fin no → ℝ) (G : Matrix (Fin no) (Fin 6) ℝ) : Prop :=
  ∀ c : Fin 6 → ℝ, ∃ xf y bp, C.prop none none (x.add6 c) t = some xf ∧ C.view (orbitOf xf) = some y ∧
    C.bp y = some bp ∧ ∀ i, ∃ g, C.value bp y (C.objs i).param = .ok (a i + (G *ᵥ c) i, g)

/-- Specification: the slopes with respect to the variables. -/
noncomputable def slopes (C : Cfg Fr E LF nv no) (G : Matrix (Fin no) (Fin 6) ℝ) : Matrix (Fin no) (Fin nv) ℝ :=
  of fun i j => ∑ k : Fin 6, if (C.vars j).comp.vecIndex = some k.val then G i k else 0

theorem affine_shift {x : Craft ℝ Fr} {t : Int} {a : Fin no → ℝ} {G : Matrix (Fin no) (Fin 6) ℝ}
    (h : Affine C x t a G) (c : Fin 6 → ℝ) : Affine C (x.add6 c) t (fun i => a i + (G *ᵥ c) i) G := by
  intro d
  obtain ⟨xf, y, bp, h1, h2, h3, h4⟩ := h (c + d)
  refine ⟨xf, y, bp, by rw [add6_add6]; exact h1, h2, h3, fun i => ?_⟩
  obtain ⟨g, hg⟩ := h4 i
  refine ⟨g, ?_⟩
  rw [hg, mulVec_add, Pi.add_apply, add_assoc]

theorem add6_zero (x : Craft ℝ Fr) : x.add6 0 = x := by simp [Craft.add6]

theorem affine_at {x : Craft ℝ Fr} {t : Int} {a : Fin no → ℝ} {G : Matrix (Fin no) (Fin 6) ℝ}
    (h : Affine C x t a G) : ∃ xf y bp, C.prop none none x t = some xf ∧ C.view (orbitOf xf) = some y ∧
    C.bp y = some bp ∧ ∀ i, ∃ g, C.value bp y (C.objs i).param = .ok (a i, g) := by
  obtain ⟨xf, y, bp, h1, h2, h3, h4⟩ := h 0
  rw [add6_zero] at h1
  refine ⟨xf, y, bp, h1, h2, h3, fun i => ?_⟩
  obtain ⟨g, hg⟩ := h4 i
  exact ⟨g, by rw [hg, mulVec_zero]; simp⟩

theorem not_thrustLevel {v : Vary} (h : v.isFinite = false) : v ≠ .thrustLevel := by
  rintro rfl
  simp [Vary.isFinite] at h

/-- On an affine problem with state variables and no correction frame, the finite differences are the
slopes, whatever the perturbations. -/
theorem evaluate_affine {x : Craft ℝ Fr} {t : Int} {a : Fin no → ℝ} {G : Matrix (Fin no) (Fin 6) ℝ}
    (h : Affine C x t a G) (hfin : ∀ j, (C.vars j).comp.isFinite = false) (hn : C.corrFrame = none)
    (hp : ∀ j, (C.vars j).pert ≠ 0) (b : Burn) :
    ∃ ev, C.evaluate false x b t = .ok ev ∧ (∀ i, ev.met i = decide (|(C.objs i).error (a i)| ≤ (C.objs i).tol)) ∧
      (∀ i, ev.err i = (C.objs i).error (a i)) ∧ ev.jac = slopes C G := by
  obtain ⟨xf, y, bp, h1, h2, h3, h4⟩ := affine_at h
  choose g hg using h4
  have hjac : ∀ i j, C.jacEntry false x b t (a i) (C.objs i) (C.vars j) = .ok (slopes C G i j) := by
    intro i j
    obtain ⟨c, hc⟩ := addIdx_total (c := 0) (hfin j) (C.vars j).pert
    have hcj := addIdx_ok hc
    obtain ⟨xf', y', bp', k1, k2, k3, k4⟩ := h c
    obtain ⟨g', hg'⟩ := k4 i
    have hper : C.perturb x b (C.vars j) = .ok (x.add6 c, b, false) := by
      rw [Cfg.perturb, if_neg (by simp [hfin j]), hc]
      show Res.bind (unwrapO (C.applyCorr x c)) _ = _
      rw [Cfg.applyCorr, hn]
      rfl
    have hflow : C.flow false b (x.add6 c) t = some xf' := by rw [Cfg.flow, if_neg (by simp), k1]
    rw [Cfg.jacEntry, hper]
    show Res.bind (unwrapO (C.flow false b (if false = true then x else x.add6 c) t)) _ = _
    rw [if_neg (by simp), hflow]
    show Res.bind (unwrapO (C.view (orbitOf xf'))) _ = _
    rw [k2]
    show Res.bind (unwrapO (C.bp y')) _ = _
    rw [k3]
    show Res.bind (Res.unwrap (C.value bp' y' (C.objs i).param)) _ = _
    rw [hg']
    show Res.ok (if (C.vars j).comp = .thrustLevel then
        -(if false = true then -((a i + (G *ᵥ c) i - a i) / (C.vars j).pert) else (a i + (G *ᵥ c) i - a i) / (C.vars j).pert)
      else if false = true then -((a i + (G *ᵥ c) i - a i) / (C.vars j).pert) else (a i + (G *ᵥ c) i - a i) / (C.vars j).pert) = _
    rw [if_neg (not_thrustLevel (hfin j)), if_neg (by simp)]
    congr 1
    have : (G *ᵥ c) i = slopes C G i j * (C.vars j).pert := by
      simp only [slopes, of_apply, mulVec, dotProduct, Finset.sum_mul]
      refine Finset.sum_congr rfl fun k _ => ?_
      rw [hcj k, Pi.zero_apply, zero_add]
      split <;> simp
    rw [add_sub_cancel_left, this, mul_div_assoc, div_self (hp j), mul_one]
  refine ⟨⟨orbitOf xf, fun i => (C.objs i).met (a i), fun i => (C.objs i).error (a i), slopes C G⟩, ?_, fun i => rfl,
    fun i => rfl, rfl⟩
  have hflow : C.flow false b x t = some xf := by rw [Cfg.flow, if_neg (by simp), h1]
  rw [Cfg.evaluate, hflow]
  show Res.bind (orErr (C.view (orbitOf xf)) .astro) _ = _
  rw [h2]
  show Res.bind (orErr (C.bp y) .astro) _ = _
  rw [h3]
  show Res.bind (seqFin no _) _ = _
  rw [(seqFin_ok (g := fun i => (a i, fun j => slopes C G i j))).2]
  · rfl
  · intro i
    rw [hg i]
    show Res.bind (seqFin nv _) _ = _
    rw [seqFin_ok.2 (hjac i)]
    rfl

/-- The product of the slopes and of the corrections of the variables is the effect of the correction of
the state. -/
theorem slopes_mulVec {G : Matrix (Fin no) (Fin 6) ℝ} (hfin : ∀ j, (C.vars j).comp.isFinite = false)
    {w : Fin nv → ℝ} {c : Fin 6 → ℝ} (hc : C.stateCorr w = .ok c) : slopes C G *ᵥ w = G *ᵥ c := by
  funext i
  simp only [mulVec, dotProduct, slopes, of_apply, Finset.sum_mul]
  rw [Finset.sum_comm]
  refine Finset.sum_congr rfl fun k _ => ?_
  rw [stateCorr_ok hc, Finset.mul_sum]
  refine Finset.sum_congr rfl fun j _ => ?_
  simp only [moves, hfin, true_and]
  split <;> simp

/-- With as many variables as objectives or more, the pseudo inverse is a right inverse. -/
theorem right_inverse {A : Matrix (Fin no) (Fin nv) ℝ} (hle : no ≤ nv) {P : Matrix (Fin nv) (Fin no) ℝ}
    (hP : pseudoInverse A = some P) (e : Fin no → ℝ) : A *ᵥ (P *ᵥ e) = e := by
  rcases Nat.lt_or_eq_of_le hle with h | h
  · exact (MathU.pseudo_inverse_wide A h P hP e).1
  · subst h
    have := (MathU.pseudo_inverse_tall A (le_refl _) P hP 0).1
    rw [mulVec_mulVec, mul_eq_one_comm.1 this, one_mulVec]

/-- The variables and the problem of C109: state variables which start from zero, no correction frame. -/
structure Plain (C : Cfg Fr E LF nv no) : Prop where
  state : ∀ j, (C.vars j).comp.isFinite = false
  valid : ∀ j, (C.vars j).Valid
  frame : C.corrFrame = none
  pert : ∀ j, (C.vars j).pert ≠ 0
  guess : ∀ j, (C.vars j).guess = 0
  some_objective : no ≠ 0
  enough : no ≤ nv

theorem addIdx_zero {c : Fin 6 → ℝ} {v : Vary} (h : v.isFinite = false) : addIdx c v.vecIndex 0 = .ok c := by
  obtain ⟨c', hc⟩ := addIdx_total (c := c) h 0
  rw [hc]
  congr 1
  funext j
  rw [addIdx_ok hc]
  simp

/-- The targeter on a plain problem is its loop, from the state at the correction epoch. -/
theorem plain_loop (hpl : Plain C) {x0 start : Craft ℝ Fr} {t0 t : Int} (hs : C.prop none none x0 t0 = some start) :
    C.tryAchieve x0 t0 t = C.loop start t0 t false (C.iterations + 1) 0 none (Burn.initial t0 t) start 0 := by
  have hg : ∀ (thr : Bool) (b : Burn) (l : List (Fin nv)),
      foldRes (C.guessOne thr) l (b, false, 0) = .ok (b, false, 0) := by
    intro thr b l
    induction l with
    | nil => rfl
    | cons j l ih =>
      simp only [foldRes]
      have : C.guessOne thr (b, false, 0) j = .ok (b, false, 0) := by
        rw [Cfg.guessOne, if_neg (by simpa using hpl.valid j), Cfg.frameCheck, hpl.frame]
        show (if _ then _ else _) = _
        rw [if_neg (by simp [hpl.state j]), hpl.guess j]
        show Res.bind (addIdx 0 (C.vars j).comp.vecIndex 0) _ = _
        rw [addIdx_zero (hpl.state j)]
        rfl
      rw [this]
      exact ih
  rw [Cfg.tryAchieve, if_neg hpl.some_objective, hs]
  show Res.bind (foldRes _ _ _) _ = _
  rw [hg]
  show Res.bind (if false = true then _ else orErr (C.applyCorr start 0) .astro) _ = _
  rw [if_neg (by simp), Cfg.applyCorr, hpl.frame]
  show C.loop start t0 t false _ 0 none _ (start.add6 0) _ = _
  rw [add6_zero]
  congr 1
  funext i
  exact hpl.guess i

theorem burnCorr_none (hfin : ∀ j, (C.vars j).comp.isFinite = false) (t0 t : Int) (b : Burn) (w : Fin nv → ℝ) :
    C.burnCorr t0 t b w = .ok b := by
  unfold Cfg.burnCorr
  induction List.finRange nv with
  | nil => rfl
  | cons j l ih =>
    simp only [foldRes, hfin, Bool.false_eq_true, if_false]
    simpa [foldRes, hfin, Res.bind] using ih

/-- The correction of an affine problem which is not limited. -/
structure Newton (C : Cfg Fr E LF nv no) (a : Fin no → ℝ) (G : Matrix (Fin no) (Fin 6) ℝ)
    (P : Matrix (Fin nv) (Fin no) ℝ) : Prop where
  inverse : pseudoInverse (slopes C G) = some P
  free : ∀ j, |(P *ᵥ fun i => (C.objs i).error (a i)) j| ≤ (C.vars j).maxStep ∧
    (C.vars j).minValue ≤ (P *ᵥ fun i => (C.objs i).error (a i)) j ∧
    (P *ᵥ fun i => (C.objs i).error (a i)) j ≤ (C.vars j).maxValue

theorem step_free (v : Variable) {d : ℝ} (h1 : |d| ≤ v.maxStep) (h2 : v.minValue ≤ d) (h3 : d ≤ v.maxValue) :
    v.step d = d := by
  unfold Variable.step
  rw [if_neg (by rw [gt_iff_lt, not_lt]; exact h1.trans (le_abs_self _)), if_neg (not_lt.2 h3), if_neg (not_lt.2 h2)]

/-- One iteration of the targeter on an affine problem: either it returns, or the next state has the errors
`(1 - factor) * error`. -/
theorem newton_step (hpl : Plain C) {start x : Craft ℝ Fr} {t0 t : Int} {a : Fin no → ℝ}
    {G : Matrix (Fin no) (Fin 6) ℝ} {P : Matrix (Fin nv) (Fin no) ℝ} (hN : Newton C a G P) (h : Affine C x t a G)
    (fuel it : Nat) (prev : Option ℝ) (b : Burn) (total : Fin nv → ℝ)
    (hm : ∃ i, ¬ |(C.objs i).error (a i)| ≤ (C.objs i).tol)
    (hst : stalled prev (fun i => (C.objs i).error (a i)) = false) :
    ∃ x' a' total', C.loop start t0 t false (fuel + 1) it prev b x total =
        C.loop start t0 t false fuel (it + 1) (some (nrm fun i => (C.objs i).error (a i))) b x' total' ∧
      Affine C x' t a' G ∧ ∀ i, (C.objs i).error (a' i) = (1 - (C.objs i).mult) * (C.objs i).error (a i) := by
  obtain ⟨ev, hev, hmet, herr, hjac⟩ := evaluate_affine h hpl.state hpl.frame hpl.pert b
  have herr' : ev.err = fun i => (C.objs i).error (a i) := funext herr
  obtain ⟨c, hc⟩ := stateCorr_total C fun i => (C.vars i).limited ((P *ᵥ ev.err) i)
  have hfree : (fun i => (C.vars i).limited ((P *ᵥ ev.err) i)) = P *ᵥ ev.err := by
    funext j
    have hf := hN.free j
    rw [Variable.limited, if_neg (by simp [hpl.state j]), herr']
    exact step_free _ hf.1 hf.2.1 hf.2.2
  refine ⟨x.add6 c, fun i => a i + (G *ᵥ c) i,
    fun i => total i + (C.vars i).limited ((P *ᵥ ev.err) i), ?_, affine_shift h c, ?_⟩
  · rw [Cfg.loop, hev]
    show (if _ then _ else _) = _
    rw [if_neg, if_neg, hjac, hN.inverse]
    · show Res.bind (C.burnCorr t0 t b (P *ᵥ ev.err)) _ = _
      rw [burnCorr_none hpl.state]
      show Res.bind (C.stateCorr _) _ = _
      rw [hc]
      show Res.bind (orErr (C.applyCorr x c) .astro) _ = _
      rw [Cfg.applyCorr, hpl.frame]
      show C.loop start t0 t false fuel (it + 1) (some (nrm ev.err)) b (x.add6 c) _ = _
      rw [herr']
    · rw [herr', hst]
      simp
    · intro hall
      obtain ⟨i, hi⟩ := hm
      have := hall i
      rw [hmet, decide_eq_true_eq] at this
      exact hi this
  · intro i
    rw [hfree] at hc
    have h1 : G *ᵥ c = ev.err := by
      rw [← slopes_mulVec hpl.state hc]
      exact right_inverse hpl.enough hN.inverse _
    simp only [h1, herr, Objective.error]
    ring

/-- C109. On a problem affine in the state, with at least as many variables as objectives, independent
objectives, unit factors, and a correction within the bounds, the targeter succeeds after at most one
correction, and then the errors are exactly zero or were already within tolerance.
Missing: other factors (`factor_two_fails`). -/
theorem affine_solved_partial (hpl : Plain C) {x0 start : Craft ℝ Fr} {t0 t : Int}
    (hs : C.prop none none x0 t0 = some start) {a : Fin no → ℝ} {G : Matrix (Fin no) (Fin 6) ℝ}
    {P : Matrix (Fin nv) (Fin no) ℝ} (hN : Newton C a G P) (h : Affine C start t a G)
    (hmult : ∀ i, (C.objs i).mult = 1) (htol : ∀ i, 0 ≤ (C.objs i).tol) (hit : 1 ≤ C.iterations) :
    ∃ s, C.tryAchieve x0 t0 t = .ok s ∧ s.iterations ≤ 1 ∧ (s.iterations = 1 → ∀ i, s.errors i = 0) := by
  have fin : ∀ (x : Craft ℝ Fr) (a' : Fin no → ℝ) (fuel it : Nat) (prev : Option ℝ) (b : Burn) (total : Fin nv → ℝ),
      Affine C x t a' G → (∀ i, |(C.objs i).error (a' i)| ≤ (C.objs i).tol) →
      ∃ s, C.loop start t0 t false (fuel + 1) it prev b x total = .ok s ∧ s.iterations = it ∧
        ∀ i, s.errors i = (C.objs i).error (a' i) := by
    intro x a' fuel it prev b total ha hmet
    obtain ⟨ev, hev, hm, he, -⟩ := evaluate_affine ha hpl.state hpl.frame hpl.pert b
    obtain ⟨c, hc⟩ := stateCorr_total C total
    refine ⟨⟨start.add6 c, withOrbit start ev.xf, total, ev.err, it⟩, ?_, rfl, he⟩
    rw [Cfg.loop, hev]
    show (if _ then _ else _) = _
    rw [if_pos (fun i => by rw [hm, decide_eq_true_eq]; exact hmet i), Cfg.finish]
    show Res.bind (if false = true then _ else C.stateCorr total) _ = _
    rw [if_neg (by simp), hc]
    show Res.bind (orErr (C.applyCorr start c) .astro) _ = _
    rw [Cfg.applyCorr, hpl.frame]
    rfl
  rw [plain_loop hpl hs]
  by_cases hm : ∀ i, |(C.objs i).error (a i)| ≤ (C.objs i).tol
  · obtain ⟨s, h1, h2, -⟩ := fin start a C.iterations 0 none _ 0 h hm
    exact ⟨s, h1, by omega, by omega⟩
  · push Not at hm
    obtain ⟨n, hn⟩ : ∃ n, C.iterations = n + 1 := ⟨C.iterations - 1, by omega⟩
    rw [hn]
    obtain ⟨x', a', total', h1, h2, h3⟩ := newton_step (start := start) (t0 := t0) hpl hN h (n + 1) 0 none (Burn.initial t0 t) 0
      (by obtain ⟨i, hi⟩ := hm; exact ⟨i, not_le.2 hi⟩) rfl
    have h4 : ∀ i, (C.objs i).error (a' i) = 0 := fun i => by rw [h3, hmult]; ring
    obtain ⟨s, k1, k2, k3⟩ := fin x' a' n 1 (some _) (Burn.initial t0 t) total' h2
      fun i => by rw [h4, abs_zero]; exact htol i
    exact ⟨s, by rw [h1, k1], by omega, fun _ i => by rw [k3, h4]⟩

theorem nrm_neg {n : Nat} (e : Fin n → ℝ) : nrm (fun i => -e i) = nrm e := by
  unfold nrm
  congr 1
  simp [dotProduct]

/-- C109, refuted for the factor: with the factor two on every objective, the same problem is never
solved: the correction is twice too long, the errors change sign, and the targeter stops with the error
that the correction is ineffective. -/
theorem factor_two_fails (hpl : Plain C) {x0 start : Craft ℝ Fr} {t0 t : Int}
    (hs : C.prop none none x0 t0 = some start) {a : Fin no → ℝ} {G : Matrix (Fin no) (Fin 6) ℝ}
    {P : Matrix (Fin nv) (Fin no) ℝ} (hN : Newton C a G P) (h : Affine C start t a G)
    (hmult : ∀ i, (C.objs i).mult = 2) (hit : 1 ≤ C.iterations)
    (hm : ∃ i, (C.objs i).tol < |(C.objs i).error (a i)|) :
    C.tryAchieve x0 t0 t = .err .ineffective := by
  rw [plain_loop hpl hs]
  obtain ⟨n, hn⟩ : ∃ n, C.iterations = n + 1 := ⟨C.iterations - 1, by omega⟩
  rw [hn]
  obtain ⟨x', a', total', h1, h2, h3⟩ := newton_step (start := start) (t0 := t0) hpl hN h (n + 1) 0 none (Burn.initial t0 t) 0
    (by obtain ⟨i, hi⟩ := hm; exact ⟨i, not_le.2 hi⟩) rfl
  have h4 : ∀ i, (C.objs i).error (a' i) = -(C.objs i).error (a i) := fun i => by rw [h3, hmult]; ring
  rw [h1]
  obtain ⟨ev, hev, hmet, he, -⟩ := evaluate_affine h2 hpl.state hpl.frame hpl.pert (Burn.initial t0 t)
  have herr : ev.err = fun i => -(C.objs i).error (a i) := funext fun i => by rw [he, h4]
  rw [Cfg.loop, hev]
  show (if _ then _ else _) = _
  rw [if_neg, if_pos]
  · rw [herr]
    simp only [stalled, Option.elim_some, nrm_neg, sub_self, abs_zero, decide_eq_true_eq]
    norm_num
  · intro hall
    obtain ⟨i, hi⟩ := hm
    have := hall i
    rw [hmet, decide_eq_true_eq, h4, abs_neg] at this
    linarith

end Verif.Target
