import Verif.Force.DragT
import Mathlib.Analysis.Calculus.Deriv.Prod
import Mathlib.Analysis.Calculus.Deriv.Add

/-!
The equations of motion of a spacecraft and their gradient (C162).
-/
namespace Verif.Force
open Verif.MathU Matrix
open Verif.Spacecraft (Craft)
variable {Fr : Type}

/-- The spacecraft with another position and velocity. -/
def at6 (s : Craft ℝ Fr) (x : Fin 6 → ℝ) : Craft ℝ Fr :=
  ⟨s.frame, s.epoch, ![x 0, x 1, x 2], ![x 3, x 4, x 5], s.dry, s.prop, s.extra, s.srpArea, s.cr, s.dragArea, s.cd,
    s.thruster, s.mode, s.dir, s.stm⟩

/-- The spacecraft with another coefficient of drag. -/
def withCd (s : Craft ℝ Fr) (c : ℝ) : Craft ℝ Fr :=
  ⟨s.frame, s.epoch, s.pos, s.vel, s.dry, s.prop, s.extra, s.srpArea, s.cr, s.dragArea, c, s.thruster, s.mode, s.dir, s.stm⟩

/-- The spacecraft with another propellant mass. -/
def withProp (s : Craft ℝ Fr) (c : ℝ) : Craft ℝ Fr :=
  ⟨s.frame, s.epoch, s.pos, s.vel, s.dry, c, s.extra, s.srpArea, s.cr, s.dragArea, s.cd, s.thruster, s.mode, s.dir, s.stm⟩

theorem at6_stack (s : Craft ℝ Fr) : at6 s (stack s.pos s.vel) = s := by
  cases s
  simp only [at6, stack]
  congr 1
  · funext i; fin_cases i <;> rfl
  · funext i; fin_cases i <;> rfl

/-- Specification of a force model with exact partials: near `s` the force is a function of the position alone, among position and velocity,
and the gradient is its derivative; if it estimates a parameter, that is not part of the orbit. -/
def ExactF (m : FModel Fr) (s : Craft ℝ Fr) : Prop :=
  (∀ j, m.index = some j → 6 ≤ j.val) ∧
  ∃ F : V3 → V3, (∀ᶠ x in nhds (stack s.pos s.vel), m.eom (at6 s x) = some (F (posPart x))) ∧
    ∃ G w, m.gradient s = some (F s.pos, G, w) ∧ HasFDerivAt F (linM G) s.pos

/-- Specification of the partial with respect to the parameter `j`, where `u` sets it: the derivative of the force if the model estimates it,
and otherwise the force does not depend on it. -/
def ExactP (m : FModel Fr) (s : Craft ℝ Fr) (j : Fin 9) (u : ℝ → Craft ℝ Fr) (c0 : ℝ) : Prop :=
  ∃ H : ℝ → V3, (∀ᶠ c in nhds c0, m.eom (u c) = some (H c)) ∧
    ∃ W G w, m.gradient s = some (H c0, G, w) ∧ HasDerivAt H W c0 ∧
      (m.index = some j → ∀ i, w i = some (W i)) ∧ (m.index ≠ some j → W = 0)

/-- An acceleration as a derivative of the state of nine components. -/
def spread (a : V3) : Fin 9 → ℝ := fun i => if h : 3 ≤ i.val ∧ i.val < 6 then a ⟨i - 3, by omega⟩ else 0

/-- Its matrix of partials. -/
def widen (G : M3) : Matrix (Fin 9) (Fin 6) ℝ :=
  of fun i j => if h : (3 ≤ i.val ∧ i.val < 6) ∧ j.val < 3 then G ⟨i - 3, by omega⟩ ⟨j, h.2⟩ else 0

theorem nadd_zero (a : Option ℝ) : nadd a (some 0) = a := by
  cases a <;> simp [nadd]

theorem nadd_assoc (a b c : Option ℝ) : nadd (nadd a b) c = nadd a (nadd b c) := by
  cases a <;> cases b <;> cases c <;> simp [nadd, add_assoc]

theorem nadd_some (a b : ℝ) : nadd (some a) (some b) = some (a + b) := rfl

theorem spread_step (d : Fin 9 → ℝ) (f : V3) (m : ℝ) :
    (fun i : Fin 9 => if h : 3 ≤ i.val ∧ i.val < 6 then d i + f ⟨i - 3, by omega⟩ / m else d i) = d + spread (m⁻¹ • f) := by
  funext i
  by_cases h : 3 ≤ i.val ∧ i.val < 6
  · simp [spread, h, div_eq_inv_mul]
  · simp [spread, h]

theorem spread_add (a b : V3) : spread (a + b) = spread a + spread b := by
  funext i
  by_cases h : 3 ≤ i.val ∧ i.val < 6
  · simp [spread, h]
  · simp [spread, h]

theorem forces_exact (ms : List (FModel Fr)) (s : Craft ℝ Fr) (hm : ∀ m ∈ ms, ExactF m s) :
    ∃ S : V3 → V3, (∀ᶠ x in nhds (stack s.pos s.vel), ∀ d, addForces ms (at6 s x) d = some (d + spread (s.mass⁻¹ • S (posPart x)))) ∧
      ∃ GS : M3, HasFDerivAt S (linM GS) s.pos ∧
        ∀ d g, ∃ g', addForceGradients ms s (d, g) = some (d + spread (s.mass⁻¹ • S s.pos), g') ∧
          ∀ i (j : Fin 9) (hj : j.val < 6), g' i j = nadd (g i j) (some (widen (s.mass⁻¹ • GS) i ⟨j, hj⟩)) := by
  induction ms with
  | nil =>
    refine ⟨fun _ => 0, Filter.Eventually.of_forall fun x d => ?_, 0, ?_, fun d g => ⟨g, ?_, fun i j hj => ?_⟩⟩
    · simp only [addForces, smul_zero, Option.some.injEq]
      funext i
      simp [spread]
    · have h := hasFDerivAt_const (𝕜 := ℝ) (0 : V3) s.pos
      rwa [show (0 : V3 →L[ℝ] V3) = linM 0 from ContinuousLinearMap.ext fun v => by
        rw [linM_apply]; simp] at h
    · simp only [addForceGradients, smul_zero, Option.some.injEq, Prod.mk.injEq, and_true]
      funext i
      simp [spread]
    · simp [widen, nadd_zero]
  | cons m ms ih =>
    obtain ⟨hidx, F, hF, G, w, hG, hd⟩ := hm m List.mem_cons_self
    obtain ⟨S, hS, GS, hdS, hg⟩ := ih fun m' h' => hm m' (List.mem_cons_of_mem _ h')
    refine ⟨fun p => F p + S p, ?_, G + GS, ?_, fun d g => ?_⟩
    · filter_upwards [hF, hS] with x h1 h2 d
      simp only [addForces, h1]
      rw [show (at6 s x).mass = s.mass from rfl, spread_step, h2, add_assoc, ← spread_add, ← smul_add]
    · have h := hd.add hdS
      rwa [show linM G + linM GS = linM (G + GS) from ContinuousLinearMap.ext fun v => by
        rw [_root_.add_apply, linM_apply, linM_apply, linM_apply, add_mulVec]] at h
    · simp only [addForceGradients, hG]
      rw [spread_step]
      obtain ⟨g', h1, h2⟩ := hg (d + spread (s.mass⁻¹ • F s.pos)) (fun i j =>
          let a := if hij : (3 ≤ i.val ∧ i.val < 6) ∧ j.val < 3 then
              nadd (g i j) (some (G ⟨i - 3, by omega⟩ ⟨j, hij.2⟩ / s.mass))
            else g i j
          if hi : 3 ≤ i.val ∧ i.val < 6 then
            if m.index = some j then nadd a ((w ⟨i - 3, by omega⟩).map (· / s.mass)) else a
          else a)
      refine ⟨g', ?_, fun i j hj => ?_⟩
      · rw [h1, add_assoc, ← spread_add, ← smul_add]
      · have hne : m.index ≠ some j := fun h => absurd (hidx j h) (by omega)
        rw [h2 i j hj]
        simp only [hne, if_false, dite_eq_ite, ite_self]
        by_cases hij : (3 ≤ i.val ∧ i.val < 6) ∧ j.val < 3
        · simp only [hij, widen, of_apply, and_self, dite_true, nadd_assoc, nadd_some]
          congr 2
          simp [div_eq_inv_mul, mul_add]
        · simp only [widen, of_apply]
          rw [dif_neg hij, dif_neg hij, dif_neg hij]

theorem forces_param (ms : List (FModel Fr)) (s : Craft ℝ Fr) (j : Fin 9) (u : ℝ → Craft ℝ Fr) (c0 : ℝ)
    (hu : ∀ c, (u c).mass = s.mass) (hj : 6 ≤ j.val) (hm : ∀ m ∈ ms, ExactP m s j u c0) :
    ∃ S : ℝ → V3, (∀ᶠ c in nhds c0, ∀ d, addForces ms (u c) d = some (d + spread (s.mass⁻¹ • S c))) ∧
      ∃ W, HasDerivAt S W c0 ∧
        ∀ d g, ∃ d' g', addForceGradients ms s (d, g) = some (d', g') ∧
          ∀ i, g' i j = nadd (g i j) (some (spread (s.mass⁻¹ • W) i)) := by
  induction ms with
  | nil =>
    refine ⟨fun _ => 0, Filter.Eventually.of_forall fun x d => ?_, 0, hasDerivAt_const c0 0, fun d g => ⟨d, g, rfl, fun i => ?_⟩⟩
    · simp only [addForces, smul_zero, Option.some.injEq]
      funext i
      simp [spread]
    · simp [spread, nadd_zero]
  | cons m ms ih =>
    obtain ⟨H, hH, W, G, w, hG, hd, hw, hw0⟩ := hm m List.mem_cons_self
    obtain ⟨S, hS, WS, hdS, hg⟩ := ih fun m' h' => hm m' (List.mem_cons_of_mem _ h')
    refine ⟨fun p => H p + S p, ?_, W + WS, hd.add hdS, fun d g => ?_⟩
    · filter_upwards [hH, hS] with x h1 h2 d
      simp only [addForces, h1]
      rw [hu, spread_step, h2, add_assoc, ← spread_add, ← smul_add]
    · simp only [addForceGradients, hG]
      obtain ⟨d', g', h1, h2⟩ := hg _ _
      refine ⟨d', g', h1, fun i => ?_⟩
      rw [h2 i]
      have hj3 : ¬ j.val < 3 := by omega
      simp only [hj3, and_false, dite_false]
      by_cases hi : 3 ≤ i.val ∧ i.val < 6
      · by_cases hidx : m.index = some j
        · simp only [hi, hidx, and_self, dite_true, if_true, hw hidx, Option.map_some, nadd_assoc, spread, nadd_some]
          congr 2
          simp [div_eq_inv_mul, mul_add]
        · simp only [hidx, if_false, hw0 hidx, zero_add, dite_eq_ite, ite_self]
      · simp only [hi, dite_false, spread]

/-- The first six components as the derivative of the state of nine components. -/
def pad (d : Fin 6 → ℝ) : Fin 9 → ℝ := fun i => if h : i.val < 6 then d ⟨i, h⟩ else 0

/-- C162, partial: for exact acceleration and force models, without guidance and with a positive mass, the derivative computed with the transition
matrix is that computed without, and the first six columns of the matrix are the derivative of the
equations of motion with respect to the orbit. Missing: the propellant mass, with guidance or with drag. -/
theorem sc_gradient_partial (alm : Alm Fr) (D : ScDyn Fr) (s : Craft ℝ Fr) (mu : ℝ) (hmu : alm.mu s.frame = some mu)
    (h0 : s.pos ≠ 0) (hmass : 0 < s.mass) (hg : D.guided = false) (ha : ∀ m ∈ D.accels, Exact m (orbitOf s))
    (hf : ∀ m ∈ D.forces, ExactF m s) :
    ∃ F : (Fin 6 → ℝ) → Fin 9 → ℝ, (∀ᶠ x in nhds (stack s.pos s.vel), scEom alm D (at6 s x) = some (F x)) ∧
      ∃ A A6, scEom alm D s = some (F (stack s.pos s.vel)) ∧ scEomStm alm D s = some (F (stack s.pos s.vel), A) ∧
        (∀ i (j : Fin 6), A i (j.castLE (by omega)) = some (A6 i j)) ∧
        HasFDerivAt F (linM A6) (stack s.pos s.vel) := by
  obtain ⟨F1, hF1, -, A1, hA1, hE1, hd1⟩ := orb_gradient alm D.accels (orbitOf s) mu hmu h0 ha
  obtain ⟨S, hS, GS, hdS, hgr⟩ := forces_exact D.forces s hf
  have hx0 : stack (orbitOf s).pos (orbitOf s).vel = stack s.pos s.vel := rfl
  rw [hx0] at hA1 hE1 hd1
  set x0 := stack s.pos s.vel with hx
  have hp0 : posPart x0 = s.pos := posPart_stack _ _
  obtain ⟨g', hg1, hg2⟩ := hgr (pad (F1 x0)) (fun i j => if h : i.val < 6 ∧ j.val < 6 then some (A1 ⟨i, h.1⟩ ⟨j, h.2⟩) else some 0)
  have hE : ∀ᶠ x in nhds x0, scEom alm D (at6 s x) = some (pad (F1 x) + spread (s.mass⁻¹ • S (posPart x))) := by
    filter_upwards [hS, hF1] with x hx hF1
    unfold scEom
    rw [if_neg (by rintro ⟨-, h⟩; exact h hmass)]
    rw [show orbitOf (at6 s x) = (orbitOf s).at x from rfl, hF1]
    exact hx _
  refine ⟨_, hE, g', of fun i j => (if h : i.val < 6 then A1 ⟨i, h⟩ j else 0) + widen (s.mass⁻¹ • GS) i j, ?_, ?_, ?_, ?_⟩
  · have := hE.self_of_nhds
    rwa [hx, at6_stack] at this
  · unfold scEomStm
    rw [if_neg (by rintro ⟨-, h⟩; exact h hmass)]
    simp only [scDual, hA1, hg]
    rw [hp0]
    exact hg1
  · intro i j
    have hj : (j.castLE (by omega) : Fin 9).val < 6 := j.isLt
    rw [hg2 i _ hj]
    by_cases hi : i.val < 6
    · simp only [hi, hj, and_self, dite_true, nadd_some, of_apply]
      rfl
    · simp only [hi, false_and, dite_false, nadd_some, of_apply]
      rfl
  · refine hasFDerivAt_pi.mpr fun i => ?_
    have hdS' : HasFDerivAt (fun x => S (posPart x)) ((linM GS).comp (linM Ppos)) x0 :=
      HasFDerivAt.comp x0 (by rw [hp0]; exact hdS) (posPart_deriv x0)
    by_cases hi : i.val < 6
    · have h1 := hasFDerivAt_pi.mp hd1 ⟨i, hi⟩
      by_cases h3 : 3 ≤ i.val
      · have h2a := (hasFDerivAt_apply (𝕜 := ℝ) (⟨i - 3, by omega⟩ : Fin 3) (S (posPart x0))).comp x0 hdS'
        have h2 := h2a.const_mul s.mass⁻¹
        have h4 := h1.add h2
        have h5 := h4.congr_of_eventuallyEq (f₁ := fun x => (pad (F1 x) + spread (s.mass⁻¹ • S (posPart x))) i)
          (Filter.Eventually.of_forall fun y => by simp [pad, spread, hi, h3])
        refine hdf h5 (lin_congr fun v => ?_)
        show lin (A1 ⟨i, hi⟩) v + s.mass⁻¹ * (linM GS (linM Ppos v)) ⟨i - 3, by omega⟩ = _
        rw [lin_apply, linM_apply, linM_apply, ← wide_mulVec]
        simp only [mulVec, dotProduct, Finset.mul_sum, ← Finset.sum_add_distrib]
        refine Finset.sum_congr rfl fun j _ => ?_
        by_cases hj : j.val < 3
        · simp [widen, wide, hi, h3, hj]
          ring
        · simp [widen, wide, hi, hj]
      · have h5 := h1.congr_of_eventuallyEq (f₁ := fun x => (pad (F1 x) + spread (s.mass⁻¹ • S (posPart x))) i)
          (Filter.Eventually.of_forall fun y => by simp [pad, spread, hi, h3])
        refine hdf h5 (lin_congr fun v => ?_)
        show lin (A1 ⟨i, hi⟩) v = _
        rw [lin_apply]
        simp only [dotProduct]
        refine Finset.sum_congr rfl fun j _ => ?_
        simp [widen, hi, h3]
    · have h5 := (hasFDerivAt_const (𝕜 := ℝ) (0 : ℝ) x0).congr_of_eventuallyEq (f₁ := fun x => (pad (F1 x) + spread (s.mass⁻¹ • S (posPart x))) i)
        (Filter.Eventually.of_forall fun y => by simp [pad, spread, hi])
      refine hdf h5 (lin_congr fun v => ?_)
      simp only [dotProduct]
      rw [Finset.sum_eq_zero fun j _ => ?_]
      · rfl
      · simp [widen, hi]

theorem sc_param (alm : Alm Fr) (D : ScDyn Fr) (s : Craft ℝ Fr) (j : Fin 9) (u : ℝ → Craft ℝ Fr) (c0 : ℝ)
    (hu : ∀ c, (u c).mass = s.mass) (ho : ∀ c, orbitOf (u c) = orbitOf s) (hj : 6 ≤ j.val) (mu : ℝ) (hmu : alm.mu s.frame = some mu)
    (h0 : s.pos ≠ 0) (hmass : 0 < s.mass) (hg : D.guided = false) (ha : ∀ m ∈ D.accels, Exact m (orbitOf s))
    (hf : ∀ m ∈ D.forces, ExactP m s j u c0) :
    ∃ H : ℝ → Fin 9 → ℝ, (∀ᶠ c in nhds c0, scEom alm D (u c) = some (H c)) ∧
      ∃ d A W, scEomStm alm D s = some (d, A) ∧ (∀ i, A i j = some (W i)) ∧ HasDerivAt H W c0 := by
  obtain ⟨F1, -, -, A1, hA1, hE1, -⟩ := orb_gradient alm D.accels (orbitOf s) mu hmu h0 ha
  obtain ⟨S, hS, W, hdS, hgr⟩ := forces_param D.forces s j u c0 hu hj hf
  set d1 := F1 (stack (orbitOf s).pos (orbitOf s).vel)
  obtain ⟨d', g', hg1, hg2⟩ := hgr (pad d1) (fun i j => if h : i.val < 6 ∧ j.val < 6 then some (A1 ⟨i, h.1⟩ ⟨j, h.2⟩) else some 0)
  refine ⟨fun c => pad d1 + spread (s.mass⁻¹ • S c), ?_, d', g', spread (s.mass⁻¹ • W), ?_, fun i => ?_, ?_⟩
  · filter_upwards [hS] with c hc
    unfold scEom
    rw [hu, if_neg (by rintro ⟨-, h⟩; exact h hmass), ho, hE1]
    exact hc _
  · unfold scEomStm
    rw [if_neg (by rintro ⟨-, h⟩; exact h hmass)]
    simp only [scDual, hA1, hg]
    exact hg1
  · rw [hg2 i, dif_neg (by omega), nadd_some, zero_add]
  · refine hasDerivAt_pi.mpr fun i => ?_
    by_cases h : 3 ≤ i.val ∧ i.val < 6
    · have h1 := ((hasDerivAt_pi.mp hdS ⟨i - 3, by omega⟩).const_mul s.mass⁻¹).const_add (pad d1 i)
      have e : (fun c => (pad d1 + spread (s.mass⁻¹ • S c)) i) = fun c => pad d1 i + s.mass⁻¹ * S c ⟨i - 3, by omega⟩ := by
        funext c; simp [spread, h]
      rw [e]
      have e2 : spread (s.mass⁻¹ • W) i = s.mass⁻¹ * W ⟨i - 3, by omega⟩ := by simp [spread, h]
      rw [e2]
      exact h1
    · have e : (fun c => (pad d1 + spread (s.mass⁻¹ • S c)) i) = fun c => pad d1 i := by
        funext c; simp [spread, h]
      rw [e]
      have e2 : spread (s.mass⁻¹ • W) i = 0 := by simp [spread, h]
      rw [e2]
      exact hasDerivAt_const c0 _

/-- C162: the seventh column is the derivative of the equations of motion with respect to the coefficient of reflectivity. -/
theorem sc_gradient_cr (alm : Alm Fr) (D : ScDyn Fr) (s : Craft ℝ Fr) (mu : ℝ) (hmu : alm.mu s.frame = some mu)
    (h0 : s.pos ≠ 0) (hmass : 0 < s.mass) (hg : D.guided = false) (ha : ∀ m ∈ D.accels, Exact m (orbitOf s))
    (hf : ∀ m ∈ D.forces, ExactP m s 6 (withCr s) s.cr) :
    ∃ H : ℝ → Fin 9 → ℝ, (∀ᶠ c in nhds s.cr, scEom alm D (withCr s c) = some (H c)) ∧
      ∃ d A W, scEomStm alm D s = some (d, A) ∧ (∀ i, A i 6 = some (W i)) ∧ HasDerivAt H W s.cr :=
  sc_param alm D s 6 (withCr s) s.cr (fun _ => rfl) (fun _ => rfl) (by decide) mu hmu h0 hmass hg ha hf

/-- C162: the eighth column is the derivative of the equations of motion with respect to the coefficient of drag, for force models
with partials. -/
theorem sc_gradient_cd (alm : Alm Fr) (D : ScDyn Fr) (s : Craft ℝ Fr) (mu : ℝ) (hmu : alm.mu s.frame = some mu)
    (h0 : s.pos ≠ 0) (hmass : 0 < s.mass) (hg : D.guided = false) (ha : ∀ m ∈ D.accels, Exact m (orbitOf s))
    (hf : ∀ m ∈ D.forces, ExactP m s 7 (withCd s) s.cd) :
    ∃ H : ℝ → Fin 9 → ℝ, (∀ᶠ c in nhds s.cd, scEom alm D (withCd s c) = some (H c)) ∧
      ∃ d A W, scEomStm alm D s = some (d, A) ∧ (∀ i, A i 7 = some (W i)) ∧ HasDerivAt H W s.cd :=
  sc_param alm D s 7 (withCd s) s.cd (fun _ => rfl) (fun _ => rfl) (by decide) mu hmu h0 hmass hg ha hf

/-- C162, refuted: the column of the propellant mass is zero, although a force that does not depend on the mass accelerates the
spacecraft by the force over the mass. -/
theorem sc_mass_column (alm : Alm Fr) (D : ScDyn Fr) (m : FModel Fr) (s : Craft ℝ Fr) (mu : ℝ) (f : V3) (hD : D.forces = [m])
    (hmu : alm.mu s.frame = some mu) (h0 : s.pos ≠ 0) (hmass : 0 < s.mass) (hg : D.guided = false)
    (ha : ∀ m ∈ D.accels, Exact m (orbitOf s)) (hi : m.index ≠ some 8) (he : ∀ c, m.eom (withProp s c) = some f)
    (hgr : ∃ G w, m.gradient s = some (f, G, w)) (hf : f ≠ 0) :
    ∃ H : ℝ → Fin 9 → ℝ, (∀ᶠ c in nhds s.prop, scEom alm D (withProp s c) = some (H c)) ∧
      ∃ d A, scEomStm alm D s = some (d, A) ∧ (∀ i, A i 8 = some 0) ∧
        ∃ W, HasDerivAt H W s.prop ∧ W ≠ 0 := by
  obtain ⟨F1, -, -, A1, hA1, hE1, -⟩ := orb_gradient alm D.accels (orbitOf s) mu hmu h0 ha
  set d1 := F1 (stack (orbitOf s).pos (orbitOf s).vel)
  obtain ⟨G, w, hG⟩ := hgr
  have hcont : ∀ᶠ c in nhds s.prop, 0 < (withProp s c).mass := by
    have hc : ContinuousAt (fun c : ℝ => s.dry + c + s.extra) s.prop := by fun_prop
    exact hc.eventually (lt_mem_nhds hmass)
  refine ⟨fun c => pad d1 + spread ((s.dry + c + s.extra)⁻¹ • f), ?_, ?_⟩
  · filter_upwards [hcont] with c hc
    unfold scEom
    rw [if_neg (by rintro ⟨-, h⟩; exact h hc), show orbitOf (withProp s c) = orbitOf s from rfl, hE1, hD]
    simp only [addForces, he]
    rw [spread_step]
    rfl
  · have hst : ∃ d A, scEomStm alm D s = some (d, A) ∧ ∀ i, A i 8 = some 0 := by
      unfold scEomStm
      rw [if_neg (by rintro ⟨-, h⟩; exact h hmass)]
      simp only [scDual, hA1, hg, hD, addForceGradients, hG]
      exact ⟨_, _, rfl, fun i => by simp [hi]⟩
    obtain ⟨d, A, hst, hA⟩ := hst
    refine ⟨d, A, hst, hA, spread ((-((s.mass) ^ 2)⁻¹) • f), ?_, ?_⟩
    · refine hasDerivAt_pi.mpr fun i => ?_
      have hx : HasDerivAt (fun c : ℝ => s.dry + c + s.extra) 1 s.prop := ((hasDerivAt_id s.prop).const_add s.dry).add_const s.extra
      have hinv := hx.inv (show s.dry + s.prop + s.extra ≠ 0 from hmass.ne')
      by_cases h : 3 ≤ i.val ∧ i.val < 6
      · have h1 := (hinv.mul_const (f ⟨i - 3, by omega⟩)).const_add (pad d1 i)
        have e : (fun c => (pad d1 + spread ((s.dry + c + s.extra)⁻¹ • f)) i) =
            fun c => pad d1 i + (s.dry + c + s.extra)⁻¹ * f ⟨i - 3, by omega⟩ := by
          funext c; simp [spread, h]
        rw [e]
        have e2 : spread ((-((s.mass) ^ 2)⁻¹) • f) i = -1 / (s.dry + s.prop + s.extra) ^ 2 * f ⟨i - 3, by omega⟩ := by
          simp only [spread, h, and_self, dite_true, Pi.smul_apply, smul_eq_mul, Craft.mass]
          ring
        rw [e2]
        exact h1
      · have e : (fun c => (pad d1 + spread ((s.dry + c + s.extra)⁻¹ • f)) i) = fun c => pad d1 i := by
          funext c; simp [spread, h]
        rw [e]
        have e2 : spread ((-((s.mass) ^ 2)⁻¹) • f) i = 0 := by simp [spread, h]
        rw [e2]
        exact hasDerivAt_const _ _
    · intro hz
      apply hf
      funext k
      have := congrFun hz (⟨k + 3, by omega⟩ : Fin 9)
      have hne : s.mass ≠ 0 := hmass.ne'
      simpa [spread, show 3 ≤ k.val + 3 ∧ k.val + 3 < 6 by omega, hne] using this

/-- C162: a spacecraft without mass is rejected by both if there is a force model; with guidance or with a force model without
partials, such as drag, there is no transition matrix. -/
theorem sc_rejects (alm : Alm Fr) (D : ScDyn Fr) (s : Craft ℝ Fr) :
    (D.forces ≠ [] → s.mass ≤ 0 → scEom alm D s = none ∧ scEomStm alm D s = none) ∧
    (D.guided = true → scEomStm alm D s = none) ∧
    (∀ m ∈ D.forces, m.gradient s = none → scEomStm alm D s = none) := by
  refine ⟨fun h1 h2 => ?_, fun h => ?_, fun m hm hg => ?_⟩
  · unfold scEom scEomStm
    rw [if_pos ⟨h1, not_lt.mpr h2⟩, if_pos ⟨h1, not_lt.mpr h2⟩]
    exact ⟨rfl, rfl⟩
  · unfold scEomStm scDual
    split
    · rfl
    · cases orbDual alm D.accels (orbitOf s) with
      | none => rfl
      | some p => rfl
  · have key : ∀ (ms : List (FModel Fr)) p, m ∈ ms → addForceGradients ms s p = none := by
      intro ms
      induction ms with
      | nil => intro p h; cases h
      | cons a ms ih =>
        intro p h
        obtain ⟨d, g⟩ := p
        simp only [addForceGradients]
        cases ha : a.gradient s with
        | none => rfl
        | some q =>
          obtain ⟨f, G, w⟩ := q
          simp only
          rcases List.mem_cons.mp h with rfl | h
          · rw [hg] at ha; cases ha
          · exact ih _ h
    unfold scEomStm scDual
    split
    · rfl
    · cases orbDual alm D.accels (orbitOf s) with
      | none => rfl
      | some p =>
        simp only
        split
        · rfl
        · exact key _ _ hm

/-! ### Examples -/

theorem moved_at6 (s : Craft ℝ Fr) (x : Fin 6 → ℝ) (p : Srp Fr) (alm : Alm Fr)
    (h : ∀ o o' : Orb Fr, o.frame = o'.frame → o.epoch = o'.epoch → o.pos = o'.pos →
      (alm.transformTo o p.light).map Orb.pos = (alm.transformTo o' p.light).map Orb.pos ∧ p.light01 alm o = p.light01 alm o') :
    p.eom alm (at6 s x) = p.eom alm (moved s (posPart x)) := by
  obtain ⟨h1, h2⟩ := h (orbitOf (at6 s x)) (orbitOf (moved s (posPart x))) rfl rfl rfl
  simp only [Srp.eom, h2]
  revert h1
  cases alm.transformTo (orbitOf (at6 s x)) p.light <;> cases alm.transformTo (orbitOf (moved s (posPart x))) p.light <;>
    (intro h1; simp_all; try rfl)

theorem aligned_exact : ExactF (srpSun.model alignedAlm) satLeo := by
  obtain ⟨F, G, W, h1, h2, h3, -⟩ := srp_gradient_partial alignedAlm srpSun satLeo ![au, 0, 0] 1
    (fun q => ⟨10, satLeo.epoch, q - ![au, 0, 0], satLeo.vel⟩) (fun q => by simp [alignedAlm, srpSun, moved, orbitOf]) (fun q => rfl)
    (Filter.Eventually.of_forall aligned_lit)
    (fun h => by
      have := congrFun h 0
      norm_num [satLeo, au] at this)
    (by norm_num [satLeo])
  refine ⟨fun j hj => ?_, F, ?_, G, _, h2, h3⟩
  · simp only [Srp.model, srpSun] at hj
    simp at hj
    subst hj
    decide
  · have hc : Filter.Tendsto posPart (nhds (stack satLeo.pos satLeo.vel)) (nhds satLeo.pos) := by
      have := (posPart_deriv (stack satLeo.pos satLeo.vel)).continuousAt
      rwa [ContinuousAt, posPart_stack] at this
    filter_upwards [hc.eventually h1] with x hx
    rw [← hx]
    refine moved_at6 satLeo x srpSun alignedAlm fun o o' hf he hp => ⟨?_, ?_⟩
    · simp [alignedAlm, srpSun, hp]
    · simp [Srp.light01, srpSun, Guide.shadow, Guide.shadowLoop]

theorem aligned_param : ExactP (srpSun.model alignedAlm) satLeo 6 (withCr satLeo) satLeo.cr := by
  obtain ⟨F, G, W, h1, h2, -, H, h4, h5⟩ := srp_gradient_partial alignedAlm srpSun satLeo ![au, 0, 0] 1
    (fun q => ⟨10, satLeo.epoch, q - ![au, 0, 0], satLeo.vel⟩) (fun q => by simp [alignedAlm, srpSun, moved, orbitOf]) (fun q => rfl)
    (Filter.Eventually.of_forall aligned_lit)
    (fun h => by
      have := congrFun h 0
      norm_num [satLeo, au] at this)
    (by norm_num [satLeo])
  have e : F satLeo.pos = H satLeo.cr := by
    have a := h1.self_of_nhds
    have b := h4 satLeo.cr
    have : some (F satLeo.pos) = some (H satLeo.cr) := a.symm.trans b
    exact Option.some.inj this
  refine ⟨H, Filter.Eventually.of_forall h4, W, G, _, by rw [← e]; exact h2, h5, fun _ _ => rfl, fun h => absurd ?_ h⟩
  simp [Srp.model, srpSun]

example := sc_gradient_partial alignedAlm ⟨[], [srpSun.model alignedAlm], false⟩ satLeo 398600 rfl
  (fun h => by have := congrFun h 0; norm_num [satLeo] at this)
  (by norm_num [satLeo, Spacecraft.Craft.mass]) rfl (by simp) (by simpa using aligned_exact)

example := sc_gradient_cr alignedAlm ⟨[], [srpSun.model alignedAlm], false⟩ satLeo 398600 rfl
  (fun h => by have := congrFun h 0; norm_num [satLeo] at this)
  (by norm_num [satLeo, Spacecraft.Craft.mass]) rfl (by simp) (by simpa using aligned_param)

/-- The mass column is wrong for the solar pressure on a spacecraft in low Earth orbit. -/
theorem aligned_mass_wrong : ∃ H : ℝ → Fin 9 → ℝ,
    (∀ᶠ c in nhds satLeo.prop, scEom alignedAlm ⟨[], [srpSun.model alignedAlm], false⟩ (withProp satLeo c) = some (H c)) ∧
      ∃ d A, scEomStm alignedAlm ⟨[], [srpSun.model alignedAlm], false⟩ satLeo = some (d, A) ∧ (∀ i, A i 8 = some 0) ∧
        ∃ W, HasDerivAt H W satLeo.prop ∧ W ≠ 0 := by
  obtain ⟨-, F, h1, G, w, h2, -⟩ := aligned_exact
  have h3 := h1.self_of_nhds
  rw [at6_stack, posPart_stack] at h3
  refine sc_mass_column alignedAlm ⟨[], [srpSun.model alignedAlm], false⟩ (srpSun.model alignedAlm) satLeo 398600 (F satLeo.pos) rfl rfl
    (fun h => by have := congrFun h 0; norm_num [satLeo] at this)
    (by norm_num [satLeo, Spacecraft.Craft.mass]) rfl (by simp) (by simp [Srp.model, srpSun]) (fun c => h3) ⟨G, w, h2⟩ ?_
  intro hz
  rw [hz] at h3
  have hne : satLeo.pos - ![au, 0, 0] ≠ 0 := fun h => by
    have := congrFun h 0
    norm_num [satLeo, au] at this
  obtain ⟨q, -, -, -, hq, hf⟩ := srp_force alignedAlm srpSun satLeo 0 ⟨10, satLeo.epoch, satLeo.pos - ![au, 0, 0], satLeo.vel⟩
    h3 rfl hne (by simp [srpSun])
  have hq0 : q = 0 := by
    rcases hq with h | ⟨b, hb, -⟩
    · exact h
    · simp [srpSun] at hb
  have hn := nrm_pos _ hne
  have hp : 0 < pressure satLeo.cr satLeo.srpArea srpSun.phi (1 - q / 100) (nrm (satLeo.pos - ![au, 0, 0])) := by
    have hau := au_pos
    have hl : 0 < lightSpeed := by norm_num [lightSpeed]
    have h1 : 0 < satLeo.cr := by norm_num [satLeo]
    have h2 : 0 < satLeo.srpArea := by norm_num [satLeo]
    have h3 : 0 < srpSun.phi := by norm_num [srpSun]
    rw [hq0, show (1 : ℝ) - 0 / 100 = 1 by norm_num]
    unfold pressure
    positivity
  exact smul_ne_zero (div_pos hp hn).ne' hne hf.symm

/-- C162: the solar pressure which estimates the coefficient of reflectivity meets the hypothesis of `sc_gradient_cr`, whatever the axes
of the frames and the illumination, for a coefficient that is not zero. -/
theorem srp_param (alm : Alm Fr) (p : Srp Fr) (s : Craft ℝ Fr) (f : V3) (t : Orb Fr) (hp : p.estimate = true) (hc : s.cr ≠ 0)
    (hf : p.eom alm s = some f) (ht : alm.transformTo (orbitOf s) p.light = some t) (h0 : t.pos ≠ 0) :
    ExactP (p.model alm) s 6 (withCr s) s.cr := by
  cases hk : p.light01 alm (orbitOf s) with
  | none => simp only [Srp.eom, ht, hk] at hf; cases hf
  | some k =>
    have hE : ∀ c, p.eom alm (withCr s c) = some (srpAt k p.phi s.srpArea c t.pos) := by
      intro c
      have e1 : orbitOf (withCr s c) = orbitOf s := rfl
      have e2 : (withCr s c).cr = c := rfl
      have e3 : (withCr s c).srpArea = s.srpArea := rfl
      simp only [Srp.eom, e1, e2, e3, ht, hk, Option.some.injEq]
      simp only [srpAt, pressure, smul_smul]
      congr 1
      simp only [one_div, inv_div]
      ring
    have hlin : ∀ c, srpAt k p.phi s.srpArea c t.pos = c • srpAt k p.phi s.srpArea 1 t.pos := by
      intro c
      simp only [srpAt, pressure, smul_smul]
      congr 1
      ring
    have hs : p.eom alm s = some (srpAt k p.phi s.srpArea s.cr t.pos) := hE s.cr
    refine ⟨fun c => srpAt k p.phi s.srpArea c t.pos, Filter.Eventually.of_forall hE, srpAt k p.phi s.srpArea 1 t.pos,
      of fun i j => (srpD k p.phi s.cr s.srpArea t.pos i).eps j,
      fun j => some (srpAt k p.phi s.srpArea s.cr t.pos j / s.cr), ?_, ?_, fun _ j => ?_, fun h => absurd ?_ h⟩
    · show p.gradient alm s = _
      simp only [Srp.gradient, ht, hk, hs, hc, if_false, Option.some.injEq, Prod.mk.injEq, and_true]
      funext i
      exact (srpD_tracks k p.phi s.cr s.srpArea t.pos h0 i).1
    · have hd := (hasDerivAt_id s.cr).smul_const (srpAt k p.phi s.srpArea 1 t.pos)
      rw [one_smul] at hd
      exact hd.congr_of_eventuallyEq (Filter.Eventually.of_forall fun c => hlin c)
    · rw [hlin s.cr]
      simp only [Pi.smul_apply, smul_eq_mul]
      field_simp
    · simp [Srp.model, hp]

/-- C162: with the solar pressure as the force, the seventh column of the partials is the derivative of the equations of motion with
respect to the coefficient of reflectivity. -/
theorem srp_column (alm : Alm Fr) (p : Srp Fr) (s : Craft ℝ Fr) (mu : ℝ) (f : V3) (t : Orb Fr) (hmu : alm.mu s.frame = some mu)
    (hpos : s.pos ≠ 0) (hmass : 0 < s.mass) (hp : p.estimate = true) (hc : s.cr ≠ 0)
    (hf : p.eom alm s = some f) (ht : alm.transformTo (orbitOf s) p.light = some t) (h0 : t.pos ≠ 0) :
    ∃ H : ℝ → Fin 9 → ℝ, (∀ᶠ c in nhds s.cr, scEom alm ⟨[], [p.model alm], false⟩ (withCr s c) = some (H c)) ∧
      ∃ d A W, scEomStm alm ⟨[], [p.model alm], false⟩ s = some (d, A) ∧ (∀ i, A i 6 = some (W i)) ∧ HasDerivAt H W s.cr :=
  sc_gradient_cr alm ⟨[], [p.model alm], false⟩ s mu hmu hpos hmass rfl (by simp)
    (by intro m hm; simp only [List.mem_singleton] at hm; subst hm; exact srp_param alm p s f t hp hc hf ht h0)

example := fun f h => srp_column alignedAlm srpSun satLeo 398600 f ⟨10, satLeo.epoch, satLeo.pos - ![au, 0, 0], satLeo.vel⟩ rfl
  (fun h => by have := congrFun h 0; norm_num [satLeo] at this) (by norm_num [satLeo, Spacecraft.Craft.mass]) rfl (by norm_num [satLeo])
  h rfl (fun h => by have := congrFun h 0; norm_num [satLeo, au] at this)

theorem aligned_drag_param : ExactP (srpSun.model alignedAlm) satLeo 7 (withCd satLeo) satLeo.cd := by
  obtain ⟨F, G, W, h1, h2, -, H, h4, -⟩ := srp_gradient_partial alignedAlm srpSun satLeo ![au, 0, 0] 1
    (fun q => ⟨10, satLeo.epoch, q - ![au, 0, 0], satLeo.vel⟩) (fun q => by simp [alignedAlm, srpSun, moved, orbitOf]) (fun q => rfl)
    (Filter.Eventually.of_forall aligned_lit)
    (fun h => by
      have := congrFun h 0
      norm_num [satLeo, au] at this)
    (by norm_num [satLeo])
  have a : (srpSun.model alignedAlm).eom satLeo = some (F satLeo.pos) := h1.self_of_nhds
  exact ⟨fun _ => F satLeo.pos, Filter.Eventually.of_forall fun c => a, 0, G, _, h2, hasDerivAt_const _ _,
    fun h => by simp [Srp.model, srpSun] at h, fun _ => rfl⟩

example := sc_gradient_cd alignedAlm ⟨[], [srpSun.model alignedAlm], false⟩ satLeo 398600 rfl
  (fun h => by have := congrFun h 0; norm_num [satLeo] at this)
  (by norm_num [satLeo, Spacecraft.Craft.mass]) rfl (by simp) (by simpa using aligned_drag_param)

example := (sc_rejects alignedAlm ⟨[], [srpSun.model alignedAlm], false⟩ { satLeo with dry := 0, prop := 0 }).1 (by simp)
  (by norm_num [satLeo, Spacecraft.Craft.mass])

end Verif.Force
