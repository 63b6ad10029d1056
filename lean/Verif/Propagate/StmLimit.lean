import Verif.Propagate.Accuracy
import Verif.Rk.StmLimit
import Mathlib.LinearAlgebra.Matrix.ToLin
import Mathlib.Analysis.Calculus.ContDiff.Operations
import Mathlib.Topology.Algebra.Module.FiniteDimension
import Mathlib.Analysis.Normed.Module.FiniteDimension
/-!
C220: the state transition matrix of a propagation (nyx-core/src/propagators/instance.rs:87-262, nyx-core/src/dynamics/spacecraft.rs:191-247), as the
steps become short.
-/
namespace Verif.Propagate
open Finset Filter Topology Verif.Rk
open scoped Matrix.Norms.Operator

variable {d : Nat} {Er Fr C : Type}

/-- The gradient of the equations of motion `x' = f(t, x)` with respect to the state: entry `(i, j)` is the derivative of the component `i` of the
derivative by the component `j` of the state. -/
noncomputable def gradient (f : ℝ → Vec ℝ d → Vec ℝ d) (t : ℝ) (x : Vec ℝ d) : Mat ℝ d := LinearMap.toMatrix' (fderiv ℝ (f t) x : Vec ℝ d →ₗ[ℝ] Vec ℝ d)

/-- The equations of motion of a step from the time `t` and from a state with the transition matrix `y.2`: those of
`SpacecraftDynamics::eom` (dynamics/spacecraft.rs:191-247, modelled by `Dyn.eom`), where `dual_eom` returns the derivative `f` and its gradient. -/
def Carries (f : ℝ → Vec ℝ d → Vec ℝ d) (t : ℝ) (y : Vec ℝ d × Mat ℝ d) (eom : Eom (Vec ℝ d × Mat ℝ d)) : Prop :=
  ∃ D : Dyn ℝ d, (∀ τ v r, D.dual τ v = some r → r = (f (t + τ) v, gradient f (t + τ) v)) ∧ eom = D.eom (some y.2)

theorem gradient_smooth {f : ℝ → Vec ℝ d → Vec ℝ d} {t : ℝ} {x : Vec ℝ d} (hf : ContDiffAt ℝ 2 (fun w : ℝ × Vec ℝ d => f w.1 w.2) (t, x)) :
    ContDiffAt ℝ 1 (fun w : ℝ × Vec ℝ d => gradient f w.1 w.2) (t, x) := by
  have h1 : ContDiffAt ℝ 1 (fun w : ℝ × Vec ℝ d => fderiv ℝ (f w.1) w.2) (t, x) := by
    refine ContDiffAt.fderiv (f := fun (w : ℝ × Vec ℝ d) v => f w.1 v) (g := fun w => w.2) (n := 2) ?_ contDiffAt_snd (by norm_num)
    exact ContDiffAt.comp ((t, x), x) (g := fun w : ℝ × Vec ℝ d => f w.1 w.2) (f := fun w : (ℝ × Vec ℝ d) × Vec ℝ d => (w.1.1, w.2)) hf
      ((contDiffAt_fst.comp _ contDiffAt_fst).prodMk contDiffAt_snd)
  let T : (Vec ℝ d →L[ℝ] Vec ℝ d) →ₗ[ℝ] Mat ℝ d := LinearMap.toMatrix'.toLinearMap ∘ₗ ContinuousLinearMap.coeLM ℝ
  exact (LinearMap.toContinuousLinearMap T).contDiff.contDiffAt.comp (t, x) h1

/-- The field of which the state with its transition matrix is integrated, with the time as a component. -/
noncomputable def joint (f : ℝ → Vec ℝ d → Vec ℝ d) (w : (ℝ × Vec ℝ d) × Mat ℝ d) : (ℝ × Vec ℝ d) × Mat ℝ d :=
  ((1, f w.1.1 w.1.2), w.2 * gradient f w.1.1 w.1.2)

theorem joint_auto {f : ℝ → Vec ℝ d → Vec ℝ d} {p : Nat} (hp : 2 ≤ p) {z : ℝ → Vec ℝ d} {a b : ℝ} (hz : Along f p z a b) {Ψ : ℝ → Mat ℝ d}
    (hΨ : ∀ t ∈ Set.Icc a b, ∀ᶠ s in 𝓝 t, HasDerivAt Ψ (Ψ s * gradient f s (z s)) s) : Auto (joint f) 1 (fun t => ((t, z t), Ψ t)) a b := by
  refine ⟨fun t ht => ?_, fun t ht => ?_⟩
  · filter_upwards [hz.solves t ht, hΨ t ht] with s hs hs'
    exact ((hasDerivAt_id s).prodMk hs).prodMk hs'
  · have h2 : ContDiffAt ℝ 2 (fun w : ℝ × Vec ℝ d => f w.1 w.2) (t, z t) := (hz.smooth t ht).of_le (by exact_mod_cast hp)
    have h1 := h2.of_le (by norm_num : (1 : WithTop ℕ∞) ≤ 2)
    have hg := gradient_smooth h2
    have e1 : ContDiffAt ℝ 1 (fun w : (ℝ × Vec ℝ d) × Mat ℝ d => f w.1.1 w.1.2) ((t, z t), Ψ t) :=
      ContDiffAt.comp ((t, z t), Ψ t) (g := fun w : ℝ × Vec ℝ d => f w.1 w.2) (f := Prod.fst) h1 contDiffAt_fst
    have e2 : ContDiffAt ℝ 1 (fun w : (ℝ × Vec ℝ d) × Mat ℝ d => gradient f w.1.1 w.1.2) ((t, z t), Ψ t) :=
      ContDiffAt.comp ((t, z t), Ψ t) (g := fun w : ℝ × Vec ℝ d => gradient f w.1 w.2) (f := Prod.fst) hg contDiffAt_fst
    exact (contDiffAt_const.prodMk e1).prodMk (contDiffAt_snd.mul e2)

/-- The stages of a step from a state with a transition matrix. -/
theorem carried_stages (mt : Method) {f : ℝ → Vec ℝ d → Vec ℝ d} {t : ℝ} {y next err : Vec ℝ d × Mat ℝ d} {eom : Eom (Vec ℝ d × Mat ℝ d)}
    (hc : Carries f t y eom) {fixed : Bool} {h : ℚ} (hs : rkStep mt.tab eom fixed y h = .ok (next, err)) :
    ∃ P K : Nat → (ℝ × Vec ℝ d) × Mat ℝ d, (∀ i < mt.tab.stages, K i = joint f (P i)) ∧
      (∀ i < mt.tab.stages, ‖P i - ((t, y.1), y.2)‖ ≤ ‖h • ∑ j ∈ range i, mt.tab.a i j • K j‖) ∧
      (((t, y.1), y.2) + h • ∑ i ∈ range mt.tab.stages, mt.tab.b i • K i).1.2 = next.1 ∧
      (((t, y.1), y.2) + h • ∑ i ∈ range mt.tab.stages, mt.tab.b i • K i).2 = next.2 := by
  obtain ⟨D, hD, rfl⟩ := hc
  obtain ⟨K, hK, hn, -⟩ := rkStep_ok mt.tab (method_shaped mt).1 _ fixed y h next err hs
  have hK' : ∀ i < mt.tab.stages, K i = (f (t + (mt.tab.c i * h : ℚ)) (y + h • ∑ j ∈ range i, mt.tab.a i j • K j).1,
      y.2 * gradient f (t + (mt.tab.c i * h : ℚ)) (y + h • ∑ j ∈ range i, mt.tab.a i j • K j).1) := by
    intro i hi
    have := hK i hi
    simp only [Dyn.eom, Option.map_eq_some_iff] at this
    obtain ⟨r, e1, e2⟩ := this
    rw [← e2, hD _ _ _ e1]
  refine ⟨fun i => ((t + (mt.tab.c i * h : ℚ), (y + h • ∑ j ∈ range i, mt.tab.a i j • K j).1), y.2), fun i => ((1, (K i).1), (K i).2), ?_, ?_, ?_, ?_⟩
  · intro i hi
    simp only [joint]
    rw [← Prod.mk.eta (p := K i), hK' i hi]
  · intro i hi
    have e1 : (h • ∑ j ∈ range i, mt.tab.a i j • (((1, (K j).1), (K j).2) : (ℝ × Vec ℝ d) × Mat ℝ d)).1 =
        (((mt.tab.c i * h : ℚ) : ℝ), (h • ∑ j ∈ range i, mt.tab.a i j • K j).1) := by
      simp only [Prod.smul_fst, Prod.fst_sum, Prod.smul_mk]
      refine Prod.ext ?_ ?_
      · simp only [Prod.smul_fst, Prod.fst_sum]
        rw [Tab.c, sum_range_list]
        push_cast
        rw [mul_comm, Rat.smul_def]
        congr 1
        exact sum_congr rfl fun j _ => by rw [Rat.smul_def, mul_one]
      · simp only [Prod.smul_snd, Prod.snd_sum, Prod.smul_fst, Prod.fst_sum]
    rw [Prod.norm_def (h • _), e1]
    refine le_max_of_le_left (le_of_eq ?_)
    simp only [Prod.mk_sub_mk, sub_self, Prod.fst_add, add_sub_cancel_left, Prod.norm_mk, norm_zero]
    exact max_eq_left (le_max_of_le_left (norm_nonneg _))
  · rw [hn]
    simp only [Prod.fst_add, Prod.snd_add, Prod.smul_fst, Prod.smul_snd, Prod.fst_sum, Prod.snd_sum]
  · rw [hn]
    simp only [Prod.snd_add, Prod.smul_snd, Prod.snd_sum]

/-- **C220, what the matrix converges to.** In a propagation with steps of at most `H`, forward or backward, fixed or adaptive, whatever its stop
condition, along a trajectory `z` of smooth equations of motion, the transition matrices of the state returned and of all the states published are within a
constant times `H` (and the errors of the start and of the rounding) of the solution `Ψ` of `Ψ' = Ψ · gradient`: the gradient multiplies on the right. -/
theorem stm_limit [DecidableEq Fr] (mt : Method) (f : ℝ → Vec ℝ d → Vec ℝ d) (z : ℝ → Vec ℝ d) (a b : ℝ) (hz : Along f mt.tab.order z a b)
    (Ψ : ℝ → Mat ℝ d) (hΨ : ∀ t ∈ Set.Icc a b, ∀ᶠ s in 𝓝 t, HasDerivAt Ψ (Ψ s * gradient f s (z s)) s) :
    ∃ c h0 ρ : ℝ, 0 ≤ c ∧ 0 < h0 ∧ 0 < ρ ∧ ∀ (env : Env (Vec ℝ d × Mat ℝ d) Er Fr) (δ : ℝ), 0 ≤ δ → StepsOf env mt (Carries f) δ → env.KeepsEpoch →
      ∀ (cond : Cond (Vec ℝ d × Mat ℝ d) Er C) (fuel : Nat) (dur : Int) (i : Inst (Vec ℝ d × Mat ℝ d)) (mem : C) (m H : Int)
        (o : Outcome (Vec ℝ d × Mat ℝ d) Er C), 2 ≤ m → Drivable env m i → i.step ≤ H →
      (i.fixed = false → env.opts.maxStep ≤ H) → ((toSec H : ℚ) : ℝ) ≤ h0 →
      ((toSec i.st.epoch : ℚ) : ℝ) ∈ Set.Icc a b → ((toSec (i.st.epoch + dur) : ℚ) : ℝ) ∈ Set.Icc a b →
      ∀ B : ℝ, B = c * (max ‖i.st.x.1 - z (toSec i.st.epoch : ℚ)‖ ‖i.st.x.2 - Ψ (toSec i.st.epoch : ℚ)‖ + ((toSec H : ℚ) : ℝ) + treeTol mt false +
        (if i.fixed then 0 else 1 / (env.opts.minStep : ℝ)) + (o.sent.length + 1 : ℕ) * δ) → B ≤ ρ →
      propagate env cond fuel dur i mem = some o →
      ∀ s, o.res = .ok s ∨ s ∈ o.sent → ‖s.x.1 - z (toSec s.epoch : ℚ)‖ ≤ B ∧ ‖s.x.2 - Ψ (toSec s.epoch : ℚ)‖ ≤ B := by
  have hp : 2 ≤ mt.tab.order := by cases mt <;> decide
  haveI : CompleteSpace (Mat ℝ d) := FiniteDimensional.complete ℝ _
  obtain ⟨c, h0, ρ, hc, hh0, hρ, hl⟩ := first_order mt (joint f) _ a b hz.order (joint_auto hp hz hΨ) (2 * (b - a)) (by linarith [hz.order])
  refine ⟨c, h0, ρ, hc, hh0, hρ, ?_⟩
  intro env δ hδ hI hk cond fuel dur i mem m H o hm hi hstep hmax hH ht0 ht1 B hB hBρ hp s hs
  obtain ⟨η, hηd⟩ : ∃ η : ℝ, η = if i.fixed then 0 else 1 / (env.opts.minStep : ℝ) := ⟨_, rfl⟩
  obtain ⟨hη0, hη1, hH0, hseq⟩ := propagation_sequences hI hk hm hi hstep hmax ht0 ht1 hηd hp
  rw [← hηd] at hB
  obtain ⟨n, t, h, eom, fixed, x, next, err, hn, k1, k2, k3, k4, k5, k6, k7, k8, k9, k10, k11⟩ := hseq s hs
  have hst : ∀ k, ∃ P K : Nat → (ℝ × Vec ℝ d) × Mat ℝ d, k < n → (∀ i < mt.tab.stages, K i = joint f (P i)) ∧
      (∀ i < mt.tab.stages, ‖P i - ((t k, (x k).1), (x k).2)‖ ≤ ‖h k • ∑ j ∈ range i, mt.tab.a i j • K j‖) ∧
      (((t k, (x k).1), (x k).2) + h k • ∑ i ∈ range mt.tab.stages, mt.tab.b i • K i).1.2 = (next k).1 ∧
      (((t k, (x k).1), (x k).2) + h k • ∑ i ∈ range mt.tab.stages, mt.tab.b i • K i).2 = (next k).2 := by
    intro k
    by_cases hk : k < n
    · obtain ⟨P, K, hK⟩ := carried_stages mt (k9 k hk) (k10 k hk)
      exact ⟨P, K, fun _ => hK⟩
    · exact ⟨fun _ => 0, fun _ => 0, fun h => absurd h hk⟩
  choose P K hK using hst
  have hnorm : ∀ k, ‖(((t k, (x k).1), (x k).2) : (ℝ × Vec ℝ d) × Mat ℝ d) - ((t k, z (t k)), Ψ (t k))‖ = max ‖(x k).1 - z (t k)‖ ‖(x k).2 - Ψ (t k)‖ := by
    intro k
    rw [Prod.mk_sub_mk, Prod.mk_sub_mk, sub_self, Prod.norm_mk, Prod.norm_mk, norm_zero, max_eq_right (norm_nonneg _)]
  have hnδ : c * (max ‖i.st.x.1 - z (toSec i.st.epoch : ℚ)‖ ‖i.st.x.2 - Ψ (toSec i.st.epoch : ℚ)‖ + ((toSec H : ℚ) : ℝ) + treeTol mt false + η +
      ∑ k ∈ range n, δ) ≤ B := by
    rw [hB, sum_const, card_range, nsmul_eq_mul]
    have hn' : (n : ℝ) ≤ (o.sent.length + 1 : ℕ) := by exact_mod_cast hn
    gcongr
  have key := hl _ η (fun _ => δ) (fun k => ((t k, (x k).1), (x k).2)) P K t h n hH0 hH hη0 (by linarith) k5 k6 k7 k8
    (fun k hk => (hK k hk).1) (fun k hk => (hK k hk).2.1) (fun _ _ => hδ)
    (fun k hk => by
      rw [hnorm]
      obtain ⟨-, -, e1, e2⟩ := hK k hk
      obtain ⟨V, hV⟩ : ∃ V, V = ((t k, (x k).1), (x k).2) + h k • ∑ i ∈ range mt.tab.stages, mt.tab.b i • K k i := ⟨_, rfl⟩
      rw [← hV] at e1 e2 ⊢
      have hd := k11 k hk
      rw [Prod.norm_def] at hd
      have d1 := (le_max_left _ _).trans hd
      have d2 := (le_max_right _ _).trans hd
      rw [Prod.fst_sub, ← e1] at d1
      rw [Prod.snd_sub, ← e2] at d2
      have n1 : ‖V.1.2 - z (t (k + 1))‖ ≤ ‖V - ((t (k + 1), z (t (k + 1))), Ψ (t (k + 1)))‖ := by
        have f1 := norm_fst_le (V - ((t (k + 1), z (t (k + 1))), Ψ (t (k + 1))))
        have f2 := norm_snd_le (V - ((t (k + 1), z (t (k + 1))), Ψ (t (k + 1)))).1
        exact f2.trans f1
      have n2 : ‖V.2 - Ψ (t (k + 1))‖ ≤ ‖V - ((t (k + 1), z (t (k + 1))), Ψ (t (k + 1)))‖ := norm_snd_le (V - ((t (k + 1), z (t (k + 1))), Ψ (t (k + 1))))
      have t1 := norm_sub_le_norm_sub_add_norm_sub (x (k + 1)).1 V.1.2 (z (t (k + 1)))
      have t2 := norm_sub_le_norm_sub_add_norm_sub (x (k + 1)).2 V.2 (Ψ (t (k + 1)))
      exact max_le (by linarith) (by linarith))
    (by rw [hnorm, k1, k2]; exact hnδ.trans hBρ)
  rw [hnorm, hnorm, k1, k2, k3, k4] at key
  have := key.trans hnδ
  exact ⟨(le_max_left _ _).trans this, (le_max_right _ _).trans this⟩

end Verif.Propagate
