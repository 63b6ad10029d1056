import Verif.Rk.Order
import Mathlib.Data.Matrix.Mul
import Mathlib.Data.Matrix.Basic
import Mathlib.LinearAlgebra.Matrix.Notation
import Mathlib.Data.Fin.VecNotation
/-!
The state transition matrix (C14): nyx-core/src/dynamics/spacecraft.rs (`SpacecraftDynamics::eom`) integrated
by the step of nyx-core/src/propagators/instance.rs.
-/
set_option linter.unusedSectionVars false
namespace Verif.Rk
open Finset Matrix

variable {d : Nat} {R : Type} [Field R] [Algebra ℚ R]

/-- A state vector without the STM. -/
abbrev Vec (R : Type) (d : Nat) : Type := Fin d → R

/-- A state transition matrix. -/
abbrev Mat (R : Type) (d : Nat) : Type := Matrix (Fin d) (Fin d) R

/-- The dynamics. `dual` is `dual_eom` on the osculating state rebuilt from the offset and the vector
(dynamics/spacecraft.rs:312-362): the derivative and its gradient. `plain` is the derivative without the
gradient (dynamics/spacecraft.rs:225-245). Not modelled here: the guidance law, for which `dual_eom` is an
error (dynamics/spacecraft.rs:336-340). -/
structure Dyn (R : Type) (d : Nat) where
  dual : ℚ → Vec R d → Option (Vec R d × Mat R d)
  plain : ℚ → Vec R d → Option (Vec R d)

/-- `SpacecraftDynamics::eom`: with an STM in the context, its derivative is the STM **of the context**
times the gradient. dynamics/spacecraft.rs:191-247. -/
def Dyn.eom (D : Dyn R d) (stm : Option (Mat R d)) : Eom (Vec R d × Mat R d) := fun τ y =>
  match stm with
  | some Φ => (D.dual τ y.1).map fun r => (r.1, Φ * r.2)
  | none => (D.plain τ y.1).map fun r => (r, 0)

/-- A spacecraft state: the vector and the STM. -/
structure Sc (R : Type) (d : Nat) where
  x : Vec R d
  stm : Option (Mat R d)

/-- `to_vector`: without an STM the rest of the vector is zero. cosmic/spacecraft.rs:451-473. -/
def Sc.toVec (s : Sc R d) : Vec R d × Mat R d := (s.x, s.stm.getD 0)

/-- `set`: the STM is set only if there is one. cosmic/spacecraft.rs:477-497; the clamp of the
reflectivity coefficient is not modelled here. -/
def Sc.set (s : Sc R d) (v : Vec R d × Mat R d) : Sc R d := ⟨v.1, s.stm.map fun _ => v.2⟩

/-- `single_step` with a step size that is accepted. propagators/instance.rs:343-352, 358-445. -/
def scStep (t : Tab) (D : Dyn R d) (fixed : Bool) (s : Sc R d) (h : ℚ) : Res (Sc R d) :=
  (rkStep t (D.eom s.stm) fixed s.toVec h).bind fun r => .ok (s.set r.1)

/-- Steps one after the other, each with its own dynamics (the epoch changes) and size. -/
def scSteps (t : Tab) (fixed : Bool) : List (Dyn R d × ℚ) → Sc R d → Res (Sc R d)
  | [], s => .ok s
  | p :: l, s => (scStep t p.1 fixed s p.2).bind fun s' => scSteps t fixed l s'

/-- **C14 (what is computed).** A step multiplies the STM on the right by `1 + h Σ b_i A_i`, with `A_i`
the gradient of the dynamics on the stages of the state. -/
theorem stm_step (t : Tab) (hs : 1 ≤ t.stages) (D : Dyn R d) (fixed : Bool) (s s' : Sc R d) (Φ : Mat R d)
    (hΦ : s.stm = some Φ) (h : ℚ) (hr : scStep t D fixed s h = .ok s') :
    ∃ (K : Nat → Vec R d) (A : Nat → Mat R d),
      (∀ i < t.stages, D.dual (t.c i * h) (s.x + h • ∑ j ∈ range i, t.a i j • K j) = some (K i, A i)) ∧
      s'.x = s.x + h • ∑ i ∈ range t.stages, t.b i • K i ∧
      s'.stm = some (Φ * (1 + h • ∑ i ∈ range t.stages, t.b i • A i)) := by
  unfold scStep at hr
  obtain ⟨⟨next, err⟩, h1, h2⟩ := Res.bind_eq_ok.1 hr
  simp only [Res.ok.injEq] at h2
  subst h2
  obtain ⟨K, hK, hn, -⟩ := rkStep_ok t hs _ _ _ _ _ _ h1
  have hfst : ∀ (s : Finset Nat) (g : Nat → Vec R d × Mat R d), (∑ n ∈ s, g n).1 = ∑ n ∈ s, (g n).1 :=
    fun s g => map_sum (LinearMap.fst ℚ (Vec R d) (Mat R d)) g s
  have hsnd : ∀ (s : Finset Nat) (g : Nat → Vec R d × Mat R d), (∑ n ∈ s, g n).2 = ∑ n ∈ s, (g n).2 :=
    fun s g => map_sum (LinearMap.snd ℚ (Vec R d) (Mat R d)) g s
  have hA : ∀ i, ∃ A : Mat R d, i < t.stages →
      D.dual (t.c i * h) (s.x + h • ∑ j ∈ range i, t.a i j • (K j).1) = some ((K i).1, A) ∧
      (K i).2 = Φ * A := by
    intro i
    by_cases hi : i < t.stages
    · have := hK i hi
      rw [hΦ] at this
      unfold Dyn.eom at this
      simp only [Option.map_eq_some_iff] at this
      obtain ⟨⟨k, A⟩, e1, e2⟩ := this
      refine ⟨A, fun _ => ⟨?_, ?_⟩⟩
      · rw [← e2]
        simp only [Prod.fst_add, Prod.smul_fst, hfst] at e1
        exact e1
      · rw [← e2]
    · exact ⟨0, fun h => absurd h hi⟩
  choose A hA using hA
  refine ⟨fun i => (K i).1, A, fun i hi => (hA i hi).1, ?_, ?_⟩
  · rw [hn]
    simp only [Sc.set, Sc.toVec, Prod.fst_add, Prod.smul_fst, hfst]
  · rw [hn]
    simp only [Sc.set, Sc.toVec, hΦ, Option.map_some, Option.getD_some, Prod.snd_add, Prod.smul_snd,
      hsnd, Option.some.injEq]
    rw [mul_add, mul_one, Matrix.mul_smul, Matrix.mul_sum]
    congr 2
    refine sum_congr rfl fun i hi => ?_
    rw [(hA i (mem_range.1 hi)).2, Matrix.mul_smul]

/-- **C14 (the STM does not disturb the state).** If the gradient free derivative is the derivative of the
dual equations, a step has the same outcome with and without an STM, and the same state. -/
theorem stm_state_unchanged (t : Tab) (D : Dyn R d)
    (hD : ∀ τ y, D.plain τ y = (D.dual τ y).map fun r => r.1)
    (fixed : Bool) (x : Vec R d) (Φ : Mat R d) (h : ℚ) :
    scStep t D fixed ⟨x, none⟩ h = (scStep t D fixed ⟨x, some Φ⟩ h).map fun s => ⟨s.x, none⟩ := by
  let L : Vec R d × Mat R d →ₗ[ℚ] Vec R d × Mat R d :=
    (LinearMap.inl ℚ (Vec R d) (Mat R d)).comp (LinearMap.fst ℚ (Vec R d) (Mat R d))
  have hm := rkStep_map L t (D.eom (some Φ)) (D.eom none) (by
    intro τ y
    simp only [Dyn.eom, L, LinearMap.comp_apply, LinearMap.fst_apply, LinearMap.inl_apply]
    rw [hD]
    cases D.dual τ y.1 <;> rfl) fixed (x, Φ) h
  unfold scStep
  simp only [Sc.toVec, Option.getD_none, Option.getD_some]
  have hx : L (x, Φ) = (x, 0) := rfl
  rw [hx] at hm
  rw [hm]
  cases rkStep t (D.eom (some Φ)) fixed (x, Φ) h <;> rfl

/-- The linear dynamics `x' = M x + F(τ)` with its gradient. -/
def linDyn (M : Mat R d) (F : ℚ → Vec R d) : Dyn R d where
  dual := fun τ x => some (M *ᵥ x + F τ, M)
  plain := fun τ x => some (M *ᵥ x + F τ)

/-- The Jacobian of a step with respect to its start: `J` is such that the difference of the results is
`J` times the difference of the starts. (The dynamics considered are affine.) -/
def StepJacobian (t : Tab) (D : Dyn R d) (h : ℚ) (J : Mat R d) : Prop :=
  ∀ (fixed : Bool) (s₁ s₂ s₁' s₂' : Sc R d), scStep t D fixed s₁ h = .ok s₁' →
    scStep t D fixed s₂ h = .ok s₂' → s₁.stm.isSome → s₂.stm.isSome →
    s₁'.x - s₂'.x = J *ᵥ (s₁.x - s₂.x)

/-- With a constant gradient the STM is multiplied by `1 + h (Σ b) M`. -/
theorem stm_constant_gradient (t : Tab) (hs : 1 ≤ t.stages) (M : Mat R d) (F : ℚ → Vec R d) (fixed : Bool)
    (s s' : Sc R d) (Φ : Mat R d) (hΦ : s.stm = some Φ) (h : ℚ)
    (hr : scStep t (linDyn M F) fixed s h = .ok s') :
    s'.stm = some (Φ * (1 + (h * ∑ i ∈ range t.stages, t.b i) • M)) := by
  obtain ⟨K, A, h1, -, h3⟩ := stm_step t hs _ fixed s s' Φ hΦ h hr
  rw [h3, mul_smul, sum_smul]
  congr 4
  refine sum_congr rfl fun i hi => ?_
  have := h1 i (mem_range.1 hi)
  simp only [linDyn, Option.some.injEq, Prod.mk.injEq] at this
  rw [this.2]

/-- **C14, partial.** For a drift, `M² = 0` (the acceleration does not depend on the state, as in free
motion or under time dependent forces), the matrix by which a step multiplies the STM is the
Jacobian of the step. Missing: dynamics with a gradient whose products do not vanish, for which the
claim is false, see `stm_not_jacobian`. -/
theorem stm_drift_partial (t : Tab) (hs : 1 ≤ t.stages) (M : Mat R d) (hM : M * M = 0) (F : ℚ → Vec R d)
    (h : ℚ) : StepJacobian t (linDyn M F) h (1 + (h * ∑ i ∈ range t.stages, t.b i) • M) := by
  intro fixed s₁ s₂ s₁' s₂' hr1 hr2 hs1 hs2
  obtain ⟨Φ₁, e1⟩ := Option.isSome_iff_exists.1 hs1
  obtain ⟨Φ₂, e2⟩ := Option.isSome_iff_exists.1 hs2
  obtain ⟨K, A, a1, a2, -⟩ := stm_step t hs _ fixed s₁ s₁' Φ₁ e1 h hr1
  obtain ⟨K', A', b1, b2, -⟩ := stm_step t hs _ fixed s₂ s₂' Φ₂ e2 h hr2
  have hk : ∀ i, i < t.stages →
      K i = M *ᵥ (s₁.x + h • ∑ j ∈ range i, t.a i j • K j) + F (t.c i * h) := by
    intro i hi
    have := a1 i hi
    simp only [linDyn, Option.some.injEq, Prod.mk.injEq] at this
    exact this.1.symm
  have hk' : ∀ i, i < t.stages →
      K' i = M *ᵥ (s₂.x + h • ∑ j ∈ range i, t.a i j • K' j) + F (t.c i * h) := by
    intro i hi
    have := b1 i hi
    simp only [linDyn, Option.some.injEq, Prod.mk.injEq] at this
    exact this.1.symm
  have hd : ∀ i, i < t.stages → K i - K' i = M *ᵥ (s₁.x - s₂.x) := by
    intro i
    induction i using Nat.strong_induction_on with
    | _ i ih =>
      intro hi
      have hz : M *ᵥ (∑ j ∈ range i, t.a i j • K j - ∑ j ∈ range i, t.a i j • K' j) = 0 := by
        rw [← sum_sub_distrib, Matrix.mulVec_sum]
        refine sum_eq_zero fun j hj => ?_
        rw [← smul_sub, ih j (mem_range.1 hj) (lt_trans (mem_range.1 hj) hi), Matrix.mulVec_smul,
          Matrix.mulVec_mulVec, hM, Matrix.zero_mulVec, smul_zero]
      rw [hk i hi, hk' i hi, add_sub_add_right_eq_sub, ← Matrix.mulVec_sub, add_sub_add_comm,
        ← smul_sub, Matrix.mulVec_add, Matrix.mulVec_smul, hz, smul_zero, add_zero]
  rw [a2, b2, add_sub_add_comm, ← smul_sub, ← sum_sub_distrib, Matrix.add_mulVec, Matrix.one_mulVec]
  congr 1
  rw [Matrix.smul_mulVec, mul_smul, sum_smul]
  congr 1
  refine sum_congr rfl fun i hi => ?_
  rw [← smul_sub, hd i (mem_range.1 hi)]

/-- The dynamics `x' = x` in one dimension. -/
def growth : Dyn ℚ 1 := linDyn 1 (fun _ => 0)

/-- **C14 refuted (accuracy).** With `x' = x` and Runge Kutta 4 with steps of one second from the
identity, the STM after one step is `2`, while the Jacobian of the step is `65/24`: the STM is integrated
to first order only, whatever the method. -/
theorem stm_not_jacobian (x : ℚ) :
    ∃ s', scStep rk4 growth true ⟨fun _ => x, some 1⟩ 1 = .ok s' ∧
      s'.x = (fun _ => 65 / 24 * x) ∧ s'.stm = some ((2 : ℚ) • 1) ∧
      StepJacobian rk4 growth 1 ((65 / 24 : ℚ) • 1) := by
  have key : ∀ (fixed : Bool) (s s' : Sc ℚ 1), s.stm.isSome → scStep rk4 growth fixed s 1 = .ok s' →
      s'.x = (65 / 24 : ℚ) • s.x := by
    intro fixed s s' hs hr
    obtain ⟨Φ, e⟩ := Option.isSome_iff_exists.1 hs
    obtain ⟨K, A, h1, h2, -⟩ := stm_step rk4 (by decide) _ fixed s s' Φ e 1 hr
    have hk : ∀ i, i < 4 → K i = s.x + (1 : ℚ) • ∑ j ∈ range i, rk4.a i j • K j := by
      intro i hi
      have := h1 i hi
      simp only [growth, linDyn, Option.some.injEq, Prod.mk.injEq, Matrix.one_mulVec, add_zero] at this
      exact this.1.symm
    have k0 := hk 0 (by decide)
    have k1 := hk 1 (by decide)
    have k2 := hk 2 (by decide)
    have k3 := hk 3 (by decide)
    have hst : rk4.stages = 4 := rfl
    have a10 : rk4.a 1 0 = 1 / 2 := by decide +kernel
    have a20 : rk4.a 2 0 = 0 := by decide +kernel
    have a21 : rk4.a 2 1 = 1 / 2 := by decide +kernel
    have a30 : rk4.a 3 0 = 0 := by decide +kernel
    have a31 : rk4.a 3 1 = 0 := by decide +kernel
    have a32 : rk4.a 3 2 = 1 := by decide +kernel
    have b0 : rk4.b 0 = 1 / 6 := by decide +kernel
    have b1 : rk4.b 1 = 1 / 3 := by decide +kernel
    have b2 : rk4.b 2 = 1 / 3 := by decide +kernel
    have b3 : rk4.b 3 = 1 / 6 := by decide +kernel
    simp only [sum_range_succ, sum_range_zero, a10, a20, a21, a30, a31, a32, zero_add, one_smul,
      smul_zero, add_zero, zero_smul] at k0 k1 k2 k3
    rw [hst] at h2
    simp only [sum_range_succ, sum_range_zero, b0, b1, b2, b3, zero_add, one_smul] at h2
    rw [h2, k3, k2, k1, k0]
    ext i
    simp only [Pi.add_apply, Pi.smul_apply, smul_eq_mul]
    ring
  obtain ⟨r, hr⟩ := rkStep_total rk4 (by decide) (growth.eom (some 1))
    (fun τ y => ⟨_, rfl⟩) true ((fun _ => x), (1 : Mat ℚ 1)) 1
  have hstep : scStep rk4 growth true ⟨fun _ => x, some 1⟩ 1 = .ok (Sc.set ⟨fun _ => x, some 1⟩ r.1) := by
    unfold scStep
    simp only [Sc.toVec, Option.getD_some]
    rw [hr]
    rfl
  refine ⟨_, hstep, ?_, ?_, ?_⟩
  · rw [key true _ _ rfl hstep]
    ext i
    simp
  · have := stm_constant_gradient rk4 (by decide) 1 (fun _ => 0) true _ _ 1 rfl 1 hstep
    rw [this]
    have hb : ∑ i ∈ range rk4.stages, rk4.b i = 1 := by
      rw [← sum_range_list]
      decide +kernel
    rw [hb, mul_one, one_mul, one_smul, two_smul]
  · intro fixed s₁ s₂ s₁' s₂' hr1 hr2 hs1 hs2
    rw [key fixed _ _ hs1 hr1, key fixed _ _ hs2 hr2, ← smul_sub, Matrix.smul_mulVec, Matrix.one_mulVec]

/-- **C14 refuted (composition).** Two steps with drifts `M₁` then `M₂`: each alone, from the identity,
reports the right Jacobian `J₁ = 1 + M₁`, `J₂ = 1 + M₂`; the STM reported over both is `J₁ J₂`, not
`J₂ J₁`. -/
theorem stm_not_composed :
    ∃ (M₁ M₂ J₁ J₂ : Mat ℚ 2), M₁ * M₁ = 0 ∧ M₂ * M₂ = 0 ∧
      StepJacobian rk4 (linDyn M₁ fun _ => 0) 1 J₁ ∧ StepJacobian rk4 (linDyn M₂ fun _ => 0) 1 J₂ ∧
      (∀ x s, scStep rk4 (linDyn M₁ fun _ => 0) true ⟨x, some 1⟩ 1 = .ok s → s.stm = some J₁) ∧
      (∀ x s, scStep rk4 (linDyn M₂ fun _ => 0) true ⟨x, some 1⟩ 1 = .ok s → s.stm = some J₂) ∧
      (∀ x s, scSteps rk4 true [(linDyn M₁ fun _ => 0, 1), (linDyn M₂ fun _ => 0, 1)] ⟨x, some 1⟩ = .ok s →
        s.stm = some (J₁ * J₂) ∧ s.stm ≠ some (J₂ * J₁)) ∧
      ∀ x, ∃ s, scSteps rk4 true [(linDyn M₁ fun _ => 0, 1), (linDyn M₂ fun _ => 0, 1)] ⟨x, some 1⟩ =
        .ok s := by
  have hb : (1 : ℚ) * ∑ i ∈ range rk4.stages, rk4.b i = 1 := by
    rw [← sum_range_list, one_mul]
    decide +kernel
  have hJ : ∀ M : Mat ℚ 2, M * M = 0 → StepJacobian rk4 (linDyn M fun _ => 0) 1 (1 + M) := by
    intro M hM
    have := stm_drift_partial rk4 (by decide) M hM (fun _ => 0) 1
    rw [hb, one_smul] at this
    exact this
  have hstm : ∀ (M Φ : Mat ℚ 2) (x : Vec ℚ 2) s,
      scStep rk4 (linDyn M fun _ => 0) true ⟨x, some Φ⟩ 1 = .ok s → s.stm = some (Φ * (1 + M)) := by
    intro M Φ x s hr
    have := stm_constant_gradient rk4 (by decide) M (fun _ => 0) true _ _ Φ rfl 1 hr
    rw [hb, one_smul] at this
    exact this
  have htot : ∀ (M : Mat ℚ 2) (s : Sc ℚ 2), s.stm.isSome →
      ∃ s', scStep rk4 (linDyn M fun _ => 0) true s 1 = .ok s' := by
    intro M s hs
    obtain ⟨Φ, e⟩ := Option.isSome_iff_exists.1 hs
    obtain ⟨r, hr⟩ := rkStep_total rk4 (by decide) ((linDyn M fun _ => 0).eom s.stm)
      (fun τ y => by rw [e]; exact ⟨_, rfl⟩) true s.toVec 1
    refine ⟨s.set r.1, ?_⟩
    unfold scStep
    rw [hr]
    rfl
  refine ⟨!![0, 1; 0, 0], !![0, 0; 1, 0], 1 + !![0, 1; 0, 0], 1 + !![0, 0; 1, 0], ?_, ?_, hJ _ ?_,
    hJ _ ?_, ?_, ?_, ?_, ?_⟩
  · ext i j; fin_cases i <;> fin_cases j <;> simp [Matrix.mul_apply, Fin.sum_univ_two]
  · ext i j; fin_cases i <;> fin_cases j <;> simp [Matrix.mul_apply, Fin.sum_univ_two]
  · ext i j; fin_cases i <;> fin_cases j <;> simp [Matrix.mul_apply, Fin.sum_univ_two]
  · ext i j; fin_cases i <;> fin_cases j <;> simp [Matrix.mul_apply, Fin.sum_univ_two]
  · intro x s hr
    rw [hstm _ _ x s hr, one_mul]
  · intro x s hr
    rw [hstm _ _ x s hr, one_mul]
  · intro x s hr
    unfold scSteps at hr
    obtain ⟨s1, h1, h2⟩ := Res.bind_eq_ok.1 hr
    have e1 := hstm _ _ x s1 h1
    unfold scSteps at h2
    obtain ⟨s2, h3, h4⟩ := Res.bind_eq_ok.1 h2
    simp only [scSteps, Res.ok.injEq] at h4
    subst h4
    obtain ⟨x1, Φ1⟩ := s1
    simp only at e1
    subst e1
    have e2 := hstm _ _ x1 s2 h3
    rw [one_mul] at e2
    refine ⟨e2, ?_⟩
    rw [e2]
    intro hc
    rw [Option.some.injEq] at hc
    have := congrFun (congrFun hc 0) 0
    simp [Matrix.mul_apply, Fin.sum_univ_two, Matrix.add_apply, Matrix.one_apply] at this
  · intro x
    obtain ⟨s1, h1⟩ := htot !![0, 1; 0, 0] ⟨x, some 1⟩ rfl
    have e1 := hstm _ _ x s1 h1
    obtain ⟨s2, h2⟩ := htot !![0, 0; 1, 0] s1 (by rw [e1]; rfl)
    refine ⟨s2, ?_⟩
    simp only [scSteps, h1, h2, Res.bind]

/-- **C14 (many steps).** Over any number of steps from the identity, the STM is the product of the
factors of the steps, the first on the left. -/
theorem stm_steps (t : Tab) (hs : 1 ≤ t.stages) (fixed : Bool) :
    ∀ (l : List (Dyn R d × ℚ)) (s s' : Sc R d) (Φ : Mat R d), s.stm = some Φ → scSteps t fixed l s = .ok s' →
      ∃ G : List (Mat R d), G.length = l.length ∧ s'.stm = some (Φ * G.prod) ∧
        ∀ k (hk : k < l.length) (hk' : k < G.length), ∃ A : Nat → Mat R d,
          G[k] = 1 + l[k].2 • ∑ i ∈ range t.stages, t.b i • A i ∧
          ∀ i < t.stages, ∃ τ y r, l[k].1.dual τ y = some (r, A i) := by
  intro l
  induction l with
  | nil =>
    intro s s' Φ hΦ h
    simp only [scSteps, Res.ok.injEq] at h
    subst h
    refine ⟨[], rfl, by rw [hΦ, List.prod_nil, mul_one], ?_⟩
    intro k hk
    exact absurd hk (by simp)
  | cons p l ih =>
    intro s s' Φ hΦ h
    unfold scSteps at h
    obtain ⟨s1, h1, h2⟩ := Res.bind_eq_ok.1 h
    obtain ⟨K, A, a1, -, a3⟩ := stm_step t hs _ fixed s s1 Φ hΦ _ h1
    obtain ⟨G, g1, g2, g3⟩ := ih s1 s' _ a3 h2
    refine ⟨(1 + p.2 • ∑ i ∈ range t.stages, t.b i • A i) :: G, by simp [g1], ?_, ?_⟩
    · rw [g2, List.prod_cons, Matrix.mul_assoc]
    · intro k hk hk'
      cases k with
      | zero => exact ⟨A, rfl, fun i hi => ⟨_, _, _, a1 i hi⟩⟩
      | succ k =>
        simp only [List.length_cons, Nat.add_lt_add_iff_right] at hk hk'
        obtain ⟨A', q1, q2⟩ := g3 k hk hk'
        exact ⟨A', by simpa using q1, by simpa using q2⟩

/-- Free motion meets the hypotheses of the partial theorem: position and velocity. -/
example : StepJacobian rk4 (linDyn !![0, 1; 0, 0] fun τ => ![0, τ ^ 2]) 60
    (1 + ((60 : ℚ) * ∑ i ∈ range rk4.stages, rk4.b i) • !![0, 1; 0, 0]) :=
  stm_drift_partial rk4 (by decide) _ (by
    ext i j; fin_cases i <;> fin_cases j <;> simp [Matrix.mul_apply, Fin.sum_univ_two]) _ _

/-- The state without an STM, for the growth dynamics. -/
example (h : ℚ) := stm_state_unchanged rk89 growth (fun _ _ => rfl) false (fun _ => 3) 1 h

end Verif.Rk
