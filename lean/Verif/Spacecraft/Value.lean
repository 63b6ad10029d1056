import Verif.Spacecraft.State
import Mathlib.Analysis.Real.Sqrt
/-!
C101: reading and writing the parameters of a spacecraft (`State::value`, `State::set_value`).
-/
namespace Verif.Spacecraft

variable {F : Type} [Field F] [LinearOrder F] [IsStrictOrderedRing F] {Fr : Type}

/-- The state parameters that are read and written without orbital mechanics. The elements of the orbit
computed by ANISE, the thrust angles and the B plane are not modelled here.
md/param.rs (`StateParameter`). -/
inductive Param where
  | cd | cr | dryMass | propMass | totalMass | isp | thrust | mode | epoch
  | thrustDir (i : Fin 3) | pos (i : Fin 3) | vel (i : Fin 3)
deriving DecidableEq

/-- `Spacecraft::value`; `none` is an error. cosmic/spacecraft.rs:520-578. The parameter `Epoch` falls in the
last case. -/
def Craft.value (s : Craft F Fr) : Param → Option F
  | .cd => some s.cd
  | .cr => some s.cr
  | .dryMass => some s.dry
  | .propMass => some s.prop
  | .totalMass => some s.mass
  | .isp => s.thruster.map (·.isp)
  | .thrust => s.thruster.map (·.thrust)
  | .mode => some s.mode.toNum
  | .epoch => none
  | .thrustDir i => s.dir.map (· i)
  | .pos i => some (s.pos i)
  | .vel i => some (s.vel i)

/-- `Spacecraft::set_value`; `none` is an error (read only, or no thruster). The direction is normalized
when it is stored. cosmic/spacecraft.rs:581-681, 93-102, 325-327. -/
def Craft.setValue (norm : V3 F → F) (s : Craft F Fr) (x : F) : Param → Option (Craft F Fr)
  | .cd => some { s with cd := x }
  | .cr => some { s with cr := x }
  | .dryMass => some { s with dry := x }
  | .propMass => some { s with prop := x }
  | .totalMass => none
  | .isp => s.thruster.map fun t => { s with thruster := some { t with isp := x } }
  | .thrust => s.thruster.map fun t => { s with thruster := some { t with thrust := x } }
  | .mode => none
  | .epoch => none
  | .thrustDir i =>
    some { s with dir := some (unit norm (Function.update (s.dir.getD fun _ => 0) i x)) }
  | .pos i => some { s with pos := Function.update s.pos i x }
  | .vel i => some { s with vel := Function.update s.vel i x }

/-- **C101, partial.** For every parameter but the components of the thrust direction: what is written is what
is read, and no other parameter read changes but the total mass when a mass is written. -/
theorem value_set_value_partial (norm : V3 F → F) (s s' : Craft F Fr) (x : F) (p : Param)
    (hp : ∀ i, p ≠ .thrustDir i) (h : s.setValue norm x p = some s') :
    s'.value p = some x ∧
    (∀ q, q ≠ p → q ≠ .totalMass → s'.value q = s.value q) ∧
    (p ≠ .dryMass → p ≠ .propMass → s'.value .totalMass = s.value .totalMass) ∧
    s'.epoch = s.epoch ∧ s'.frame = s.frame ∧ s'.stm = s.stm ∧ s'.mode = s.mode := by
  cases p with
  | thrustDir i => exact absurd rfl (hp i)
  | isp | thrust =>
    cases ht : s.thruster with
    | none => simp [Craft.setValue, ht] at h
    | some t =>
      simp only [Craft.setValue, ht, Option.map_some, Option.some.injEq] at h
      subst h
      refine ⟨rfl, ?_, fun _ _ => rfl, rfl, rfl, rfl, rfl⟩
      intro q hq _
      cases q <;> first | rfl | (exact absurd rfl hq) | simp [Craft.value, ht]
  | totalMass | mode | epoch => simp [Craft.setValue] at h
  | cd | cr | dryMass | propMass =>
    simp only [Craft.setValue, Option.some.injEq] at h
    subst h
    refine ⟨rfl, ?_, ?_, rfl, rfl, rfl, rfl⟩
    · intro q hq ht
      cases q <;> first | rfl | (exact absurd rfl hq) | (exact absurd rfl ht)
    · intro h1 h2
      first | rfl | (exact absurd rfl h1) | (exact absurd rfl h2)
  | pos i | vel i =>
    simp only [Craft.setValue, Option.some.injEq] at h
    subst h
    refine ⟨by simp [Craft.value], ?_, fun _ _ => rfl, rfl, rfl, rfl, rfl⟩
    intro q hq _
    cases q <;> first | rfl | skip
    next j _ =>
      have : j ≠ i := fun e => hq (by rw [e])
      simp [Craft.value, this]

/-- Which parameters can be written: those of the list, the thruster ones only with a thruster; what can be
written can then be read. -/
theorem set_value_defined (norm : V3 F → F) (s : Craft F Fr) (x : F) (p : Param) :
    ((s.setValue norm x p).isSome ↔
      p ≠ .totalMass ∧ p ≠ .mode ∧ p ≠ .epoch ∧ ((p = .isp ∨ p = .thrust) → s.thruster.isSome)) ∧
    ∀ s', s.setValue norm x p = some s' → (s'.value p).isSome := by
  constructor
  · cases p <;> simp [Craft.setValue]
  · intro s' h
    by_cases hp : ∀ i, p ≠ .thrustDir i
    · rw [(value_set_value_partial norm s s' x p hp h).1]
      rfl
    · push Not at hp
      obtain ⟨i, rfl⟩ := hp
      simp only [Craft.setValue, Option.some.injEq] at h
      subst h
      rfl

/-- The norm of a vector. -/
noncomputable def euclid (v : V3 ℝ) : ℝ := Real.sqrt (v 0 * v 0 + v 1 * v 1 + v 2 * v 2)

theorem euclid_sq (v : V3 ℝ) : euclid v * euclid v = v 0 * v 0 + v 1 * v 1 + v 2 * v 2 :=
  Real.mul_self_sqrt (add_nonneg (add_nonneg (mul_self_nonneg _) (mul_self_nonneg _)) (mul_self_nonneg _))

theorem euclid_nonneg (v : V3 ℝ) : 0 ≤ euclid v := Real.sqrt_nonneg _

/-- **C101 refuted.** Writing the three components of a thrust direction one after the other does not
store that direction, even if it is a unit vector: each write normalizes. From no direction,
writing (3/5, 4/5, 0) stores a first component of 1 then another value. -/
theorem thrust_direction_not_stored (s s1 s2 : Craft ℝ Fr) (hs : s.dir = none)
    (h1 : s.setValue euclid (3 / 5) (.thrustDir 0) = some s1)
    (h2 : s1.setValue euclid (4 / 5) (.thrustDir 1) = some s2) :
    s1.value (.thrustDir 0) = some 1 ∧ s2.value (.thrustDir 0) ≠ some (3 / 5) := by
  simp only [Craft.setValue, hs, Option.getD_none, Option.some.injEq] at h1
  subst h1
  simp only [Craft.setValue, Option.getD_some, Option.some.injEq] at h2
  have hn1 : euclid (Function.update (fun _ => 0) 0 (3 / 5)) = 3 / 5 := by
    have h := euclid_sq (Function.update (fun _ => 0) 0 (3 / 5))
    have hp := euclid_nonneg (Function.update (fun _ => 0) 0 (3 / 5))
    simp at h
    nlinarith
  have hu : unit euclid (Function.update (fun _ => 0) 0 (3 / 5)) 0 = 1 := by
    simp only [unit, hn1]
    simp
  refine ⟨by simp only [Craft.value, Option.map_some, hu], ?_⟩
  subst h2
  intro h
  simp only [Craft.value, Option.map_some, Option.some.injEq] at h
  set w := Function.update (unit euclid (Function.update (fun _ => 0) 0 (3 / 5))) 1 (4 / 5) with hw
  have hw0 : w 0 = 1 := by rw [hw]; simp [hu]
  have hw1 : w 1 = 4 / 5 := by rw [hw]; simp
  have hw2 : w 2 = 0 := by rw [hw]; simp [unit]
  have hnw := euclid_sq w
  rw [hw0, hw1, hw2] at hnw
  have h' : w 0 / euclid w = 3 / 5 := h
  rw [hw0] at h'
  have hne : euclid w ≠ 0 := by
    intro h0
    rw [h0] at h'
    norm_num at h'
  rw [div_eq_iff hne] at h'
  have : euclid w = 5 / 3 := by linarith
  rw [this] at hnw
  norm_num at hnw

/-! ### Examples -/

example := value_set_value_partial (fun v => |v 0|) exCraft _ 80 .propMass (by decide) rfl
example := value_set_value_partial (fun v => |v 0|) exCraft _ 2 .isp (by decide) rfl
example := value_set_value_partial (fun v => |v 0|) exCraft _ 2 (.vel 1) (by decide) rfl

/-- A spacecraft over the reals without a thrust direction. -/
noncomputable def exReal : Craft ℝ Unit where
  frame := ()
  epoch := 0
  pos := ![7000, 0, 0]
  vel := ![0, 7, 1]
  dry := 100
  prop := 50
  extra := 0
  srpArea := 1
  cr := 1.8
  dragArea := 2
  cd := 2.2
  thruster := some ⟨1, 300⟩
  mode := .coast
  dir := none
  stm := none

example := thrust_direction_not_stored exReal _ _ rfl rfl rfl

end Verif.Spacecraft
