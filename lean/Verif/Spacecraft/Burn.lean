import Verif.Spacecraft.State
import Verif.Rk.Order
/-!
C50 (propellant), C51 (finite burns) and C100 (replay): the dynamics with a guidance law integrated by the
step of the propagator.
-/
set_option linter.unusedSectionVars false
namespace Verif.Spacecraft
open Finset

variable {Fr : Type}

/-- `single_step` with an accepted step size: the vector is integrated, set, then `finally` is called.
propagators/instance.rs:343-352. The duration of the step is given in seconds. -/
def craftStep (t : Rk.Tab) (D : Dyn ℚ Fr) (fixed : Bool) (s : Craft ℚ Fr) (h : ℚ) : Rk.Res (Craft ℚ Fr) :=
  (Rk.rkStep t (D.eom s) fixed s.toVector h).bind fun r =>
    match D.finally (s.set (D.addSec s.epoch h) r.1) with
    | .ok s' => .ok s'
    | .fuelExhausted => .err

/-- Steps one after the other; the states after each. -/
def craftRun (t : Rk.Tab) (D : Dyn ℚ Fr) (fixed : Bool) : List ℚ → Craft ℚ Fr → Rk.Res (List (Craft ℚ Fr))
  | [], _ => .ok []
  | h :: l, s => (craftStep t D fixed s h).bind fun s' =>
      (craftRun t D fixed l s').bind fun r => .ok (s' :: r)

/-- The functions that `next` of a guidance law may change: the mode and the direction. -/
def KeepsFuel (g : Law ℚ Fr) : Prop :=
  ∀ s, (g.next s).prop = s.prop ∧ (g.next s).thruster = s.thruster ∧ (g.next s).epoch = s.epoch

/-- The derivative without the control does not change the propellant. -/
def KeepsProp (D : Dyn ℚ Fr) : Prop := ∀ s dx, D.base s = some dx → dx 8 = 0

theorem g0_pos : (0 : ℚ) < g0 := by unfold g0; norm_num

theorem toVector_prop {F : Type} [Field F] [LinearOrder F] [IsStrictOrderedRing F] (s : Craft F Fr) :
    s.toVector 8 = s.prop := by
  simp only [Craft.toVector]
  norm_num

/-- What the control contributes to the derivative of the propellant. -/
theorem eom_prop (D : Dyn ℚ Fr) (hD : KeepsProp D) (g : Law ℚ Fr) (hg : D.law = some g)
    (hdec : D.decrement = true) (ctx : Craft ℚ Fr) (th : Thruster ℚ) (hth : ctx.thruster = some th)
    (τ : ℚ) (v k : Vec90 ℚ) (h : D.eom ctx τ v = some k) :
    ∃ u, g.throttle (ctx.set (D.addSec ctx.epoch τ) v) = some u ∧ 0 ≤ u ∧ u ≤ 1 ∧
      k 8 = -(u * (th.thrust / (th.isp * g0))) := by
  unfold Dyn.eom at h
  simp only at h
  split at h
  · cases h
  · next dx hdx =>
    rw [hg] at h
    simp only at h
    split at h
    · cases h
    · next f rate hc =>
      have hk : k 8 = rate := by
        rw [← Option.some.inj h]
        have : dx 8 = 0 := hD _ _ hdx
        simp [this]
      unfold Dyn.control at hc
      have : (ctx.set (D.addSec ctx.epoch τ) v).thruster = some th := hth
      rw [this] at hc
      simp only at hc
      split at hc
      · cases hc
      · next u hu =>
        refine ⟨u, hu, ?_⟩
        split at hc
        · cases hc
        · next hr =>
          have hr := not_not.1 hr
          refine ⟨hr.1, hr.2, ?_⟩
          split at hc
          · split at hc
            · cases hc
            · split at hc
              · cases hc
              · simp only [hdec, if_true, Option.some.injEq, Prod.mk.injEq] at hc
                rw [hk, ← hc.2]
                ring
          · next h0 =>
            simp only [Option.some.injEq, Prod.mk.injEq] at hc
            have : u = 0 := le_antisymm (not_lt.1 h0) hr.1
            rw [hk, ← hc.2, this]
            ring

theorem craftStep_ok (t : Rk.Tab) (D : Dyn ℚ Fr) (fixed : Bool) (s s' : Craft ℚ Fr) (h : ℚ)
    (hr : craftStep t D fixed s h = .ok s') :
    ∃ r, Rk.rkStep t (D.eom s) fixed s.toVector h = .ok r ∧ 0 ≤ r.1 8 ∧
      D.finally (s.set (D.addSec s.epoch h) r.1) = .ok s' := by
  unfold craftStep at hr
  obtain ⟨r, h1, h2⟩ := Rk.Res.bind_eq_ok.1 hr
  refine ⟨r, h1, ?_⟩
  split at h2
  · next s'' hf =>
    simp only [Rk.Res.ok.injEq] at h2
    subst h2
    refine ⟨?_, hf⟩
    unfold Dyn.finally at hf
    split at hf
    · cases hf
    · next hneg => exact not_lt.1 hneg
  · cases h2

/-- **C50 (one step).** The propellant after a step is the propellant before minus the step times the
mass flow at full throttle times the weighted throttles of the stages; the throttles are those the
guidance law returned, all in [0, 1]; and the result is never negative. -/
theorem prop_step (t : Rk.Tab) (hs : 1 ≤ t.stages) (D : Dyn ℚ Fr) (hD : KeepsProp D) (g : Law ℚ Fr)
    (hg : D.law = some g) (hk : KeepsFuel g) (hdec : D.decrement = true) (fixed : Bool)
    (s s' : Craft ℚ Fr) (th : Thruster ℚ) (hth : s.thruster = some th) (h : ℚ)
    (hr : craftStep t D fixed s h = .ok s') :
    ∃ u : Nat → ℚ,
      (∀ i < t.stages, 0 ≤ u i ∧ u i ≤ 1 ∧ ∃ osc : Craft ℚ Fr, g.throttle osc = some (u i) ∧
        osc.epoch = D.addSec s.epoch (t.c i * h) ∧ osc.mode = s.mode) ∧
      s'.prop = s.prop - h * (th.thrust / (th.isp * g0)) * ∑ i ∈ range t.stages, t.b i * u i ∧
      0 ≤ s'.prop ∧ s'.thruster = some th ∧ s'.epoch = D.addSec s.epoch h := by
  obtain ⟨⟨next, err⟩, h1, hnn, hf⟩ := craftStep_ok t D fixed s s' h hr
  obtain ⟨K, hK, hn, -⟩ := Rk.rkStep_ok t hs _ _ _ _ _ _ h1
  have hu : ∀ i, ∃ u : ℚ, i < t.stages → 0 ≤ u ∧ u ≤ 1 ∧
      (∃ osc : Craft ℚ Fr, g.throttle osc = some u ∧ osc.epoch = D.addSec s.epoch (t.c i * h) ∧
        osc.mode = s.mode) ∧ K i 8 = -(u * (th.thrust / (th.isp * g0))) := by
    intro i
    by_cases hi : i < t.stages
    · obtain ⟨u, a1, a2, a3, a4⟩ := eom_prop D hD g hg hdec s th hth _ _ _ (hK i hi)
      exact ⟨u, fun _ => ⟨a2, a3, ⟨_, a1, rfl, rfl⟩, a4⟩⟩
    · exact ⟨0, fun h => absurd h hi⟩
  choose u hu using hu
  have hprop : next 8 = s.prop - h * (th.thrust / (th.isp * g0)) * ∑ i ∈ range t.stages, t.b i * u i := by
    rw [hn]
    simp only [Pi.add_apply, Pi.smul_apply, Finset.sum_apply, smul_eq_mul, toVector_prop]
    have : ∑ i ∈ range t.stages, t.b i * K i 8 =
        -((th.thrust / (th.isp * g0)) * ∑ i ∈ range t.stages, t.b i * u i) := by
      rw [mul_sum, ← sum_neg_distrib]
      refine sum_congr rfl fun i hi => ?_
      rw [(hu i (mem_range.1 hi)).2.2.2]
      ring
    rw [this]
    ring
  have hfin : s'.prop = next 8 ∧ s'.thruster = some th ∧ s'.epoch = D.addSec s.epoch h := by
    unfold Dyn.finally at hf
    split at hf
    · cases hf
    · rw [hg] at hf
      simp only [Fin'.ok.injEq] at hf
      rw [← hf]
      obtain ⟨a, b, c⟩ := hk { s.set (D.addSec s.epoch h) next with
        dir := storedDir D.norm g (s.set (D.addSec s.epoch h) next) }
      exact ⟨a, b.trans hth, c⟩
  refine ⟨u, fun i hi => ⟨(hu i hi).1, (hu i hi).2.1, (hu i hi).2.2.1⟩, ?_, ?_, hfin.2.1, hfin.2.2⟩
  · rw [hfin.1, hprop]
  · rw [hfin.1]
    exact hnn

/-- **C50, partial.** With a method whose weights are not negative (Runge Kutta 4, Cash Karp 4-5 and
Verner 5-6, see `nonneg_weights`), over any number of forward steps, the propellant never increases and is
never negative. Missing: methods with negative weights, see `prop_increases`. -/
theorem prop_nonincreasing_partial (t : Rk.Tab) (hs : 1 ≤ t.stages)
    (hb : ∀ i < t.stages, 0 ≤ t.b i) (D : Dyn ℚ Fr) (hD : KeepsProp D) (g : Law ℚ Fr)
    (hg : D.law = some g) (hk : KeepsFuel g) (hdec : D.decrement = true) (fixed : Bool)
    (th : Thruster ℚ) (hT : 0 ≤ th.thrust) (hI : 0 < th.isp) :
    ∀ (l : List ℚ) (s : Craft ℚ Fr) (r : List (Craft ℚ Fr)), s.thruster = some th → (∀ h ∈ l, 0 ≤ h) →
      craftRun t D fixed l s = .ok r →
      ((s :: r).map fun c => c.prop).Pairwise (fun a b => b ≤ a) ∧ ∀ c ∈ r, 0 ≤ c.prop := by
  intro l
  induction l with
  | nil =>
    intro s r _ _ h
    simp only [craftRun, Rk.Res.ok.injEq] at h
    subst h
    simp
  | cons h l ih =>
    intro s r hth hl hr
    unfold craftRun at hr
    obtain ⟨s', h1, h2⟩ := Rk.Res.bind_eq_ok.1 hr
    obtain ⟨r', h3, h4⟩ := Rk.Res.bind_eq_ok.1 h2
    simp only [Rk.Res.ok.injEq] at h4
    subst h4
    obtain ⟨u, a1, a2, a3, a4, -⟩ := prop_step t hs D hD g hg hk hdec fixed s s' th hth h h1
    have hle : s'.prop ≤ s.prop := by
      rw [a2]
      have : 0 ≤ h * (th.thrust / (th.isp * g0)) * ∑ i ∈ range t.stages, t.b i * u i := by
        refine mul_nonneg (mul_nonneg (hl h (List.mem_cons_self ..))
          (div_nonneg hT (mul_pos hI g0_pos).le)) (sum_nonneg fun i hi => ?_)
        exact mul_nonneg (hb i (mem_range.1 hi)) (a1 i (mem_range.1 hi)).1
      linarith
    obtain ⟨b1, b2⟩ := ih s' r' a4 (fun x hx => hl x (List.mem_cons_of_mem _ hx)) h3
    refine ⟨?_, ?_⟩
    · rw [List.map_cons, List.pairwise_cons]
      refine ⟨?_, b1⟩
      intro b hb'
      rw [List.map_cons, List.mem_cons] at hb'
      rcases hb' with rfl | hb'
      · exact hle
      · rw [List.map_cons, List.pairwise_cons] at b1
        exact (b1.1 b hb').trans hle
    · intro c hc
      rcases List.mem_cons.1 hc with rfl | hc
      · exact a3
      · exact b2 c hc

/-- The methods with weights that are not negative. -/
theorem nonneg_weights (m : Rk.Method)
    (hm : m = .rungeKutta4 ∨ m = .cashKarp45 ∨ m = .verner56) : ∀ i < m.tab.stages, 0 ≤ m.tab.b i := by
  rcases hm with rfl | rfl | rfl <;> decide +kernel

/-- **C50 (never negative).** Any guidance law, method and step: a state returned has a propellant mass
that is not negative; otherwise the step is an error. -/
theorem prop_never_negative (t : Rk.Tab) (D : Dyn ℚ Fr) (hk : ∀ g, D.law = some g → KeepsFuel g)
    (fixed : Bool) (s s' : Craft ℚ Fr) (h : ℚ) (hr : craftStep t D fixed s h = .ok s') : 0 ≤ s'.prop := by
  obtain ⟨r, -, hnn, hf⟩ := craftStep_ok t D fixed s s' h hr
  unfold Dyn.finally at hf
  split at hf
  · cases hf
  · split at hf
    · simp only [Fin'.ok.injEq] at hf
      rw [← hf]
      exact hnn
    · next g hg =>
      simp only [Fin'.ok.injEq] at hf
      rw [← hf, (hk g hg _).1]
      exact hnn

/-! ### C51 -/

theorem mnvr_keepsFuel (m : Mnvr ℚ Fr) : KeepsFuel m.law := fun _ => ⟨rfl, rfl, rfl⟩

/-- **C51 (throttle of a step).** With a maneuver, whatever the method, all of a step is at the level of the
maneuver if the mode at its start is `Thrust`, and without thrust otherwise. -/
theorem mnvr_step (t : Rk.Tab) (hs : 1 ≤ t.stages) (D : Dyn ℚ Fr) (hD : KeepsProp D) (m : Mnvr ℚ Fr)
    (hg : D.law = some m.law) (hdec : D.decrement = true) (fixed : Bool) (s s' : Craft ℚ Fr)
    (th : Thruster ℚ) (hth : s.thruster = some th) (h : ℚ) (hr : craftStep t D fixed s h = .ok s') :
    s'.prop = s.prop - h * (th.thrust / (th.isp * g0)) *
      ((∑ i ∈ range t.stages, t.b i) * if s.mode = .thrust then m.level else 0) ∧
    (s'.mode = .thrust ↔ m.start ≤ s'.epoch ∧ s'.epoch ≤ m.stop) ∧
    s'.epoch = D.addSec s.epoch h ∧ s'.thruster = some th := by
  obtain ⟨u, a1, a2, -, a4, a5⟩ := prop_step t hs D hD m.law hg (mnvr_keepsFuel m) hdec fixed s s' th hth h hr
  refine ⟨?_, ?_, a5, a4⟩
  · rw [a2, sum_mul]
    congr 2
    refine sum_congr rfl fun i hi => ?_
    obtain ⟨-, -, osc, e1, -, e3⟩ := a1 i (mem_range.1 hi)
    have : u i = m.throttle osc := (Option.some.inj e1).symm
    rw [this]
    unfold Mnvr.throttle
    rw [e3]
  · obtain ⟨r, -, -, hf⟩ := craftStep_ok t D fixed s s' h hr
    unfold Dyn.finally at hf
    split at hf
    · cases hf
    · rw [hg] at hf
      simp only [Fin'.ok.injEq] at hf
      rw [← hf]
      simp only [Mnvr.law, Mnvr.next]
      split
      · next hw => simpa using hw
      · next hw => simpa using hw

/-- **C51, partial.** From a state whose mode agrees with the window (as `finally` leaves it), over any
number of steps, with weights that sum to one: a step uses propellant, at the level of the maneuver, iff
it starts in the window `start ≤ epoch ≤ end`, both ends included. Missing: the thrust is not
stopped at the end of the window but at the end of the step, see `burn_overruns`, and the mode of the
initial state is not updated, see `burn_starts_late`. -/
theorem mnvr_window_partial (t : Rk.Tab) (hs : 1 ≤ t.stages)
    (hb : ∑ i ∈ range t.stages, t.b i = 1) (D : Dyn ℚ Fr) (hD : KeepsProp D) (m : Mnvr ℚ Fr)
    (hg : D.law = some m.law) (hdec : D.decrement = true) (fixed : Bool) (th : Thruster ℚ) :
    ∀ (l : List ℚ) (s : Craft ℚ Fr) (r : List (Craft ℚ Fr)), s.thruster = some th →
      (s.mode = .thrust ↔ m.start ≤ s.epoch ∧ s.epoch ≤ m.stop) →
      craftRun t D fixed l s = .ok r → r.length = l.length ∧
      ∀ k (hk : k < l.length) a b, (s :: r)[k]? = some a → (s :: r)[k + 1]? = some b →
        b.prop = a.prop - if m.start ≤ a.epoch ∧ a.epoch ≤ m.stop then
          l[k] * (th.thrust / (th.isp * g0)) * m.level else 0 := by
  intro l
  induction l with
  | nil =>
    intro s r _ _ h
    simp only [craftRun, Rk.Res.ok.injEq] at h
    subst h
    exact ⟨rfl, fun k hk => absurd hk (by simp)⟩
  | cons h l ih =>
    intro s r hth hmode hr
    unfold craftRun at hr
    obtain ⟨s', h1, h2⟩ := Rk.Res.bind_eq_ok.1 hr
    obtain ⟨r', h3, h4⟩ := Rk.Res.bind_eq_ok.1 h2
    simp only [Rk.Res.ok.injEq] at h4
    subst h4
    obtain ⟨a1, a2, -, a4⟩ := mnvr_step t hs D hD m hg hdec fixed s s' th hth h h1
    obtain ⟨b1, b2⟩ := ih s' r' a4 a2 h3
    refine ⟨by simp [b1], ?_⟩
    intro k hk a b ha hb'
    cases k with
    | zero =>
      simp only [List.getElem?_cons_zero, Option.some.injEq, zero_add, List.getElem?_cons_succ] at ha hb'
      subst ha hb'
      rw [a1, hb, one_mul]
      by_cases hm : s.mode = .thrust
      · rw [if_pos hm, if_pos (hmode.1 hm)]
        simp
      · rw [if_neg hm, if_neg (fun hw => hm (hmode.2 hw)), mul_zero]
    | succ k =>
      simp only [List.length_cons, Nat.add_lt_add_iff_right] at hk
      have := b2 k hk a b (by simpa using ha) (by simpa using hb')
      simpa using this

/-- **C51 refuted (end).** A step that starts exactly at the end of the maneuver thrusts during all of it,
outside of the window. -/
theorem burn_overruns (t : Rk.Tab) (hs : 1 ≤ t.stages) (hb : ∑ i ∈ range t.stages, t.b i = 1)
    (D : Dyn ℚ Fr) (hD : KeepsProp D) (m : Mnvr ℚ Fr) (hg : D.law = some m.law)
    (hdec : D.decrement = true) (fixed : Bool) (s s' : Craft ℚ Fr) (th : Thruster ℚ)
    (hT : 0 < th.thrust) (hI : 0 < th.isp) (hlev : 0 < m.level) (hth : s.thruster = some th)
    (hw : m.start ≤ m.stop) (hend : s.epoch = m.stop) (h : ℚ) (hh : 0 < h)
    (hr : craftStep t D fixed (m.next s) h = .ok s') :
    (m.next s).epoch = m.stop ∧ s'.prop < (m.next s).prop := by
  have hmode : (m.next s).mode = .thrust := by
    show (if s.epoch ≥ m.start ∧ s.epoch ≤ m.stop then Mode.thrust else .coast) = .thrust
    rw [if_pos ⟨by rw [hend]; exact hw, hend.le⟩]
  refine ⟨hend, ?_⟩
  obtain ⟨a1, -⟩ := mnvr_step t hs D hD m hg hdec fixed (m.next s) s' th hth h hr
  rw [a1, hb, one_mul, if_pos hmode]
  have : 0 < h * (th.thrust / (th.isp * g0)) * m.level :=
    mul_pos (mul_pos hh (div_pos hT (mul_pos hI g0_pos))) hlev
  linarith

/-- **C51 refuted (start).** A spacecraft that coasts at the start of the propagation does not thrust
during the first step, even if that step starts inside of the window. -/
theorem burn_starts_late (t : Rk.Tab) (hs : 1 ≤ t.stages)
    (D : Dyn ℚ Fr) (hD : KeepsProp D) (m : Mnvr ℚ Fr) (hg : D.law = some m.law)
    (hdec : D.decrement = true) (fixed : Bool) (s s' : Craft ℚ Fr) (th : Thruster ℚ)
    (hth : s.thruster = some th) (hm : s.mode ≠ .thrust) (h : ℚ)
    (hr : craftStep t D fixed s h = .ok s') : s'.prop = s.prop := by
  obtain ⟨a1, -⟩ := mnvr_step t hs D hD m hg hdec fixed s s' th hth h hr
  rw [a1, if_neg hm]
  ring

/-- **C51.** A maneuver is antichronological iff it ends more than a microsecond before its start. -/
theorem antichronological_iff (m : Mnvr ℚ Fr) :
    m.antichronological = true ↔ m.stop < m.start - 1000 := by
  unfold Mnvr.antichronological
  rw [decide_eq_true_eq]
  constructor
  · rintro ⟨h1, h2⟩
    rcases abs_cases (m.stop - m.start) with ⟨h3, _⟩ | ⟨h3, _⟩ <;> omega
  · intro h
    have : |m.stop - m.start| = -(m.stop - m.start) := abs_of_neg (by omega)
    omega

/-! ### C100: the recorded direction and its replay -/

/-- **C100 refuted (recording).** The direction stored in a state is that of the mode of the step that
ended: with a maneuver of positive level, the state after a step stores a direction iff the mode **before**
was `Thrust`, while the mode stored is that of the next step. -/
theorem stored_direction_of_previous_mode (t : Rk.Tab) (D : Dyn ℚ Fr) (m : Mnvr ℚ Fr)
    (hrot : ∀ s, (m.rotate s).isSome) (hg : D.law = some m.law) (hlev : 0 < m.level) (fixed : Bool)
    (s s' : Craft ℚ Fr) (h : ℚ) (hr : craftStep t D fixed s h = .ok s') :
    (s'.dir.isSome ↔ s.mode = .thrust) ∧
    (s'.mode = .thrust ↔ m.start ≤ s'.epoch ∧ s'.epoch ≤ m.stop) := by
  obtain ⟨r, -, -, hf⟩ := craftStep_ok t D fixed s s' h hr
  unfold Dyn.finally at hf
  split at hf
  · cases hf
  · rw [hg] at hf
    simp only [Fin'.ok.injEq] at hf
    subst hf
    constructor
    · simp only [Mnvr.law, Mnvr.next, storedDir, Mnvr.throttle, Mnvr.direction]
      have hmode : (s.set (D.addSec s.epoch h) r.1).mode = s.mode := rfl
      rw [hmode]
      by_cases hm : s.mode = .thrust
      · simp only [hm, if_true, gt_iff_lt, hlev, Option.isSome_map, iff_true]
        exact hrot _
      · simp [hm]
    · simp only [Mnvr.law, Mnvr.next]
      split
      · next hw => simpa using hw
      · next hw => simpa using hw

theorem getLast?_filter_le (l : List (Craft ℚ Fr)) (hl : (l.map fun s => s.epoch).Pairwise (· < ·))
    (e : Int) (c : Craft ℚ Fr) (hc : lastAtOrBefore l e = some c) :
    c ∈ l ∧ c.epoch ≤ e ∧ ∀ s ∈ l, s.epoch ≤ e → s.epoch ≤ c.epoch := by
  unfold lastAtOrBefore at hc
  have hmem := List.mem_of_getLast? hc
  rw [List.mem_filter, decide_eq_true_eq] at hmem
  refine ⟨hmem.1, hmem.2, ?_⟩
  intro s hs hse
  have hin : s ∈ l.filter fun s => decide (s.epoch ≤ e) := List.mem_filter.2 ⟨hs, by simpa using hse⟩
  have hpw : (l.filter fun s => decide (s.epoch ≤ e)).Pairwise fun a b => a.epoch < b.epoch :=
    (List.pairwise_map.1 hl).filter _
  obtain ⟨pre, hpre⟩ := List.getLast?_eq_some_iff.1 hc
  rw [hpre] at hin hpw
  rw [List.mem_append, List.mem_singleton] at hin
  rcases hin with h | rfl
  · exact (List.pairwise_append.1 hpw).2.2 s h c (List.mem_singleton.2 rfl) |>.le
  · exact le_rfl

/-- **C100 (hold), partial.** On a profile sorted by epoch, the direction replayed at an epoch within the
profile is that of the latest sample at or before, whenever that sample has a direction or is not
thrusting; outside of the profile nothing is commanded. -/
theorem replay_holds_partial (norm : V3 ℚ → ℚ) (profile : List (Craft ℚ Fr))
    (hl : (profile.map fun s => s.epoch).Pairwise (· < ·)) (s : Craft ℚ Fr) (c : Craft ℚ Fr)
    (hc : c ∈ profile) (hce : c.epoch ≤ s.epoch) (hmax : ∀ x ∈ profile, x.epoch ≤ s.epoch → x.epoch ≤ c.epoch)
    (hd : c.dir.isSome ∨ c.mode ≠ .thrust) (hlast : ∀ l, profile.getLast? = some l → s.epoch ≤ l.epoch) :
    (replay norm profile).direction s = some (c.dir.getD fun _ => 0) ∧
    (replay norm profile).throttle s = some (if c.dir.isSome then 1 else 0) := by
  have hcmd : commandAt profile s.epoch = some c := by
    obtain ⟨f, hf⟩ : ∃ f, profile.head? = some f := by
      cases profile with
      | nil => cases hc
      | cons a _ => exact ⟨a, rfl⟩
    obtain ⟨la, hla⟩ : ∃ la, profile.getLast? = some la := by
      cases hx : profile.getLast? with
      | none => rw [List.getLast?_eq_none_iff] at hx; rw [hx] at hc; cases hc
      | some la => exact ⟨la, rfl⟩
    have hfe : f.epoch ≤ c.epoch := by
      cases profile with
      | nil => cases hc
      | cons a l =>
        simp only [List.head?_cons, Option.some.injEq] at hf
        subst hf
        rcases List.mem_cons.1 hc with rfl | h
        · exact le_rfl
        · rw [List.map_cons, List.pairwise_cons] at hl
          exact (hl.1 _ (List.mem_map.2 ⟨c, h, rfl⟩)).le
    have hfind : lastAtOrBefore profile s.epoch = some c := by
      cases hx : lastAtOrBefore profile s.epoch with
      | none =>
        unfold lastAtOrBefore at hx
        rw [List.getLast?_eq_none_iff, List.filter_eq_nil_iff] at hx
        exact absurd (by simpa using hce) (hx c hc)
      | some c' =>
        obtain ⟨m1, m2, m3⟩ := getLast?_filter_le profile hl _ c' hx
        have he : c'.epoch = c.epoch := le_antisymm (hmax c' m1 m2) (m3 c hc hce)
        congr 1
        have hinj : ∀ (l : List (Craft ℚ Fr)), (l.map fun s => s.epoch).Pairwise (· < ·) → ∀ a ∈ l, ∀ b ∈ l,
            a.epoch = b.epoch → a = b := by
          intro l
          induction l with
          | nil => intro _ a ha; cases ha
          | cons x l ih =>
            intro hp a ha b hb hab
            rw [List.map_cons, List.pairwise_cons] at hp
            rcases List.mem_cons.1 ha with rfl | ha' <;> rcases List.mem_cons.1 hb with rfl | hb'
            · rfl
            · have := hp.1 _ (List.mem_map.2 ⟨b, hb', rfl⟩); omega
            · have := hp.1 _ (List.mem_map.2 ⟨a, ha', rfl⟩); omega
            · exact ih hp.2 a ha' b hb' hab
        exact hinj profile hl c' m1 c hc he
    unfold commandAt
    rw [hf, hla]
    simp only
    rw [if_neg (by have := hlast la hla; omega), hfind]
    simp only
    rw [if_pos hd]
  constructor
  · simp only [replay, commandDir, hcmd, Option.bind_some]
  · simp only [replay, commandDir, hcmd, Option.bind_some]

/-- A recorded profile: a burn of one step from 10 to 20; the direction is stored at its end. -/
def exProfile : List (Craft ℚ Unit) :=
  [{ exCraft with epoch := 0, mode := .coast, dir := none },
   { exCraft with epoch := 10, mode := .thrust, dir := none },
   { exCraft with epoch := 20, mode := .coast, dir := some ![1, 0, 0] },
   { exCraft with epoch := 30, mode := .coast, dir := none }]

/-- **C100 refuted (replay).** The profile of a burn from 10 to 20, as it is recorded (see
`stored_direction_of_previous_mode`), is replayed as a burn from 20 to 30. -/
theorem replay_one_step_late (norm : V3 ℚ → ℚ) :
    (replay norm exProfile).throttle { exCraft with epoch := 15 } = some 0 ∧
    (replay norm exProfile).throttle { exCraft with epoch := 25 } = some 1 := by
  have h : (commandDir exProfile 15).isSome = false ∧ (commandDir exProfile 25).isSome = true := by
    decide +kernel
  simp only [replay, h.1, h.2]
  simp

/-! ### C50 refuted for methods with negative weights -/

/-- Nanoseconds of a number of seconds. -/
def nanos (e : Int) (d : ℚ) : Int := e + (d * 1000000000).floor

/-- A profile with a thrust between 0.85 and 0.95 seconds. -/
def shortBurn : List (Craft ℚ Unit) :=
  [{ exCraft with epoch := 0 },
   { exCraft with epoch := 850000000, dir := some ![1, 0, 0] },
   { exCraft with epoch := 950000000 },
   { exCraft with epoch := 2000000000 }]

/-- The dynamics that replay it; the norm is right for the vectors of the profile. -/
def shortBurnDyn : Dyn ℚ Unit where
  base := fun _ => some fun _ => 0
  law := some (replay (fun v => |v 0|) shortBurn)
  decrement := true
  norm := fun v => |v 0|
  addSec := nanos

theorem shortBurn_keepsFuel : KeepsFuel (replay (fun v => |v 0|) shortBurn) := fun _ => ⟨rfl, rfl, rfl⟩

/-- **C50 refuted (increase).** With Dormand Prince 4-5 and a guidance law that depends on the epoch, a
short burn close to the end of a step of one second **adds** propellant: only the stage at 8/9 of the step
thrusts, and its weight is negative. -/
theorem prop_increases (s' : Craft ℚ Unit)
    (hr : craftStep Rk.dormand45 shortBurnDyn true exCraft 1 = .ok s') : exCraft.prop < s'.prop := by
  obtain ⟨u, a1, a2, -⟩ := prop_step Rk.dormand45 (by decide) shortBurnDyn
    (fun s dx h => by
      simp only [shortBurnDyn, Option.some.injEq] at h
      rw [← h]) _ rfl shortBurn_keepsFuel rfl true exCraft s' ⟨1, 300⟩ rfl 1 hr
  have hu : ∀ i < 7, u i = if i = 4 then 1 else 0 := by
    intro i hi
    obtain ⟨-, -, osc, e1, e2, -⟩ := a1 i hi
    have e1 : some (if (commandDir shortBurn osc.epoch).isSome then (1 : ℚ) else 0) = some (u i) := e1
    rw [e2] at e1
    have hc : ∀ i < 7, (commandDir shortBurn (shortBurnDyn.addSec exCraft.epoch
        (Rk.dormand45.c i * 1))).isSome = decide (i = 4) := by decide +kernel
    rw [hc i hi] at e1
    rw [← Option.some.inj e1]
    simp
  have hsum : ∑ i ∈ range Rk.dormand45.stages, Rk.dormand45.b i * u i = -2187 / 6784 := by
    have : ∑ i ∈ range Rk.dormand45.stages, Rk.dormand45.b i * u i =
        ∑ i ∈ range 7, Rk.dormand45.b i * if i = 4 then 1 else 0 := by
      refine sum_congr rfl fun i hi => ?_
      rw [hu i (mem_range.1 hi)]
    rw [this, Finset.sum_eq_single 4]
    · decide +kernel
    · intro i _ hi
      rw [if_neg hi, mul_zero]
    · intro h
      simp at h
  rw [a2, hsum]
  unfold g0
  norm_num

/-- The step of `prop_increases` succeeds. -/
theorem shortBurn_runs : ∃ s', craftStep Rk.dormand45 shortBurnDyn true exCraft 1 = .ok s' := by
  have htot : ∀ τ (y : Vec90 ℚ), ∃ k, shortBurnDyn.eom exCraft τ y = some k := by
    intro τ y
    have hdirs : ∀ e d, commandDir shortBurn e = some d → d = ![1, 0, 0] := by
      intro e d hd
      unfold commandDir at hd
      rw [Option.bind_eq_some_iff] at hd
      obtain ⟨c, hc1, hc2⟩ := hd
      have hmem : c ∈ shortBurn := by
        unfold commandAt at hc1
        split at hc1
        · split at hc1
          · cases hc1
          · split at hc1
            · cases hc1
            · next c' hc' =>
              have hm : c' ∈ shortBurn := by
                unfold lastAtOrBefore at hc'
                exact (List.mem_filter.1 (List.mem_of_getLast? hc')).1
              split at hc1
              · rw [← Option.some.inj hc1]; exact hm
              · split at hc1
                · exact List.mem_of_find?_eq_some hc1
                · rw [← Option.some.inj hc1]; exact hm
        · cases hc1
      simp only [shortBurn, List.mem_cons, List.not_mem_nil, or_false] at hmem
      rcases hmem with rfl | rfl | rfl | rfl
      · cases hc2
      · exact (Option.some.inj hc2).symm
      · cases hc2
      · cases hc2
    unfold Dyn.eom
    simp only [shortBurnDyn]
    have hcontrol : ∃ p, Dyn.control shortBurnDyn (replay (fun v => |v 0|) shortBurn)
        (exCraft.set (nanos exCraft.epoch τ) y) = some p := by
      unfold Dyn.control
      have : (exCraft.set (nanos exCraft.epoch τ) y).thruster = some ⟨1, 300⟩ := rfl
      rw [this]
      simp only [replay]
      cases hd : commandDir shortBurn (exCraft.set (nanos exCraft.epoch τ) y).epoch with
      | none => exact ⟨_, by simp; rfl⟩
      | some d =>
        have := hdirs _ d hd
        subst this
        simp [shortBurnDyn, normErr]
    obtain ⟨p, hp⟩ := hcontrol
    simp only [shortBurnDyn] at hp
    rw [hp]
    exact ⟨_, rfl⟩
  obtain ⟨r, hr⟩ := Rk.rkStep_total Rk.dormand45 (by decide) (shortBurnDyn.eom exCraft) htot true
    exCraft.toVector 1
  have hbase : KeepsProp shortBurnDyn := fun s dx h => by
    simp only [shortBurnDyn, Option.some.injEq] at h
    rw [← h]
  have hnn : ¬ (exCraft.set (shortBurnDyn.addSec exCraft.epoch 1) r.1).prop < 0 := by
    rw [not_lt]
    show 0 ≤ r.1 8
    obtain ⟨next, err⟩ := r
    obtain ⟨K, hK, hn, -⟩ := Rk.rkStep_ok Rk.dormand45 (by decide) _ _ _ _ _ _ hr
    simp only
    rw [hn]
    simp only [Pi.add_apply, Pi.smul_apply, Finset.sum_apply, smul_eq_mul, toVector_prop]
    have hb : ∀ i ∈ range Rk.dormand45.stages, -1 ≤ Rk.dormand45.b i * K i 8 := by
      intro i hi
      obtain ⟨u, -, hu0, hu1, hk8⟩ := eom_prop shortBurnDyn hbase _ rfl rfl exCraft ⟨1, 300⟩ rfl _ _ _
        (hK i (mem_range.1 hi))
      rw [hk8]
      have hbi : |Rk.dormand45.b i| ≤ 1 := by
        have : ∀ i < 7, |Rk.dormand45.b i| ≤ 1 := by decide +kernel
        exact this i (mem_range.1 hi)
      have hg : (0 : ℚ) ≤ 1 / (300 * g0) ∧ (1 : ℚ) / (300 * g0) ≤ 1 := by
        unfold g0
        norm_num
      obtain ⟨hb1, hb2⟩ := abs_le.1 hbi
      have hx0 : 0 ≤ u * (1 / (300 * g0)) := mul_nonneg hu0 hg.1
      have hx1 : u * (1 / (300 * g0)) ≤ 1 := mul_le_one₀ hu1 hg.1 hg.2
      have : Rk.dormand45.b i * (u * (1 / (300 * g0))) ≤ 1 :=
        (mul_le_mul_of_nonneg_right hb2 hx0).trans (by rw [one_mul]; exact hx1)
      simp only
      linarith
    have := Finset.sum_le_sum hb
    simp only [sum_const, card_range, smul_eq_mul, nsmul_eq_mul] at this
    have h7 : (Rk.dormand45.stages : ℚ) = 7 := rfl
    have hp : exCraft.prop = 50 := rfl
    rw [hp]
    rw [h7] at this
    linarith
  refine ⟨?_, ?_⟩
  rotate_left
  · unfold craftStep
    rw [hr]
    simp only [Rk.Res.bind]
    unfold Dyn.finally
    rw [if_neg hnn]
    rfl

/-! ### Examples -/

/-- A maneuver of 10 s, along x, in the inertial frame. -/
def exMnvr : Mnvr ℚ Unit where
  start := 0
  stop := 10000000000
  level := 1
  vector := fun _ => ![1, 0, 0]
  rotate := fun _ => some id

/-- Dynamics without gravity and with the maneuver. -/
def exDyn : Dyn ℚ Unit where
  base := fun _ => some fun _ => 0
  law := some exMnvr.law
  decrement := true
  norm := fun v => |v 0|
  addSec := nanos

theorem exDyn_keepsProp : KeepsProp exDyn := fun s dx h => by
  simp only [exDyn, Option.some.injEq] at h
  rw [← h]

theorem exDyn_total (s : Craft ℚ Unit) (hs : s.thruster.isSome) (τ : ℚ) (y : Vec90 ℚ) :
    ∃ k, exDyn.eom s τ y = some k := by
  obtain ⟨th, hth⟩ := Option.isSome_iff_exists.1 hs
  unfold Dyn.eom
  simp only [exDyn]
  have : ∃ p, Dyn.control exDyn exMnvr.law (s.set (nanos s.epoch τ) y) = some p := by
    unfold Dyn.control
    have : (s.set (nanos s.epoch τ) y).thruster = some th := hth
    rw [this]
    simp only [Mnvr.law, Mnvr.throttle, Mnvr.direction]
    have hm : (s.set (nanos s.epoch τ) y).mode = s.mode := rfl
    rw [hm]
    by_cases h : s.mode = .thrust
    · simp [h, exMnvr, exDyn, normErr]
    · exact ⟨_, by simp [h]; rfl⟩
  obtain ⟨p, hp⟩ := this
  simp only [exDyn] at hp
  rw [hp]
  exact ⟨_, rfl⟩

/-- The hypotheses of the theorems on maneuvers are met by a thrusting spacecraft: the step succeeds. -/
theorem exDyn_runs (s : Craft ℚ Unit) (hs : s.thruster = some ⟨1, 300⟩) (hp : 1 ≤ s.prop) :
    ∃ s', craftStep Rk.rk4 exDyn true s 1 = .ok s' := by
  obtain ⟨r, hr⟩ := Rk.rkStep_total Rk.rk4 (by decide) (exDyn.eom s) (exDyn_total s (by rw [hs]; rfl)) true
    s.toVector 1
  have hnn : ¬ (s.set (exDyn.addSec s.epoch 1) r.1).prop < 0 := by
    rw [not_lt]
    show 0 ≤ r.1 8
    obtain ⟨next, err⟩ := r
    obtain ⟨K, hK, hn, -⟩ := Rk.rkStep_ok Rk.rk4 (by decide) _ _ _ _ _ _ hr
    simp only
    rw [hn]
    simp only [Pi.add_apply, Pi.smul_apply, Finset.sum_apply, smul_eq_mul, toVector_prop]
    have hb : ∀ i ∈ range Rk.rk4.stages, -(1 / 4 : ℚ) ≤ Rk.rk4.b i * K i 8 := by
      intro i hi
      obtain ⟨u, -, hu0, hu1, hk8⟩ := eom_prop exDyn exDyn_keepsProp _ rfl rfl s ⟨1, 300⟩ hs _ _ _
        (hK i (mem_range.1 hi))
      rw [hk8]
      have hbi : ∀ i < 4, 0 ≤ Rk.rk4.b i ∧ Rk.rk4.b i ≤ 1 := by decide +kernel
      have hb := hbi i (mem_range.1 hi)
      have hg : (0 : ℚ) ≤ 1 / (300 * g0) ∧ (1 : ℚ) / (300 * g0) ≤ 1 / 4 := by
        unfold g0
        norm_num
      have hx0 : 0 ≤ u * (1 / (300 * g0)) := mul_nonneg hu0 hg.1
      have hx1 : u * (1 / (300 * g0)) ≤ 1 / 4 :=
        (mul_le_mul_of_nonneg_right hu1 hg.1).trans (by rw [one_mul]; exact hg.2)
      have : Rk.rk4.b i * (u * (1 / (300 * g0))) ≤ 1 / 4 :=
        (mul_le_mul_of_nonneg_right hb.2 hx0).trans (by rw [one_mul]; exact hx1)
      simp only
      linarith
    have := Finset.sum_le_sum hb
    simp only [sum_const, card_range, smul_eq_mul, nsmul_eq_mul] at this
    have h4 : (Rk.rk4.stages : ℚ) = 4 := rfl
    rw [h4] at this
    linarith
  refine ⟨?_, ?_⟩
  rotate_left
  · unfold craftStep
    rw [hr]
    simp only [Rk.Res.bind]
    unfold Dyn.finally
    rw [if_neg hnn]
    rfl

/-- The overrun happens: a spacecraft at the end of the maneuver. -/
example : ∃ s', craftStep Rk.rk4 exDyn true (exMnvr.next { exCraft with epoch := 10000000000 }) 1 = .ok s' ∧
    s'.prop < exCraft.prop := by
  obtain ⟨s', hs'⟩ := exDyn_runs (exMnvr.next { exCraft with epoch := 10000000000 }) rfl (by decide +kernel)
  have hb : ∑ i ∈ range Rk.rk4.stages, Rk.rk4.b i = 1 := by
    rw [← Rk.sum_range_list]
    decide +kernel
  exact ⟨s', hs', (burn_overruns Rk.rk4 (by decide) hb exDyn exDyn_keepsProp exMnvr rfl rfl true
    { exCraft with epoch := 10000000000 } s' ⟨1, 300⟩ (by decide +kernel) (by decide +kernel) (by decide +kernel)
    rfl (by decide) rfl 1 (by decide +kernel) hs').2⟩

/-- The weights of Runge Kutta 4 and a maneuver meet the hypotheses of the theorem on the propellant. -/
example (l : List ℚ) (r : List (Craft ℚ Unit)) (hl : ∀ h ∈ l, 0 ≤ h)
    (hr : craftRun Rk.rk4 exDyn true l exCraft = .ok r) :=
  prop_nonincreasing_partial Rk.rk4 (by decide) (nonneg_weights .rungeKutta4 (Or.inl rfl)) exDyn exDyn_keepsProp
    exMnvr.law rfl (mnvr_keepsFuel _) rfl true ⟨1, 300⟩ (by decide +kernel) (by decide +kernel) l exCraft r rfl hl hr

/-- The hold of a sample, for the profile of the refutation. -/
example := replay_holds_partial (fun v => |v 0|) exProfile (by simp [exProfile]) { exCraft with epoch := 25 }
  { exCraft with epoch := 20, mode := .coast, dir := some ![1, 0, 0] } (by simp [exProfile]) (by decide)
  (by simp [exProfile]) (Or.inl rfl) (by simp [exProfile])

example : ∃ s', craftStep Rk.rk4 exDyn true (exMnvr.next { exCraft with epoch := 10000000000 }) 1 = .ok s' ∧ 0 ≤ s'.prop ∧
    (s'.dir.isSome ↔ (exMnvr.next { exCraft with epoch := 10000000000 }).mode = .thrust) := by
  obtain ⟨s', hs'⟩ := exDyn_runs (exMnvr.next { exCraft with epoch := 10000000000 }) rfl (by decide +kernel)
  exact ⟨s', hs', prop_never_negative _ _ (fun g hg => by cases hg; exact mnvr_keepsFuel _) _ _ _ _ hs',
    (stored_direction_of_previous_mode _ _ exMnvr (fun _ => rfl) rfl (by decide +kernel) _ _ _ _ hs').1⟩

end Verif.Spacecraft
