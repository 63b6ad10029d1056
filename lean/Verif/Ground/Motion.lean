import Verif.Ground.Model
import Verif.Rk.Order
import Mathlib.Analysis.Calculus.FDeriv.Add
/-!
# The state of an asset and its propagation
-/
namespace Verif.Ground
open Verif.Force
open Finset
open Verif.Mc (Out)

variable {F Fr : Type}

/-! ### The state -/

theorem readStm_toVector [Zero F] (a : Asset F Fr) (M : Matrix (Fin 6) (Fin 6) F) (h : a.stm = some M) :
    readStm a.toVector = M := by
  ext i j
  simp only [readStm, Matrix.of_apply, Asset.toVector, h, Option.elim_some]
  rw [dif_neg (by omega)]
  congr 1
  · exact Fin.ext (by dsimp only <;> omega)
  · exact Fin.ext (by dsimp only <;> omega)

/-- C176. The vector of an asset determines it: setting it back (at any epoch) changes nothing but the epoch,
with or without a state transition matrix. -/
theorem set_toVector [Zero F] (a : Asset F Fr) (t : Int) :
    a.set t a.toVector = ⟨a.lat, a.lon, a.height, a.latRate, a.lonRate, a.heightRate, t, a.frame, a.stm⟩ := by
  have h : a.stm.map (fun _ => readStm a.toVector) = a.stm := by
    cases hs : a.stm with
    | none => rfl
    | some M => rw [Option.map_some, readStm_toVector a M hs]
  rw [Asset.set, h]
  rfl

/-- C176. What is set is what is read, when the asset has a state transition matrix. -/
theorem toVector_set [Zero F] (a : Asset F Fr) (t : Int) (v : Fin 42 → F) (h : a.stm.isSome) : (a.set t v).toVector = v := by
  obtain ⟨M, hM⟩ := Option.isSome_iff_exists.1 h
  funext k
  simp only [Asset.toVector, Asset.set, hM, Option.map_some, Option.elim_some]
  split
  · rename_i hk
    obtain ⟨k, hk'⟩ := k
    simp only at hk
    interval_cases k <;> rfl
  · rename_i hk
    simp only [readStm, Matrix.of_apply]
    congr 1
    exact Fin.ext (by dsimp only <;> omega)

/-- C176. A deviation is added to each variable, and nothing else changes. -/
theorem add_vars [Add F] (a : Asset F Fr) (d : Fin 6 → F) : (∀ i, (a.add d).vars i = a.vars i + d i) ∧
    (a.add d).epoch = a.epoch ∧ (a.add d).frame = a.frame ∧ (a.add d).stm = a.stm :=
  ⟨fun i => by fin_cases i <;> rfl, rfl, rfl, rfl⟩

/-- C176. The parameters which are exported are those which have a value: the coordinates. -/
theorem export_values (a : Asset F Fr) : (∀ p, p ∈ exportParams ↔ (a.value p).isSome) ∧
    exportParams.map a.value = [some a.lat, some a.lon, some a.height] :=
  ⟨fun p => by cases p <;> simp [exportParams, Asset.value], rfl⟩

/-- C177. Interpolation between assets that move at the constant rates of one of them gives where that asset
is at the epoch asked for, provided that the interpolation of ANISE is exact on straight lines. -/
theorem interpolate_line [Field F] (et : Int → F) (herm : List F → List F → List F → F → Option (F × F))
    (hh : ∀ (ts : List F) (p q t : F), ts ≠ [] → herm ts (ts.map fun s => p + s * q) (ts.map fun _ => q) t = some (p + t * q, q))
    (a x : Asset F Fr) (t : Int) (states : List (Asset F Fr)) (h0 : states ≠ []) (hl : states.length ≤ 13)
    (hs : ∀ s ∈ states, s.lat = x.lat + et s.epoch * x.latRate ∧ s.lon = x.lon + et s.epoch * x.lonRate ∧
      s.height = x.height + et s.epoch * x.heightRate ∧ s.latRate = x.latRate ∧ s.lonRate = x.lonRate ∧ s.heightRate = x.heightRate) :
    a.interpolate et herm t states = .ok ⟨x.lat + et t * x.latRate, x.lon + et t * x.lonRate, x.height + et t * x.heightRate,
      x.latRate, x.lonRate, x.heightRate, t, a.frame, a.stm⟩ := by
  have hn : states.map (fun s => et s.epoch) ≠ [] := by simpa using h0
  have e : ∀ (f g : Asset F Fr → F) (p q : F), (∀ s ∈ states, f s = p + et s.epoch * q) → (∀ s ∈ states, g s = q) →
      herm (states.map fun s => et s.epoch) (states.map f) (states.map g) (et t) = some (p + et t * q, q) := by
    intro f g p q hf hg
    rw [← hh _ p q (et t) hn, List.map_map, List.map_map]
    congr 1
    · exact List.map_congr_left hf
    · exact List.map_congr_left hg
  rw [Asset.interpolate, if_neg (by simpa [samples] using hl)]
  simp only []
  rw [e (·.lat) (·.latRate) x.lat x.latRate (fun s h => (hs s h).1) (fun s h => (hs s h).2.2.2.1)]
  simp only [Option.elim_some]
  rw [e (·.lon) (·.lonRate) x.lon x.lonRate (fun s h => (hs s h).2.1) (fun s h => (hs s h).2.2.2.2.1)]
  simp only [Option.elim_some]
  rw [e (·.height) (·.heightRate) x.height x.heightRate (fun s h => (hs s h).2.2.1) (fun s h => (hs s h).2.2.2.2.2)]
  simp only [Option.elim_some]

/-! ### The propagation -/

/-- The rate of the whole vector. -/
def rate (a : Asset ℚ Fr) : Fin 42 → ℚ := fun k => if h : k.val < 6 then dx a ⟨k.val, h⟩ else 0

theorem step_value (m : Rk.Method) (fixed : Bool) (a : Asset ℚ Fr) (dt : Int) :
    step m.tab fixed a dt = .ok (a.set (a.epoch + dt) (a.toVector + ((dt : ℚ) / 1000000000 * ∑ i ∈ range m.tab.stages, m.tab.b i) • rate a)) := by
  obtain ⟨⟨next, err⟩, hr⟩ := Rk.rkStep_total m.tab (Rk.method_shaped m) (eom a) (fun _ _ => ⟨_, rfl⟩) fixed a.toVector
    ((dt : ℚ) / 1000000000)
  obtain ⟨K, h1, h2, -⟩ := Rk.rkStep_ok m.tab (by cases m <;> decide) (eom a) fixed a.toVector _ next err hr
  have hK : ∀ i ∈ range m.tab.stages, m.tab.b i • K i = m.tab.b i • rate a := fun i hi => by
    have := h1 i (mem_range.1 hi)
    rw [← Option.some.inj this]
    rfl
  rw [step, hr, Rk.Res.bind, h2, sum_congr rfl hK, ← sum_smul, smul_smul]

/-- The motion of an asset during `s` seconds, at constant rates. -/
def moved (a : Asset ℚ Fr) (s : ℚ) (t : Int) : Asset ℚ Fr :=
  ⟨a.lat + s * a.latRate, a.lon + s * a.lonRate, a.height + s * a.heightRate, a.latRate, a.lonRate, a.heightRate, t, a.frame, a.stm⟩

theorem step_moved (m : Rk.Method) (fixed : Bool) (a : Asset ℚ Fr) (dt : Int) :
    step m.tab fixed a dt = .ok (moved a ((∑ i ∈ range m.tab.stages, m.tab.b i) * ((dt : ℚ) / 1000000000)) (a.epoch + dt)) := by
  rw [step_value]
  have hs : ∀ c : ℚ, a.set (a.epoch + dt) (a.toVector + c • rate a) = moved a c (a.epoch + dt) := by
    intro c
    have h : a.stm.map (fun _ => readStm (a.toVector + c • rate a)) = a.stm := by
      cases hs : a.stm with
      | none => rfl
      | some M =>
        rw [Option.map_some, ← readStm_toVector a M hs]
        congr 1
        ext i j
        simp only [readStm, Matrix.of_apply, Pi.add_apply, Pi.smul_apply, rate]
        rw [dif_neg (by omega), smul_zero, add_zero]
    rw [Asset.set, h]
    simp only [moved, Asset.mk.injEq, and_true]
    refine ⟨rfl, rfl, rfl, ?_, ?_, ?_⟩ <;> exact (congrArg _ (mul_zero c)).trans (add_zero _)
  rw [hs, mul_comm]

theorem propagate_moved (m : Rk.Method) (fixed : Bool) : ∀ (l : List Int) (a : Asset ℚ Fr),
    propagate m.tab fixed a l = .ok (moved a ((∑ i ∈ range m.tab.stages, m.tab.b i) * ((l.sum : ℚ) / 1000000000)) (a.epoch + l.sum))
  | [], a => by simp [propagate, moved]
  | dt :: l, a => by
    rw [propagate, step_moved, Rk.Res.bind, propagate_moved m fixed l]
    simp only [moved, List.sum_cons, Int.cast_add, Rk.Res.ok.injEq, Asset.mk.injEq, true_and, and_true]
    refine ⟨?_, ?_, ?_, ?_⟩ <;> ring

/-- C178. A propagation of an asset, with any steps and any of the methods, keeps its rates and frame and
moves its latitude, longitude and height by the duration times their rates, up to the rounding of the
weights of two of the methods (at most `tol m`, 1e-16; none for the others); it neither fails nor panics. -/
theorem propagate_line (m : Rk.Method) : ∃ δ : ℚ, |δ| ≤ Rk.tol m ∧ ∀ (fixed : Bool) (l : List Int) (a : Asset ℚ Fr),
    ∃ b, propagate m.tab fixed a l = .ok b ∧ b.epoch = a.epoch + l.sum ∧
      b.lat = a.lat + (1 + δ) * (((b.epoch - a.epoch : Int) : ℚ) / 1000000000) * a.latRate ∧
      b.lon = a.lon + (1 + δ) * (((b.epoch - a.epoch : Int) : ℚ) / 1000000000) * a.lonRate ∧
      b.height = a.height + (1 + δ) * (((b.epoch - a.epoch : Int) : ℚ) / 1000000000) * a.heightRate ∧
      b.latRate = a.latRate ∧ b.lonRate = a.lonRate ∧ b.heightRate = a.heightRate ∧ b.frame = a.frame := by
  refine ⟨(∑ i ∈ range m.tab.stages, m.tab.b i) - 1, ?_, fun fixed l a => ⟨_, propagate_moved m fixed l a, rfl, ?_⟩⟩
  · exact (Rk.weights_sum m).1
  · have e : ((a.epoch + l.sum - a.epoch : Int) : ℚ) = (l.sum : ℚ) := by push_cast; ring
    simp only [moved, e, add_sub_cancel, and_self]

/-- C179. The gradient of the equations of motion is right: it maps a deviation of the state to the change of
its derivative. -/
theorem gradient_exact [Ring F] (a : Asset F Fr) (d : Fin 6 → F) :
    (dualEom (a.add d)).1 = (dualEom a).1 + (dualEom a).2.mulVec d := by
  funext i
  simp only [dualEom, Pi.add_apply, Matrix.mulVec, dotProduct, Fin.sum_univ_six, Matrix.of_apply]
  fin_cases i <;> simp [dx, Asset.add]

/-- C179. The derivative of the motion: a deviation of the state before a propagation becomes that deviation plus
the duration times the gradient applied to it. -/
theorem motion_derivative (m : Rk.Method) (fixed : Bool) (l : List Int) (a : Asset ℚ Fr) (d : Fin 6 → ℚ) :
    ∃ b b', propagate m.tab fixed a l = .ok b ∧ propagate m.tab fixed (a.add d) l = .ok b' ∧
      b'.vars - b.vars = d + ((∑ i ∈ range m.tab.stages, m.tab.b i) * ((l.sum : ℚ) / 1000000000)) • (dualEom a).2.mulVec d := by
  refine ⟨_, _, propagate_moved m fixed l a, propagate_moved m fixed l _, ?_⟩
  funext i
  simp only [dualEom, Pi.add_apply, Pi.sub_apply, Pi.smul_apply, Matrix.mulVec, dotProduct, Fin.sum_univ_six, Matrix.of_apply]
  fin_cases i <;> simp [moved, Asset.add, Asset.vars] <;> ring

/-- The state transition matrix never changes. -/
theorem stm_constant (m : Rk.Method) (fixed : Bool) (l : List Int) (a b : Asset ℚ Fr)
    (h : propagate m.tab fixed a l = .ok b) : b.stm = a.stm := by
  rw [propagate_moved] at h
  cases h
  rfl

/-- C179, for deviations of the coordinates only. The state transition matrix after a propagation maps a
deviation before it to the deviation after it. Missing: deviations of the rates, for which this is false
(`stm_not_derivative`). -/
theorem stm_partial (m : Rk.Method) (fixed : Bool) (l : List Int) (a : Asset ℚ Fr) (d : Fin 6 → ℚ)
    (hd : d 3 = 0 ∧ d 4 = 0 ∧ d 5 = 0) : ∃ b b' M, propagate m.tab fixed a.withStm l = .ok b ∧
      propagate m.tab fixed (a.add d) l = .ok b' ∧ b.stm = some M ∧ b'.vars - b.vars = M.mulVec d := by
  refine ⟨_, _, 1, propagate_moved m fixed l _, propagate_moved m fixed l _, rfl, ?_⟩
  rw [Matrix.one_mulVec]
  funext i
  fin_cases i <;> simp [moved, Asset.add, Asset.withStm, Asset.vars, hd.1, hd.2.1, hd.2.2]

theorem weights_ne (m : Rk.Method) : ∑ i ∈ range m.tab.stages, m.tab.b i ≠ 0 := by
  intro h
  have := (Rk.weights_sum m).1
  rw [h] at this
  revert this
  cases m <;> simp [Rk.tol] <;> norm_num

/-- C179 is false. With any of the methods and after any propagation to another epoch, the state transition
matrix of an asset is still the identity: it does not give the effect of a change of the rate of latitude. -/
theorem stm_not_derivative (m : Rk.Method) (fixed : Bool) (l : List Int) (hl : l.sum ≠ 0) (a : Asset ℚ Fr) :
    ∃ b b' M, propagate m.tab fixed a.withStm l = .ok b ∧ propagate m.tab fixed (a.add (Pi.single 3 1)) l = .ok b' ∧
      b.stm = some M ∧ b'.vars - b.vars ≠ M.mulVec (Pi.single 3 1) := by
  refine ⟨_, _, 1, propagate_moved m fixed l _, propagate_moved m fixed l _, rfl, ?_⟩
  rw [Matrix.one_mulVec]
  intro h
  have h0 := congrFun h 0
  have hw := weights_ne m
  have hq : (l.sum : ℚ) ≠ 0 := by exact_mod_cast hl
  generalize (l.sum : ℚ) = q at *
  simp [moved, Asset.add, Asset.withStm, Asset.vars] at h0
  have h1 : (∑ i ∈ range m.tab.stages, m.tab.b i) * (q / 1000000000) = 0 := by linear_combination h0
  rcases mul_eq_zero.1 h1 with h2 | h2
  · exact hw h2
  · exact hq (by linear_combination 1000000000 * h2)

/-! ### The hypotheses are met -/

/-- An asset that moves. -/
def mover : Asset ℚ Unit := ⟨10, 20, 1 / 2, 1 / 100, -1 / 50, 1 / 1000, 5, (), some 1⟩

example := toVector_set mover 7 (fun k => k.val) rfl
example := stm_partial Rk.Method.dormandPrince45 false [60000000000, 30000000000] mover (Pi.single 0 1) (by simp)
example := stm_not_derivative Rk.Method.rungeKutta89 true [60000000000] (by decide) mover
example := interpolate_line (fun t => (t : ℚ)) (fun ts ps qs t => some ((ps.headD 0 - ts.headD 0 * qs.headD 0) + t * qs.headD 0, qs.headD 0))
  (by intro ts p q t h; cases ts with
    | nil => exact absurd rfl h
    | cons s ts => simp) mover ⟨10, 20, 30, 1, 2, 3, 0, (), none⟩ 5
  [⟨12, 24, 36, 1, 2, 3, 2, (), none⟩, ⟨17, 34, 51, 1, 2, 3, 7, (), none⟩] (by simp) (by simp) (by
    intro s hs
    simp only [List.mem_cons, List.not_mem_nil, or_false] at hs
    rcases hs with rfl | rfl <;> norm_num)

end Verif.Ground
