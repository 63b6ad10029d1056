import Verif.Propagate.Control
/-!
The integrator options and how an instance is built from them: nyx-core/src/propagators/options.rs and
nyx-core/src/propagators/propagator.rs.
-/
namespace Verif.Propagate

variable {X E Fr : Type}

/-- `IntegratorOptions`, propagators/options.rs:43-61; the controller of the error is not kept here. -/
structure IntOpts (Fr : Type) where
  init : Int
  min : Int
  max : Int
  tol : Rat
  attempts : Nat
  fixed : Bool
  frame : Option Fr

/-- `IntegratorOptions::default`, propagators/options.rs:172-186. -/
def IntOpts.dflt : IntOpts Fr := ⟨60000000000, 1000000, 2700000000000, 1 / 10 ^ 12, 50, false, none⟩

/-- `with_adaptive_step`, propagators/options.rs:66-82. -/
def IntOpts.adaptive (min max : Int) (tol : Rat) : IntOpts Fr := ⟨max, min, max, tol, 50, false, none⟩

/-- `with_fixed_step`, propagators/options.rs:100-111. -/
def IntOpts.fixedStep (step : Int) : IntOpts Fr := ⟨step, step, step, 0, 0, true, none⟩

/-- `set_max_step`, propagators/options.rs:142-147; propagator.rs:69-71. -/
def IntOpts.setMax (o : IntOpts Fr) (m : Int) : IntOpts Fr :=
  { o with init := if o.init > m then m else o.init, max := m }

/-- `set_min_step`, propagators/options.rs:150-155; propagator.rs:73-75. -/
def IntOpts.setMin (o : IntOpts Fr) (m : Int) : IntOpts Fr :=
  { o with init := if o.init < m then m else o.init, min := m }

/-- `with_tolerance`, propagators/options.rs:119-123. -/
def IntOpts.withTol (t : Rat) : IntOpts Fr := { IntOpts.dflt with tol := t }

/-- `with_max_step`, propagators/options.rs:127-131. -/
def IntOpts.withMax (m : Int) : IntOpts Fr := IntOpts.dflt.setMax m

/-- `IntegratorOptions::py_new`, propagators/python.rs:9-26. -/
def IntOpts.python (min max : Option Int) (tol : Option Rat) : IntOpts Fr :=
  let o1 : IntOpts Fr := min.elim IntOpts.dflt fun m => IntOpts.dflt.setMin m
  let o2 := max.elim o1 fun m => o1.setMax m
  let o3 := tol.elim o2 fun t => { o2 with tol := t }
  { o3 with fixed := decide (o3.min = o3.max) }

/-- The options as `derive` reads them. -/
def IntOpts.opts (o : IntOpts Fr) (order : Nat) : Opts := ⟨o.min, o.max, o.tol, o.attempts, order⟩

/-- `Propagator::with`, propagators/propagator.rs:88-108. -/
def IntOpts.start (o : IntOpts Fr) (s : St X) : Inst X := ⟨s, o.init, o.fixed⟩

/-- The steps are consistent (specification): the first step lies between the least and the greatest. -/
def Steps (o : IntOpts Fr) : Prop := o.min ≤ o.init ∧ o.init ≤ o.max

/-- **The constructors.** The default options, those of a fixed step and those of a tolerance are consistent; those of
an adaptive step are exactly if the least step is not above the greatest; those of a greatest step are exactly if it is
not below one millisecond. -/
theorem constructors_consistent :
    Steps (IntOpts.dflt : IntOpts Fr) ∧ (∀ s, Steps (IntOpts.fixedStep s : IntOpts Fr)) ∧
    (∀ t, Steps (IntOpts.withTol t : IntOpts Fr)) ∧ (∀ a b t, Steps (IntOpts.adaptive a b t : IntOpts Fr) ↔ a ≤ b) ∧
    (∀ m, Steps (IntOpts.withMax m : IntOpts Fr) ↔ 1000000 ≤ m) := by
  refine ⟨by simp [Steps, IntOpts.dflt], fun s => by simp [Steps, IntOpts.fixedStep],
    fun t => by simp [Steps, IntOpts.withTol, IntOpts.dflt], fun a b t => by simp [Steps, IntOpts.adaptive], fun m => ?_⟩
  simp only [Steps, IntOpts.withMax, IntOpts.setMax, IntOpts.dflt]
  split_ifs <;> omega

/-- **What the constructors ask for.** An instance made from the options adapts its step unless they are those of a fixed step; the tolerance
is the one given, or 1e-12; the bounds are the ones given, or those of the documentation: a millisecond and 45 minutes. -/
theorem constructors_modes (X : Type) (s : St X) (order : Nat) :
    ((IntOpts.dflt : IntOpts Fr).start s).fixed = false ∧
    (IntOpts.dflt : IntOpts Fr).opts order = ⟨10 ^ 6, 45 * 60 * 10 ^ 9, 1 / 10 ^ 12, 50, order⟩ ∧
    (∀ t, ((IntOpts.withTol t : IntOpts Fr).start s).fixed = false ∧
      (IntOpts.withTol t : IntOpts Fr).opts order = ⟨10 ^ 6, 45 * 60 * 10 ^ 9, t, 50, order⟩) ∧
    (∀ m, ((IntOpts.withMax m : IntOpts Fr).start s).fixed = false ∧
      (IntOpts.withMax m : IntOpts Fr).opts order = ⟨10 ^ 6, m, 1 / 10 ^ 12, 50, order⟩) ∧
    (∀ a b t, ((IntOpts.adaptive a b t : IntOpts Fr).start s).fixed = false ∧ ((IntOpts.adaptive a b t : IntOpts Fr).start s).step = b ∧
      (IntOpts.adaptive a b t : IntOpts Fr).opts order = ⟨a, b, t, 50, order⟩) ∧
    (∀ d, ((IntOpts.fixedStep d : IntOpts Fr).start s).fixed = true ∧ ((IntOpts.fixedStep d : IntOpts Fr).start s).step = d) :=
  ⟨rfl, rfl, fun _ => ⟨rfl, rfl⟩, fun _ => ⟨rfl, rfl⟩, fun _ _ _ => ⟨rfl, rfl, rfl⟩, fun _ => ⟨rfl, rfl⟩⟩

/-- **The setters.** They keep the options consistent exactly if the new bound does not cross the other one.
Missing from C200: the bounds that cross (`crossed_exceeds`) and the initial step (`withMax_init_false`). -/
theorem setters_consistent_partial {o : IntOpts Fr} (h : Steps o) (m : Int) :
    (Steps (o.setMax m) ↔ o.min ≤ m) ∧ (Steps (o.setMin m) ↔ m ≤ o.max) := by
  simp only [Steps, IntOpts.setMax, IntOpts.setMin] at *
  constructor <;> split_ifs <;> omega

/-- One call of a setter. -/
inductive Setter where
  | max (m : Int) | min (m : Int)

def Setter.apply (o : IntOpts Fr) : Setter → IntOpts Fr
  | .max m => o.setMax m
  | .min m => o.setMin m

/-- Any sequence of setters of which the least steps are below the greatest ones keeps the options consistent. -/
theorem setters_sequence {o : IntOpts Fr} (h : Steps o) (c : Int) (hmin : o.min ≤ c) (hmax : c ≤ o.max) (l : List Setter)
    (hl : ∀ s ∈ l, match s with | .max m => c ≤ m | .min m => m ≤ c) :
    Steps (l.foldl Setter.apply o) ∧ (l.foldl Setter.apply o).min ≤ c ∧ c ≤ (l.foldl Setter.apply o).max := by
  induction l generalizing o with
  | nil => exact ⟨h, hmin, hmax⟩
  | cons s l ih =>
    have hs := hl s List.mem_cons_self
    have hl' : ∀ s ∈ l, match s with | .max m => c ≤ m | .min m => m ≤ c := fun s hs => hl s (List.mem_cons_of_mem _ hs)
    cases s with
    | max m => exact ih (((setters_consistent_partial h m).1).2 (hmin.trans hs)) hmin hs hl'
    | min m => exact ih (((setters_consistent_partial h m).2).2 (le_trans hs hmax)) hs hmax hl'

example := setters_sequence (Fr := Unit) constructors_consistent.1 2000000 (by decide) (by decide)
  [.max 30000000000, .min 2000000, .max 3600000000000] (by simp)

/-- **The constructor in Python.** The options have the steps and the tolerance given, or those of the default; they are
consistent exactly if the least step is not above the greatest; the step is fixed exactly if both are equal, and then it
is the first step. -/
theorem python_options (a b : Option Int) (t : Option Rat) :
    (IntOpts.python a b t : IntOpts Fr).min = a.getD 1000000 ∧ (IntOpts.python a b t : IntOpts Fr).max = b.getD 2700000000000 ∧
    (IntOpts.python a b t : IntOpts Fr).tol = t.getD (1 / 10 ^ 12) ∧
    (Steps (IntOpts.python a b t : IntOpts Fr) ↔ a.getD 1000000 ≤ b.getD 2700000000000) ∧
    ((IntOpts.python a b t : IntOpts Fr).fixed = true ↔ a.getD 1000000 = b.getD 2700000000000) ∧
    ((IntOpts.python a b t : IntOpts Fr).fixed = true → (IntOpts.python a b t : IntOpts Fr).init = a.getD 1000000) := by
  have hmin : (IntOpts.python a b t : IntOpts Fr).min = a.getD 1000000 := by cases a <;> cases b <;> cases t <;> rfl
  have hmax : (IntOpts.python a b t : IntOpts Fr).max = b.getD 2700000000000 := by cases a <;> cases b <;> cases t <;> rfl
  have hfix : (IntOpts.python a b t : IntOpts Fr).fixed =
      decide ((IntOpts.python a b t : IntOpts Fr).min = (IntOpts.python a b t : IntOpts Fr).max) := rfl
  have hinit : (IntOpts.python a b t : IntOpts Fr).init = b.elim (a.elim 60000000000 fun m => if 60000000000 < m then m else 60000000000)
      fun M => if (a.elim 60000000000 fun m => if 60000000000 < m then m else 60000000000) > M then M
        else a.elim 60000000000 fun m => if 60000000000 < m then m else 60000000000 := by
    cases a <;> cases b <;> cases t <;> rfl
  rw [hmin, hmax] at hfix
  refine ⟨hmin, hmax, by cases a <;> cases b <;> cases t <;> rfl, ?_, by rw [hfix, decide_eq_true_iff], ?_⟩
  · unfold Steps
    rw [hmin, hmax, hinit]
    cases a <;> cases b <;> simp only [Option.elim_some, Option.elim_none, Option.getD_some, Option.getD_none] <;>
      (try split_ifs) <;> omega
  · rw [hfix, decide_eq_true_iff, hinit]
    cases a <;> cases b <;> simp only [Option.elim_some, Option.elim_none, Option.getD_some, Option.getD_none] <;>
      (try split_ifs) <;> omega

/-- A least step of one hour, given alone in Python, crosses the default greatest step. -/
theorem python_crossed : ¬ Steps (IntOpts.python (some 3600000000000) none none : IntOpts Fr) := by
  rw [(python_options _ _ _).2.2.2.1]
  decide

example : (IntOpts.python (some 10000000000) (some 10000000000) none : IntOpts Unit).fixed = true :=
  (python_options _ _ _).2.2.2.2.1.2 rfl

/-- **The first step of `with_max_step`** is the greatest step only up to one minute, although it is documented to be
set to that value. -/
theorem withMax_init (m : Int) : (IntOpts.withMax m : IntOpts Fr).init = min m 60000000000 := by
  simp only [IntOpts.withMax, IntOpts.setMax, IntOpts.dflt]
  split_ifs <;> omega

theorem withMax_init_false : ∃ m, 0 < m ∧ (IntOpts.withMax m : IntOpts Fr).init ≠ m :=
  ⟨3600000000000, by decide, by rw [withMax_init]; decide⟩

/-- **No control of the error.** With options whose greatest step is below the least one, the first step of an instance
is accepted whatever its error. -/
theorem crossed_no_control {o : IntOpts Fr} (h : o.init ≤ o.min) (order : Nat) (s : St X) (err : Rat) (n : Nat) :
    accepts (o.opts order) err (toSec (o.start s).step) n := by
  refine .inr (.inl ?_)
  simp only [toSec, IntOpts.start, IntOpts.opts]
  exact div_le_div_of_nonneg_right (by exact_mod_cast h) (by norm_num)

/-- With a greatest step of half a millisecond the error is not controlled, although the tolerance is that of the
default. -/
theorem withMax_no_control (order : Nat) (s : St X) (err : Rat) :
    accepts ((IntOpts.withMax 500000 : IntOpts Fr).opts order) err (toSec ((IntOpts.withMax 500000 : IntOpts Fr).start s).step) 1 :=
  crossed_no_control (by rw [withMax_init]; simp [IntOpts.withMax, IntOpts.setMax, IntOpts.dflt]) order s err 1

/-- And the steps that follow exceed the greatest one. -/
theorem crossed_exceeds {o : IntOpts Fr} (h0 : 0 < o.min) (hc : o.max < o.min) (order : Nat) (d : Int) :
    o.max < |clampMin (o.opts order) d| := by
  generalize hx : clampMin (o.opts order) d = x
  unfold clampMin at hx
  split at hx
  · split at hx
    · rw [← hx]; change o.max < |-o.min|; rw [abs_neg, abs_of_pos h0]; exact hc
    · rw [← hx]; change o.max < |o.min|; rw [abs_of_pos h0]; exact hc
  · rename_i h1
    rw [← hx]; exact lt_of_lt_of_le hc (not_lt.1 h1)

example := crossed_exceeds (o := (IntOpts.withMax 500000 : IntOpts Unit)) (by decide) (by decide) 8 100000
end Verif.Propagate
