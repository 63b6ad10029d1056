import Mathlib.Analysis.Normed.Group.Basic
import Mathlib.Data.Real.Basic
import Mathlib.Analysis.Normed.Group.Real
import Mathlib.Tactic.Linarith
import Mathlib.Tactic.NormNum
/-!
C226: equality of orbit determination solutions,
`impl PartialEq for ODSolution` (nyx-core/src/od/process/solution/mod.rs:196-259).
-/
namespace Verif.Solution

/-- What `==` can read of an estimate: the vector of the estimated state and the covariance; and the epoch.
od/estimate/mod.rs:46-80. -/
structure EqEst (V C : Type) where
  epoch : Int
  state : V
  covar : C

/-- A residual: its epoch, its ratio and its prefit. od/estimate/residual.rs:28-58. -/
structure EqRsd (Y : Type) where
  epoch : Int
  ratio : ℝ
  prefit : Y

/-- `ODSolution`: states, covariances, gains, ratios of the smoother are elements of normed spaces; the norms of
nalgebra are the Euclidean norm and the Frobenius norm. Numbers that are not numbers are left out.
od/process/solution/mod.rs:62-89. -/
structure EqSol (V C G Q Y D K : Type) where
  estimates : List (EqEst V C)
  residuals : List (Option (EqRsd Y))
  gains : List (Option G)
  ratios : List (Option Q)
  devices : D
  types : List K

variable {V C G Q Y D K : Type} [NormedAddCommGroup V] [NormedAddCommGroup C] [NormedAddCommGroup G]
  [NormedAddCommGroup Q]

/-- The comparison of two optional values: both missing, or both present and close.
od/process/solution/mod.rs:225-256. -/
def optClose {α : Type} (close : α → α → Prop) : Option α → Option α → Prop
  | some a, some b => close a b
  | some _, none => False
  | none, b => b = none

/-- `zip` then `all`. -/
def zipAll {α : Type} (p : α → α → Prop) (a b : List α) : Prop := ∀ x ∈ a.zip b, p x.1 x.2

/-- `==` of two solutions. od/process/solution/mod.rs:213-259. -/
def EqSol.eq (a b : EqSol V C G Q Y D K) : Prop :=
  a.estimates.length = b.estimates.length ∧
  a.residuals.length = b.residuals.length ∧
  a.gains.length = b.gains.length ∧
  a.ratios.length = b.ratios.length ∧
  a.devices = b.devices ∧
  (∀ k ∈ a.types, k ∈ b.types) ∧
  zipAll (fun x y : EqEst V C => ‖x.state - y.state‖ < 1e-6 ∧ ‖x.covar - y.covar‖ < 1e-8) a.estimates b.estimates ∧
  zipAll (optClose fun x y : EqRsd Y => |x.ratio - y.ratio| < 1e-4) a.residuals b.residuals ∧
  zipAll (optClose fun x y : G => ‖x - y‖ < 1e-8) a.gains b.gains ∧
  zipAll (optClose fun x y : Q => ‖x - y‖ < 1e-8) a.ratios b.ratios

/-! ### Specification: position by position -/

/-- Both lists have an element at the position or none has, and the elements are related. -/
def Positions {α : Type} (p : α → α → Prop) (a b : List α) : Prop :=
  ∀ i : Nat, match a[i]?, b[i]? with
    | some x, some y => p x y
    | none, none => True
    | _, _ => False

/-- Both values are present and related, or both are missing. -/
def Both {α : Type} (p : α → α → Prop) (a b : Option α) : Prop :=
  (a = none ∧ b = none) ∨ ∃ x y, a = some x ∧ b = some y ∧ p x y

/-- Two solutions that agree within `f` times the tolerances, up to the order of the types. -/
structure Agree (f : ℝ) (a b : EqSol V C G Q Y D K) : Prop where
  estimates : Positions (fun x y : EqEst V C => ‖x.state - y.state‖ < f * 1e-6 ∧ ‖x.covar - y.covar‖ < f * 1e-8)
    a.estimates b.estimates
  residuals : Positions (Both fun x y : EqRsd Y => |x.ratio - y.ratio| < f * 1e-4) a.residuals b.residuals
  gains : Positions (Both fun x y : G => ‖x - y‖ < f * 1e-8) a.gains b.gains
  ratios : Positions (Both fun x y : Q => ‖x - y‖ < f * 1e-8) a.ratios b.ratios
  devices : a.devices = b.devices

theorem optClose_iff {α : Type} (p : α → α → Prop) (a b : Option α) : optClose p a b ↔ Both p a b := by
  unfold optClose Both
  cases a <;> cases b <;> simp

theorem positions_iff {α : Type} (p : α → α → Prop) (a b : List α) :
    (a.length = b.length ∧ zipAll p a b) ↔ Positions p a b := by
  induction a generalizing b with
  | nil =>
    cases b with
    | nil => simp [zipAll, Positions]
    | cons y b =>
      simp only [List.length_nil, List.length_cons]
      constructor
      · rintro ⟨h, _⟩; omega
      · intro h; exact absurd (h 0) (by simp)
  | cons x a ih =>
    cases b with
    | nil =>
      simp only [List.length_nil, List.length_cons]
      constructor
      · rintro ⟨h, _⟩; omega
      · intro h; exact absurd (h 0) (by simp)
    | cons y b =>
      constructor
      · rintro ⟨h1, h2⟩ i
        cases i with
        | zero => simpa using h2 (x, y) (by simp)
        | succ i =>
          have := (ih b).1 ⟨by simpa using h1, fun z hz => h2 z (by simp [hz])⟩ i
          simpa using this
      · intro h
        have h' := (ih b).2 fun i => by simpa using h (i + 1)
        refine ⟨by simp [h'.1], fun z hz => ?_⟩
        rw [List.zip_cons_cons, List.mem_cons] at hz
        rcases hz with rfl | hz
        · simpa using h 0
        · exact h'.2 z hz

theorem Positions.mono {α : Type} {p q : α → α → Prop} (h : ∀ x y, p x y → q x y) {a b : List α}
    (hp : Positions p a b) : Positions q a b := by
  intro i
  have := hp i
  revert this
  cases a[i]? <;> cases b[i]? <;> simp
  exact h _ _

theorem Positions.symm {α : Type} {p : α → α → Prop} (h : ∀ x y, p x y → p y x) {a b : List α}
    (hp : Positions p a b) : Positions p b a := by
  intro i
  have := hp i
  revert this
  cases a[i]? <;> cases b[i]? <;> simp
  exact h _ _

theorem Positions.refl {α : Type} {p : α → α → Prop} (h : ∀ x, p x x) (a : List α) : Positions p a a := by
  intro i
  cases a[i]? <;> simp [h]

theorem Positions.trans {α : Type} {p q r : α → α → Prop} (h : ∀ x y z, p x y → q y z → r x z) {a b c : List α}
    (hp : Positions p a b) (hq : Positions q b c) : Positions r a c := by
  intro i
  have h1 := hp i
  have h2 := hq i
  revert h1 h2
  cases a[i]? <;> cases b[i]? <;> cases c[i]? <;> simp
  exact h _ _ _

theorem Both.symm {α : Type} {p : α → α → Prop} (h : ∀ x y, p x y → p y x) {a b : Option α}
    (hp : Both p a b) : Both p b a := by
  rcases hp with ⟨h1, h2⟩ | ⟨x, y, h1, h2, h3⟩
  · exact Or.inl ⟨h2, h1⟩
  · exact Or.inr ⟨y, x, h2, h1, h _ _ h3⟩

theorem Both.trans {α : Type} {p q r : α → α → Prop} (h : ∀ x y z, p x y → q y z → r x z) {a b c : Option α}
    (hp : Both p a b) (hq : Both q b c) : Both r a c := by
  rcases hp with ⟨h1, h2⟩ | ⟨x, y, h1, h2, h3⟩ <;> rcases hq with ⟨h4, h5⟩ | ⟨z, w, h4, h5, h6⟩
  · exact Or.inl ⟨h1, h5⟩
  · rw [h2] at h4; cases h4
  · rw [h2] at h4; cases h4
  · rw [h2] at h4
    cases h4
    exact Or.inr ⟨x, w, h1, h5, h _ _ _ h3 h6⟩

/-! ### C226 -/

/-- `==` is agreement within the tolerances, and the inclusion of the types of the first in those of the second. -/
theorem eq_iff (a b : EqSol V C G Q Y D K) : a.eq b ↔ Agree 1 a b ∧ ∀ k ∈ a.types, k ∈ b.types := by
  unfold EqSol.eq
  constructor
  · rintro ⟨h1, h2, h3, h4, h5, h6, h7, h8, h9, h10⟩
    refine ⟨⟨?_, ?_, ?_, ?_, h5⟩, h6⟩
    · exact ((positions_iff _ _ _).1 ⟨h1, h7⟩).mono fun x y h => by simpa using h
    · exact ((positions_iff _ _ _).1 ⟨h2, h8⟩).mono fun x y h => by simpa using (optClose_iff _ _ _).1 h
    · exact ((positions_iff _ _ _).1 ⟨h3, h9⟩).mono fun x y h => by simpa using (optClose_iff _ _ _).1 h
    · exact ((positions_iff _ _ _).1 ⟨h4, h10⟩).mono fun x y h => by simpa using (optClose_iff _ _ _).1 h
  · rintro ⟨⟨h1, h2, h3, h4, h5⟩, h6⟩
    have e1 := (positions_iff _ _ _).2 h1
    have e2 := (positions_iff _ _ _).2 h2
    have e3 := (positions_iff _ _ _).2 h3
    have e4 := (positions_iff _ _ _).2 h4
    refine ⟨e1.1, e2.1, e3.1, e4.1, h5, h6, ?_, ?_, ?_, ?_⟩
    · intro z hz; simpa using e1.2 z hz
    · intro z hz; exact (optClose_iff _ _ _).2 (by simpa using e2.2 z hz)
    · intro z hz; exact (optClose_iff _ _ _).2 (by simpa using e3.2 z hz)
    · intro z hz; exact (optClose_iff _ _ _).2 (by simpa using e4.2 z hz)

/-- **C226 (partial).** A solution equals itself; equality holds both ways when both have the same types; and two
solutions equal to a third agree, position by position, within twice the tolerances.
Missing: symmetry and transitivity in general, and equality of the epochs, refuted below. -/
theorem solution_equality_partial (a b c : EqSol V C G Q Y D K) :
    a.eq a ∧
    (a.eq b → (∀ k, k ∈ a.types ↔ k ∈ b.types) → b.eq a) ∧
    (a.eq b → b.eq c → Agree 2 a c ∧ ∀ k ∈ a.types, k ∈ c.types) := by
  refine ⟨(eq_iff a a).2 ⟨⟨?_, ?_, ?_, ?_, rfl⟩, fun k h => h⟩, ?_, ?_⟩
  · exact Positions.refl (fun x => by norm_num) _
  · refine Positions.refl (fun x => ?_) _
    cases x with
    | none => exact Or.inl ⟨rfl, rfl⟩
    | some x => exact Or.inr ⟨x, x, rfl, rfl, by norm_num⟩
  · refine Positions.refl (fun x => ?_) _
    cases x with
    | none => exact Or.inl ⟨rfl, rfl⟩
    | some x => exact Or.inr ⟨x, x, rfl, rfl, by norm_num⟩
  · refine Positions.refl (fun x => ?_) _
    cases x with
    | none => exact Or.inl ⟨rfl, rfl⟩
    | some x => exact Or.inr ⟨x, x, rfl, rfl, by norm_num⟩
  · intro h hk
    obtain ⟨⟨h1, h2, h3, h4, h5⟩, h6⟩ := (eq_iff a b).1 h
    refine (eq_iff b a).2 ⟨⟨?_, ?_, ?_, ?_, h5.symm⟩, fun k h => (hk k).2 h⟩
    · exact h1.symm fun x y h => by rwa [norm_sub_rev, norm_sub_rev y.covar]
    · exact h2.symm fun x y h => h.symm fun x y h => by rwa [abs_sub_comm]
    · exact h3.symm fun x y h => h.symm fun x y h => by rwa [norm_sub_rev]
    · exact h4.symm fun x y h => h.symm fun x y h => by rwa [norm_sub_rev]
  · intro h h'
    obtain ⟨⟨h1, h2, h3, h4, h5⟩, h6⟩ := (eq_iff a b).1 h
    obtain ⟨⟨k1, k2, k3, k4, k5⟩, k6⟩ := (eq_iff b c).1 h'
    refine ⟨⟨?_, ?_, ?_, ?_, h5.trans k5⟩, fun k h => k6 k (h6 k h)⟩
    · refine h1.trans (fun x y z h k => ?_) k1
      have a1 := norm_sub_le_norm_sub_add_norm_sub x.state y.state z.state
      have a2 := norm_sub_le_norm_sub_add_norm_sub x.covar y.covar z.covar
      constructor <;> linarith [h.1, h.2, k.1, k.2]
    · refine h2.trans (fun x y z h k => h.trans (fun x y z h k => ?_) k) k2
      have a1 := abs_sub_le x.ratio y.ratio z.ratio
      linarith
    · refine h3.trans (fun x y z h k => h.trans (fun x y z h k => ?_) k) k3
      have a1 := norm_sub_le_norm_sub_add_norm_sub x y z
      linarith
    · refine h4.trans (fun x y z h k => h.trans (fun x y z h k => ?_) k) k4
      have a1 := norm_sub_le_norm_sub_add_norm_sub x y z
      linarith

/-- A solution with one estimate, for the witnesses. -/
def oneEst (epoch : Int) (x : ℝ) (types : List Nat) : EqSol ℝ ℝ ℝ ℝ ℝ Unit Nat :=
  ⟨[⟨epoch, x, 0⟩], [none], [none], [none], (), types⟩

theorem oneEst_eq (e e' : Int) (x x' : ℝ) (t t' : List Nat) :
    (oneEst e x t).eq (oneEst e' x' t') ↔ |x - x'| < 1e-6 ∧ ∀ k ∈ t, k ∈ t' := by
  simp [oneEst, EqSol.eq, zipAll, optClose]
  have : (0 : ℝ) < 1e-8 := by norm_num
  tauto

/-- **C226 refuted.** Equality is neither symmetric nor transitive, and two equal solutions may be at different epochs. -/
theorem solution_equality_false :
    (∃ a b : EqSol ℝ ℝ ℝ ℝ ℝ Unit Nat, a.eq b ∧ ¬ b.eq a) ∧
    (∃ a b c : EqSol ℝ ℝ ℝ ℝ ℝ Unit Nat, a.eq b ∧ b.eq c ∧ ¬ a.eq c) ∧
    (∃ a b : EqSol ℝ ℝ ℝ ℝ ℝ Unit Nat, a.eq b ∧ b.eq a ∧ ∃ x ∈ a.estimates, ∀ y ∈ b.estimates, x.epoch ≠ y.epoch) := by
  refine ⟨⟨oneEst 0 0 [], oneEst 0 0 [1], ?_⟩, ⟨oneEst 0 0 [], oneEst 0 9e-7 [], oneEst 0 18e-7 [], ?_⟩,
    ⟨oneEst 0 0 [], oneEst 60 0 [], ?_⟩⟩
  · simp only [oneEst_eq]
    norm_num
  · simp only [oneEst_eq, abs_lt]
    norm_num
  · simp only [oneEst_eq]
    norm_num
    simp [oneEst]

example : (oneEst 0 1 [1, 2]).eq (oneEst 0 1 [2, 1]) ∧ (oneEst 0 1 [2, 1]).eq (oneEst 0 1 [1, 2]) := by
  have h : (oneEst 0 1 [1, 2]).eq (oneEst 0 1 [2, 1]) := by
    rw [oneEst_eq]
    norm_num
  exact ⟨h, (solution_equality_partial _ _ (oneEst 0 0 [])).2.1 h (by intro k; simp [oneEst]; tauto)⟩

end Verif.Solution
