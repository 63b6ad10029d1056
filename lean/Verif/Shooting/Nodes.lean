import Verif.Shooting.Model
import Verif.Mc.Model

/-! # The nodes as text and as objectives, and the default tolerance of an objective -/

namespace Verif.Shooting
open Verif.MathU (V3)
open Verif.Target (Objective Param)
open Verif.Mc (Out)

variable {Fr S : Type}

/-! ## Default objectives -/

/-- The orbital elements that matter here. -/
inductive Elem where
  | x | y | z | vmag | period
  | another (k : Nat)
deriving DecidableEq

/-- `StateParameter`, as the default precision tells its cases apart. md/param.rs:37-71. -/
inductive Par where
  | element (e : Elem)
  | bDotR | bDotT | bLtof | dryMass | propMass
  | another
deriving DecidableEq

/-- The same for the targeter. -/
def Par.param : Par → Param Elem
  | .element e => .element e
  | .bDotR => .bDotR
  | .bDotT => .bDotT
  | .bLtof => .bLtof
  | .dryMass | .propMass | .another => .other

/-- `StateParameter::default_event_precision`. md/param.rs:74-89. -/
noncomputable def Par.precision : Par → Out ℝ
  | .element e => .ok (if e = .period then 1 / 10 else 1 / 1000)
  | .bDotR | .bDotT => .ok (1 / 1000)
  | .dryMass | .propMass => .ok (1 / 1000)
  | .bLtof | .another => .panic

/-- `Objective::new`. md/objective.rs:44-50 and 53-61. -/
noncomputable def newObjective (p : Par) (desired : ℝ) : Out (Objective Elem) :=
  p.precision.bind fun tol => .ok ⟨p.param, desired, tol, 1, 0⟩

/-- The targeter can seek the parameter: the elements and the components of the B-plane. raphson_finite_diff.rs:290-310. -/
def Par.targetable : Par → Prop
  | .element _ | .bDotR | .bDotT | .bLtof => True
  | _ => False

/-! ## Nodes -/

/-- `NodeSerde`. ctrlnodes.rs:46-54. -/
structure NodeText (Fr S : Type) where
  pos : V3
  vmag : Option ℝ
  epoch : S
  frame : Fr

/-- `NodeSerde::to_node`; `parse` is `Epoch::from_str`. ctrlnodes.rs:56-69. -/
noncomputable def NodeText.toNode (parse : S → Option Int) (n : NodeText Fr S) : Out (Node Fr) :=
  match parse n.epoch with
  | some e => .ok ⟨n.pos, n.vmag.getD 0, e, n.frame⟩
  | none => .panic

/-- `NodesSerde::to_node_vec`. ctrlnodes.rs:35-43. -/
noncomputable def toNodes (parse : S → Option Int) : List (NodeText Fr S) → Out (List (Node Fr))
  | [] => .ok []
  | n :: l => (n.toNode parse).bind fun a => (toNodes parse l).bind fun r => .ok (a :: r)

/-- `Into<NodeSerde> for Node`; `print` is `Display` of `Epoch`. ctrlnodes.rs:142-166. -/
def Node.text (print : Int → S) (n : Node Fr) : NodeText Fr S := ⟨n.pos, some n.vmag, print n.epoch, n.frame⟩

/-- `MultishootNode::update_component`, the same for three and four objectives. ctrlnodes.rs:92-101 and 118-127. -/
def Node.update (n : Node Fr) (component : Nat) (add : ℝ) : Out (Node Fr) :=
  match component with
  | 0 => .ok { n with pos := ![n.pos 0 + add, n.pos 1, n.pos 2] }
  | 1 => .ok { n with pos := ![n.pos 0, n.pos 1 + add, n.pos 2] }
  | 2 => .ok { n with pos := ![n.pos 0, n.pos 1, n.pos 2 + add] }
  | 3 => .ok { n with vmag := n.vmag + add }
  | _ => .panic

/-- All the results, or the first that is not. -/
def collect {A : Type} : List (Out A) → Out (List A)
  | [] => .ok []
  | a :: l => a.bind fun x => (collect l).bind fun xs => .ok (x :: xs)

/-- `Into<[Objective; 3]> for Node`. ctrlnodes.rs:103-112. -/
noncomputable def Node.objectives3 (n : Node Fr) : Out (List (Objective Elem)) :=
  collect [newObjective (.element .x) (n.pos 0), newObjective (.element .y) (n.pos 1), newObjective (.element .z) (n.pos 2)]

/-- `Into<[Objective; 4]> for Node`. ctrlnodes.rs:130-140. -/
noncomputable def Node.objectives4 (n : Node Fr) : Out (List (Objective Elem)) :=
  collect [newObjective (.element .x) (n.pos 0), newObjective (.element .y) (n.pos 1), newObjective (.element .z) (n.pos 2),
    newObjective (.element .vmag) n.vmag]

/-! ## Specification -/

/-- The element of an orbit at a position, with a velocity of magnitude `v`. -/
noncomputable def valueOf (p : V3) (v : ℝ) : Param Elem → Option ℝ
  | .element .x => some (p 0)
  | .element .y => some (p 1)
  | .element .z => some (p 2)
  | .element .vmag => some v
  | _ => none

/-- The orbit meets all the objectives. -/
def Meets (p : V3) (v : ℝ) (os : List (Objective Elem)) : Prop := ∀ o ∈ os, ∃ x, valueOf p v o.param = some x ∧ o.met x = true

/-! ## Theorems on the nodes -/

theorem newObjective_element (e : Elem) (he : e ≠ .period) (d : ℝ) :
    newObjective (.element e) d = .ok ⟨.element e, d, 1 / 1000, 1, 0⟩ := by
  simp [newObjective, Par.precision, he, Out.bind, Par.param]

theorem met_iff (p : Param Elem) (d x : ℝ) : (⟨p, d, 1 / 1000, 1, 0⟩ : Objective Elem).met x = true ↔ |x - d| ≤ 1 / 1000 := by
  simp [Objective.met, Objective.error, abs_sub_comm]

/-- C237: the three objectives of a node are met by exactly the orbits whose position is within a meter of it along each axis. -/
theorem node_objectives3 (n : Node Fr) : ∃ os, n.objectives3 = .ok os ∧ ∀ p v, Meets p v os ↔ ∀ i, |p i - n.pos i| ≤ 1 / 1000 := by
  refine ⟨[⟨.element .x, n.pos 0, 1 / 1000, 1, 0⟩, ⟨.element .y, n.pos 1, 1 / 1000, 1, 0⟩, ⟨.element .z, n.pos 2, 1 / 1000, 1, 0⟩], ?_, fun p v => ?_⟩
  · simp [Node.objectives3, newObjective_element, collect, Out.bind]
  · simp only [Meets, List.forall_mem_cons, List.not_mem_nil, false_imp_iff, implies_true, and_true, valueOf, Option.some.injEq, exists_eq_left', met_iff, Fin.forall_fin_succ,
      IsEmpty.forall_iff, Fin.succ_zero_eq_one, Fin.succ_one_eq_two]

/-- C237: and the four, by those whose speed is also within one meter per second of that of the node. -/
theorem node_objectives4 (n : Node Fr) :
    ∃ os, n.objectives4 = .ok os ∧ ∀ p v, Meets p v os ↔ (∀ i, |p i - n.pos i| ≤ 1 / 1000) ∧ |v - n.vmag| ≤ 1 / 1000 := by
  refine ⟨[⟨.element .x, n.pos 0, 1 / 1000, 1, 0⟩, ⟨.element .y, n.pos 1, 1 / 1000, 1, 0⟩, ⟨.element .z, n.pos 2, 1 / 1000, 1, 0⟩,
    ⟨.element .vmag, n.vmag, 1 / 1000, 1, 0⟩], ?_, fun p v => ?_⟩
  · simp [Node.objectives4, newObjective_element, collect, Out.bind]
  · simp only [Meets, List.forall_mem_cons, List.not_mem_nil, false_imp_iff, implies_true, and_true, valueOf, Option.some.injEq, exists_eq_left', met_iff, Fin.forall_fin_succ,
      IsEmpty.forall_iff, Fin.succ_zero_eq_one, Fin.succ_one_eq_two, and_assoc]

/-- C237: a component below three moves the position along that axis by the amount, the third the speed, and nothing else changes; the others panic. -/
theorem node_update (n : Node Fr) (k : Nat) (d : ℝ) :
    (∀ h : k < 3, n.update k d = .ok { n with pos := Function.update n.pos ⟨k, h⟩ (n.pos ⟨k, h⟩ + d) }) ∧
      (k = 3 → n.update k d = .ok { n with vmag := n.vmag + d }) ∧ (3 < k → n.update k d = .panic) := by
  refine ⟨fun h => ?_, ?_, fun h => ?_⟩
  · match k, h with
    | 0, _ => simp only [Node.update]; congr 2; funext i; fin_cases i <;> simp [Function.update]
    | 1, _ => simp only [Node.update]; congr 2; funext i; fin_cases i <;> simp [Function.update]
    | 2, _ => simp only [Node.update]; congr 2; funext i; fin_cases i <;> simp [Function.update]
  · rintro rfl; rfl
  · match k, h with
    | k + 4, _ => rfl

/-- C237: nodes which are written and read are the same, in the same order. -/
theorem nodes_round (print : Int → S) (parse : S → Option Int) (h : ∀ e, parse (print e) = some e) (l : List (Node Fr)) :
    toNodes parse (l.map (Node.text print)) = .ok l := by
  induction l with
  | nil => rfl
  | cons a l ih =>
    have ha : (a.text print).toNode parse = .ok a := by simp [NodeText.toNode, Node.text, h]
    simp [toNodes, ih, ha, Out.bind]

/-- C237, the part which holds: when every epoch can be read, the nodes have the positions, frames and epochs of the texts, in their order.
Missing: the velocity that a text leaves open. -/
theorem nodes_read_partial (parse : S → Option Int) (l : List (NodeText Fr S)) (h : ∀ n ∈ l, (parse n.epoch).isSome) :
    ∃ ns, toNodes parse l = .ok ns ∧ List.Forall₂ (fun n (a : Node Fr) => a.pos = n.pos ∧ a.frame = n.frame ∧ parse n.epoch = some a.epoch ∧
      ∀ v, n.vmag = some v → a.vmag = v) l ns := by
  induction l with
  | nil => exact ⟨[], rfl, .nil⟩
  | cons n l ih =>
    obtain ⟨ns, h1, h2⟩ := ih fun m hm => h m (List.mem_cons_of_mem _ hm)
    obtain ⟨e, he⟩ := Option.isSome_iff_exists.1 (h n (by simp))
    exact ⟨⟨n.pos, n.vmag.getD 0, e, n.frame⟩ :: ns, by simp [toNodes, NodeText.toNode, he, h1, Out.bind],
      .cons ⟨rfl, rfl, he, fun v hv => by simp [hv]⟩ h2⟩

/-- C237, refuted: a text whose epoch cannot be read panics, though the function returns a result, as soon as the nodes before it are read. -/
theorem bad_epoch_panics (parse : S → Option Int) (before after : List (NodeText Fr S)) (n : NodeText Fr S)
    (h : ∀ m ∈ before, (parse m.epoch).isSome) (hn : parse n.epoch = none) : toNodes parse (before ++ n :: after) = .panic := by
  induction before with
  | nil => simp [toNodes, NodeText.toNode, hn, Out.bind]
  | cons m l ih =>
    obtain ⟨e, he⟩ := Option.isSome_iff_exists.1 (h m (by simp))
    simp [toNodes, NodeText.toNode, he, ih fun k hk => h k (List.mem_cons_of_mem _ hk), Out.bind]

/-- C237, refuted: a text without a velocity gives a node whose four objectives ask for a speed of at most a meter per second. -/
theorem open_velocity_is_rest (parse : S → Option Int) (n : NodeText Fr S) (e : Int) (he : parse n.epoch = some e) (hv : n.vmag = none) :
    ∃ a os, n.toNode parse = .ok a ∧ a.objectives4 = .ok os ∧ ∀ p v, Meets p v os → |v| ≤ 1 / 1000 := by
  obtain ⟨os, h1, h2⟩ := node_objectives4 (⟨n.pos, 0, e, n.frame⟩ : Node Fr)
  refine ⟨_, os, by simp [NodeText.toNode, he, hv], h1, fun p v h => ?_⟩
  simpa using ((h2 p v).1 h).2

/-! ## Theorems on the default tolerance -/

/-- C238, the part which holds: the objectives on the elements, on the two distances of the B-plane and on the masses get a tolerance of a
thousandth of the unit, a tenth for the period. Missing: the documented tenth for the others. -/
theorem default_tolerance_partial (p : Par) (h : p ≠ .bLtof ∧ p ≠ .another) (d : ℝ) :
    ∃ o, newObjective p d = .ok o ∧ o.desired = d ∧ ∀ x, o.met x = true ↔ |x - d| ≤ if p = .element .period then 1 / 10 else 1 / 1000 := by
  have key : ∀ tol : ℝ, p.precision = .ok tol → (tol = if p = .element .period then 1 / 10 else 1 / 1000) →
      ∃ o, newObjective p d = .ok o ∧ o.desired = d ∧ ∀ x, o.met x = true ↔ |x - d| ≤ if p = .element .period then 1 / 10 else 1 / 1000 := by
    intro tol h1 h2
    refine ⟨⟨p.param, d, tol, 1, 0⟩, by simp [newObjective, h1, Out.bind], rfl, fun x => ?_⟩
    rw [← h2]
    simp [Objective.met, Objective.error, abs_sub_comm]
  cases p with
  | element e => exact key _ rfl (by simp)
  | bLtof => exact absurd rfl h.1
  | another => exact absurd rfl h.2
  | _ => exact key _ rfl (by simp)

/-- C238, refuted: no objective but that on the period gets the documented tolerance of a tenth of the unit. -/
theorem default_tolerance_false (p : Par) (hp : p ≠ .element .period) (d : ℝ) (o : Objective Elem) (h : newObjective p d = .ok o) :
    o.met (d + 1 / 100) = false ∧ o.met (d - 1 / 100) = false := by
  have ht : p ≠ .bLtof ∧ p ≠ .another := by
    constructor <;> rintro rfl <;> simp [newObjective, Par.precision, Out.bind] at h
  obtain ⟨o', h1, -, h2⟩ := default_tolerance_partial p ht d
  rw [h] at h1
  cases h1
  rw [if_neg hp] at h2
  constructor
  · rw [← Bool.not_eq_true, h2]
    rw [show d + 1 / 100 - d = 1 / 100 by ring, abs_of_pos (by norm_num)]
    norm_num
  · rw [← Bool.not_eq_true, h2]
    rw [show d - 1 / 100 - d = -(1 / 100) by ring, abs_neg, abs_of_pos (by norm_num)]
    norm_num

/-- C238, refuted: the objective on the time of flight, which the targeters support, cannot be built without a tolerance. -/
theorem ltof_objective_panics (d : ℝ) : Par.targetable .bLtof ∧ newObjective .bLtof d = .panic := ⟨trivial, rfl⟩

/-! ## The hypotheses are met -/

example := nodes_round (Fr := Unit) (S := Int) id some (fun _ => rfl) [⟨![7000, 0, 0], 7, 60, ()⟩, ⟨![0, 7000, 1], 0, 120, ()⟩]
example := nodes_read_partial (Fr := Unit) (S := Option Int) id [⟨![7000, 0, 0], some 7, some 60, ()⟩, ⟨![7100, 0, 0], none, some 120, ()⟩] (by simp)
example := bad_epoch_panics (Fr := Unit) (S := Option Int) id [⟨![7000, 0, 0], some 7, some 60, ()⟩] [] ⟨![7100, 0, 0], none, none, ()⟩ (by simp) rfl
example := open_velocity_is_rest (Fr := Unit) (S := Option Int) id ⟨![7100, 0, 0], none, some 3, ()⟩ 3 rfl rfl
example := default_tolerance_partial (.element (.another 3)) (by simp) 51.6
example := default_tolerance_false (.element .x) (by simp) 7000 _ (newObjective_element .x (by simp) 7000)

end Verif.Shooting
