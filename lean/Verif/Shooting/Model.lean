import Verif.Target.Model
/-!
Model of multiple shooting: nyx-core/src/md/opti/multipleshooting/{equidistant_heuristic,multishoot,
ctrlnodes}.rs, with three variables and three objectives per node, as the constructors build it. The log
messages are not modelled. `linear_altitude_heuristic` is in Altitude.lean.
-/
namespace Verif.Shooting
open Matrix
open Verif.Spacecraft (Craft)
open Verif.MathU (V3 nrm eps pseudoInverse)
open Verif.Target

variable {Fr E LF : Type}

/-- `Node`. ctrlnodes.rs:70-78. -/
structure Node (Fr : Type) where
  pos : V3
  vmag : ℝ
  epoch : Int
  frame : Fr

/-- The nodes of `equidistant_nodes`, one after the other from the previous position and epoch.
equidistant_heuristic.rs:52-72. -/
noncomputable def place (frame : Fr) (inc : V3) (dt : Int) : Nat → V3 → Int → List (Node Fr)
  | 0, _, _ => []
  | n + 1, p, e => ⟨fun i => p i + inc i, 0, e + dt, frame⟩ :: place frame inc dt n (fun i => p i + inc i) (e + dt)

/-- `equidistant_nodes`; `divide` is the division of a duration by a number, in hifitime.
equidistant_heuristic.rs:32-87. -/
noncomputable def equidistantNodes (divide : Int → ℝ → Int) (x0 : Craft ℝ Fr) (xf : Orb Fr) (n : Nat) :
    Res (List (Node Fr)) :=
  if n < 3 then .err .underdetermined
  else if nrm (xf.pos - x0.pos) < eps then .err .tooClose
  else .ok (place x0.frame
    (fun i => nrm (xf.pos - x0.pos) / n * ((xf.pos - x0.pos) i / nrm (xf.pos - x0.pos)))
    (divide (xf.epoch - x0.epoch) n) n x0.pos x0.epoch)

/-- `MultipleShooting` without its nodes: the functions of the targeter, the orbital elements X, Y and Z
with the tolerance of `Objective::new`, and the parameters. multishoot.rs:42-61. -/
structure Setup (Fr E LF : Type) where
  base : Cfg Fr E LF 3 3
  el : Fin 3 → E
  tol : ℝ
  x0 : Craft ℝ Fr
  maxIter : Nat
  threshold : ℝ
  vars : Fin 3 → Variable
  energy : Bool

/-- `Into<[Objective; 3]>`. ctrlnodes.rs:103-111. -/
def Setup.objectives (S : Setup Fr E LF) (p : V3) : Fin 3 → Objective E := fun i => ⟨.element (S.el i), p i, S.tol, 1, 0⟩

/-- The variables of `Targeter::delta_v`. targeter.rs:71-84. -/
noncomputable def dvVars : Fin 3 → Variable :=
  ![Variable.ofVary .velocityX, Variable.ofVary .velocityY, Variable.ofVary .velocityZ]

/-- The targeter to a position. multishoot.rs:85-92, 129, 155, 245; targeter.rs:71-84. -/
def Setup.targeter (S : Setup Fr E LF) (vars : Fin 3 → Variable) (p : V3) : Cfg Fr E LF 3 3 :=
  { S.base with objs := S.objectives p, vars := vars, objFrame := none, corrFrame := none, iterations := 100 }

/-- The targeter from one state to a position at an epoch. multishoot.rs:93-100. -/
noncomputable def Setup.shoot (S : Setup Fr E LF) (vars : Fin 3 → Variable) (x : Craft ℝ Fr) (p : V3) (t : Int) :
    Res (Sol Fr 3 3) := (S.targeter vars p).tryDual x x.epoch t

/-- The targeter from each node to the next. multishoot.rs:81-107 and 243-256. -/
noncomputable def Setup.chain (S : Setup Fr E LF) (vars : Fin 3 → Variable) :
    (n : Nat) → (Fin n → Node Fr) → Craft ℝ Fr → Res (Fin n → Sol Fr 3 3)
  | 0, _, _ => .ok Fin.elim0
  | n + 1, nodes, x => (S.shoot vars x (nodes 0).pos (nodes 0).epoch).bind fun s =>
    (S.chain vars n (fun i => nodes i.succ) s.achieved).bind fun r => .ok (Fin.cons s r)

/-- `initial_states[i]`: the start of the segment `i`. multishoot.rs:73, 106. -/
def start {n : Nat} (x0 : Craft ℝ Fr) (sols : Fin n → Sol Fr 3 3) (i : Fin n) : Craft ℝ Fr :=
  if h : i.val = 0 then x0 else (sols ⟨i.val - 1, by omega⟩).achieved

/-- The two targeters with the node `i` perturbed along an axis: to the perturbed node, and from there to
the next node. multishoot.rs:118-165. -/
noncomputable def Setup.perturbed {n : Nat} (S : Setup Fr E LF) (nodes : Fin n → Node Fr) (sols : Fin n → Sol Fr 3 3)
    (i : Fin (n - 1)) (axis : Fin 3) : Res (Sol Fr 3 3 × Sol Fr 3 3) :=
  (S.shoot dvVars (start S.x0 sols ⟨i, by omega⟩)
    (Function.update (nodes ⟨i, by omega⟩).pos axis ((nodes ⟨i, by omega⟩).pos axis + S.tol)) (nodes ⟨i, by omega⟩).epoch).bind
    fun a => (S.shoot dvVars a.achieved (nodes ⟨i + 1, by omega⟩).pos (nodes ⟨i + 1, by omega⟩).epoch).bind
    fun b => if n < 3 then .panic else .ok (a, b)

/-- An entry of `outer_jacobian`: the derivative of the component `c` of the maneuver `k` with respect to
the component `axis` of the node `i`. multishoot.rs:74-75, 139-150, 168-177, 183-194. -/
noncomputable def Setup.entry {n : Nat} (S : Setup Fr E LF) (sols : Fin n → Sol Fr 3 3)
    (i : Fin (n - 1)) (p : Sol Fr 3 3 × Sol Fr 3 3) (k : Fin n) (c : Fin 3) : ℝ :=
  if k.val = i.val then (p.1.correction c - (sols k).correction c) / S.tol
  else if k.val = i.val + 1 then (p.2.correction c - (sols k).correction c) / S.tol
  else if k.val = i.val + 2 ∧ i.val < n - 3 then (p.2.achieved.vel c - (start S.x0 sols k).vel c) / S.tol
  else 0

/-- `outer_jacobian`. multishoot.rs:74-196. -/
noncomputable def Setup.jacobian {n : Nat} (S : Setup Fr E LF) (nodes : Fin n → Node Fr) (sols : Fin n → Sol Fr 3 3) :
    Res (Matrix (Fin (3 * n)) (Fin (3 * (n - 1))) ℝ) :=
  (seqFin (n - 1) fun i => seqFin 3 fun a => S.perturbed nodes sols i a).bind fun q =>
  .ok (of fun r c => S.entry sols ⟨c / 3, by omega⟩ (q ⟨c / 3, by omega⟩ ⟨c % 3, by omega⟩) ⟨r / 3, by omega⟩ ⟨r % 3, by omega⟩)

/-- `cost_vec`. multishoot.rs:198-203. -/
def costVec {n : Nat} (sols : Fin n → Sol Fr 3 3) : Fin (3 * n) → ℝ :=
  fun r => (sols ⟨r / 3, by omega⟩).correction ⟨r % 3, by omega⟩

/-- `new_cost`. multishoot.rs:206-209. -/
noncomputable def Setup.cost {n : Nat} (S : Setup Fr E LF) (c : Fin n → ℝ) : ℝ :=
  if S.energy then c ⬝ᵥ c else Real.sqrt (c ⬝ᵥ c)

/-- Moving the nodes: every one but the last. multishoot.rs:266-272. -/
def move {n : Nat} (nodes : Fin n → Node Fr) (d : Fin (3 * (n - 1)) → ℝ) : Fin n → Node Fr := fun k =>
  if h : k.val < n - 1 then { nodes k with pos := fun j => (nodes k).pos j + -d ⟨3 * k + j, by omega⟩ } else nodes k

/-- The outer loop; a zero cost never passes the test since the quotient is infinite or not a number. The
result is the nodes and the solutions between them. multishoot.rs:71-278. -/
noncomputable def Setup.loop {n : Nat} (S : Setup Fr E LF) :
    Nat → ℝ → (Fin n → Node Fr) → Res ((Fin n → Node Fr) × (Fin n → Sol Fr 3 3))
  | 0, _, _ => .err .tooMany
  | fuel + 1, prev, nodes =>
    if n = 0 then .panic
    else (S.chain S.vars n nodes S.x0).bind fun sols =>
      (S.jacobian nodes sols).bind fun J =>
      if S.cost (costVec sols) ≠ 0 ∧ |(prev - S.cost (costVec sols)) / (|S.cost (costVec sols)|)| < S.threshold then
        (S.chain dvVars n nodes S.x0).bind fun r => .ok (nodes, r)
      else (orErr (pseudoInverse J) .singular).bind fun P =>
        Setup.loop S fuel (S.cost (costVec sols)) (move nodes (P *ᵥ costVec sols))

/-- `solve`. multishoot.rs:65-279. -/
noncomputable def Setup.solve {n : Nat} (S : Setup Fr E LF) (nodes : Fin n → Node Fr) :
    Res ((Fin n → Node Fr) × (Fin n → Sol Fr 3 3)) := S.loop S.maxIter (10 ^ 12) nodes

/-- `build_trajectories`, without the trajectories. multishoot.rs:352-368. -/
noncomputable def Setup.build {n : Nat} (S : Setup Fr E LF) (r : (Fin n → Node Fr) × (Fin n → Sol Fr 3 3)) :
    Res (Fin n → Craft ℝ Fr) := seqFin n fun i => (S.targeter dvVars (r.1 i).pos).apply (r.2 i)

end Verif.Shooting
