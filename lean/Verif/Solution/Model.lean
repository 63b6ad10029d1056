import Verif.Kalman.Theorems
/-!
Model of the orbit determination solution: nyx-core/src/od/process/solution/{mod,filter_data}.rs.

The four columns are separate lists, as in the code. Estimates, gains and filter-smoother ratios are
abstract here; residuals have a tracker and measurement types.
-/
namespace Verif.Solution
open Verif.Kalman

/-- A residual: the tracker and measurement types, read by the filters of a solution, and its other data.
od/estimate/residual.rs:28-58. -/
structure Rsd (T K D : Type) where
  tracker : Option T
  types : List K
  data : D

/-- `ODSolution`, without the devices. od/process/solution/mod.rs:62-89. -/
structure Sol (E T K D G Q : Type) where
  estimates : List E
  residuals : List (Option (Rsd T K D))
  gains : List (Option G)
  ratios : List (Option Q)

variable {E T K D G Q : Type} [DecidableEq T] [DecidableEq K]

/-- `ODSolution::new`. od/process/solution/mod.rs:106-118. -/
def Sol.new : Sol E T K D G Q := ⟨[], [], [], []⟩

/-- `push_measurement_update`. od/process/solution/mod.rs:121-131. -/
def Sol.pushMsr (o : Sol E T K D G Q) (e : E) (r : Rsd T K D) (g : Option G) : Sol E T K D G Q :=
  ⟨o.estimates ++ [e], o.residuals ++ [some r], o.gains ++ [g], o.ratios ++ [none]⟩

/-- `push_time_update`. od/process/solution/mod.rs:134-139. -/
def Sol.pushTime (o : Sol E T K D G Q) (e : E) : Sol E T K D G Q :=
  ⟨o.estimates ++ [e], o.residuals ++ [none], o.gains ++ [none], o.ratios ++ [none]⟩

/-- `is_filter_run`. od/process/solution/mod.rs:147-149. -/
def Sol.isFilterRun (o : Sol E T K D G Q) : Bool := decide (0 < (o.gains.filterMap id).length)

/-- `is_smoother_run`. od/process/solution/mod.rs:152-154. -/
def Sol.isSmootherRun (o : Sol E T K D G Q) : Bool := decide (0 < (o.ratios.filterMap id).length)

/-- The loop shared by the filters: the columns are zipped, the entries for which `keep` holds are pushed
in four new vectors. od/process/solution/filter_data.rs:88-115. -/
def keepLoop (keep : Option (Rsd T K D) → Bool) : List (E × (Option (Rsd T K D) × (Option G × Option Q))) → Sol E T K D G Q
  | [] => ⟨[], [], [], []⟩
  | (e, r, g, q) :: l =>
    let o := keepLoop keep l
    if keep r then ⟨e :: o.estimates, r :: o.residuals, g :: o.gains, q :: o.ratios⟩ else o

/-- The zipped columns. -/
def Sol.zipped (o : Sol E T K D G Q) : List (E × (Option (Rsd T K D) × (Option G × Option Q))) :=
  o.estimates.zip (o.residuals.zip (o.gains.zip o.ratios))

/-- `drop_time_updates`. filter_data.rs:88-115. -/
def Sol.dropTimeUpdates (o : Sol E T K D G Q) : Sol E T K D G Q :=
  keepLoop (fun r => r.isSome) o.zipped

/-- `filter_by_msr_type`. filter_data.rs:118-148. -/
def Sol.filterByType (o : Sol E T K D G Q) (k : K) : Sol E T K D G Q :=
  keepLoop (fun r => match r with
    | none => false
    | some r => r.types.contains k) o.zipped

/-- `filter_by_tracker`. filter_data.rs:151-181. -/
def Sol.filterByTracker (o : Sol E T K D G Q) (t : T) : Sol E T K D G Q :=
  keepLoop (fun r => match r with
    | none => false
    | some r => decide (r.tracker = some t)) o.zipped

/-- `exclude_tracker`: a residual without tracker is dropped, a time update is kept.
filter_data.rs:184-213. -/
def Sol.excludeTracker (o : Sol E T K D G Q) (t : T) : Sol E T K D G Q :=
  keepLoop (fun r => match r with
    | none => true
    | some r => !(decide (r.tracker = none) || decide (r.tracker = some t)))
    o.zipped

/-- `IndexSet::insert`. -/
def insertNew {α : Type} [DecidableEq α] (l : List α) (x : α) : List α := if x ∈ l then l else l ++ [x]

/-- `unique`: `none` is the panic of `expect` on a residual without tracker (if it has a type).
filter_data.rs:74-85. -/
def uniqueLoop : List (Rsd T K D) → List (T × K) → Option (List (T × K))
  | [], acc => some acc
  | r :: l, acc =>
    match r.tracker with
    | some t => uniqueLoop l (r.types.foldl (fun a k => insertNew a (t, k)) acc)
    | none => if r.types = [] then uniqueLoop l acc else none

/-- `split`. filter_data.rs:216-227. -/
def Sol.split (o : Sol E T K D G Q) :
    Option (List (Sol E T K D G Q)) :=
  (uniqueLoop (o.residuals.filterMap id) []).map fun u =>
    u.map fun tk => (o.filterByTracker tk.1).filterByType tk.2

/-! ### merge -/

/-- The vectors while they are permuted in place: vectors of length `n` are functions on `Fin n`. -/
structure Vecs (n : Nat) (E T K D G Q : Type) where
  indices : Fin n → Fin n
  estimates : Fin n → E
  residuals : Fin n → Option (Rsd T K D)
  gains : Fin n → Option G
  ratios : Fin n → Option Q

/-- The five `swap`s. filter_data.rs:254-258. -/
def Vecs.swap {n : Nat} (v : Vecs n E T K D G Q) (i j : Fin n) : Vecs n E T K D G Q :=
  ⟨v.indices ∘ Equiv.swap i j, v.estimates ∘ Equiv.swap i j, v.residuals ∘ Equiv.swap i j,
    v.gains ∘ Equiv.swap i j, v.ratios ∘ Equiv.swap i j⟩

/-- The `while` loop for one position, with fuel. filter_data.rs:252-259. -/
def cycle {n : Nat} (i : Fin n) : Nat → Vecs n E T K D G Q → Option (Vecs n E T K D G Q)
  | 0, _ => none
  | fuel + 1, v => if v.indices i = i then some v else cycle i fuel (v.swap i (v.indices i))

/-- The `for` loop over the positions. filter_data.rs:250-260. -/
def cycles {n : Nat} (fuel : Nat) : List (Fin n) → Vecs n E T K D G Q → Option (Vecs n E T K D G Q)
  | [], v => some v
  | i :: l, v => (cycle i fuel v).bind fun v' => cycles fuel l v'

/-- The sorted indices: the stable `sort_by` of `0..n` by the epochs. filter_data.rs:239-247. -/
def sortedIndices {n : Nat} (epoch : Fin n → Int) : List (Fin n) :=
  (List.finRange n).mergeSort fun a b => decide (epoch a ≤ epoch b)

theorem sortedIndices_length {n : Nat} (epoch : Fin n → Int) : (sortedIndices epoch).length = n := by
  unfold sortedIndices
  rw [List.length_mergeSort, List.length_finRange]

/-- The vector of the sorted indices. -/
def indexVec {n : Nat} (epoch : Fin n → Int) : Fin n → Fin n :=
  fun i => (sortedIndices epoch)[i.val]'(by rw [sortedIndices_length]; exact i.isLt)

/-- `merge`. The columns of both solutions must have equal lengths (otherwise the swaps panic); `none` is
that panic, or the fuel running out. filter_data.rs:230-263. -/
def Sol.merge (epoch : E → Int) (fuel : Nat) (a b : Sol E T K D G Q) : Option (Sol E T K D G Q) :=
  let es := a.estimates ++ b.estimates
  let rs := a.residuals ++ b.residuals
  let gs := a.gains ++ b.gains
  let qs := a.ratios ++ b.ratios
  if h : rs.length = es.length ∧ gs.length = es.length ∧ qs.length = es.length then
    (cycles fuel (List.finRange es.length)
      ⟨indexVec fun i => epoch es[i], fun i => es[i], fun i => rs[i.val]'(by omega),
        fun i => gs[i.val]'(by omega), fun i => qs[i.val]'(by omega)⟩).map fun v =>
      ⟨List.ofFn v.estimates, List.ofFn v.residuals, List.ofFn v.gains, List.ofFn v.ratios⟩
  else none

/-- `at`: an entry found by the binary search of the estimates; `search` stands for
`slice::binary_search_by`. filter_data.rs:265-279. -/
def Sol.atEpoch (epoch : E → Int) (search : List Int → Int → Option Nat) (o : Sol E T K D G Q) (t : Int) :
    Option (E × Option (Rsd T K D) × Option G × Option Q) :=
  match search (o.estimates.map epoch) t with
  | none => none
  | some i =>
    match o.estimates[i]?, o.residuals[i]?, o.gains[i]?, o.ratios[i]? with
    | some e, some r, some g, some q => some (e, r, g, q)
    | _, _, _, _ => none

end Verif.Solution
