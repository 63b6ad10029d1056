import Verif.Shooting.Model
import Verif.Target.Dual
import Mathlib.Tactic.FinCases
import Mathlib.Tactic.FieldSimp
/-!
C62, C113 and C114: the nodes, the solution and the Jacobian of multiple shooting.
-/
namespace Verif.Shooting
open Matrix
open Verif.Spacecraft (Craft)
open Verif.MathU (V3 nrm eps pseudoInverse)
open Verif.Target

variable {Fr E LF : Type}

/-! ### C62 -/

theorem place_length (f : Fr) (inc : V3) (dt : Int) : ∀ n p e, (place f inc dt n p e).length = n
  | 0, _, _ => rfl
  | n + 1, p, e => by rw [place, List.length_cons, place_length f inc dt n]

theorem place_get (f : Fr) (inc : V3) (dt : Int) : ∀ (n : Nat) (p : V3) (e : Int) (k : Nat)
    (h : k < (place f inc dt n p e).length),
    (∀ i, (place f inc dt n p e)[k].pos i = p i + (k + 1) * inc i) ∧
    (place f inc dt n p e)[k].epoch = e + (k + 1) * dt ∧ (place f inc dt n p e)[k].frame = f
  | 0, _, _, _, h => by simp [place] at h
  | n + 1, p, e, 0, _ => by simp [place]
  | n + 1, p, e, k + 1, h => by
    simp only [place, List.getElem_cons_succ]
    simp only [place, List.length_cons, Nat.add_lt_add_iff_right] at h
    obtain ⟨h1, h2, h3⟩ := place_get f inc dt n (fun i => p i + inc i) (e + dt) k h
    refine ⟨fun i => ?_, ?_, h3⟩
    · rw [h1]; push_cast; ring
    · rw [h2]; push_cast; ring

/-- C62. At least three nodes are asked for; there are as many as asked; the node `k` (from one) is at the
fraction `k / n` of the segment from the start to the target, in the frame of the start, `k` increments of
time after the start. In particular the last one is at the position of the target. -/
theorem equidistant {divide : Int → ℝ → Int} {x0 : Craft ℝ Fr} {xf : Orb Fr} {n : Nat} {l : List (Node Fr)}
    (h : equidistantNodes divide x0 xf n = .ok l) :
    3 ≤ n ∧ l.length = n ∧ x0.pos ≠ xf.pos ∧
    (∀ k (hk : k < l.length), (∀ i, l[k].pos i = x0.pos i + ((k : ℝ) + 1) / n * (xf.pos i - x0.pos i)) ∧
      l[k].epoch = x0.epoch + (k + 1) * divide (xf.epoch - x0.epoch) n ∧ l[k].frame = x0.frame) ∧
    (∀ (hl : n - 1 < l.length), l[n - 1].pos = xf.pos) := by
  unfold equidistantNodes at h
  split at h
  · simp at h
  rename_i hn
  split at h
  · simp at h
  rename_i he
  cases h
  have hpos : 0 < nrm (xf.pos - x0.pos) := by
    have : (0 : ℝ) < eps := by unfold eps; positivity
    linarith
  have hn' : (n : ℝ) ≠ 0 := by
    have : n ≠ 0 := by omega
    exact_mod_cast this
  have key : ∀ k (hk : k < (place x0.frame
      (fun i => nrm (xf.pos - x0.pos) / n * ((xf.pos - x0.pos) i / nrm (xf.pos - x0.pos)))
      (divide (xf.epoch - x0.epoch) n) n x0.pos x0.epoch).length), _ := fun k hk =>
    place_get x0.frame _ (divide (xf.epoch - x0.epoch) n) n x0.pos x0.epoch k hk
  refine ⟨by omega, place_length _ _ _ _ _ _, ?_, fun k hk => ⟨fun i => ?_, (key k hk).2⟩, fun hl => ?_⟩
  · intro e
    rw [e, sub_self, nrm] at hpos
    simp at hpos
  · rw [(key k hk).1 i]
    simp only [Pi.sub_apply]
    field_simp
  · funext i
    rw [(key _ hl).1 i]
    have : ((n - 1 : Nat) : ℝ) + 1 = n := by
      have : n - 1 + 1 = n := by omega
      exact_mod_cast this
    rw [this]
    simp only [Pi.sub_apply]
    field_simp
    ring

/-- C62. The nodes are refused for fewer than three of them, or when the start and the target are within the
machine epsilon of each other, and only then. -/
theorem equidistant_refused {divide : Int → ℝ → Int} {x0 : Craft ℝ Fr} {xf : Orb Fr} {n : Nat} :
    (∀ l, equidistantNodes divide x0 xf n ≠ .ok l) ↔ n < 3 ∨ nrm (xf.pos - x0.pos) < eps := by
  unfold equidistantNodes
  split
  · simp [*]
  · split
    · simp [*]
    · simp only [ne_eq, Res.ok.injEq, forall_eq', false_iff, not_or]
      exact ⟨by assumption, by assumption⟩

/-- C62, the epochs. If the division of the duration is off by less than a nanosecond, the last node is
within `n` nanoseconds of the epoch of the target, and at it if the division is exact. -/
theorem equidistant_epoch {divide : Int → ℝ → Int} {x0 : Craft ℝ Fr} {xf : Orb Fr} {n : Nat} {l : List (Node Fr)}
    (h : equidistantNodes divide x0 xf n = .ok l)
    (hd : |(n : Int) * divide (xf.epoch - x0.epoch) n - (xf.epoch - x0.epoch)| < n) (hl : n - 1 < l.length) :
    |l[n - 1].epoch - xf.epoch| < n ∧
    ((n : Int) * divide (xf.epoch - x0.epoch) n = xf.epoch - x0.epoch → l[n - 1].epoch = xf.epoch) := by
  obtain ⟨h3, -, -, hk, -⟩ := equidistant h
  have he := (hk (n - 1) hl).2.1
  have : ((n - 1 : Nat) : Int) + 1 = n := by omega
  rw [this] at he
  rw [he]
  constructor
  · convert hd using 2
    ring
  · intro e
    rw [e]
    ring

/-! ### C113 -/

theorem start_succ {n : Nat} (x : Craft ℝ Fr) (s : Sol Fr 3 3) (r : Fin n → Sol Fr 3 3) (k : Fin n) :
    start x (Fin.cons s r) k.succ = start s.achieved r k := by
  rw [start, dif_neg (by simp)]
  by_cases hk : k.val = 0
  · rw [start, dif_pos hk]
    have : (⟨k.succ.val - 1, by simp⟩ : Fin (n + 1)) = 0 := Fin.ext (by simp [hk])
    rw [this, Fin.cons_zero]
  · rw [start, dif_neg hk]
    have : (⟨k.succ.val - 1, by simp⟩ : Fin (n + 1)) = Fin.succ ⟨k.val - 1, by omega⟩ :=
      Fin.ext (by simp; omega)
    rw [this, Fin.cons_succ]

/-- The chain of targeters: each starts where the previous one arrived. -/
theorem chain_iff (S : Setup Fr E LF) (vars : Fin 3 → Variable) : ∀ (n : Nat) (nodes : Fin n → Node Fr) (x : Craft ℝ Fr)
    (sols : Fin n → Sol Fr 3 3), S.chain vars n nodes x = .ok sols ↔
      ∀ k, S.shoot vars (start x sols k) (nodes k).pos (nodes k).epoch = .ok (sols k)
  | 0, _, _, sols => by
    refine ⟨fun _ k => k.elim0, fun _ => ?_⟩
    simp only [Setup.chain]
    congr 1
    funext k
    exact k.elim0
  | n + 1, nodes, x, sols => by
    simp only [Setup.chain, bind_ok]
    constructor
    · rintro ⟨s, hs, r, hr, h⟩
      cases h
      intro k
      refine Fin.cases ?_ (fun j => ?_) k
      · rw [start, dif_pos (by rfl), Fin.cons_zero]; exact hs
      · rw [start_succ, Fin.cons_succ]
        exact (chain_iff S vars n _ _ _).1 hr j
    · intro h
      have hc : Fin.cons (sols 0) (fun i => sols i.succ) = sols := by
        funext k
        refine Fin.cases ?_ (fun j => ?_) k <;> simp
      refine ⟨sols 0, h 0, fun i => sols i.succ, (chain_iff S vars n _ _ _).2 fun j => ?_, congrArg Res.ok hc⟩
      have := h j.succ
      rw [← hc, start_succ, Fin.cons_succ] at this
      exact this

theorem loop_spec (S : Setup Fr E LF) {n : Nat} : ∀ (fuel : Nat) (prev : ℝ) (nodes : Fin n → Node Fr)
    (r : (Fin n → Node Fr) × (Fin n → Sol Fr 3 3)), S.loop fuel prev nodes = .ok r →
      S.chain dvVars n r.1 S.x0 = .ok r.2 ∧
      (∀ k, (r.1 k).epoch = (nodes k).epoch ∧ (r.1 k).frame = (nodes k).frame) ∧
      ∀ k : Fin n, k.val = n - 1 → (r.1 k).pos = (nodes k).pos
  | 0, _, _, _, h => by simp [Setup.loop] at h
  | fuel + 1, prev, nodes, r, h => by
    rw [Setup.loop] at h
    split at h
    · simp at h
    obtain ⟨sols, -, h⟩ := bind_ok.1 h
    obtain ⟨J, -, h⟩ := bind_ok.1 h
    split at h
    · obtain ⟨q, hq, h⟩ := bind_ok.1 h
      cases h
      exact ⟨hq, fun _ => ⟨rfl, rfl⟩, fun _ _ => rfl⟩
    · obtain ⟨P, -, h⟩ := bind_ok.1 h
      obtain ⟨h1, h2, h3⟩ := loop_spec S fuel _ _ r h
      refine ⟨h1, fun k => ?_, fun k hk => ?_⟩
      · have := h2 k
        rw [move] at this
        split at this <;> exact this
      · have := h3 k hk
        rw [move, dif_neg (by omega)] at this
        exact this

/-- Specification: a maneuver changes the velocity only. -/
def impulse (w : V3) : Fin 6 → ℝ := ![0, 0, 0, w 0, w 1, w 2]

theorem named_dv (S : Setup Fr E LF) (p w : V3) : named (S.targeter dvVars p) w = impulse w := by
  funext k
  simp only [named, Setup.targeter, dvVars, Fin.sum_univ_three]
  fin_cases k <;> simp [impulse, Variable.ofVary, component]

/-- C113. If multiple shooting succeeds then there is one maneuver per node, in order: the first is applied
to the initial spacecraft and each next one to the state which the previous one achieved, at its epoch and
on the velocity alone; the propagation of the corrected state to the epoch of the node gives the achieved
state, which is within tolerance of the node in each coordinate. The epochs and the frames of the nodes are
those given and the last node was not moved.
Missing: two nodes, which panic (`two_nodes_panic`). -/
theorem shooting_solution_partial {n : Nat} {S : Setup Fr E LF} {nodes : Fin n → Node Fr}
    {r : (Fin n → Node Fr) × (Fin n → Sol Fr 3 3)} (h : S.solve nodes = .ok r) :
    (∀ k : Fin n,
      (∃ st, S.base.prop none none (if _h : k.val = 0 then S.x0 else (r.2 ⟨k.val - 1, by omega⟩).achieved)
          (if _h : k.val = 0 then S.x0 else (r.2 ⟨k.val - 1, by omega⟩).achieved).epoch = some st ∧
        (r.2 k).corrected = st.add6 (impulse (r.2 k).correction)) ∧
      S.base.prop none none (r.2 k).corrected.resetStm (r.1 k).epoch = some (r.2 k).achieved ∧
      ∀ i, ∃ d, S.base.element (S.el i) (orbitOf (r.2 k).achieved) = some d ∧ |(r.1 k).pos i - d.1| ≤ S.tol) ∧
    (∀ k, (r.1 k).epoch = (nodes k).epoch ∧ (r.1 k).frame = (nodes k).frame) ∧
    ∀ k : Fin n, k.val = n - 1 → (r.1 k).pos = (nodes k).pos := by
  obtain ⟨h1, h2, h3⟩ := loop_spec S _ _ _ _ h
  refine ⟨fun k => ?_, h2, h3⟩
  have hk := (chain_iff S dvVars n r.1 S.x0 r.2).1 h1 k
  obtain ⟨d1, ⟨st, d2, d3⟩, ⟨y, hy, d4⟩, -, -⟩ := dual_solution_partial hk
  refine ⟨⟨st, d2, by rw [d3, named_dv]⟩, d1, fun i => ?_⟩
  obtain ⟨v, hv, he, ht⟩ := d4 i
  obtain ⟨d, hd, rfl⟩ := hv
  cases hy
  refine ⟨d, hd, ?_⟩
  have : ((S.targeter dvVars (r.1 k).pos).objs i) = ⟨.element (S.el i), (r.1 k).pos i, S.tol, 1, 0⟩ := rfl
  rw [this] at he ht
  rw [he] at ht
  simpa using ht

/-- C113. `build_trajectories` accepts every solution of multiple shooting and arrives on the achieved
orbits, provided the orbit which the propagator computes does not depend on the state transition matrix. -/
theorem shooting_trajectories {n : Nat} {S : Setup Fr E LF} {nodes : Fin n → Node Fr}
    {r : (Fin n → Node Fr) × (Fin n → Sol Fr 3 3)} (h : S.solve nodes = .ok r)
    (hstm : ∀ (x : Craft ℝ Fr) t y, S.base.prop none none x.resetStm t = some y →
      ∃ y', S.base.prop none none x t = some y' ∧ orbitOf y' = orbitOf y)
    (arrives : ∀ m hm x t y, S.base.prop m hm x t = some y → y.epoch = t) :
    ∃ f, S.build r = .ok f ∧ ∀ k, orbitOf (f k) = orbitOf (r.2 k).achieved := by
  obtain ⟨hs, -⟩ := shooting_solution_partial h
  have one : ∀ k, ∃ y, (S.targeter dvVars (r.1 k).pos).apply (r.2 k) = .ok y ∧ orbitOf y = orbitOf (r.2 k).achieved := by
    intro k
    obtain ⟨-, hp, hobj⟩ := hs k
    obtain ⟨y, hy, hoy⟩ := hstm _ _ _ hp
    have hep : (r.2 k).achieved.epoch = (r.1 k).epoch := arrives _ _ _ _ _ hp
    refine ⟨y, ?_, hoy⟩
    have hF : (S.targeter dvVars (r.1 k).pos).isFinite = false := by
      simp only [Cfg.isFinite, decide_eq_false_iff_not, not_exists]
      intro i
      fin_cases i <;> simp [Setup.targeter, dvVars, Variable.ofVary, Vary.isFinite]
    have hm : (S.targeter dvVars (r.1 k).pos).toMnvr (r.2 k) = .err .notFinite := by
      rw [Cfg.toMnvr, if_neg (by simp [hF])]
    have hfl : (S.targeter dvVars (r.1 k).pos).applyFlow (r.2 k) = .ok y := by
      rw [Cfg.applyFlow, hm]
      show orErr (S.base.prop none none (r.2 k).corrected (r.2 k).achieved.epoch) .prop = _
      rw [hep, hy]
      rfl
    have hB : (S.targeter dvVars (r.1 k).pos).bp (orbitOf y) = some none := by
      rw [Cfg.bp, if_neg]
      simp [Cfg.isB, Setup.targeter, Setup.objectives, Param.isB]
    choose d hd hle using hobj
    rw [← hoy] at hd
    refine bind_ok.2 ⟨y, hfl, bind_ok.2 ⟨none, orErr_ok.2 hB, bind_ok.2 ⟨d, seqFin_ok.2 fun i => orErr_ok.2 (hd i), ?_⟩⟩⟩
    exact if_pos fun i => not_lt.2 (hle i)
  choose f hf ho using one
  exact ⟨f, seqFin_ok.2 hf, ho⟩

/-- C113, refuted for two nodes: with two nodes the solution is a panic once the chain of targeters and the
first perturbed one succeed, for the bound of the loop is computed as `len() - 3`. -/
theorem two_nodes_panic {S : Setup Fr E LF} {nodes : Fin 2 → Node Fr} {sols : Fin 2 → Sol Fr 3 3} {a b : Sol Fr 3 3}
    (hit : S.maxIter ≠ 0) (hc : S.chain S.vars 2 nodes S.x0 = .ok sols)
    (ha : S.shoot dvVars S.x0 (Function.update (nodes 0).pos 0 ((nodes 0).pos 0 + S.tol)) (nodes 0).epoch = .ok a)
    (hb : S.shoot dvVars a.achieved (nodes 1).pos (nodes 1).epoch = .ok b) : S.solve nodes = .panic := by
  obtain ⟨m, hm⟩ := Nat.exists_eq_succ_of_ne_zero hit
  have hp : S.perturbed nodes sols 0 0 = .panic := by
    rw [Setup.perturbed]
    have h0 : start S.x0 sols ⟨(0 : Fin (2 - 1)).val, by omega⟩ = S.x0 := by rw [start, dif_pos (by rfl)]
    rw [h0]
    show Res.bind (S.shoot dvVars S.x0 (Function.update (nodes 0).pos 0 ((nodes 0).pos 0 + S.tol)) (nodes 0).epoch) _ = _
    rw [ha]
    show Res.bind (S.shoot dvVars a.achieved (nodes 1).pos (nodes 1).epoch) _ = _
    rw [hb]
    rfl
  have hJ : S.jacobian nodes sols = .panic := by
    rw [Setup.jacobian]
    show Res.bind (Res.bind (Res.bind (S.perturbed nodes sols 0 0) _) _) _ = _
    rw [hp]
    rfl
  rw [Setup.solve, hm, Setup.loop, if_neg (by simp), hc]
  show Res.bind (S.jacobian nodes sols) _ = _
  rw [hJ]
  rfl

/-! ### C114: the Jacobian -/

/-- The nodes with one of them moved along an axis by the tolerance. -/
def nudge {n : Nat} (S : Setup Fr E LF) (nodes : Fin n → Node Fr) (i : Fin n) (axis : Fin 3) : Fin n → Node Fr :=
  Function.update nodes i { nodes i with pos := Function.update (nodes i).pos axis ((nodes i).pos axis + S.tol) }

theorem start_of_lt {n : Nat} {x : Craft ℝ Fr} {sols sols' : Fin n → Sol Fr 3 3} {k : Fin n}
    (h : ∀ j : Fin n, j < k → sols' j = sols j) : start x sols' k = start x sols k := by
  unfold start
  split
  · rfl
  · rw [h _ (by rw [Fin.lt_def]; simp only; omega)]

/-- The maneuvers before the moved node do not change. -/
theorem nudge_before {n : Nat} {S : Setup Fr E LF} {vars : Fin 3 → Variable} {nodes : Fin n → Node Fr}
    {sols sols' : Fin n → Sol Fr 3 3} {i : Fin n} {axis : Fin 3} (h : S.chain vars n nodes S.x0 = .ok sols)
    (h' : S.chain vars n (nudge S nodes i axis) S.x0 = .ok sols') (k : Fin n) (hk : k < i) : sols' k = sols k := by
  rw [chain_iff] at h h'
  obtain ⟨m, hm⟩ : ∃ m, m = k.val := ⟨_, rfl⟩
  induction m using Nat.strongRecOn generalizing k with
  | _ m ih =>
    have e : start S.x0 sols' k = start S.x0 sols k :=
      start_of_lt fun j hj => ih j.val (by rw [hm]; exact hj) j (lt_trans hj hk) rfl
    have h1 := h' k
    rw [e, nudge, Function.update_of_ne (ne_of_lt hk), h k, Res.ok.injEq] at h1
    exact h1.symm

/-- C114. Each entry of the outer Jacobian for the maneuvers up to the one after the moved node is the
difference of the maneuver between the chain of targeters with the node moved by the tolerance and without,
divided by the tolerance. For the maneuver after that, the entry is the difference of the velocity of
arrival at the node in between; for the last maneuver it is zero. The full property, that every entry is the
difference of the maneuver, is false: see `jacobian_wrong_sign`. -/
theorem jacobian_entries_partial {n : Nat} {S : Setup Fr E LF} {nodes : Fin n → Node Fr} {sols sols' : Fin n → Sol Fr 3 3}
    {i : Fin (n - 1)} {axis : Fin 3} {p : Sol Fr 3 3 × Sol Fr 3 3}
    (h : S.chain dvVars n nodes S.x0 = .ok sols)
    (h' : S.chain dvVars n (nudge S nodes ⟨i, by omega⟩ axis) S.x0 = .ok sols')
    (hp : S.perturbed nodes sols i axis = .ok p) (c : Fin 3) (k : Fin n) :
    (k.val ≤ i.val + 1 → S.entry sols i p k c = ((sols' k).correction c - (sols k).correction c) / S.tol) ∧
    (∀ hk : k.val = i.val + 2, k.val < n - 1 → S.entry sols i p k c =
      ((sols' ⟨k.val - 1, by omega⟩).achieved.vel c - (sols ⟨k.val - 1, by omega⟩).achieved.vel c) / S.tol) ∧
    (k.val = i.val + 2 → k.val = n - 1 → S.entry sols i p k c = 0) := by
  have hb := nudge_before h h'
  unfold Setup.perturbed at hp
  obtain ⟨a, ha, hp⟩ := bind_ok.1 hp
  obtain ⟨b, hbb, hp⟩ := bind_ok.1 hp
  split at hp
  · simp at hp
  rename_i hn3
  cases hp
  rw [chain_iff] at h h'
  have hi : i.val < n - 1 := i.isLt
  have ea : sols' ⟨i, by omega⟩ = a := by
    have h1 := h' ⟨i, by omega⟩
    rw [start_of_lt fun j hj => hb j hj, nudge, Function.update_self] at h1
    simp only at h1
    rw [ha] at h1
    cases h1
    rfl
  have eb : sols' ⟨i + 1, by omega⟩ = b := by
    have h1 := h' ⟨i + 1, by omega⟩
    have hs : start S.x0 sols' ⟨i + 1, by omega⟩ = a.achieved := by
      rw [start, dif_neg (by simp)]
      simp only [Nat.add_sub_cancel]
      rw [ea]
    rw [hs, nudge, Function.update_of_ne (by simp [Fin.ext_iff]), hbb] at h1
    cases h1
    rfl
  refine ⟨fun hk => ?_, fun hk hlt => ?_, fun hk hl => ?_⟩
  · unfold Setup.entry
    rcases Nat.lt_trichotomy k.val i.val with hlt | heq | hgt
    · rw [if_neg (by omega), if_neg (by omega), if_neg (by omega), hb k hlt]
      simp
    · rw [if_pos heq]
      have : k = ⟨i, by omega⟩ := Fin.ext heq
      rw [this, ea]
    · rw [if_neg (by omega), if_pos (by omega)]
      have : k = ⟨i + 1, by omega⟩ := Fin.ext (by simp only; omega)
      rw [this, eb]
  · rw [Setup.entry, if_neg (by omega), if_neg (by omega), if_pos ⟨hk, by omega⟩, start, dif_neg (by omega)]
    have : (⟨k.val - 1, by omega⟩ : Fin n) = ⟨i + 1, by omega⟩ := Fin.ext (by simp only; omega)
    rw [this, eb]
  · rw [Setup.entry, if_neg (by omega), if_neg (by omega), if_neg (by omega)]

/-- Two nodes are refused. -/
example (divide : Int → ℝ → Int) (x0 : Craft ℝ Unit) (xf : Orb Unit) : ∀ l, equidistantNodes divide x0 xf 2 ≠ .ok l :=
  equidistant_refused.2 (.inl (by norm_num))

end Verif.Shooting
