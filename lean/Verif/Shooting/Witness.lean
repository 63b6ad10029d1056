import Verif.Shooting.Theorems
import Verif.Target.Witness
import Mathlib.Tactic.NormNum
/-!
Multiple shooting without forces, where the maneuvers are known: the Jacobian has wrong entries (C114).
-/
namespace Verif.Shooting
open Matrix
open Verif.Spacecraft (Craft)
open Verif.MathU (V3 nrm eps pseudoInverse tryInverse)
open Verif.Target

/-- The state transition matrix of a straight motion of `T` seconds. -/
def straight (T : ℝ) : Matrix (Fin 9) (Fin 9) ℝ := of fun i j =>
  if i = j then 1 else if i.val < 3 ∧ j.val = i.val + 3 then T else 0

/-- The state after a straight motion of `T` seconds. -/
noncomputable def glide (x : Craft ℝ Unit) (t : Int) (T : ℝ) : Craft ℝ Unit :=
  ⟨x.frame, t, fun i => x.pos i + T * x.vel i, x.vel, x.dry, x.prop, x.extra, x.srpArea, x.cr, x.dragArea, x.cd,
    x.thruster, x.mode, x.dir, x.stm.map fun m => straight T * m⟩

/-- Straight motion at constant velocity; the epochs are in seconds. -/
noncomputable def drift : Cfg Unit (Fin 3) Unit 3 3 where
  prop := fun _ _ x t => some (glide x t ((t - x.epoch : Int) : ℝ))
  transform := fun _ o => some o
  bplane := fun _ => none
  element := fun e o => some (o.pos e, Pi.single ⟨e.val, by omega⟩ 1)
  dcm := fun _ _ => none
  secs := fun x => ⌊x⌋
  objs := fun _ => ⟨.other, 0, 0, 0, 0⟩
  vars := dvVars
  objFrame := none
  corrFrame := none
  iterations := 100

/-- From the origin at rest; the tolerance is 100 meters. -/
noncomputable def origin : Craft ℝ Unit := ⟨(), 0, 0, 0, 100, 50, 0, 0, 0, 0, 0, none, .coast, none, none⟩

noncomputable def plan : Setup Unit (Fin 3) Unit := ⟨drift, id, 1 / 10, origin, 50, 1 / 100, dvVars, true⟩

theorem pinv_scalar {T : ℝ} (hT : T ≠ 0) : pseudoInverse (T • (1 : Matrix (Fin 3) (Fin 3) ℝ)) = some (T⁻¹ • 1) := by
  have h1 : (T • (1 : Matrix (Fin 3) (Fin 3) ℝ))ᵀ * (T • 1) = (T * T) • 1 := by
    rw [transpose_smul, transpose_one, Matrix.smul_mul, Matrix.mul_smul, Matrix.mul_one, smul_smul]
  have hinv : ((T * T) • (1 : Matrix (Fin 3) (Fin 3) ℝ))⁻¹ = (T⁻¹ * T⁻¹) • 1 := by
    refine Matrix.inv_eq_right_inv ?_
    rw [Matrix.smul_mul, Matrix.mul_smul, Matrix.mul_one, smul_smul]
    have : T * T * (T⁻¹ * T⁻¹) = 1 := by field_simp
    rw [this, one_smul]
  have hdet : ((T * T) • (1 : Matrix (Fin 3) (Fin 3) ℝ)).det ≠ 0 := by
    rw [det_smul, det_one]
    simp [hT]
  rw [pseudoInverse, if_neg (by simp), h1, tryInverse, if_neg hdet, hinv, Option.map_some, transpose_smul,
    transpose_one, Matrix.smul_mul, Matrix.mul_smul, Matrix.mul_one, smul_smul]
  congr 2
  field_simp

theorem drift_stm (T : ℝ) (i j : Fin 3) (k : Fin 6) (hk : k.val = j.val + 3) :
    (Pi.single (⟨i.val, by omega⟩ : Fin 6) (1 : ℝ)) ⬝ᵥ stmColumn (straight T * 1) k = if i = j then T else 0 := by
  rw [single_one_dotProduct, Matrix.mul_one]
  simp only [stmColumn, straight, of_apply, Fin.ext_iff, hk]
  have := i.isLt
  have := j.isLt
  by_cases h : i.val = j.val
  · rw [if_neg (by omega), if_pos ⟨by omega, by omega⟩, if_pos h]
  · rw [if_neg (by omega), if_neg (by omega), if_neg h]

/-- The evaluation of a targeter to `p` in this world. -/
theorem drift_eval (x : Craft ℝ Unit) (p : V3) (t : Int) :
    (plan.targeter dvVars p).dualEval x t = .ok
      (glide x.resetStm t ((t - x.epoch : Int) : ℝ), ⟨⟨x.frame, t, fun i => x.pos i + ((t - x.epoch : Int) : ℝ) * x.vel i, x.vel⟩,
          fun i => (plan.objectives p i).met (x.pos i + ((t - x.epoch : Int) : ℝ) * x.vel i),
          fun i => (plan.objectives p i).error (x.pos i + ((t - x.epoch : Int) : ℝ) * x.vel i),
          ((t - x.epoch : Int) : ℝ) • 1⟩) := by
  have hB : ∀ y, (plan.targeter dvVars p).bp y = some none := fun y => by
    rw [Cfg.bp, if_neg]
    simp [Cfg.isB, Setup.targeter, Setup.objectives, Param.isB]
  refine bind_ok.2 ⟨_, rfl, bind_ok.2 ⟨_, rfl, bind_ok.2 ⟨_, rfl, bind_ok.2 ⟨none, orErr_ok.2 (hB _),
      bind_ok.2 ⟨fun i => (x.pos i + ((t - x.epoch : Int) : ℝ) * x.vel i,
        fun j => if i = j then ((t - x.epoch : Int) : ℝ) else 0), ?_, ?_⟩⟩⟩⟩⟩
  · rw [seqFin_ok]
    intro i
    refine bind_ok.2 ⟨_, rfl, bind_ok.2 ⟨fun j => if i = j then ((t - x.epoch : Int) : ℝ) else 0,
      seqFin_ok.2 fun j => ?_, rfl⟩⟩
    have hj : ∃ k : Fin 6, ((plan.targeter dvVars p).vars j).comp.stateIndex = some k ∧ k.val = j.val + 3 := by
      fin_cases j
      · exact ⟨3, rfl, rfl⟩
      · exact ⟨4, rfl, rfl⟩
      · exact ⟨5, rfl, rfl⟩
    obtain ⟨k, hk, hv⟩ := hj
    exact bind_ok.2 ⟨k, unwrapO_ok.2 hk, congrArg Res.ok (drift_stm _ i j k hv)⟩
  · congr 2
    simp only [Eval.mk.injEq, true_and]
    refine ⟨rfl, rfl, rfl, ?_⟩
    ext i j
    simp [Matrix.smul_apply, Matrix.one_apply]

/-- The maneuver between two states in this world: the velocity needed minus the velocity, unless the node
is reached anyway. -/
theorem drift_shoot {x : Craft ℝ Unit} {p dv : V3} {t : Int} {T : ℝ} (hT : ((t - x.epoch : Int) : ℝ) = T) (h0 : 0 < T)
    (hdv : ∀ i, T * dv i = p i - (x.pos i + T * x.vel i)) (hmax : ∀ i, |dv i| ≤ 1 / 5)
    (hfar : ∃ i, 1 / 10 < T * |dv i|) :
    ∃ s, plan.shoot dvVars x p t = .ok s ∧ s.correction = dv ∧ s.achieved.pos = p ∧
      s.achieved.vel = (fun i => x.vel i + dv i) ∧ s.achieved.epoch = t := by
  have hsup : ∀ (y : Craft ℝ Unit) (w : V3), (plan.targeter dvVars p).dualCorr y w = .ok (y.add6 (impulse w)) := by
    intro y w
    have htot : ∃ z, (plan.targeter dvVars p).dualCorr y w = .ok z :=
      ⟨((y.add6 (Pi.single 3 (w 0))).add6 (Pi.single 4 (w 1))).add6 (Pi.single 5 (w 2)), rfl⟩
    obtain ⟨z, hz⟩ := htot
    rw [hz, (dualCorr_ok hz).1, named_dv]
  have hstart : drift.prop none none x x.epoch = some (glide x x.epoch 0) := by
    show some (glide x x.epoch _) = _
    rw [sub_self, Int.cast_zero]
  have hstep : ∀ i, ((plan.targeter dvVars p).vars i).dualStep (dv i) = dv i := by
    intro i
    have hb := hmax i
    have h5 := abs_le.1 hb
    have : ∀ c, (Variable.ofVary c).maxStep = 0.2 → (Variable.ofVary c).maxValue = 5 → (Variable.ofVary c).minValue = -5 →
        (Variable.ofVary c).dualStep (dv i) = dv i := by
      intro c h1 h2 h3
      rw [Variable.dualStep, h1, h2, h3, if_neg (by norm_num; linarith), if_neg (by linarith), if_neg (by linarith)]
    fin_cases i
    · exact this .velocityX rfl rfl rfl
    · exact this .velocityY rfl rfl rfl
    · exact this .velocityZ rfl rfl rfl
  have hmet : ∀ i a, (plan.objectives p i).met a = true ↔ |p i - a| ≤ 1 / 10 := by
    intro i a
    rw [Objective.met, decide_eq_true_eq]
    show |1 * (p i - a) + 0| ≤ 1 / 10 ↔ _
    rw [one_mul, add_zero]
  have herr : ∀ i a, (plan.objectives p i).error a = p i - a := by
    intro i a
    show 1 * (p i - a) + 0 = _
    ring
  have hz : ((glide x x.epoch 0).add6 (impulse fun i => (dvVars i).guess)).vel = x.vel := by
    funext i
    fin_cases i <;> simp [Craft.add6, impulse, dvVars, Variable.ofVary, glide]
  have hzp : ∀ (y : Craft ℝ Unit) (w : V3), (y.add6 (impulse w)).pos = y.pos ∧ (y.add6 (impulse w)).vel = fun i => y.vel i + w i := by
    intro y w
    refine ⟨?_, ?_⟩ <;> funext i <;> fin_cases i <;> simp [Craft.add6, impulse]
  have hguess : (fun i => (dvVars i).guess) = fun _ => 0 := by
    funext i
    fin_cases i <;> rfl
  rw [Setup.shoot, Cfg.tryDual, if_neg (by simp)]
  have e1 : orErr ((plan.targeter dvVars p).prop none none x x.epoch) .prop =
      .ok (glide x x.epoch 0) := orErr_ok.2 hstart
  rw [e1, ok_bind]
  rw [show (fun i => ((plan.targeter dvVars p).vars i).guess) = fun i => (dvVars i).guess from rfl, hsup, ok_bind,
    show (plan.targeter dvVars p).iterations + 1 = 101 from rfl]
  generalize hx1 : ((glide x x.epoch 0).add6 (impulse fun i => (dvVars i).guess)) = x1 at *
  have x1p : x1.pos = x.pos := by
    rw [← hx1, (hzp _ _).1]
    funext i
    show x.pos i + 0 * x.vel i = _
    ring
  have x1e : x1.epoch = x.epoch := by rw [← hx1]; rfl
  have hT1 : ((t - x1.epoch : Int) : ℝ) = T := by rw [x1e]; exact hT
  rw [Cfg.dualLoop, drift_eval, hT1, ok_bind, if_neg (by
    intro h
    obtain ⟨i, hi⟩ := hfar
    have := (hmet _ _).1 (h i)
    rw [x1p, hz, ← hdv i, abs_mul, abs_of_pos h0] at this
    linarith), if_neg (by simp [stalled]), pinv_scalar h0.ne', show orErr (some (T⁻¹ • (1 : Matrix (Fin 3) (Fin 3) ℝ))) .singular = .ok (T⁻¹ • 1) from rfl, ok_bind]
  have hw : (T⁻¹ • (1 : Matrix (Fin 3) (Fin 3) ℝ)) *ᵥ (fun i => (plan.objectives p i).error (x1.pos i + T * x1.vel i)) = dv := by
    rw [smul_mulVec, one_mulVec]
    funext i
    rw [Pi.smul_apply, herr, x1p, hz, ← hdv i, smul_eq_mul]
    field_simp
  simp only [hw, hstep]
  rw [hsup, ok_bind]
  generalize hx2 : x1.resetStm.add6 (impulse dv) = x2
  have x2p : x2.pos = x.pos := by rw [← hx2, (hzp _ _).1]; exact x1p
  have x2v : x2.vel = fun i => x.vel i + dv i := by
    rw [← hx2, (hzp _ _).2]
    show (fun i => x1.vel i + dv i) = _
    rw [hz]
  have x2e : x2.epoch = x.epoch := by rw [← hx2]; exact x1e
  have hT2 : ((t - x2.epoch : Int) : ℝ) = T := by rw [x2e]; exact hT
  have hat : ∀ i, x2.pos i + T * x2.vel i = p i := by
    intro i
    rw [x2p, x2v]
    simp only
    linarith [hdv i]
  rw [Cfg.dualLoop, drift_eval, hT2, ok_bind, if_pos (by intro i; refine (hmet _ _).2 ?_; rw [hat i]; norm_num), hsup]
  refine ⟨_, rfl, ?_, ?_, x2v, rfl⟩
  · funext i
    show (dvVars i).guess + dv i = dv i
    rw [congrFun hguess i, zero_add]
  · funext i
    exact hat i

/-- Four nodes along x, every 100 seconds. -/
noncomputable def four (r : Fin 4 → ℝ) : Fin 4 → Node Unit := fun k => ⟨![r k, 0, 0], 0, 100 * (k.val + 1), ()⟩

/-- The maneuvers along x which reach the nodes. -/
noncomputable def maneuvers (r : Fin 4 → ℝ) : Fin 4 → ℝ :=
  ![r 0 / 100, (r 1 - 2 * r 0) / 100, (r 2 - 2 * r 1 + r 0) / 100, (r 3 - 2 * r 2 + r 1) / 100]

theorem maneuvers_eq (a b c d : ℝ) :
    maneuvers ![a, b, c, d] = ![a / 100, (b - 2 * a) / 100, (c - 2 * b + a) / 100, (d - 2 * c + b) / 100] := rfl

theorem leg {x : Craft ℝ Unit} {a v b : ℝ} {t : Int} (hp : x.pos = ![a, 0, 0]) (hv : x.vel = ![v, 0, 0])
    (ht : t - x.epoch = 100) (h1 : 1 / 1000 < |(b - a) / 100 - v|) (h2 : |(b - a) / 100 - v| ≤ 1 / 5) :
    ∃ s, plan.shoot dvVars x ![b, 0, 0] t = .ok s ∧ s.correction = ![(b - a) / 100 - v, 0, 0] ∧
      s.achieved.pos = ![b, 0, 0] ∧ s.achieved.vel = ![(b - a) / 100, 0, 0] ∧ s.achieved.epoch = t := by
  obtain ⟨s, k1, k2, k3, k4, k5⟩ := drift_shoot (x := x) (p := ![b, 0, 0]) (dv := ![(b - a) / 100 - v, 0, 0]) (t := t)
    (T := 100) (by rw [ht]; norm_num) (by norm_num)
    (by intro i; rw [hp, hv]; fin_cases i <;> simp; ring)
    (by intro i; fin_cases i; exact h2; all_goals simp)
    ⟨0, by show (1 / 10 : ℝ) < 100 * |(b - a) / 100 - v|; linarith⟩
  refine ⟨s, k1, k2, k3, ?_, k5⟩
  rw [k4, hv]
  funext i
  fin_cases i <;> simp

theorem four_chain (r : Fin 4 → ℝ) (h1 : ∀ k, 1 / 1000 < |maneuvers r k|) (h2 : ∀ k, |maneuvers r k| ≤ 1 / 5) :
    ∃ sols, plan.chain dvVars 4 (four r) origin = .ok sols ∧ (∀ k, (sols k).correction = ![maneuvers r k, 0, 0]) ∧
      (sols 0).achieved.vel = ![r 0 / 100, 0, 0] ∧ (sols 1).achieved.vel = ![(r 1 - r 0) / 100, 0, 0] ∧
      (sols 0).achieved.pos = ![r 0, 0, 0] ∧ (sols 0).achieved.epoch = 100 ∧ (sols 1).achieved.pos = ![r 1, 0, 0] ∧
      (sols 1).achieved.epoch = 200 := by
  have m0 : maneuvers r 0 = (r 0 - 0) / 100 - 0 := by show r 0 / 100 = _; ring
  have m1 : maneuvers r 1 = (r 1 - r 0) / 100 - (r 0 - 0) / 100 := by show (r 1 - 2 * r 0) / 100 = _; ring
  have m2 : maneuvers r 2 = (r 2 - r 1) / 100 - (r 1 - r 0) / 100 := by show (r 2 - 2 * r 1 + r 0) / 100 = _; ring
  have m3 : maneuvers r 3 = (r 3 - r 2) / 100 - (r 2 - r 1) / 100 := by show (r 3 - 2 * r 2 + r 1) / 100 = _; ring
  have z : (0 : V3) = ![0, 0, 0] := by funext i; fin_cases i <;> rfl
  obtain ⟨s0, a0, b0, c0, d0, e0⟩ := leg (x := origin) (a := 0) (v := 0) (b := r 0) (t := 100) z z (by rfl)
    (by rw [← m0]; exact h1 0) (by rw [← m0]; exact h2 0)
  obtain ⟨s1, a1, b1, c1, d1, e1⟩ := leg (x := s0.achieved) (b := r 1) (t := 200) c0 d0 (by rw [e0]; rfl)
    (by rw [← m1]; exact h1 1) (by rw [← m1]; exact h2 1)
  obtain ⟨s2, a2, b2, c2, d2, e2⟩ := leg (x := s1.achieved) (b := r 2) (t := 300) c1 d1 (by rw [e1]; rfl)
    (by rw [← m2]; exact h1 2) (by rw [← m2]; exact h2 2)
  obtain ⟨s3, a3, b3, c3, d3, e3⟩ := leg (x := s2.achieved) (b := r 3) (t := 400) c2 d2 (by rw [e2]; rfl)
    (by rw [← m3]; exact h1 3) (by rw [← m3]; exact h2 3)
  refine ⟨![s0, s1, s2, s3], (chain_iff _ _ _ _ _ _).2 fun k => ?_, fun k => ?_, ?_, d1, c0, e0, c1, e1⟩
  · fin_cases k
    · exact a0
    · exact a1
    · exact a2
    · exact a3
  · fin_cases k
    · exact b0.trans (by rw [← m0]; rfl)
    · exact b1.trans (by rw [← m1]; rfl)
    · exact b2.trans (by rw [← m2]; rfl)
    · exact b3.trans (by rw [← m3]; rfl)
  · exact d0.trans (by rw [sub_zero])

/-! ### The Jacobian -/

/-- The nodes at 10, 30, 60 and 100 km: every maneuver is of 100 m/s. -/
noncomputable def hops : Fin 4 → Node Unit := four ![10, 30, 60, 100]

/-- The two targeters with a node moved. -/
theorem pair {x : Craft ℝ Unit} {p q : V3} {t : Int} (ht : t - x.epoch = 100)
    (h1 : ∀ i, |(p i - x.pos i) / 100 - x.vel i| ≤ 1 / 5) (h2 : ∀ i, |(q i - p i) / 100 - (p i - x.pos i) / 100| ≤ 1 / 5)
    (h3 : 1 / 1000 < |(p 0 - x.pos 0) / 100 - x.vel 0|) (h4 : 1 / 1000 < |(q 0 - p 0) / 100 - (p 0 - x.pos 0) / 100|) :
    ∃ a b, plan.shoot dvVars x p t = .ok a ∧ plan.shoot dvVars a.achieved q (t + 100) = .ok b ∧
      b.achieved.vel = fun i => (q i - p i) / 100 := by
  obtain ⟨a, a1, a2, a3, a4, a5⟩ := drift_shoot (x := x) (p := p) (dv := fun i => (p i - x.pos i) / 100 - x.vel i) (t := t)
    (T := 100) (by rw [ht]; norm_num) (by norm_num) (by intro i; ring) h1 ⟨0, by linarith⟩
  obtain ⟨b, b1, b2, b3, b4, b5⟩ := drift_shoot (x := a.achieved) (p := q)
    (dv := fun i => (q i - p i) / 100 - (p i - x.pos i) / 100) (t := t + 100)
    (T := 100) (by rw [a5]; norm_num) (by norm_num) (by intro i; rw [a3, a4]; ring) h2 ⟨0, by linarith⟩
  refine ⟨a, b, a1, b1, ?_⟩
  rw [b4, a4]
  funext i
  ring

theorem hops_chain : ∃ sols, plan.chain dvVars 4 hops origin = .ok sols ∧
    (∀ k, (sols k).correction = ![1 / 10, 0, 0]) ∧
    (sols 1).achieved.vel = ![1 / 5, 0, 0] ∧
    ∀ (i : Fin 3) (axis : Fin 3), ∃ q, plan.perturbed hops sols i axis = .ok q ∧
      (i = 0 → axis = 0 → q.2.achieved.vel 0 = 199 / 1000) := by
  have hm : ∀ k, maneuvers ![10, 30, 60, 100] k = 1 / 10 := by
    intro k
    rw [maneuvers_eq, show (10 : ℝ) / 100 = 1 / 10 by norm_num, show ((30 : ℝ) - 2 * 10) / 100 = 1 / 10 by norm_num,
      show ((60 : ℝ) - 2 * 30 + 10) / 100 = 1 / 10 by norm_num, show ((100 : ℝ) - 2 * 60 + 30) / 100 = 1 / 10 by norm_num]
    fin_cases k <;> rfl
  obtain ⟨sols, h, hc, v0, v1, p0, e0, p1, e1⟩ := four_chain ![10, 30, 60, 100]
    (by intro k; rw [hm]; norm_num [abs_of_pos]) (by intro k; rw [hm]; norm_num [abs_of_pos])
  refine ⟨sols, h, fun k => by rw [hc, hm], ?_, fun i axis => ?_⟩
  · rw [v1]
    norm_num
  have key : ∀ (x : Craft ℝ Unit) (a b c v : ℝ) (t : Int), x.pos = ![a, 0, 0] → x.vel = ![v, 0, 0] → t - x.epoch = 100 →
      b - a - 100 * v = 10 → c - b - (b - a) = 10 →
      ∃ s r, plan.shoot dvVars x (Function.update ![b, 0, 0] axis ((![b, 0, 0] : V3) axis + plan.tol)) t = .ok s ∧
        plan.shoot dvVars s.achieved ![c, 0, 0] (t + 100) = .ok r ∧
        (axis = 0 → r.achieved.vel 0 = (c - (b + 1 / 10)) / 100) := by
    intro x a b c v t hp hv ht e1 e2
    have hc : c = 20 + 2 * b - a - 10 := by linarith
    have hb : b = 10 + a + 100 * v := by linarith
    have tol : plan.tol = 1 / 10 := rfl
    obtain ⟨s, r, k1, k2, k3⟩ := pair (x := x) (p := Function.update ![b, 0, 0] axis ((![b, 0, 0] : V3) axis + plan.tol))
      (q := ![c, 0, 0]) (t := t) ht
      (by intro i; rw [hp, hv, abs_le, tol]; fin_cases i <;> fin_cases axis <;> simp <;> constructor <;> linarith)
      (by intro i; rw [hp, abs_le, tol]; fin_cases i <;> fin_cases axis <;> simp <;> constructor <;> linarith)
      (by rw [hp, hv, lt_abs, tol]; left; fin_cases axis <;> simp <;> linarith)
      (by rw [hp, lt_abs, tol]; left; fin_cases axis <;> simp <;> linarith)
    refine ⟨s, r, k1, k2, fun ha => ?_⟩
    subst ha
    rw [k3]
    simp [tol]
  have fin : ∀ (s r : Sol Unit 3 3), plan.shoot dvVars (start plan.x0 sols ⟨i, by omega⟩)
      (Function.update (hops ⟨i, by omega⟩).pos axis ((hops ⟨i, by omega⟩).pos axis + plan.tol)) (hops ⟨i, by omega⟩).epoch = .ok s →
      plan.shoot dvVars s.achieved (hops ⟨i + 1, by omega⟩).pos (hops ⟨i + 1, by omega⟩).epoch = .ok r →
      plan.perturbed hops sols i axis = .ok (s, r) := fun s r h1 h2 => bind_ok.2 ⟨s, h1, bind_ok.2 ⟨r, h2, rfl⟩⟩
  have z : (0 : V3) = ![0, 0, 0] := by funext i; fin_cases i <;> rfl
  fin_cases i
  · obtain ⟨s, r, k1, k2, k3⟩ := key origin 0 10 30 0 100 z z rfl (by norm_num) (by norm_num)
    exact ⟨(s, r), fin s r k1 k2, fun _ ha => by rw [k3 ha]; norm_num⟩
  · obtain ⟨s, r, k1, k2, k3⟩ := key (sols 0).achieved 10 30 60 (1 / 10) 200 p0 (by rw [v0]; norm_num) (by rw [e0]; rfl) (by norm_num) (by norm_num)
    exact ⟨(s, r), fin s r k1 k2, fun hi => by simp at hi⟩
  · obtain ⟨s, r, k1, k2, k3⟩ := key (sols 1).achieved 30 60 100 (1 / 5) 300 p1 (by rw [v1]; norm_num) (by rw [e1]; rfl) (by norm_num) (by norm_num)
    exact ⟨(s, r), fin s r k1 k2, fun hi => by simp at hi⟩

theorem hops_jacobian : ∃ sols, plan.chain dvVars 4 hops origin = .ok sols ∧ (∀ k, (sols k).correction = ![1 / 10, 0, 0]) ∧
    ∃ J, plan.jacobian hops sols = .ok J ∧ J 6 0 = -1 / 100 ∧ J 9 3 = 0 := by
  obtain ⟨sols, h, hc, hv, hp⟩ := hops_chain
  choose q hq hq0 using hp
  refine ⟨sols, h, hc, _, bind_ok.2 ⟨q, seqFin_ok.2 fun i => seqFin_ok.2 fun a => hq i a, rfl⟩, ?_, ?_⟩
  · show plan.entry sols 0 (q 0 0) 2 0 = _
    have h2 : start plan.x0 sols 2 = (sols 1).achieved := rfl
    rw [Setup.entry, if_neg (by decide), if_neg (by decide), if_pos (by decide), hq0 0 0 rfl rfl, h2, hv,
      show plan.tol = 1 / 10 from rfl]
    norm_num
  · show plan.entry sols 1 (q 1 0) 3 0 = _
    rw [Setup.entry, if_neg (by decide), if_neg (by decide), if_neg (by decide)]

/-- C114 refuted. Of the four maneuvers without forces, moving the first node by the tolerance increases the
third maneuver, while the Jacobian has the opposite of the derivative; moving the second node increases the
fourth maneuver, while the Jacobian has zero. -/
theorem jacobian_wrong_sign : ∃ (sols sols₁ sols₂ : Fin 4 → Sol Unit 3 3) (J : Matrix (Fin (3 * 4)) (Fin (3 * (4 - 1))) ℝ),
    plan.chain dvVars 4 hops origin = .ok sols ∧ plan.jacobian hops sols = .ok J ∧
    plan.chain dvVars 4 (nudge plan hops 0 0) origin = .ok sols₁ ∧
    plan.chain dvVars 4 (nudge plan hops 1 0) origin = .ok sols₂ ∧
    ((sols₁ 2).correction 0 - (sols 2).correction 0) / plan.tol = 1 / 100 ∧ J 6 0 = -1 / 100 ∧
    ((sols₂ 3).correction 0 - (sols 3).correction 0) / plan.tol = 1 / 100 ∧ J 9 3 = 0 := by
  obtain ⟨sols, h, hc, J, hJ, j1, j2⟩ := hops_jacobian
  have n1 : nudge plan hops 0 0 = four ![10 + 1 / 10, 30, 60, 100] := by
    funext k
    fin_cases k
    · show Node.mk (Function.update ![10, 0, 0] 0 (10 + 1 / 10)) _ _ _ = Node.mk ![10 + 1 / 10, 0, 0] _ _ _
      congr 1
      funext j
      fin_cases j <;> rfl
    all_goals rfl
  have n2 : nudge plan hops 1 0 = four ![10, 30 + 1 / 10, 60, 100] := by
    funext k
    fin_cases k
    · rfl
    · show Node.mk (Function.update ![30, 0, 0] 0 (30 + 1 / 10)) _ _ _ = Node.mk ![30 + 1 / 10, 0, 0] _ _ _
      congr 1
      funext j
      fin_cases j <;> rfl
    all_goals rfl
  have m1 : maneuvers ![10 + 1 / 10, 30, 60, 100] = ![101 / 1000, 98 / 1000, 101 / 1000, 1 / 10] := by
    rw [maneuvers_eq]
    norm_num
  have m2 : maneuvers ![10, 30 + 1 / 10, 60, 100] = ![1 / 10, 101 / 1000, 98 / 1000, 101 / 1000] := by
    rw [maneuvers_eq]
    norm_num
  obtain ⟨sols₁, h₁, c₁, -⟩ := four_chain ![10 + 1 / 10, 30, 60, 100]
    (by rw [m1]; intro k; fin_cases k <;> norm_num [abs_of_pos]) (by rw [m1]; intro k; fin_cases k <;> norm_num [abs_of_pos])
  obtain ⟨sols₂, h₂, c₂, -⟩ := four_chain ![10, 30 + 1 / 10, 60, 100]
    (by rw [m2]; intro k; fin_cases k <;> norm_num [abs_of_pos]) (by rw [m2]; intro k; fin_cases k <;> norm_num [abs_of_pos])
  refine ⟨sols, sols₁, sols₂, J, h, hJ, by rw [n1]; exact h₁, by rw [n2]; exact h₂, ?_, j1, ?_, j2⟩
  · rw [c₁, hc, m1, show plan.tol = 1 / 10 from rfl]
    show ((101 / 1000 : ℝ) - 1 / 10) / (1 / 10) = 1 / 100
    norm_num
  · rw [c₂, hc, m2, show plan.tol = 1 / 10 from rfl]
    show ((101 / 1000 : ℝ) - 1 / 10) / (1 / 10) = 1 / 100
    norm_num

/-! ### Examples -/

/-- The same problem, ended at the first iteration. -/
noncomputable def quick : Setup Unit (Fin 3) Unit := ⟨drift, id, 1 / 10, origin, 50, 10 ^ 15, dvVars, true⟩

theorem quick_solves : ∃ sols, quick.solve hops = .ok (hops, sols) := by
  obtain ⟨sols, h, hc, J, hJ, -⟩ := hops_jacobian
  have hcost : quick.cost (costVec sols) = 4 / 100 := by
    show costVec sols ⬝ᵥ costVec sols = _
    simp only [dotProduct, costVec, hc, Nat.reduceMul, Fin.sum_univ_succ]
    simp
    norm_num
  refine ⟨sols, ?_⟩
  rw [Setup.solve, show quick.maxIter = 49 + 1 from rfl, Setup.loop, if_neg (by simp)]
  refine bind_ok.2 ⟨sols, h, bind_ok.2 ⟨J, hJ, ?_⟩⟩
  rw [if_pos (by rw [hcost, show quick.threshold = 10 ^ 15 from rfl]; norm_num [abs_of_pos])]
  exact bind_ok.2 ⟨sols, h, rfl⟩

example := shooting_solution_partial quick_solves.choose_spec

example := shooting_trajectories quick_solves.choose_spec (fun x t y h => ⟨glide x t ((t - x.epoch : Int) : ℝ), rfl, by
  cases h
  rfl⟩) fun _ _ _ _ _ h => by cases h; rfl

example : ∃ (sols sols' : Fin 4 → Sol Unit 3 3) (q : Sol Unit 3 3 × Sol Unit 3 3),
    plan.chain dvVars 4 hops plan.x0 = .ok sols ∧ plan.chain dvVars 4 (nudge plan hops 0 0) plan.x0 = .ok sols' ∧
    plan.perturbed hops sols 0 0 = .ok q ∧
    plan.entry sols 0 q 1 0 = ((sols' 1).correction 0 - (sols 1).correction 0) / plan.tol := by
  obtain ⟨sols, h, -, -, hp⟩ := hops_chain
  obtain ⟨q, hq, -⟩ := hp 0 0
  obtain ⟨s, s₁, s₂, J, g, -, g₁, -⟩ := jacobian_wrong_sign
  have : s = sols := by
    rw [h, Res.ok.injEq] at g
    exact g.symm
  subst this
  exact ⟨s, s₁, q, g, g₁, hq, (jacobian_entries_partial (S := plan) (i := 0) (axis := 0) g g₁ hq 0 1).1 (by decide)⟩

/-- Two nodes, at 10 and 30 km. -/
example : (plan.solve fun k : Fin 2 => hops ⟨k.val, by omega⟩) = .panic := by
  have z : (0 : V3) = ![0, 0, 0] := by funext i; fin_cases i <;> rfl
  obtain ⟨s0, a0, b0, c0, d0, e0⟩ := leg (x := origin) (a := 0) (v := 0) (b := 10) (t := 100) z z (by rfl)
    (by norm_num [abs_of_pos]) (by norm_num [abs_of_pos])
  obtain ⟨s1, a1, b1, c1, d1, e1⟩ := leg (x := s0.achieved) (b := 30) (t := 200) c0 d0 (by rw [e0]; rfl)
    (by norm_num [abs_of_pos]) (by norm_num [abs_of_pos])
  obtain ⟨sols, h, -, -, hp⟩ := hops_chain
  obtain ⟨q, hq, -⟩ := hp 0 0
  obtain ⟨a, ha, hq⟩ := bind_ok.1 hq
  obtain ⟨b, hb, -⟩ := bind_ok.1 hq
  exact two_nodes_panic (S := plan) (sols := ![s0, s1]) (a := a) (b := b) (by decide)
    ((chain_iff _ _ _ _ _ _).2 fun k => by
      fin_cases k
      · exact a0
      · exact a1) ha hb

/-- Four nodes from the origin to 40 km along x in 400 s. -/
theorem nodes_forty : ∃ l, equidistantNodes (fun d n => ⌊(d : ℝ) / n⌋) origin ⟨(), 400, ![40, 0, 0], 0⟩ 4 = .ok l := by
  by_contra hc
  push Not at hc
  rcases equidistant_refused.1 hc with h | h
  · omega
  · have : nrm (![40, 0, 0] - origin.pos) = 40 := by
      rw [nrm, show (![40, 0, 0] - origin.pos : V3) = ![40, 0, 0] from sub_zero _]
      have : (![40, 0, 0] : V3) ⬝ᵥ ![40, 0, 0] = 40 * 40 := by simp [dotProduct, Fin.sum_univ_succ]
      rw [this, Real.sqrt_mul_self (by norm_num)]
    rw [this] at h
    have : eps < 1 := by norm_num [eps]
    linarith

example := equidistant nodes_forty.choose_spec
example := equidistant_epoch nodes_forty.choose_spec (by
  have : ⌊((400 : Int) : ℝ) / (4 : Nat)⌋ = 100 := by norm_num
  show |((4 : Nat) : Int) * ⌊((400 - 0 : Int) : ℝ) / (4 : Nat)⌋ - (400 - 0)| < _
  rw [sub_zero, this]
  decide)

end Verif.Shooting
