import Verif.Target.Linear
import Verif.Target.Burns
import Verif.Target.Dual
import Mathlib.Tactic.NormNum
import Mathlib.Tactic.FinCases
/-!
Concrete targeting problems: the hypotheses of the theorems hold of them, and some of them refute C60, C61,
C110 and C111.
-/
namespace Verif.Target
open Matrix
open Verif.Spacecraft (Craft)
open Verif.MathU (V3 nrm pseudoInverse tryInverse)

variable {Fr E LF : Type}

theorem ok_bind {α β : Type} (a : α) (f : α → Res β) : (Res.ok a).bind f = f a := rfl

/-! ### One variable and one objective -/

theorem nrm_one (e : Fin 1 → ℝ) : nrm e = |e 0| := by
  rw [nrm, dotProduct, Fin.sum_univ_one, Real.sqrt_mul_self_eq_abs]

theorem pinv_one {q : ℝ} (hq : q ≠ 0) :
    ∃ P : Matrix (Fin 1) (Fin 1) ℝ, pseudoInverse (of fun _ _ => q) = some P ∧ ∀ e : Fin 1 → ℝ, P *ᵥ e = fun _ => e 0 / q := by
  have hd : ((of fun (_ _ : Fin 1) => q)ᵀ * (of fun (_ _ : Fin 1) => q)).det = q * q := by
    rw [Matrix.det_fin_one, Matrix.mul_apply, Fin.sum_univ_one]
    simp
  refine ⟨_, by rw [pseudoInverse, if_neg (by simp), tryInverse, if_neg (by rw [hd]; exact mul_ne_zero hq hq)]; rfl, ?_⟩
  intro e
  have hu := Matrix.nonsing_inv_mul ((of fun (_ _ : Fin 1) => q)ᵀ * (of fun (_ _ : Fin 1) => q))
    (by rw [hd]; exact (mul_ne_zero hq hq).isUnit)
  have h00 := congrFun (congrFun hu 0) 0
  rw [Matrix.mul_apply, Fin.sum_univ_one, Matrix.mul_apply, Fin.sum_univ_one, Matrix.transpose_apply, of_apply,
    Matrix.one_apply_eq] at h00
  funext i
  fin_cases i
  show (_ : Matrix (Fin 1) (Fin 1) ℝ) 0 ⬝ᵥ e = _
  rw [dotProduct, Fin.sum_univ_one, Matrix.mul_apply, Fin.sum_univ_one, Matrix.transpose_apply, of_apply]
  rw [eq_div_iff hq]
  linear_combination e 0 * h00

/-- One correction, with one variable and one objective. -/
theorem loop_next {C : Cfg Fr E LF 1 1} {start x x' : Craft ℝ Fr} {t0 t : Int} {fin : Bool} {it fuel : Nat}
    {prev : Option ℝ} {b b' : Burn} {total : Fin 1 → ℝ} {o : Orb Fr} {m : Fin 1 → Bool} {e : Fin 1 → ℝ} {q : ℝ} {c : Fin 6 → ℝ}
    (hev : C.evaluate fin x b t = .ok ⟨o, m, e, of fun _ _ => q⟩) (hm : m 0 = false) (hst : stalled prev e = false)
    (hq : q ≠ 0) (hb : C.burnCorr t0 t b (fun _ => e 0 / q) = .ok b')
    (hc : C.stateCorr (fun i => (C.vars i).limited (e 0 / q)) = .ok c) (hx : C.applyCorr x c = some x') :
    C.loop start t0 t fin (fuel + 1) it prev b x total =
      C.loop start t0 t fin fuel (it + 1) (some |e 0|) b' x' fun i => total i + (C.vars i).limited (e 0 / q) := by
  obtain ⟨P, hP, hPe⟩ := pinv_one hq
  rw [Cfg.loop, hev]
  show (if ∀ i, m i = true then _ else _) = _
  rw [if_neg (by intro h; have := h 0; simp [hm] at this), if_neg (by simp [hst]), hP]
  show Res.bind (C.burnCorr t0 t b (P *ᵥ e)) _ = _
  simp only [hPe]
  rw [hb]
  show Res.bind (C.stateCorr _) _ = _
  rw [hc]
  show Res.bind (orErr (C.applyCorr x c) _) _ = _
  rw [hx, nrm_one]
  rfl

/-- What one pass computes, with one variable and one objective which is an orbital element. -/
theorem evaluate_one {C : Cfg Fr E LF 1 1} {x xf : Craft ℝ Fr} {t : Int} {fin : Bool} {b : Burn} {el : E} {v q : ℝ}
    {g : Fin 6 → ℝ} (hf : C.objFrame = none) (ho : (C.objs 0).param = .element el)
    (hx : C.flow fin b x t = some xf) (hv : C.element el (orbitOf xf) = some (v, g))
    (hj : C.jacEntry fin x b t v (C.objs 0) (C.vars 0) = .ok q) :
    C.evaluate fin x b t = .ok ⟨orbitOf xf, fun _ => (C.objs 0).met v, fun _ => (C.objs 0).error v, of fun _ _ => q⟩ := by
  have hB : C.isB = false := by simp [Cfg.isB, ho, Param.isB]
  rw [Cfg.evaluate, hx]
  show Res.bind (orErr (C.view (orbitOf xf)) _) _ = _
  rw [Cfg.view, hf]
  show Res.bind (orErr (C.bp (orbitOf xf)) _) _ = _
  rw [Cfg.bp, hB]
  show Res.bind (seqFin 1 _) _ = _
  have : seqFin 1 (fun i => (C.value none (orbitOf xf) (C.objs i).param).bind fun w =>
      (seqFin 1 fun j => C.jacEntry fin x b t w.1 (C.objs i) (C.vars j)).bind fun row => Res.ok (w.1, row)) =
      .ok fun _ => (v, fun _ => q) := by
    rw [seqFin_ok]
    intro i
    fin_cases i
    show Res.bind (C.value none (orbitOf xf) (C.objs 0).param) _ = _
    rw [ho]
    show Res.bind (orErr (C.element el (orbitOf xf)) _) _ = _
    rw [hv]
    show Res.bind (seqFin 1 _) _ = _
    rw [(seqFin_ok (g := fun _ => q)).2]
    · rfl
    · intro j
      fin_cases j
      exact hj
  rw [this]
  have h0 : ∀ i : Fin 1, C.objs i = C.objs 0 := fun i => by fin_cases i; rfl
  simp only [Res.bind, h0]

/-- The end of the iterations. -/
theorem loop_last {C : Cfg Fr E LF 1 1} {start x : Craft ℝ Fr} {t0 t : Int} {fin : Bool} {it fuel : Nat}
    {prev : Option ℝ} {b : Burn} {total : Fin 1 → ℝ} {ev : Eval Fr 1 1}
    (hev : C.evaluate fin x b t = .ok ev) (hm : ev.met 0 = true) :
    C.loop start t0 t fin (fuel + 1) it prev b x total = C.finish start fin total ev it := by
  rw [Cfg.loop, hev]
  show (if ∀ i, ev.met i = true then _ else _) = _
  rw [if_pos]
  intro i
  fin_cases i
  exact hm

/-- The iterations stop when the error does not change. -/
theorem loop_stalled {C : Cfg Fr E LF 1 1} {start x : Craft ℝ Fr} {t0 t : Int} {fin : Bool} {it fuel : Nat}
    {prev : Option ℝ} {b : Burn} {total : Fin 1 → ℝ} {ev : Eval Fr 1 1}
    (hev : C.evaluate fin x b t = .ok ev) (hm : ev.met 0 = false) (hst : stalled prev ev.err = true) :
    C.loop start t0 t fin (fuel + 1) it prev b x total = .err .ineffective := by
  rw [Cfg.loop, hev]
  show (if ∀ i, ev.met i = true then _ else _) = _
  rw [if_neg (by intro h; have := h 0; simp [hm] at this), if_pos hst]

/-! ### A world without forces and without time -/

/-- A spacecraft. -/
noncomputable def craft (pos vel : V3) (th : Option (Verif.Spacecraft.Thruster ℝ)) : Craft ℝ Unit :=
  ⟨(), 0, pos, vel, 100, 50, 0, 0, 0, 0, 0, th, .coast, none, none⟩

/-- The velocity never changes; the target is the first component of the velocity. -/
noncomputable def still (v : Variable) (o : Objective Unit) (lf : Option Unit)
    (dcm : Orb Unit → Option (Matrix (Fin 3) (Fin 3) ℝ)) (n : Nat) : Cfg Unit Unit Unit 1 1 where
  prop := fun _ _ x t => some { x with epoch := t }
  transform := fun _ o => some o
  bplane := fun _ => none
  element := fun _ o => some (o.vel 0, Pi.single 3 1)
  dcm := fun _ o => dcm o
  secs := fun _ => 0
  objs := fun _ => o
  vars := fun _ => v
  objFrame := none
  corrFrame := lf
  iterations := n

theorem still_evaluate {v : Variable} {o : Objective Unit} {lf : Option Unit}
    {dcm : Orb Unit → Option (Matrix (Fin 3) (Fin 3) ℝ)} {n : Nat} {x : Craft ℝ Unit} {b : Burn} {t : Int} {q : ℝ}
    {el : Unit} (ho : o.param = .element el)
    (hj : (still v o lf dcm n).jacEntry false x b t (x.vel 0) o v = .ok q) :
    (still v o lf dcm n).evaluate false x b t =
      .ok ⟨⟨x.frame, t, x.pos, x.vel⟩, fun _ => o.met (x.vel 0), fun _ => o.error (x.vel 0), of fun _ _ => q⟩ :=
  evaluate_one (C := still v o lf dcm n) (el := el) (xf := { x with epoch := t }) (g := Pi.single 3 1) rfl ho rfl rfl hj

theorem still_jac {v : Variable} {o : Objective Unit} {lf : Option Unit}
    {dcm : Orb Unit → Option (Matrix (Fin 3) (Fin 3) ℝ)} {n : Nat} {x x' : Craft ℝ Unit} {b : Burn} {t : Int}
    {el : Unit} {w : ℝ} {c : Fin 6 → ℝ} (ho : o.param = .element el) (hv : v.comp.isFinite = false)
    (hc : addIdx 0 v.comp.vecIndex v.pert = .ok c) (hx : (still v o lf dcm n).applyCorr x c = some x') :
    (still v o lf dcm n).jacEntry false x b t w o v = .ok ((x'.vel 0 - w) / v.pert) := by
  have hB : (still v o lf dcm n).isB = false := by simp [Cfg.isB, still, ho, Param.isB]
  have hp : (still v o lf dcm n).perturb x b v = .ok (x', b, false) := by
    rw [Cfg.perturb, if_neg (by simp [hv]), hc]
    show Res.bind (unwrapO ((still v o lf dcm n).applyCorr x c)) _ = _
    rw [hx]
    rfl
  rw [Cfg.jacEntry, hp]
  show Res.bind (unwrapO ((still v o lf dcm n).bp ⟨x'.frame, t, x'.pos, x'.vel⟩)) _ = _
  rw [Cfg.bp, hB]
  show Res.bind (Res.unwrap ((still v o lf dcm n).value none _ o.param)) _ = _
  rw [ho]
  show Res.ok (if v.comp = .thrustLevel then _ else _) = _
  rw [if_neg (by intro h; rw [h] at hv; simp [Vary.isFinite] at hv)]
  rfl

/-! ### C61, refuted -/

/-- The variable of the witness: the velocity along x, at most 4 km/s per step, within ±5 km/s. -/
noncomputable def vx (step : ℝ) : Variable := ⟨.velocityX, 1 / 10000, 0, step, 5, -5⟩

theorem addIdx_vx (x : ℝ) : addIdx 0 (Vary.velocityX).vecIndex x = .ok (Pi.single 3 x) := by
  rw [addIdx]
  show (if h : 3 < 6 then Res.ok (Function.update (0 : Fin 6 → ℝ) ⟨3, h⟩ ((0 : Fin 6 → ℝ) ⟨3, h⟩ + x)) else Res.panic) = _
  rw [dif_pos (by omega)]
  simp [Pi.single]

/-- The objective: velocity along x. -/
noncomputable def wantVx (d mult : ℝ) : Objective Unit := ⟨.element (), d, 1 / 1000, mult, 0⟩

noncomputable def atRest : Craft ℝ Unit := craft ![7000, 0, 0] ![0, 0, 0] none

theorem add6_vel0 (x : Craft ℝ Unit) (a : ℝ) : (x.add6 (Pi.single 3 a)).vel 0 = x.vel 0 + a := by
  simp [Craft.add6]

theorem vx_eval (step d mult : ℝ) (n : Nat) (x : Craft ℝ Unit) (b : Burn) (t : Int) :
    (still (vx step) (wantVx d mult) none (fun _ => none) n).evaluate false x b t =
      .ok ⟨⟨x.frame, t, x.pos, x.vel⟩, fun _ => (wantVx d mult).met (x.vel 0), fun _ => mult * (d - x.vel 0) + 0,
        of fun _ _ => 1⟩ := by
  have hj : (still (vx step) (wantVx d mult) none (fun _ => none) n).jacEntry false x b t (x.vel 0) (wantVx d mult) (vx step) =
      .ok 1 := by
    rw [still_jac (el := ()) (c := Pi.single 3 (1 / 10000)) (x' := x.add6 (Pi.single 3 (1 / 10000))) rfl rfl
      (addIdx_vx _) rfl, add6_vel0]
    congr 1
    show (x.vel 0 + 1 / 10000 - x.vel 0) / (1 / 10000) = 1
    ring
  exact still_evaluate (el := ()) rfl hj

theorem vx_stateCorr (step d mult : ℝ) (n : Nat) (w : Fin 1 → ℝ) :
    (still (vx step) (wantVx d mult) none (fun _ => none) n).stateCorr w = .ok (Pi.single 3 (w 0)) := by
  rw [Cfg.stateCorr]
  have hl : List.finRange 1 = [0] := rfl
  rw [hl]
  show Res.bind (addIdx 0 (Vary.velocityX).vecIndex (w 0)) _ = _
  rw [addIdx_vx]
  rfl

theorem vx_burnCorr (step d mult : ℝ) (n : Nat) (t0 t : Int) (b : Burn) (w : Fin 1 → ℝ) :
    (still (vx step) (wantVx d mult) none (fun _ => none) n).burnCorr t0 t b w = .ok b := rfl

theorem vx_next {step d mult : ℝ} {n : Nat} {t0 t : Int} {start : Craft ℝ Unit} {fuel it : Nat} {prev : Option ℝ}
    {b : Burn} {x : Craft ℝ Unit} {total : Fin 1 → ℝ} (e δ : ℝ) (he : mult * (d - x.vel 0) = e)
    (hne : 1 / 1000 < |e|) (hst : stalled prev (fun _ : Fin 1 => e) = false) (hδ : (vx step).limited e = δ) :
    (still (vx step) (wantVx d mult) none (fun _ => none) n).loop start t0 t false (fuel + 1) it prev b x total =
      (still (vx step) (wantVx d mult) none (fun _ => none) n).loop start t0 t false fuel (it + 1) (some |e|) b
        (x.add6 (Pi.single 3 δ)) (fun i => total i + δ) := by
  have hev := vx_eval step d mult n x b t
  rw [he, add_zero] at hev
  have hd : (fun i : Fin 1 => ((still (vx step) (wantVx d mult) none (fun _ => none) n).vars i).limited (e / 1)) =
      fun _ => δ := by
    funext i
    rw [div_one]
    exact hδ
  rw [loop_next (c := Pi.single 3 δ) (x' := x.add6 (Pi.single 3 δ)) hev ?_ hst one_ne_zero (vx_burnCorr _ _ _ _ _ _ _ _)
    ?_ rfl]
  · congr 1
    funext i
    exact congrArg (total i + ·) (congrFun hd i)
  · show (wantVx d mult).met (x.vel 0) = false
    rw [Objective.met, decide_eq_false_iff_not]
    show ¬ |mult * (d - x.vel 0) + 0| ≤ 1 / 1000
    rw [he, add_zero]
    linarith
  · rw [hd]
    exact vx_stateCorr _ _ _ _ _

theorem vx_last {step d mult : ℝ} {n : Nat} {t0 t : Int} {start : Craft ℝ Unit} {fuel it : Nat} {prev : Option ℝ}
    {b : Burn} {x : Craft ℝ Unit} {total : Fin 1 → ℝ} (he : |mult * (d - x.vel 0)| ≤ 1 / 1000) :
    (still (vx step) (wantVx d mult) none (fun _ => none) n).loop start t0 t false (fuel + 1) it prev b x total =
      .ok ⟨start.add6 (Pi.single 3 (total 0)), withOrbit start ⟨x.frame, t, x.pos, x.vel⟩, total,
        fun _ => mult * (d - x.vel 0) + 0, it⟩ := by
  rw [loop_last (vx_eval step d mult n x b t)]
  · rw [Cfg.finish, if_neg (by simp), vx_stateCorr]
    rfl
  · show (wantVx d mult).met (x.vel 0) = true
    rw [Objective.met, decide_eq_true_eq]
    show |mult * (d - x.vel 0) + 0| ≤ 1 / 1000
    rw [add_zero]
    exact he

theorem vx_try (step d mult : ℝ) (hs : 0 ≤ step) (n : Nat) (x : Craft ℝ Unit) (t0 t : Int) :
    (still (vx step) (wantVx d mult) none (fun _ => none) n).tryAchieve x t0 t =
      (still (vx step) (wantVx d mult) none (fun _ => none) n).loop { x with epoch := t0 } t0 t false (n + 1) 0 none
        (Burn.initial t0 t) { x with epoch := t0 } (fun _ => 0) := by
  have hv : (vx step).Valid := by
    refine ⟨?_, ?_, ?_⟩
    · show ¬ step < 0
      linarith
    · show ¬ (5 : ℝ) < 0
      norm_num
    · show ¬ (-5 : ℝ) > 5
      norm_num
  have hl : List.finRange 1 = [0] := rfl
  have hg : foldRes ((still (vx step) (wantVx d mult) none (fun _ => none) n).guessOne
      x.thruster.isSome) [0] (Burn.initial t0 t, false, 0) =
      .ok (Burn.initial t0 t, false, Pi.single 3 0) := by
    have : (still (vx step) (wantVx d mult) none (fun _ => none) n).guessOne x.thruster.isSome
        (Burn.initial t0 t, false, 0) 0 = .ok (Burn.initial t0 t, false, Pi.single 3 0) := by
      have hf : (still (vx step) (wantVx d mult) none (fun _ => none) n).frameCheck (vx step) = .ok () := rfl
      have hc : addIdx 0 (vx step).comp.vecIndex (vx step).guess = .ok (Pi.single 3 0) := addIdx_vx 0
      have hi : ¬ (vx step).comp.isFinite = true := by simp [vx, Vary.isFinite]
      have hs0 : (still (vx step) (wantVx d mult) none (fun _ => none) n).vars 0 = vx step := rfl
      rw [Cfg.guessOne]
      simp only [hs0]
      rw [if_neg (not_not.2 hv), hf]
      simp only [Res.bind, if_neg hi, hc]
    rw [foldRes, this]
    rfl
  rw [Cfg.tryAchieve, if_neg (by simp), hl]
  show Res.bind (foldRes ((still (vx step) (wantVx d mult) none (fun _ => none) n).guessOne
      x.thruster.isSome) [0] (Burn.initial t0 t, false, 0)) _ = _
  rw [hg]
  have h0 : ({ x with epoch := t0 } : Craft ℝ Unit).add6 (Pi.single 3 0) = { x with epoch := t0 } := by
    simp [Craft.add6]
  show (still (vx step) (wantVx d mult) none (fun _ => none) n).loop { x with epoch := t0 } t0 t false (n + 1) 0 none
    (Burn.initial t0 t) (({ x with epoch := t0 } : Craft ℝ Unit).add6 (Pi.single 3 0)) _ = _
  rw [h0]
  rfl

/-- C61, refuted. The bounds of a variable limit each step and not the total: with steps of at most 4 km/s
within ±5 km/s, a target of 7 km/s is reached with a total correction of 7 km/s. -/
theorem total_exceeds_bounds : ∃ s, (still (vx 4) (wantVx 7 1) none (fun _ => none) 100).tryAchieve atRest 0 60 = .ok s ∧
    s.correction 0 = 7 ∧ s.correction 0 > (vx 4).maxValue ∧ s.iterations = 2 := by
  have hl1 : (vx 4).limited 7 = 4 := by
    show (if |(7 : ℝ)| > |(4 : ℝ)| then |(4 : ℝ)| * (if (7 : ℝ) < 0 then -1 else 1) else _) = 4
    rw [if_pos (by norm_num), if_neg (by norm_num)]
    norm_num
  have hl2 : (vx 4).limited 3 = 3 := by
    show (if |(3 : ℝ)| > |(4 : ℝ)| then _ else if (3 : ℝ) > 5 then 5 else if (3 : ℝ) < -5 then -5 else 3) = 3
    rw [if_neg (by norm_num), if_neg (by norm_num), if_neg (by norm_num)]
  have h0 : ({ atRest with epoch := 0 } : Craft ℝ Unit).vel 0 = 0 := rfl
  rw [vx_try 4 7 1 (by norm_num), vx_next 7 4 (by rw [h0]; norm_num) (by norm_num) rfl hl1,
    vx_next 3 3 (by rw [add6_vel0, h0]; norm_num) (by norm_num) (by
      simp only [stalled, nrm_one, Option.elim, decide_eq_false_iff_not]; norm_num [abs_of_pos]) hl2,
    vx_last (by rw [add6_vel0, add6_vel0, h0]; norm_num)]
  refine ⟨_, rfl, ?_, ?_, rfl⟩
  · show (0 : ℝ) + 4 + 3 = 7
    norm_num
  · show (0 : ℝ) + 4 + 3 > 5
    norm_num

/-! ### C60 and C110, refuted -/

/-- The cross product. -/
def cross3 (a b : V3) : V3 := ![a 1 * b 2 - a 2 * b 1, a 2 * b 0 - a 0 * b 2, a 0 * b 1 - a 1 * b 0]

/-- The rotation from the VNC frame: along the velocity, along the angular momentum, and their product. -/
noncomputable def vnc (o : Orb Unit) : Option (Matrix (Fin 3) (Fin 3) ℝ) :=
  some (of fun i => ![((1 / nrm o.vel) • o.vel) i, ((1 / nrm (cross3 o.pos o.vel)) • cross3 o.pos o.vel) i,
    cross3 ((1 / nrm o.vel) • o.vel) ((1 / nrm (cross3 o.pos o.vel)) • cross3 o.pos o.vel) i])

theorem nrm3 (a b c m : ℝ) (hm : 0 ≤ m) (h : a * a + b * b + c * c = m * m) : nrm ![a, b, c] = m := by
  rw [nrm, dotProduct, Fin.sum_univ_three]
  show Real.sqrt (a * a + b * b + c * c) = m
  rw [h, Real.sqrt_mul_self hm]

theorem vnc_at {o : Orb Unit} {a b m : ℝ} (hp : o.pos = ![1, 0, 0]) (hv : o.vel = ![a, b, 0]) (hb : 0 < b) (hm : 0 < m)
    (h : a * a + b * b = m * m) : ∃ D, vnc o = some D ∧ ∀ δ : ℝ, D *ᵥ ![0, 0, δ] = ![b / m * δ, -(a / m) * δ, 0] := by
  refine ⟨_, rfl, fun δ => ?_⟩
  have hc : cross3 o.pos o.vel = ![0, 0, b] := by
    rw [hp, hv]
    funext i
    fin_cases i <;> simp [cross3]
  have h1 : nrm o.vel = m := by rw [hv]; exact nrm3 _ _ _ _ hm.le (by linarith)
  have h2 : nrm (cross3 o.pos o.vel) = b := by rw [hc]; exact nrm3 _ _ _ _ hb.le (by ring)
  rw [h1, h2, hc, hv]
  have hb' := hb.ne'
  funext i
  fin_cases i <;> simp [mulVec, dotProduct, Fin.sum_univ_three, cross3, hb', -mul_eq_mul_right_iff] <;> ring

/-- The variable of the witness: the third component of the VNC frame, at most 750 m/s per step. -/
noncomputable def vc : Variable := ⟨.velocityZ, 1 / 10000, 0, 3 / 4, 5, -5⟩

/-- The targeter of the witness, as `Targeter::vnc_with_components` builds it. -/
noncomputable def vncWorld : Cfg Unit Unit Unit 1 1 := still vc (wantVx (23 / 20) 1) (some ()) vnc 100

/-- On a circular orbit of radius and velocity one. -/
noncomputable def circular : Craft ℝ Unit := craft ![1, 0, 0] ![0, 1, 0] none

/-- The same, at another epoch. -/
noncomputable def circ (t0 : Int) : Craft ℝ Unit :=
  ⟨(), t0, ![1, 0, 0], ![0, 1, 0], 100, 50, 0, 0, 0, 0, 0, none, .coast, none, none⟩

theorem addIdx_vc (x : ℝ) : addIdx 0 (Vary.velocityZ).vecIndex x = .ok (Pi.single 5 x) := by
  rw [addIdx]
  show (if h : 5 < 6 then Res.ok (Function.update (0 : Fin 6 → ℝ) ⟨5, h⟩ ((0 : Fin 6 → ℝ) ⟨5, h⟩ + x)) else Res.panic) = _
  rw [dif_pos (by omega)]
  simp [Pi.single]

theorem velPart_vc (x : ℝ) : velPart (Pi.single 5 x) = ![0, 0, x] := by
  funext i
  fin_cases i <;> simp [velPart, Pi.single, Function.update]

theorem vc_apply {x : Craft ℝ Unit} {a b m : ℝ} (hp : x.pos = ![1, 0, 0]) (hv : x.vel = ![a, b, 0]) (hb : 0 < b)
    (hm : 0 < m) (h : a * a + b * b = m * m) (δ : ℝ) :
    vncWorld.applyCorr x (Pi.single 5 δ) = some (addVel x ![b / m * δ, -(a / m) * δ, 0]) := by
  obtain ⟨D, hD, hDv⟩ := vnc_at (o := orbitOf x) hp hv hb hm h
  show (vnc (orbitOf x)).map (fun D => addVel x (D *ᵥ velPart (Pi.single 5 δ))) = _
  rw [hD, velPart_vc]
  show some (addVel x (D *ᵥ ![0, 0, δ])) = _
  rw [hDv]

theorem vc_stateCorr (w : Fin 1 → ℝ) : vncWorld.stateCorr w = .ok (Pi.single 5 (w 0)) := by
  rw [Cfg.stateCorr]
  have hl : List.finRange 1 = [0] := rfl
  rw [hl]
  show Res.bind (addIdx 0 (Vary.velocityZ).vecIndex (w 0)) _ = _
  rw [addIdx_vc]
  rfl

theorem vc_eval {x : Craft ℝ Unit} {a b m : ℝ} (hp : x.pos = ![1, 0, 0]) (hv : x.vel = ![a, b, 0]) (hb : 0 < b)
    (hm : 0 < m) (h : a * a + b * b = m * m) (bn : Burn) (t : Int) :
    vncWorld.evaluate false x bn t =
      .ok ⟨⟨x.frame, t, x.pos, x.vel⟩, fun _ => (wantVx (23 / 20) 1).met (x.vel 0), fun _ => 1 * (23 / 20 - x.vel 0) + 0,
        of fun _ _ => b / m⟩ := by
  have hj : vncWorld.jacEntry false x bn t (x.vel 0) (wantVx (23 / 20) 1) vc = .ok (b / m) := by
    have := still_jac (v := vc) (o := wantVx (23 / 20) 1) (lf := some ()) (dcm := vnc) (n := 100) (el := ())
      (b := bn) (t := t) (w := x.vel 0) rfl rfl (addIdx_vc _) (vc_apply hp hv hb hm h (1 / 10000))
    rw [show vncWorld = still vc (wantVx (23 / 20) 1) (some ()) vnc 100 from rfl, this]
    congr 1
    show (x.vel 0 + b / m * (1 / 10000) - x.vel 0) / (1 / 10000) = _
    ring
  exact still_evaluate (el := ()) rfl hj

theorem vc_next {t0 t : Int} {start : Craft ℝ Unit} {fuel it : Nat} {prev : Option ℝ}
    {bn : Burn} {x : Craft ℝ Unit} {total : Fin 1 → ℝ} {a b m : ℝ} (hp : x.pos = ![1, 0, 0]) (hv : x.vel = ![a, b, 0])
    (hb : 0 < b) (hm : 0 < m) (h : a * a + b * b = m * m) (e δ : ℝ) (he : 23 / 20 - a = e)
    (hne : 1 / 1000 < |e|) (hst : stalled prev (fun _ : Fin 1 => e) = false) (hδ : vc.limited (e / (b / m)) = δ) :
    vncWorld.loop start t0 t false (fuel + 1) it prev bn x total =
      vncWorld.loop start t0 t false fuel (it + 1) (some |e|) bn
        (addVel x ![b / m * δ, -(a / m) * δ, 0]) (fun i => total i + δ) := by
  have hev := vc_eval hp hv hb hm h bn t
  have hx0 : x.vel 0 = a := by rw [hv]; rfl
  rw [hx0, one_mul, he, add_zero] at hev
  have hd : (fun i : Fin 1 => (vncWorld.vars i).limited (e / (b / m))) = fun _ => δ := by
    funext i
    exact hδ
  rw [loop_next (c := Pi.single 5 δ) hev ?_ hst (div_ne_zero hb.ne' hm.ne') rfl ?_ (vc_apply hp hv hb hm h δ)]
  · congr 1
    funext i
    exact congrArg (total i + ·) (congrFun hd i)
  · show (wantVx (23 / 20) 1).met a = false
    rw [Objective.met, decide_eq_false_iff_not]
    show ¬ |1 * (23 / 20 - a) + 0| ≤ 1 / 1000
    rw [one_mul, he, add_zero]
    linarith
  · rw [hd]
    exact vc_stateCorr _

theorem vc_try (t0 t : Int) :
    vncWorld.tryAchieve circular t0 t = vncWorld.loop (circ t0) t0 t false 101 0 none
      (Burn.initial t0 t) (addVel (circ t0) ![1 / 1 * 0, -(0 / 1) * 0, 0]) (fun _ => 0) := by
  have hv : vc.Valid := by
    refine ⟨?_, ?_, ?_⟩
    · show ¬ (3 / 4 : ℝ) < 0
      norm_num
    · show ¬ (5 : ℝ) < 0
      norm_num
    · show ¬ (-5 : ℝ) > 5
      norm_num
  have hl : List.finRange 1 = [0] := rfl
  have hg : foldRes (vncWorld.guessOne false) [0] (Burn.initial t0 t, false, 0) =
      .ok (Burn.initial t0 t, false, Pi.single 5 0) := by
    have : vncWorld.guessOne false (Burn.initial t0 t, false, 0) 0 = .ok (Burn.initial t0 t, false, Pi.single 5 0) := by
      have hf : vncWorld.frameCheck vc = .ok () := by
        show (if 5 < 3 then Res.err Err.frame else Res.ok ()) = _
        rw [if_neg (by omega)]
      have hc : addIdx 0 vc.comp.vecIndex vc.guess = .ok (Pi.single 5 0) := addIdx_vc 0
      have hi : ¬ vc.comp.isFinite = true := by simp [vc, Vary.isFinite]
      have hs0 : vncWorld.vars 0 = vc := rfl
      rw [Cfg.guessOne]
      simp only [hs0]
      rw [if_neg (not_not.2 hv), hf]
      simp only [Res.bind, if_neg hi, hc]
    rw [foldRes, this]
    rfl
  rw [Cfg.tryAchieve, if_neg (by simp), hl]
  show Res.bind (foldRes (vncWorld.guessOne false) [0] (Burn.initial t0 t, false, 0)) _ = _
  rw [hg, ok_bind]
  show Res.bind (if false = true then _ else orErr (vncWorld.applyCorr (circ t0) (Pi.single 5 0)) .astro) _ = _
  rw [if_neg (by simp), vc_apply (a := 0) (b := 1) (m := 1) rfl rfl (by norm_num) (by norm_num) (by norm_num)]
  rfl

theorem vc_finish (total : Fin 1 → ℝ) (ev : Eval Unit 1 1) (it : Nat) : vncWorld.finish (circ 0) false total ev it =
    .ok ⟨addVel (circ 0) ![1 / 1 * total 0, -(0 / 1) * total 0, 0], withOrbit (circ 0) ev.xf, total, ev.err, it⟩ := by
  rw [Cfg.finish, if_neg (by simp), vc_stateCorr, ok_bind]
  show Res.bind (orErr (vncWorld.applyCorr (circ 0) (Pi.single 5 (total 0))) .astro) _ = _
  rw [vc_apply (a := 0) (b := 1) (m := 1) rfl rfl (by norm_num) (by norm_num) (by norm_num)]
  rfl

/-- C60 and C110, refuted. In a correction frame which turns with the velocity, the corrections of successive
iterations are along different axes but their sum is applied along the axes of the start. Here two
iterations of 750 m/s and 500 m/s along the third axis of VNC give 1.15 km/s, as wanted; from the returned
corrected state it is 1.25 km/s, and `apply` rejects the solution. -/
theorem vnc_solution_not_reproduced : ∃ s, vncWorld.tryAchieve circular 0 60 = .ok s ∧
    s.achieved.vel 0 = 23 / 20 ∧
    (∃ xf, vncWorld.prop none none s.corrected 60 = some xf ∧ xf.vel 0 = 5 / 4) ∧
    vncWorld.apply s = .err .verification := by
  have hl1 : vc.limited (23 / 20) = 3 / 4 := by
    show (if |(23 / 20 : ℝ)| > |(3 / 4 : ℝ)| then |(3 / 4 : ℝ)| * (if (23 / 20 : ℝ) < 0 then -1 else 1) else _) = 3 / 4
    rw [if_pos (by norm_num [abs_of_pos]), if_neg (by norm_num)]
    norm_num
  have hl2 : vc.limited (1 / 2) = 1 / 2 := by
    show (if |(1 / 2 : ℝ)| > |(3 / 4 : ℝ)| then _ else if (1 / 2 : ℝ) > 5 then 5 else if (1 / 2 : ℝ) < -5 then -5 else 1 / 2) = 1 / 2
    rw [if_neg (by norm_num [abs_of_pos]), if_neg (by norm_num), if_neg (by norm_num)]
  have add3 : ∀ (x : Craft ℝ Unit) (a b c d : ℝ), x.vel = ![a, b, 0] → (addVel x ![c, d, 0]).vel = ![a + c, b + d, 0] := by
    intro x a b c d h
    funext i
    show x.vel i + _ = _
    rw [h]
    fin_cases i <;> simp
  have v0 : (addVel (circ 0) ![1 / 1 * 0, -(0 / 1) * 0, 0]).vel = ![(0 : ℝ), 1, 0] := by
    rw [add3 _ 0 1 _ _ rfl]; norm_num
  have v1 : ∀ x : Craft ℝ Unit, x.vel = ![0, 1, 0] → (addVel x ![1 / 1 * (3 / 4), -(0 / 1) * (3 / 4), 0]).vel = ![(3 / 4 : ℝ), 1, 0] := by
    intro x h
    rw [add3 _ 0 1 _ _ h]; norm_num
  have v2 : ∀ x : Craft ℝ Unit, x.vel = ![3 / 4, 1, 0] →
      (addVel x ![1 / (5 / 4) * (1 / 2), -(3 / 4 / (5 / 4)) * (1 / 2), 0]).vel = ![(23 / 20 : ℝ), 7 / 10, 0] := by
    intro x h
    rw [add3 _ (3 / 4) 1 _ _ h]; norm_num
  have hlast : ∀ (x : Craft ℝ Unit) fuel it prev bn total start, x.pos = ![1, 0, 0] → x.vel = ![23 / 20, 7 / 10, 0] →
      vncWorld.loop start 0 60 false (fuel + 1) it prev bn x total =
        Cfg.finish vncWorld start false total ⟨⟨x.frame, 60, x.pos, x.vel⟩, fun _ => (wantVx (23 / 20) 1).met (x.vel 0),
          fun _ => 1 * (23 / 20 - x.vel 0) + 0, of fun _ _ => 7 / 10 / Real.sqrt (23 / 20 * (23 / 20) + 7 / 10 * (7 / 10))⟩ it := by
    intro x fuel it prev bn total start hp hv
    refine loop_last (vc_eval hp hv (by norm_num) (Real.sqrt_pos.2 (by norm_num))
      (Real.mul_self_sqrt (by norm_num)).symm bn 60) ?_
    show (wantVx (23 / 20) 1).met (x.vel 0) = true
    rw [Objective.met, decide_eq_true_eq]
    show |1 * (23 / 20 - x.vel 0) + 0| ≤ 1 / 1000
    rw [hv]
    norm_num
  rw [vc_try 0 60,
    vc_next (a := 0) (b := 1) (m := 1) rfl v0 (by norm_num) (by norm_num) (by norm_num) (23 / 20) (3 / 4) (by norm_num)
      (by norm_num [abs_of_pos]) rfl (by rw [div_one, div_one, hl1]),
    vc_next (a := 3 / 4) (b := 1) (m := 5 / 4) rfl (v1 _ v0) (by norm_num) (by norm_num) (by norm_num) (2 / 5) (1 / 2)
      (by norm_num) (by norm_num [abs_of_pos]) (by
        simp only [stalled, nrm_one, Option.elim, decide_eq_false_iff_not]; norm_num [abs_of_pos])
      (by rw [← hl2]; norm_num),
    hlast _ _ _ _ _ _ _ rfl (v2 _ (v1 _ v0)), vc_finish]
  have hfin : (addVel (circ 0) ![1 / 1 * (0 + 3 / 4 + 1 / 2), -(0 / 1) * (0 + 3 / 4 + 1 / 2), 0]).vel 0 = (5 / 4 : ℝ) := by
    rw [add3 _ 0 1 _ _ rfl]
    show (0 : ℝ) + 1 / 1 * (0 + 3 / 4 + 1 / 2) = 5 / 4
    norm_num
  refine ⟨_, rfl, ?_, ⟨_, rfl, hfin⟩, ?_⟩
  · show (addVel _ _ : Craft ℝ Unit).vel 0 = 23 / 20
    rw [v2 _ (v1 _ v0)]
    rfl
  · have hB : vncWorld.isB = false := by simp [Cfg.isB, vncWorld, still, wantVx, Param.isB]
    have hF : vncWorld.isFinite = false := by simp [Cfg.isFinite, vncWorld, still, vc, Vary.isFinite]
    have happ : ∀ (s : Sol Unit 1 1), vncWorld.apply s =
        if ∀ i : Fin 1, ¬ |23 / 20 - s.corrected.vel 0| > 1 / 1000 then .ok { s.corrected with epoch := s.achieved.epoch }
        else .err .verification := by
      intro s
      have hm : vncWorld.toMnvr s = .err .notFinite := by rw [Cfg.toMnvr, if_neg (by simp [hF])]
      have hfl : vncWorld.applyFlow s = .ok { s.corrected with epoch := s.achieved.epoch } := by
        rw [Cfg.applyFlow, hm]
        rfl
      have hbp : ∀ o, vncWorld.bp o = some none := fun o => by rw [Cfg.bp, hB]; rfl
      have hw : seqFin 1 (fun i => vncWorld.value none (orbitOf { s.corrected with epoch := s.achieved.epoch })
          (vncWorld.objs i).param) = .ok fun _ => (s.corrected.vel 0, Pi.single 3 1) :=
        seqFin_ok.2 fun i => rfl
      rw [Cfg.apply, hfl, ok_bind, hbp]
      show Res.bind (Res.ok none) _ = _
      rw [ok_bind, hw, ok_bind]
      exact if_congr Iff.rfl rfl rfl
    rw [happ, if_neg]
    intro h
    refine h 0 ?_
    show |(23 / 20 : ℝ) - (addVel (circ 0) ![1 / 1 * (0 + 3 / 4 + 1 / 2), -(0 / 1) * (0 + 3 / 4 + 1 / 2), 0]).vel 0| > 1 / 1000
    rw [hfin]
    norm_num [abs_of_neg]

end Verif.Target
