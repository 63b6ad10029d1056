import Verif.Target.Lemmas
import Mathlib.Tactic.Push
/-!
C59, C60, C61, C110: what a solution of `try_achieve_fd` guarantees.
-/
namespace Verif.Target
open Matrix
open Verif.Spacecraft (Craft)
open Verif.MathU (V3 nrm pseudoInverse)

variable {Fr E LF : Type} {nv no : Nat} {C : Cfg Fr E LF nv no}

/-! ### C59 -/

/-- Specification: the value `v` of a parameter on an orbit. -/
def ValueAt (C : Cfg Fr E LF nv no) (y : Orb Fr) (p : Param E) (v : ℝ) : Prop :=
  match p with
  | .bDotR => ∃ d, C.bplane y = some d ∧ d.1.1 = v
  | .bDotT => ∃ d, C.bplane y = some d ∧ d.2.1.1 = v
  | .bLtof => ∃ d, C.bplane y = some d ∧ d.2.2.1 = v
  | .element e => ∃ d, C.element e y = some d ∧ d.1 = v
  | .other => False

theorem bp_some {y : Orb Fr} {bp : Option (Dual × Dual × Dual)} (h : C.bp y = some bp) (i : Fin no)
    (hi : (C.objs i).param.isB = true) {d : Dual × Dual × Dual} (hd : unwrapO bp = .ok d) : C.bplane y = some d := by
  rw [Cfg.bp, if_pos (by simp only [Cfg.isB, decide_eq_true_eq]; exact ⟨i, hi⟩), Option.map_eq_some_iff] at h
  obtain ⟨d', h, rfl⟩ := h
  cases (unwrapO_ok.1 hd)
  exact h

theorem value_at {y : Orb Fr} {bp : Option (Dual × Dual × Dual)} (h : C.bp y = some bp) (i : Fin no) {w : Dual}
    (hw : C.value bp y (C.objs i).param = .ok w) : ValueAt C y (C.objs i).param w.1 := by
  have hb := bp_some h i
  cases hp : (C.objs i).param <;> rw [hp] at hw hb <;> simp only [Cfg.value] at hw <;> simp only [ValueAt]
  · obtain ⟨d, hd, hw⟩ := bind_ok.1 hw
    cases hw
    exact ⟨d, hb rfl hd, rfl⟩
  · obtain ⟨d, hd, hw⟩ := bind_ok.1 hw
    cases hw
    exact ⟨d, hb rfl hd, rfl⟩
  · obtain ⟨d, hd, hw⟩ := bind_ok.1 hw
    cases hw
    exact ⟨d, hb rfl hd, rfl⟩
  · exact ⟨w, orErr_ok.1 hw, rfl⟩
  · simp at hw

theorem value_at_unique {y : Orb Fr} {p : Param E} {v w : ℝ} (h : ValueAt C y p v) (h' : ValueAt C y p w) : v = w := by
  cases p <;> simp only [ValueAt] at h h'
  all_goals
    obtain ⟨d, hd, rfl⟩ := h
    obtain ⟨d', hd', rfl⟩ := h'
    rw [hd] at hd'
    cases hd'
    rfl

/-- C59. If the targeter returns a solution, then at the achieved state, seen from the frame of the
objectives, every objective has a value, its error is the one reported and is within the tolerance; the
achieved state is at the achievement epoch; and there were at most the allowed number of iterations. -/
theorem objectives_met {x0 : Craft ℝ Fr} {t0 t : Int} {s : Sol Fr nv no} (h : C.tryAchieve x0 t0 t = .ok s)
    (arrives : ∀ m hm x t y, C.prop m hm x t = some y → y.epoch = t) :
    0 < no ∧ s.achieved.epoch = t ∧ s.iterations ≤ C.iterations ∧
    ∃ y, C.view (orbitOf s.achieved) = some y ∧ ∀ i, ∃ v, ValueAt C y (C.objs i).param v ∧
      s.errors i = (C.objs i).mult * ((C.objs i).desired - v) + (C.objs i).add ∧
      |s.errors i| ≤ (C.objs i).tol := by
  obtain ⟨start, b, x, total, ev, -, -, hev, hm, hit, -, hach, -, herr, hno⟩ :=
    try_ok h (fun _ _ _ _ => True) (fun _ _ _ _ _ _ _ => trivial) fun _ _ _ _ _ _ _ _ _ _ _ _ => trivial
  obtain ⟨xf, y, bp, w, hf, hy, hbp, hw, -, hxf, hmet, he⟩ := evaluate_ok hev
  have ho : orbitOf s.achieved = orbitOf xf := by rw [hach, hxf]; rfl
  refine ⟨Nat.pos_of_ne_zero hno, ?_, hit, y, by rw [ho, hy], fun i => ⟨(w i).1, value_at hbp i (hw i), ?_, ?_⟩⟩
  · have : s.achieved.epoch = xf.epoch := congrArg Orb.epoch ho
    rw [this]
    unfold Cfg.flow at hf
    split at hf
    · obtain ⟨a, -, hf⟩ := Option.bind_eq_some_iff.1 hf
      obtain ⟨a', -, hf⟩ := Option.bind_eq_some_iff.1 hf
      exact arrives _ _ _ _ _ hf
    · exact arrives _ _ _ _ _ hf
  · rw [herr, he]; rfl
  · have := hm i
    rw [hmet, Objective.met, decide_eq_true_eq] at this
    rw [herr, he]
    exact this

/-- No outcome is the error `e`. -/
def Never {α : Type} (e : Err) (r : Res α) : Prop := r ≠ .err e

theorem never_bind {α β : Type} {e : Err} {r : Res α} {f : α → Res β} (h : Never e r) (hf : ∀ a, Never e (f a)) :
    Never e (r.bind f) := by
  cases r with
  | ok a => exact hf _
  | err e' => intro h'; apply h; simpa [Res.bind] using h'
  | panic => simp [Never, Res.bind]

theorem never_ok {α : Type} {e : Err} (a : α) : Never e (Res.ok a) := by simp [Never]
theorem never_panic {α : Type} {e : Err} : Never e (Res.panic : Res α) := by simp [Never]
theorem never_err {α : Type} {e e' : Err} (h : e' ≠ e) : Never e (Res.err e' : Res α) := by
  intro h'; cases h'; exact h rfl
theorem never_orErr {α : Type} {e e' : Err} (h : e' ≠ e) (o : Option α) : Never e (orErr o e') := by
  cases o
  · exact never_err h
  · exact never_ok _
theorem never_unwrapO {α : Type} {e : Err} (o : Option α) : Never e (unwrapO o) := by
  cases o
  · exact never_panic
  · exact never_ok _
theorem never_unwrap {α : Type} {e : Err} (r : Res α) : Never e r.unwrap := by
  cases r
  · exact never_ok _
  · exact never_panic
  · exact never_panic
theorem never_seqFin {α : Type} {e : Err} : ∀ {n : Nat} {f : Fin n → Res α}, (∀ i, Never e (f i)) → Never e (seqFin n f)
  | 0, _, _ => never_ok _
  | _ + 1, _, h => never_bind (h 0) fun _ => never_bind (never_seqFin fun i => h i.succ) fun _ => never_ok _
theorem never_foldRes {σ ι : Type} {e : Err} {f : σ → ι → Res σ} (h : ∀ s i, Never e (f s i)) :
    ∀ (l : List ι) (s : σ), Never e (foldRes f l s)
  | [], _ => never_ok _
  | i :: l, s => never_bind (h s i) fun s' => never_foldRes h l s'

theorem never_setAll (b : Burn) (d r a : V3) : Never .tooMany (b.setAll d r a) := by
  have hr : ∀ v, Never .tooMany (raDec v) := by
    intro v
    unfold raDec
    split
    · exact never_err (by decide)
    · exact never_ok _
  unfold Burn.setAll
  split
  · exact never_ok _
  · refine never_bind (hr _) fun _ => never_bind (hr _) fun _ => ?_
    split
    · exact never_ok _
    · exact never_bind (hr _) fun _ => never_ok _

theorem never_derivative (b : Burn) (k : Nat) (e : Err) : Never e (b.derivative k) := by
  unfold Burn.derivative
  cases b.repr
  · exact never_ok _
  · rename_i az el
    show Never e ((az.coeff k).elim _ _)
    cases az.coeff k
    · exact never_ok _
    · exact never_bind (never_unwrapO _) fun _ => never_ok _

theorem never_direction (b : Burn) (e : Err) : Never e b.direction := by
  unfold Burn.direction
  cases b.repr
  · exact never_ok _
  · exact never_bind (never_unwrapO _) fun _ => never_bind (never_unwrapO _) fun _ => never_ok _

theorem never_get (b : Burn) (p : Part) (e : Err) : Never e (b.get p) := by
  cases p
  · exact never_direction b e
  · exact never_derivative b 1 e
  · exact never_derivative b 2 e

theorem never_put (b : Burn) (p : Part) (v : V3) : Never .tooMany (b.put p v) := by
  cases p
  · exact never_bind (never_derivative b 1 _) fun _ => never_bind (never_derivative b 2 _) fun _ => never_setAll _ _ _ _
  · exact never_bind (never_direction b _) fun _ => never_bind (never_derivative b 2 _) fun _ => never_setAll _ _ _ _
  · exact never_bind (never_direction b _) fun _ => never_bind (never_derivative b 1 _) fun _ => never_setAll _ _ _ _

theorem never_addAngle (b : Burn) (az : Bool) (c : Vary) (x : ℝ) (e : Err) : Never e (b.addAngle az c x) := by
  unfold Burn.addAngle
  cases b.repr
  · exact never_panic
  · refine never_bind (never_unwrapO _) fun _ => ?_
    split
    · exact never_bind (never_unwrapO _) fun _ => never_ok _
    · exact never_bind (never_unwrapO _) fun _ => never_ok _

theorem never_correct (secs : ℝ → Int) (t0 t : Int) (b : Burn) (v : Variable) (w : ℝ) :
    Never .tooMany (b.correct secs t0 t v w) := by
  unfold Burn.correct
  split
  iterate 4 exact never_ok _
  split
  · exact never_addAngle _ _ _ _ _
  · exact never_bind (never_unwrapO _) fun _ => never_bind (never_get _ _ _) fun _ => never_put _ _ _

theorem never_perturb (secs : ℝ → Int) (b : Burn) (v : Variable) (e : Err) : Never e (b.perturb secs v) := by
  unfold Burn.perturb
  split
  iterate 4 exact never_ok _
  split
  · exact never_bind (never_addAngle _ _ _ _ _) fun _ => never_ok _
  · exact never_bind (never_unwrapO _) fun _ => never_bind (never_get _ _ _) fun _ =>
      never_bind (never_unwrap _) fun _ => never_ok _

theorem never_addIdx (c : Fin 6 → ℝ) (k : Option Nat) (x : ℝ) (e : Err) : Never e (addIdx c k x) := by
  refine never_bind (never_unwrapO _) fun _ => ?_
  split
  · exact never_ok _
  · exact never_panic

theorem never_value (C : Cfg Fr E LF nv no) (bp : Option (Dual × Dual × Dual)) (y : Orb Fr) (p : Param E) :
    Never .tooMany (C.value bp y p) := by
  unfold Cfg.value
  split
  iterate 3 exact never_bind (never_unwrapO _) fun _ => never_ok _
  · exact never_orErr (by decide) _
  · exact never_panic

theorem never_jac (C : Cfg Fr E LF nv no) (fin : Bool) (x : Craft ℝ Fr) (b : Burn) (t : Int) (a : ℝ) (o : Objective E)
    (v : Variable) (e : Err) : Never e (C.jacEntry fin x b t a o v) := by
  unfold Cfg.jacEntry
  refine never_bind ?_ fun _ => never_bind (never_unwrapO _) fun _ => never_bind (never_unwrapO _) fun _ =>
    never_bind (never_unwrapO _) fun _ => never_bind (never_unwrap _) fun _ => never_ok _
  unfold Cfg.perturb
  split
  · exact never_bind (never_perturb _ _ _ _) fun _ => never_ok _
  · exact never_bind (never_addIdx _ _ _ _) fun _ => never_bind (never_unwrapO _) fun _ => never_ok _

theorem never_evaluate (C : Cfg Fr E LF nv no) (fin : Bool) (x : Craft ℝ Fr) (b : Burn) (t : Int) :
    Never .tooMany (C.evaluate fin x b t) :=
  never_bind (never_orErr (by decide) _) fun _ => never_bind (never_orErr (by decide) _) fun _ =>
    never_bind (never_orErr (by decide) _) fun _ => never_bind (never_seqFin fun _ =>
      never_bind (never_value _ _ _ _) fun _ => never_bind (never_seqFin fun _ => never_jac _ _ _ _ _ _ _ _ _) fun _ =>
        never_ok _) fun _ => never_ok _

theorem never_stateCorr (C : Cfg Fr E LF nv no) (w : Fin nv → ℝ) (e : Err) : Never e (C.stateCorr w) := by
  obtain ⟨c, hc⟩ := stateCorr_total C w
  rw [hc]
  exact never_ok _

theorem bind_err {α β : Type} {r : Res α} {f : α → Res β} {e : Err} (h : r.bind f = .err e) (hr : Never e r) :
    ∃ a, r = .ok a ∧ f a = .err e := by
  cases r with
  | ok a => exact ⟨a, rfl, h⟩
  | err e' => exact absurd (by simpa [Res.bind] using h) hr
  | panic => simp [Res.bind] at h

theorem loop_tooMany (C : Cfg Fr E LF nv no) (start : Craft ℝ Fr) (t0 t : Int) (fin : Bool) :
    ∀ (fuel it : Nat) (prev : Option ℝ) (b : Burn) (x : Craft ℝ Fr) (total : Fin nv → ℝ),
      C.loop start t0 t fin fuel it prev b x total = .err .tooMany →
      ∃ l : List (Craft ℝ Fr × Burn), l.length = fuel ∧ (0 < fuel → l.head? = some (x, b)) ∧
        ∀ p ∈ l, ∃ ev, C.evaluate fin p.1 p.2 t = .ok ev ∧ ∃ i, ev.met i = false
  | 0, _, _, _, _, _, _ => ⟨[], rfl, by simp, by simp⟩
  | fuel + 1, it, prev, b, x, total, h => by
    rw [Cfg.loop] at h
    obtain ⟨ev, hev, h⟩ := bind_err h (never_evaluate _ _ _ _ _)
    split at h
    · refine absurd h (never_bind ?_ fun _ => never_bind (never_orErr (by decide) _) fun _ => never_ok _)
      split
      · exact never_ok _
      · exact never_stateCorr _ _ _
    · rename_i hm
      split at h
      · simp at h
      · obtain ⟨P, -, h⟩ := bind_err h (never_orErr (by decide) _)
        obtain ⟨b', hb, h⟩ := bind_err h (never_foldRes (fun b i => by
          split
          · exact never_correct _ _ _ _ _ _
          · exact never_ok _) _ _)
        obtain ⟨c, hc, h⟩ := bind_err h (never_stateCorr _ _ _)
        obtain ⟨x', hx, h⟩ := bind_err h (never_orErr (by decide) _)
        obtain ⟨l, hl, -, hp⟩ := loop_tooMany C start t0 t fin fuel (it + 1) _ b' x' _ h
        refine ⟨(x, b) :: l, by simp [hl], by simp, ?_⟩
        intro p hp'
        rcases List.mem_cons.1 hp' with rfl | hp'
        · refine ⟨ev, hev, ?_⟩
          push Not at hm
          obtain ⟨i, hi⟩ := hm
          exact ⟨i, by simpa using hi⟩
        · exact hp p hp'

theorem never_guessOne (C : Cfg Fr E LF nv no) (thr : Bool) (s : Burn × Bool × (Fin 6 → ℝ)) (i : Fin nv) :
    Never .tooMany (C.guessOne thr s i) := by
  unfold Cfg.guessOne
  split
  · exact never_err (by decide)
  · refine never_bind ?_ fun _ => ?_
    · unfold Cfg.frameCheck
      cases C.corrFrame
      · exact never_ok _
      · refine never_bind (never_unwrapO _) fun _ => ?_
        split
        · exact never_err (by decide)
        · exact never_ok _
    · split
      · split
        · refine never_bind ?_ fun _ => never_ok _
          unfold Burn.guess
          split
          iterate 4 exact never_ok _
          split
          · exact never_addAngle _ _ _ _ _
          · exact never_bind (never_unwrapO _) fun _ => never_bind (never_get _ _ _) fun _ => never_put _ _ _
        · exact never_err (by decide)
      · exact never_bind (never_addIdx _ _ _ _) fun _ => never_ok _

/-- C59. If the targeter gives up, then it evaluated exactly `iterations + 1` states, and at each of them
some objective was out of tolerance. -/
theorem gives_up_after {x0 : Craft ℝ Fr} {t0 t : Int} (h : C.tryAchieve x0 t0 t = .err .tooMany) :
    ∃ l : List (Craft ℝ Fr × Burn), l.length = C.iterations + 1 ∧
      ∀ p ∈ l, ∃ ev, C.evaluate C.isFinite p.1 p.2 t = .ok ev ∧ ∃ i, ev.met i = false := by
  unfold Cfg.tryAchieve at h
  split at h
  · simp at h
  · obtain ⟨start, -, h⟩ := bind_err h (never_orErr (by decide) _)
    obtain ⟨g, hg, h⟩ := bind_err h (never_foldRes (never_guessOne C _) _ _)
    obtain ⟨x, -, h⟩ := bind_err h (by
      split
      · exact never_ok _
      · exact never_orErr (by decide) _)
    rw [(guess_corr hg).2] at h
    obtain ⟨l, h1, -, h2⟩ := loop_tooMany C start t0 t _ _ _ _ _ _ _ h
    exact ⟨l, h1, h2⟩

/-! ### C60 -/

theorem add6_add6 (x : Craft ℝ Fr) (c d : Fin 6 → ℝ) : (x.add6 c).add6 d = x.add6 (c + d) := by
  simp only [Craft.add6, Pi.add_apply, add_assoc]

theorem addVel_addVel (x : Craft ℝ Fr) (c d : V3) : addVel (addVel x c) d = addVel x (c + d) := by
  simp only [addVel, Pi.add_apply, add_assoc]

theorem velPart_add (c d : Fin 6 → ℝ) : velPart (c + d) = velPart c + velPart d := rfl

/-- Two corrections in turn are their sum, if the rotation of the correction frame does not depend on the
velocity. -/
theorem applyCorr_twice (C : Cfg Fr E LF nv no)
    (hd : ∀ f, C.corrFrame = some f → ∀ o v, C.dcm f { o with vel := v } = C.dcm f o)
    {x y z : Craft ℝ Fr} {c d : Fin 6 → ℝ} (h1 : C.applyCorr x c = some y) (h2 : C.applyCorr y d = some z) :
    C.applyCorr x (c + d) = some z := by
  unfold Cfg.applyCorr at *
  cases hf : C.corrFrame with
  | none =>
    rw [hf] at h1 h2
    simp only [Option.elim_none, Option.some.injEq] at h1 h2 ⊢
    rw [← h2, ← h1, add6_add6]
  | some f =>
    rw [hf] at h1 h2
    simp only [Option.elim_some, Option.map_eq_some_iff] at h1 h2 ⊢
    obtain ⟨D, hD, rfl⟩ := h1
    obtain ⟨D', hD', rfl⟩ := h2
    have : C.dcm f (orbitOf (addVel x (D *ᵥ velPart c))) = C.dcm f (orbitOf x) :=
      hd f hf (orbitOf x) _
    rw [this, hD] at hD'
    cases hD'
    exact ⟨D, hD, by rw [addVel_addVel, velPart_add, mulVec_add]⟩

/-- C60. Without a finite burn variable, and if the rotation of the correction frame (if any) does not
depend on the velocity, propagating the corrected state to the achievement epoch gives the achieved
orbit. Without a frame, the corrected state is the state at the correction epoch with the corrections
added to the components named by the variables. The hypothesis fails for the frames VNC, RIC and RCN:
see `vnc_solution_not_reproduced`. -/
theorem corrected_reproduces_partial {x0 : Craft ℝ Fr} {t0 t : Int} {s : Sol Fr nv no}
    (h : C.tryAchieve x0 t0 t = .ok s) (hfin : ∀ i, (C.vars i).comp.isFinite = false)
    (hd : ∀ f, C.corrFrame = some f → ∀ o v, C.dcm f { o with vel := v } = C.dcm f o) :
    (∃ xf, C.prop none none s.corrected t = some xf ∧ orbitOf xf = orbitOf s.achieved) ∧
    (C.corrFrame = none → ∃ start, C.prop none none x0 t0 = some start ∧
      s.corrected = start.add6 fun k => ∑ i, if (C.vars i).comp.vecIndex = some k.val then s.correction i else 0) := by
  have hF : C.isFinite = false := by simp [Cfg.isFinite, hfin]
  obtain ⟨start, b, x, total, ev, hs, hI, hev, -, -, ⟨c, hc, hcorr⟩, hach, htot, -, -⟩ :=
    try_ok h (fun _ _ x total => ∀ start, C.prop none none x0 t0 = some start →
        ∃ c, C.stateCorr total = .ok c ∧ C.applyCorr start c = some x)
      (fun start b x c hs hc hx start' hs' => by
        rw [hs] at hs'
        cases hs'
        exact ⟨c, hc, by simpa [hF] using hx⟩)
      (fun it b x total δ b' c x' ih _ hc hx start hs => by
        obtain ⟨c0, h0, h1⟩ := ih start hs
        exact ⟨c0 + c, stateCorr_add h0 hc, applyCorr_twice C hd h1 hx⟩)
  obtain ⟨c', h1, h2⟩ := hI start hs
  rw [hF] at hc
  simp only [Bool.false_eq_true, if_false] at hc
  rw [h1] at hc
  cases hc
  rw [h2] at hcorr
  cases hcorr
  obtain ⟨xf, y, bp, w, hf, -, -, -, -, hxf, -, -⟩ := evaluate_ok hev
  rw [hF, Cfg.flow, if_neg (by simp)] at hf
  refine ⟨⟨xf, hf, by rw [hach, hxf]; rfl⟩, fun hn => ⟨start, hs, ?_⟩⟩
  rw [Cfg.applyCorr, hn] at h2
  simp only [Option.elim_none, Option.some.injEq] at h2
  rw [← h2]
  congr 1
  funext k
  rw [stateCorr_ok h1, htot]
  refine Finset.sum_congr rfl fun i _ => ?_
  simp [moves, hfin]

/-- For a finite burn target, the corrected state is the state at the correction epoch, whatever the
corrections of the state variables: it does not reproduce the achieved state. -/
theorem finite_burn_corrected {x0 : Craft ℝ Fr} {t0 t : Int} {s : Sol Fr nv no}
    (h : C.tryAchieve x0 t0 t = .ok s) (hfin : ∃ i, (C.vars i).comp.isFinite = true) (hn : C.corrFrame = none) :
    C.prop none none x0 t0 = some s.corrected := by
  have hF : C.isFinite = true := by simpa [Cfg.isFinite] using hfin
  obtain ⟨start, b, x, total, ev, hs, -, -, -, -, ⟨c, hc, hcorr⟩, -⟩ :=
    try_ok h (fun _ _ _ _ => True) (fun _ _ _ _ _ _ _ => trivial) fun _ _ _ _ _ _ _ _ _ _ _ _ => trivial
  rw [if_pos hF] at hc
  subst hc
  rw [Cfg.applyCorr, hn] at hcorr
  simp only [Option.elim_none, Option.some.injEq] at hcorr
  rw [hs, ← hcorr]
  simp [Craft.add6]

/-- The achieved state has the masses, the coefficients, the thruster and the guidance mode of the state at
the correction epoch, not those after the propagation. -/
theorem achieved_keeps_mass {x0 : Craft ℝ Fr} {t0 t : Int} {s : Sol Fr nv no} (h : C.tryAchieve x0 t0 t = .ok s) :
    ∃ start, C.prop none none x0 t0 = some start ∧ s.achieved.prop = start.prop ∧ s.achieved.mode = start.mode ∧
      s.achieved.mass = start.mass := by
  obtain ⟨start, b, x, total, ev, hs, -, -, -, -, -, hach, -⟩ :=
    try_ok h (fun _ _ _ _ => True) (fun _ _ _ _ _ _ _ => trivial) fun _ _ _ _ _ _ _ _ _ _ _ _ => trivial
  exact ⟨start, hs, by rw [hach]; rfl, by rw [hach]; rfl, by rw [hach]; rfl⟩

/-! ### C61 -/

theorem step_le (v : Variable) (hv : v.Valid) (hmin : v.minValue ≤ 0) (d : ℝ) : |v.step d| ≤ v.maxStep := by
  obtain ⟨h1, h2, h3⟩ := hv
  rw [not_lt] at h1 h2
  have ha : |v.maxStep| = v.maxStep := abs_of_nonneg h1
  unfold Variable.step
  rw [ha]
  split
  · split <;> simp [abs_of_nonneg h1]
  · rename_i hd
    rw [gt_iff_lt, not_lt, abs_le] at hd
    split
    · rename_i h4
      rw [abs_of_nonneg h2]
      linarith [hd.2]
    · split
      · rename_i h5
        rw [abs_of_nonpos hmin]
        linarith [hd.1]
      · exact abs_le.2 hd

theorem step_within (v : Variable) (hv : v.Valid) (h1 : v.maxStep ≤ v.maxValue) (h2 : v.minValue ≤ -v.maxStep) (d : ℝ) :
    v.minValue ≤ v.step d ∧ v.step d ≤ v.maxValue := by
  obtain ⟨h3, h4, h5⟩ := hv
  rw [not_lt] at h3 h4
  rw [gt_iff_lt, not_lt] at h5
  have ha : |v.maxStep| = v.maxStep := abs_of_nonneg h3
  unfold Variable.step
  rw [ha]
  split
  · split
    · constructor <;> linarith
    · constructor <;> linarith
  · split
    · exact ⟨h5, le_refl _⟩
    · split
      · exact ⟨le_refl _, h5⟩
      · rename_i h6 h7
        rw [gt_iff_lt, not_lt] at h6
        rw [not_lt] at h7
        exact ⟨h7, h6⟩

/-- C61. Each variable passed the validity check, and the correction reported for a state variable whose
minimum is not positive differs from its initial guess by at most the number of iterations times the
maximum step. The bounds themselves hold of each step only: see `total_exceeds_bounds`. -/
theorem total_bounded_partial {x0 : Craft ℝ Fr} {t0 t : Int} {s : Sol Fr nv no} (h : C.tryAchieve x0 t0 t = .ok s)
    (i : Fin nv) : (C.vars i).Valid ∧ ((C.vars i).comp.isFinite = false → (C.vars i).minValue ≤ 0 →
      |s.correction i - (C.vars i).guess| ≤ s.iterations * (C.vars i).maxStep) := by
  have hv : (C.vars i).Valid := by
    have h := h
    unfold Cfg.tryAchieve at h
    split at h
    · simp at h
    · obtain ⟨start, -, h⟩ := bind_ok.1 h
      obtain ⟨g, hg, -⟩ := bind_ok.1 h
      exact ((guess_fold C _ _ hg).2.2 i (List.mem_finRange i)).1
  refine ⟨hv, fun hf hmin => ?_⟩
  obtain ⟨start, b, x, total, ev, -, hI, -, -, -, -, -, htot, -⟩ :=
    try_ok h (fun it _ _ total => |total i - (C.vars i).guess| ≤ it * (C.vars i).maxStep)
      (fun _ _ _ _ _ _ _ => by simp) (fun it b x total δ b' c x' ih _ _ _ => by
        have h1 := step_le (C.vars i) hv hmin (δ i)
        simp only [Variable.limited, hf, Bool.false_eq_true, if_false]
        push_cast
        calc |total i + (C.vars i).step (δ i) - (C.vars i).guess|
            = |(total i - (C.vars i).guess) + (C.vars i).step (δ i)| := by ring_nf
          _ ≤ |total i - (C.vars i).guess| + |(C.vars i).step (δ i)| := abs_add_le _ _
          _ ≤ _ := by linarith)
  rw [htot]
  exact hI

/-! ### C110: applying a solution -/

/-- C110. Without a finite burn variable, without frame of the objectives, with unit factors and no offset,
and if the rotation of the correction frame does not depend on the velocity, `apply` accepts every
solution of the targeter and returns a state on the achieved orbit. -/
theorem apply_accepts_partial {x0 : Craft ℝ Fr} {t0 t : Int} {s : Sol Fr nv no}
    (h : C.tryAchieve x0 t0 t = .ok s) (hfin : ∀ i, (C.vars i).comp.isFinite = false)
    (hd : ∀ f, C.corrFrame = some f → ∀ o v, C.dcm f { o with vel := v } = C.dcm f o)
    (hof : C.objFrame = none) (hm : ∀ i, (C.objs i).mult = 1 ∧ (C.objs i).add = 0)
    (arrives : ∀ m hm x t y, C.prop m hm x t = some y → y.epoch = t) :
    ∃ xf, C.apply s = .ok xf ∧ orbitOf xf = orbitOf s.achieved := by
  have hF : C.isFinite = false := by simp [Cfg.isFinite, hfin]
  obtain ⟨⟨xf, hxf, ho⟩, -⟩ := corrected_reproduces_partial h hfin hd
  obtain ⟨-, hep, -⟩ := objectives_met h arrives
  obtain ⟨start, b, x, total, ev, -, -, hev, hmet, -, -, hach, -, -, -⟩ :=
    try_ok h (fun _ _ _ _ => True) (fun _ _ _ _ _ _ _ => trivial) fun _ _ _ _ _ _ _ _ _ _ _ _ => trivial
  obtain ⟨xf', y, bp, w, -, hy, hbp, hw, -, hxf', hmet', -⟩ := evaluate_ok hev
  have ho' : orbitOf s.achieved = orbitOf xf' := by rw [hach, hxf']; rfl
  rw [Cfg.view, hof] at hy
  simp only [Option.elim_none, Option.some.injEq] at hy
  subst hy
  have h1 : C.toMnvr s = .err .notFinite := by rw [Cfg.toMnvr, if_neg (by simp [hF])]
  have h2 : C.applyFlow s = .ok xf := by
    unfold Cfg.applyFlow
    rw [h1]
    simp only
    rw [hep, hxf]
    rfl
  refine ⟨xf, ?_, ho⟩
  rw [Cfg.apply, h2]
  show Res.bind (orErr (C.bp (orbitOf xf)) .astro) _ = _
  rw [ho, ho', hbp]
  show Res.bind (seqFin no fun i => C.value bp (orbitOf xf') (C.objs i).param) _ = _
  rw [seqFin_ok.2 hw]
  show (if _ then _ else _) = _
  rw [if_pos]
  intro i
  have := hmet i
  rw [hmet', Objective.met, decide_eq_true_eq, Objective.error, (hm i).1, (hm i).2] at this
  rw [not_lt]
  simpa using this

end Verif.Target
