import Verif.Target.Guess
import Verif.Target.Local
/-!
C253: the targeters of a continuous thrust burn during the whole segment.
-/
namespace Verif.Target
open Matrix
open Verif.Spacecraft (Craft)
open Verif.MathU (V3 nrm eps vecOfRaDec raDecOfVec pseudoInverse)
open Verif.Poly (Common)

variable {Fr E LF : Type} {nv no : Nat}

/-! ### Constructors -/

/-- `Targeter::thrust_dir_rate`. md/opti/targeter.rs:143-163. -/
noncomputable def Cfg.thrustDirRate (C : Cfg Fr E LF 7 no) : Cfg Fr E LF 7 no :=
  { C with
    vars := ![Variable.ofVary .thrustX, Variable.ofVary .thrustY, Variable.ofVary .thrustZ, Variable.ofVary .thrustLevel,
      Variable.ofVary .thrustRateX, Variable.ofVary .thrustRateY, Variable.ofVary .thrustRateZ]
    iterations := 50, objFrame := none, corrFrame := none }

/-- `Targeter::thrust_profile`. md/opti/targeter.rs:168-191. -/
noncomputable def Cfg.thrustProfile (C : Cfg Fr E LF 10 no) : Cfg Fr E LF 10 no :=
  { C with
    vars := ![Variable.ofVary .thrustX, Variable.ofVary .thrustY, Variable.ofVary .thrustZ, Variable.ofVary .thrustLevel,
      Variable.ofVary .thrustRateX, Variable.ofVary .thrustRateY, Variable.ofVary .thrustRateZ,
      Variable.ofVary .thrustAccelX, Variable.ofVary .thrustAccelY, Variable.ofVary .thrustAccelZ]
    iterations := 50, objFrame := none, corrFrame := none }

/-! ### Specification -/

/-- The variables of the direction of the thrust, of its rate and of its acceleration. -/
def Steers : Vary → Prop
  | .thrustX | .thrustY | .thrustZ | .thrustRateX | .thrustRateY | .thrustRateZ | .thrustAccelX | .thrustAccelY | .thrustAccelZ => True
  | _ => False

/-- A variable of a continuous thrust: a component of the direction, of its rate or of its acceleration between -1 and 1, or the level of the
thrust between 0 and 1. -/
def Continual (v : Variable) : Prop :=
  (Steers v.comp ∧ -1 ≤ v.minValue ∧ v.minValue ≤ v.maxValue ∧ v.maxValue ≤ 1) ∨
  (v.comp = .thrustLevel ∧ 0 ≤ v.minValue ∧ v.minValue ≤ v.maxValue ∧ v.maxValue ≤ 1)

/-- The maneuver lasts from `t0` to `t`, with a level of thrust between nothing and full thrust. -/
def Whole (t0 t : Int) (b : Burn) : Prop := b.start = t0 ∧ b.stop = t ∧ 0 ≤ b.level ∧ b.level ≤ 1

/-! ### The epochs and the level -/

theorem setAll_same {b b' : Burn} {d r a : V3} (h : b.setAll d r a = .ok b') :
    b'.start = b.start ∧ b'.stop = b.stop ∧ b'.level = b.level := by
  unfold Burn.setAll at h
  split at h
  · cases h; exact ⟨rfl, rfl, rfl⟩
  · obtain ⟨x, -, h⟩ := bind_ok.1 h
    obtain ⟨y, -, h⟩ := bind_ok.1 h
    split at h
    · cases h; exact ⟨rfl, rfl, rfl⟩
    · obtain ⟨z, -, h⟩ := bind_ok.1 h
      cases h; exact ⟨rfl, rfl, rfl⟩

theorem modify_same {b b' : Burn} {p : Part} {k : Fin 3} {f : ℝ → ℝ} (h : b.modify p k f = .ok b') :
    b'.start = b.start ∧ b'.stop = b.stop ∧ b'.level = b.level := by
  obtain ⟨v, -, h⟩ := bind_ok.1 h
  cases p <;> simp only [Burn.put] at h <;> obtain ⟨x, -, h⟩ := bind_ok.1 h <;> obtain ⟨y, -, h⟩ := bind_ok.1 h <;> exact setAll_same h

theorem clamp01_mem (x : ℝ) : 0 ≤ clamp01 x ∧ clamp01 x ≤ 1 := by
  unfold clamp01
  split_ifs with h1 h2
  · norm_num
  · norm_num
  · exact ⟨not_lt.1 h1, not_lt.1 h2⟩

theorem bound_mem {v : Variable} (h : v.minValue ≤ v.maxValue) (x : ℝ) : v.minValue ≤ v.bound x ∧ v.bound x ≤ v.maxValue := by
  unfold Variable.bound
  split_ifs with h1 h2
  · exact ⟨h, le_rfl⟩
  · exact ⟨le_rfl, h⟩
  · exact ⟨not_lt.1 h2, not_lt.1 h1⟩

theorem guess_whole {secs : ℝ → Int} {t0 t : Int} {b b' : Burn} {v : Variable} (hv : Continual v) (hb : Whole t0 t b)
    (h : b.guess secs v = .ok b') : Whole t0 t b' := by
  obtain ⟨h1, h2, h3, h4⟩ := hb
  unfold Burn.guess at h
  rcases hv with ⟨hs, -⟩ | ⟨hc, -⟩
  · cases hc : v.comp <;> rw [hc] at h hs <;> simp only [Steers] at hs <;>
      (simp only [Vary.angle] at h
       obtain ⟨s, -, h⟩ := bind_ok.1 h
       obtain ⟨e1, e2, e3⟩ := modify_same h
       exact ⟨e1.trans h1, e2.trans h2, e3 ▸ h3, e3 ▸ h4⟩)
  · rw [hc] at h
    cases h
    exact ⟨h1, h2, clamp01_mem _⟩

theorem perturb_whole {secs : ℝ → Int} {t0 t : Int} {b : Burn} {r : Burn × Bool} {v : Variable} (hv : Continual v)
    (hb : Whole t0 t b) (h : b.perturb secs v = .ok r) : Whole t0 t r.1 := by
  obtain ⟨h1, h2, h3, h4⟩ := hb
  unfold Burn.perturb at h
  rcases hv with ⟨hs, -⟩ | ⟨hc, -⟩
  · cases hc : v.comp <;> rw [hc] at h hs <;> simp only [Steers] at hs <;>
      (simp only [Vary.angle] at h
       obtain ⟨s, -, h⟩ := bind_ok.1 h
       obtain ⟨w, -, h⟩ := bind_ok.1 h
       obtain ⟨b', hm, h⟩ := bind_ok.1 h
       cases h
       obtain ⟨e1, e2, e3⟩ := modify_same (unwrap_ok.1 hm)
       exact ⟨e1.trans h1, e2.trans h2, e3 ▸ h3, e3 ▸ h4⟩)
  · rw [hc] at h
    cases h
    exact ⟨h1, h2, clamp01_mem _⟩

theorem correct_whole {secs : ℝ → Int} {t0 t t1 t2 : Int} {b b' : Burn} {v : Variable} {c : ℝ} (hv : Continual v)
    (hb : Whole t0 t b) (h : b.correct secs t1 t2 v c = .ok b') : Whole t0 t b' := by
  obtain ⟨h1, h2, h3, h4⟩ := hb
  unfold Burn.correct at h
  rcases hv with ⟨hs, -⟩ | ⟨hc, hm, hn, hM⟩
  · cases hc : v.comp <;> rw [hc] at h hs <;> simp only [Steers] at hs <;>
      (simp only [Vary.angle] at h
       obtain ⟨s, -, h⟩ := bind_ok.1 h
       obtain ⟨e1, e2, e3⟩ := modify_same h
       exact ⟨e1.trans h1, e2.trans h2, e3 ▸ h3, e3 ▸ h4⟩)
  · rw [hc] at h
    cases h
    have := bound_mem hn (b.level + c)
    exact ⟨h1, h2, hm.trans this.1, this.2.trans hM⟩

theorem foldRes_inv {σ ι : Type} {f : σ → ι → Res σ} {P : σ → Prop} (hf : ∀ s i s', P s → f s i = .ok s' → P s') :
    ∀ (l : List ι) (s s' : σ), P s → foldRes f l s = .ok s' → P s'
  | [], s, s', hs, h => by cases h; exact hs
  | i :: l, s, s', hs, h => by
    obtain ⟨a, ha, h⟩ := bind_ok.1 h
    exact foldRes_inv hf l a s' (hf s i a hs ha) h

theorem bind_congr' {α β : Type} {r : Res α} {f g : α → Res β} (h : ∀ a, r = .ok a → f a = g a) : r.bind f = r.bind g := by
  cases r with
  | ok a => exact h a rfl
  | err e => rfl
  | panic => rfl

/-! ### Whole segments -/

section
variable (C : Cfg Fr E LF nv no) (q : Option Burn → Option Int → Craft ℝ Fr → Int → Option (Craft ℝ Fr)) {t0 t : Int}
  (hv : ∀ i, Continual (C.vars i))
  (hq : ∀ m h s u, (∀ b, m = some b → Whole t0 t b) → q m h s u = C.prop m h s u)
include hq

theorem flow_whole (finite : Bool) (b : Burn) (hb : Whole t0 t b) (x : Craft ℝ Fr) (u : Int) :
    ({ C with prop := q } : Cfg Fr E LF nv no).flow finite b x u = C.flow finite b x u := by
  have hn : ∀ h s u, q none h s u = C.prop none h s u := fun h s u => hq none h s u (by simp)
  have hs : ∀ h s u, q (some b) h s u = C.prop (some b) h s u := fun h s u => hq (some b) h s u (by rintro _ ⟨⟩; exact hb)
  unfold Cfg.flow
  simp only [hn, hs]

include hv

theorem jac_whole (finite : Bool) (x : Craft ℝ Fr) (b : Burn) (hb : Whole t0 t b) (u : Int) (a : ℝ) (o : Objective E) (j : Fin nv) :
    ({ C with prop := q } : Cfg Fr E LF nv no).jacEntry finite x b u a o (C.vars j) = C.jacEntry finite x b u a o (C.vars j) := by
  unfold Cfg.jacEntry
  show (C.perturb x b (C.vars j)).bind _ = _
  refine bind_congr' fun p hp => ?_
  have hw : Whole t0 t p.2.1 := by
    unfold Cfg.perturb at hp
    split at hp
    · obtain ⟨r, hr, hp⟩ := bind_ok.1 hp
      cases hp
      exact perturb_whole (hv j) hb hr
    · obtain ⟨c, -, hp⟩ := bind_ok.1 hp
      obtain ⟨y, -, hp⟩ := bind_ok.1 hp
      cases hp
      exact hb
  rw [flow_whole C q hq finite p.2.1 hw]
  rfl

theorem evaluate_whole (finite : Bool) (x : Craft ℝ Fr) (b : Burn) (hb : Whole t0 t b) (u : Int) :
    ({ C with prop := q } : Cfg Fr E LF nv no).evaluate finite x b u = C.evaluate finite x b u := by
  unfold Cfg.evaluate
  rw [flow_whole C q hq finite b hb]
  have := jac_whole C q hv hq finite x b hb u
  simp only [this]
  rfl

theorem loop_whole (start : Craft ℝ Fr) (finite : Bool) : ∀ (n it : Nat) (prev : Option ℝ) (b : Burn) (x : Craft ℝ Fr) (w : Fin nv → ℝ),
    Whole t0 t b →
    ({ C with prop := q } : Cfg Fr E LF nv no).loop start t0 t finite n it prev b x w = C.loop start t0 t finite n it prev b x w := by
  intro n
  induction n with
  | zero => intros; rfl
  | succ n ih =>
    intro it prev b x w hb
    unfold Cfg.loop
    rw [evaluate_whole C q hv hq finite x b hb]
    refine bind_congr' fun ev _ => ?_
    split
    · rfl
    · split
      · rfl
      · refine bind_congr' fun P _ => ?_
        show (C.burnCorr t0 t b (P *ᵥ ev.err)).bind _ = _
        refine bind_congr' fun b' hb' => ?_
        have hw : Whole t0 t b' := by
          refine foldRes_inv (P := Whole t0 t) (fun s i s' hs h => ?_) _ _ _ hb hb'
          split at h
          · exact correct_whole (hv i) hs h
          · cases h; exact hs
        refine bind_congr' fun c _ => ?_
        refine bind_congr' fun x' _ => ?_
        exact ih _ _ _ _ _ hw

end

/-- **C253 (the maneuvers that are tried).** With variables of a continuous thrust, a targeter only flies maneuvers which last from the correction to
the achievement and whose thrust is between nothing and full thrust: whatever the propagator does with other maneuvers, the outcome is the
same. -/
theorem thrust_whole_segment (C : Cfg Fr E LF nv no) (hv : ∀ i, Continual (C.vars i)) (t0 t : Int)
    (q : Option Burn → Option Int → Craft ℝ Fr → Int → Option (Craft ℝ Fr))
    (hq : ∀ m h s u, (∀ b, m = some b → Whole t0 t b) → q m h s u = C.prop m h s u) (x0 : Craft ℝ Fr) :
    ({ C with prop := q } : Cfg Fr E LF nv no).tryAchieve x0 t0 t = C.tryAchieve x0 t0 t := by
  unfold Cfg.tryAchieve
  split
  · rfl
  · show (orErr (q none none x0 t0) .prop).bind _ = _
    rw [hq none none x0 t0 (by simp)]
    refine bind_congr' fun start _ => ?_
    refine bind_congr' fun g hg => ?_
    have hw : Whole t0 t g.1 := by
      refine foldRes_inv (P := fun s => Whole t0 t s.1) (fun s i s' hs h => ?_) _ _ _ ?_ hg
      · unfold Cfg.guessOne at h
        split at h
        · cases h
        · obtain ⟨-, -, h⟩ := bind_ok.1 h
          split at h
          · split at h
            · obtain ⟨b, hb, h⟩ := bind_ok.1 h
              cases h
              exact guess_whole (hv i) hs hb
            · cases h
          · obtain ⟨c, -, h⟩ := bind_ok.1 h
            cases h
            exact hs
      · exact ⟨rfl, rfl, zero_le_one, le_rfl⟩
    refine bind_congr' fun x _ => ?_
    exact loop_whole C q hv hq start g.2.1 _ _ _ _ _ _ hw

/-! ### No correction is refused -/

/-- The maneuver is a vector, or its two angles have the same degree. -/
def Shape (b : Burn) : Prop :=
  (∃ v, b.repr = .vector v) ∨ (∃ a1 b1 a2 b2, b.repr = .angles (.linear a1 b1) (.linear a2 b2)) ∨
    ∃ a1 b1 c1 a2 b2 c2, b.repr = .angles (.quadratic a1 b1 c1) (.quadratic a2 b2 c2)

/-- The components are between -1 and 1. -/
def Unit3 (v : V3) : Prop := ∀ i, |v i| ≤ 1

theorem unit_vec (α δ : ℝ) : Unit3 (vecOfRaDec α δ) := by
  intro i
  fin_cases i
  · show |Real.cos δ * Real.cos α| ≤ 1
    rw [abs_mul]
    exact mul_le_one₀ (Real.abs_cos_le_one _) (abs_nonneg _) (Real.abs_cos_le_one _)
  · show |Real.cos δ * Real.sin α| ≤ 1
    rw [abs_mul]
    exact mul_le_one₀ (Real.abs_cos_le_one _) (abs_nonneg _) (Real.abs_sin_le_one _)
  · exact Real.abs_sin_le_one _

theorem unit_zero : Unit3 0 := fun i => by simp

theorem unit_normed (v : V3) : Unit3 ((1 / nrm v) • v) := by
  intro i
  have h := abs_le_nrm v i
  have h0 : 0 ≤ nrm v := Real.sqrt_nonneg _
  show |1 / nrm v * v i| ≤ 1
  rw [abs_mul, abs_of_nonneg (one_div_nonneg.2 h0), one_div, inv_mul_eq_div]
  exact div_le_one_of_le₀ h h0

theorem get_ok {b : Burn} (hb : Shape b) (p : Part) : ∃ v, b.get p = .ok v ∧ Unit3 v := by
  rcases hb with ⟨v, h⟩ | ⟨a1, b1, a2, b2, h⟩ | ⟨a1, b1, c1, a2, b2, c2, h⟩ <;>
    cases p <;> simp only [Burn.get, Burn.direction, Burn.derivative, h]
  · exact ⟨_, rfl, unit_normed v⟩
  · exact ⟨_, rfl, unit_zero⟩
  · exact ⟨_, rfl, unit_zero⟩
  · exact ⟨_, rfl, unit_vec _ _⟩
  · exact ⟨_, rfl, unit_vec _ _⟩
  · exact ⟨_, rfl, unit_zero⟩
  · exact ⟨_, rfl, unit_vec _ _⟩
  · exact ⟨_, rfl, unit_vec _ _⟩
  · exact ⟨_, rfl, unit_vec _ _⟩

theorem setAll_ok (b : Burn) {d r a : V3} (hd : Unit3 d) (hr : Unit3 r) (ha : Unit3 a) : ∃ b', b.setAll d r a = .ok b' ∧ Shape b' := by
  have key : ∀ v : V3, Unit3 v → raDec v = .ok (raDecOfVec v) := fun v hv => by rw [raDec, if_neg (not_lt.2 (hv 2))]
  unfold Burn.setAll
  rw [key d hd, key r hr, key a ha]
  split
  · exact ⟨_, rfl, .inl ⟨_, rfl⟩⟩
  · simp only [Res.bind]
    split
    · exact ⟨_, rfl, .inr (.inl ⟨_, _, _, _, rfl⟩)⟩
    · exact ⟨_, rfl, .inr (.inr ⟨_, _, _, _, _, _, rfl⟩)⟩

theorem modify_ok {b : Burn} (hb : Shape b) (p : Part) (k : Fin 3) (f : ℝ → ℝ) (hf : ∀ x, |x| ≤ 1 → |f x| ≤ 1) :
    ∃ b', b.modify p k f = .ok b' ∧ Shape b' := by
  obtain ⟨v, hv, hu⟩ := get_ok hb p
  have hw : Unit3 (Function.update v k (f (v k))) := by
    intro i
    by_cases h : i = k
    · subst h; rw [Function.update_self]; exact hf _ (hu i)
    · rw [Function.update_of_ne h]; exact hu i
  obtain ⟨d, hd, hdu⟩ := get_ok hb .direction
  obtain ⟨r, hr, hru⟩ := get_ok hb .rate
  obtain ⟨a, ha, hau⟩ := get_ok hb .accel
  simp only [Burn.get] at hd hr ha
  unfold Burn.modify
  rw [hv]
  cases p <;> simp only [Burn.put, hd, hr, ha, Res.bind]
  · exact setAll_ok b hw hru hau
  · exact setAll_ok b hdu hw hau
  · exact setAll_ok b hdu hru hw

theorem steers_slot {c : Vary} (h : Steers c) : ∃ s, c.slot = some s := by
  cases c <;> simp only [Steers] at h <;> exact ⟨_, rfl⟩

theorem correct_steers (secs : ℝ → Int) (t1 t2 : Int) (b : Burn) (v : Variable) (c : ℝ) (hs : Steers v.comp) :
    b.correct secs t1 t2 v c = (unwrapO v.comp.slot).bind fun s => b.modify s.1 s.2 fun x => v.bound (x + c) := by
  unfold Burn.correct
  cases hc : v.comp <;> rw [hc] at hs <;> simp only [Steers] at hs <;> simp only [Vary.angle]

theorem correct_ok (secs : ℝ → Int) (t1 t2 : Int) {b : Burn} {v : Variable} (c : ℝ) (hv : Continual v) (hb : Shape b) :
    ∃ b', b.correct secs t1 t2 v c = .ok b' ∧ Shape b' := by
  rcases hv with ⟨hs, h1, h2, h3⟩ | ⟨hc, -⟩
  · have hf : ∀ x : ℝ, |x| ≤ 1 → |v.bound (x + c)| ≤ 1 := fun x _ => by
      have := bound_mem h2 (x + c)
      exact abs_le.2 ⟨by linarith [this.1], by linarith [this.2]⟩
    obtain ⟨k, hk⟩ := steers_slot hs
    rw [correct_steers secs t1 t2 b v c hs, hk]
    exact modify_ok hb k.1 k.2 _ hf
  · unfold Burn.correct
    rw [hc]
    exact ⟨_, rfl, hb⟩

/-- **C253 (the maneuver of a solution).** With variables of a continuous thrust, `to_mnvr` succeeds for every correction, and its maneuver lasts
from the epoch of the corrected state to that of the achieved state. -/
theorem thrust_mnvr_whole (C : Cfg Fr E LF nv no) (h0 : nv ≠ 0) (hv : ∀ i, Continual (C.vars i)) (s : Sol Fr nv no) :
    ∃ b, C.toMnvr s = .ok b ∧ b.start = s.corrected.epoch ∧ b.stop = s.achieved.epoch ∧ 0 ≤ b.level ∧ b.level ≤ 1 := by
  have hfin : C.isFinite = true := by
    refine decide_eq_true ⟨⟨0, Nat.pos_of_ne_zero h0⟩, ?_⟩
    rcases hv ⟨0, Nat.pos_of_ne_zero h0⟩ with ⟨hs, -⟩ | ⟨hc, -⟩
    · generalize (C.vars ⟨0, Nat.pos_of_ne_zero h0⟩).comp = c at hs
      cases c <;> simp only [Steers] at hs <;> rfl
    · rw [hc]; rfl
  have hany : ∀ (b : Burn) (i : Fin nv), b.correctAny C.secs s.corrected.epoch s.achieved.epoch (C.vars i) (s.correction i) =
      b.correct C.secs s.corrected.epoch s.achieved.epoch (C.vars i) (s.correction i) := by
    intro b i
    unfold Burn.correctAny
    rcases hv i with ⟨hs, -⟩ | ⟨hc, -⟩
    · generalize (C.vars i).comp = c at hs
      cases c <;> simp only [Steers] at hs <;> rfl
    · rw [hc]
  have key : ∀ (l : List (Fin nv)) (b : Burn), Shape b → ∃ b', foldRes (fun b i => b.correctAny C.secs s.corrected.epoch s.achieved.epoch
      (C.vars i) (s.correction i)) l b = .ok b' := by
    intro l
    induction l with
    | nil => intro b _; exact ⟨b, rfl⟩
    | cons i l ih =>
      intro b hb
      obtain ⟨b1, h1, h2⟩ := correct_ok C.secs s.corrected.epoch s.achieved.epoch (s.correction i) (hv i) hb
      rw [foldRes, hany, h1]
      exact ih b1 h2
  obtain ⟨b, hb⟩ := key (List.finRange nv) (Burn.initial s.corrected.epoch s.achieved.epoch)
    (.inr (.inr ⟨0, 0, 0, 0, 0, 0, rfl⟩))
  refine ⟨b, ?_, ?_⟩
  · rw [Cfg.toMnvr, if_pos hfin, hb]
  · exact foldRes_inv (P := Whole s.corrected.epoch s.achieved.epoch) (fun b i b' hw h => correct_whole (hv i) hw (by rw [← hany]; exact h)) _ _ _
      ⟨rfl, rfl, zero_le_one, le_rfl⟩ hb

/-- The variables of the three constructors are those of a continuous thrust. -/
theorem continuous_constructors (C4 : Cfg Fr E LF 4 no) (C7 : Cfg Fr E LF 7 no) (C10 : Cfg Fr E LF 10 no) :
    (∀ i, Continual (C4.thrustDir.vars i)) ∧ (∀ i, Continual (C7.thrustDirRate.vars i)) ∧ (∀ i, Continual (C10.thrustProfile.vars i)) := by
  refine ⟨fun i => ?_, fun i => ?_, fun i => ?_⟩ <;> fin_cases i <;>
    simp [Cfg.thrustDir, Cfg.thrustDirRate, Cfg.thrustProfile, Variable.ofVary, Continual, Steers] <;> norm_num

/-- The targeter of the examples, with the variables of `thrust_dir`. -/
noncomputable def demoThrust : Cfg Unit Unit Unit 4 1 :=
  let C := burning lvl (want (1 / 2))
  Cfg.thrustDir ⟨C.prop, C.transform, C.bplane, C.element, C.dcm, C.secs, C.objs, fun _ => lvl, C.objFrame, C.corrFrame, C.iterations⟩

theorem demoThrust_continuous : ∀ i, Continual (demoThrust.vars i) :=
  (continuous_constructors (no := 1) _ ⟨fun _ _ _ _ => none, fun _ _ => none, fun _ => none, fun (_ : Unit) _ => none, fun (_ : Unit) _ => none, fun _ => 0,
    fun _ => want 1, fun _ => lvl, none, none, 0⟩ ⟨fun _ _ _ _ => none, fun _ _ => none, fun _ => none, fun _ _ => none, fun _ _ => none, fun _ => 0,
    fun _ => want 1, fun _ => lvl, none, none, 0⟩).1

open Classical in
/-- A propagator which refuses all the other maneuvers. -/
noncomputable example := thrust_whole_segment demoThrust demoThrust_continuous 0 60
  (fun m h s u => if ∀ b, m = some b → Whole 0 60 b then demoThrust.prop m h s u else none) (fun _ _ _ _ h => if_pos h) armed

example := thrust_mnvr_whole demoThrust (by decide) demoThrust_continuous ⟨armed, { armed with epoch := 60 }, ![1 / 10, 0, 3, 1 / 2], 0, 2⟩

end Verif.Target
