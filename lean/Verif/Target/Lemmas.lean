import Verif.Target.Model
import Mathlib.Algebra.BigOperators.Fin
import Mathlib.Tactic.Linarith
/-!
Lemmas on the loops of the targeter.
-/
namespace Verif.Target
open Matrix
open Verif.Spacecraft (Craft)
open Verif.MathU (V3 nrm pseudoInverse)

variable {Fr E LF : Type} {nv no : Nat} {C : Cfg Fr E LF nv no}

theorem bind_ok {α β : Type} {r : Res α} {f : α → Res β} {b : β} :
    r.bind f = .ok b ↔ ∃ a, r = .ok a ∧ f a = .ok b := by
  cases r <;> simp [Res.bind]

theorem orErr_ok {α : Type} {o : Option α} {e : Err} {a : α} : orErr o e = .ok a ↔ o = some a := by
  cases o <;> simp [orErr]

theorem unwrapO_ok {α : Type} {o : Option α} {a : α} : unwrapO o = .ok a ↔ o = some a := by
  cases o <;> simp [unwrapO]

theorem unwrap_ok {α : Type} {r : Res α} {a : α} : r.unwrap = .ok a ↔ r = .ok a := by
  cases r <;> simp [Res.unwrap]

theorem seqFin_ok {α : Type} : ∀ {n : Nat} {f : Fin n → Res α} {g : Fin n → α},
    seqFin n f = .ok g ↔ ∀ i, f i = .ok (g i)
  | 0, f, g => by
    refine ⟨fun _ i => i.elim0, fun _ => ?_⟩
    simp only [seqFin]
    congr 1
    funext i
    exact i.elim0
  | n + 1, f, g => by
    simp only [seqFin, bind_ok]
    constructor
    · rintro ⟨a, ha, g', hg', h⟩
      cases h
      intro i
      refine Fin.cases ?_ (fun j => ?_) i
      · exact ha
      · exact (seqFin_ok.1 hg') j
    · intro h
      refine ⟨g 0, h 0, fun i => g i.succ, seqFin_ok.2 fun i => h i.succ, ?_⟩
      congr 1
      funext i
      refine Fin.cases ?_ (fun j => ?_) i <;> simp

/-- Whether the variable `v` adds to the component `k` of the state. -/
def moves (v : Variable) (k : Fin 6) : Prop := v.comp.isFinite = false ∧ v.comp.vecIndex = some k.val

instance (v : Variable) (k : Fin 6) : Decidable (moves v k) := inferInstanceAs (Decidable (_ ∧ _))

theorem addIdx_ok {c c' : Fin 6 → ℝ} {k : Option Nat} {x : ℝ} (h : addIdx c k x = .ok c') (j : Fin 6) :
    c' j = c j + if k = some j.val then x else 0 := by
  unfold addIdx at h
  obtain ⟨n, hn, h2⟩ := bind_ok.1 h
  rw [unwrapO_ok] at hn
  subst hn
  clear h
  split at h2
  · cases h2
    by_cases hj : j = ⟨n, by assumption⟩
    · subst hj; simp
    · rw [Function.update_of_ne hj]
      have : ¬ n = j.val := fun e => hj (Fin.ext e.symm)
      simp [this]
  · simp at h2

theorem stateCorr_fold {w : Fin nv → ℝ} (j : Fin 6) : ∀ (l : List (Fin nv)) {c c' : Fin 6 → ℝ},
    foldRes (fun c i => if (C.vars i).comp.isFinite then Res.ok c else addIdx c (C.vars i).comp.vecIndex (w i)) l c =
      .ok c' → c' j = c j + (l.map fun i => if moves (C.vars i) j then w i else 0).sum
  | [], c, c', h => by cases h; simp
  | i :: l, c, c', h => by
    simp only [foldRes] at h
    obtain ⟨d, hd, h⟩ := bind_ok.1 h
    rw [stateCorr_fold j l h]
    by_cases hf : (C.vars i).comp.isFinite = true
    · rw [if_pos hf] at hd
      cases hd
      simp [moves, hf]
    · rw [if_neg hf] at hd
      rw [addIdx_ok hd j]
      have hf' : (C.vars i).comp.isFinite = false := by simpa using hf
      simp [moves, hf', add_assoc]

/-- The correction of a component is the sum of the corrections of the variables which move it. -/
theorem stateCorr_ok {w : Fin nv → ℝ} {c : Fin 6 → ℝ} (h : C.stateCorr w = .ok c) (j : Fin 6) :
    c j = ∑ i, if moves (C.vars i) j then w i else 0 := by
  have := stateCorr_fold j _ h
  rw [this, Pi.zero_apply, zero_add, ← List.ofFn_eq_map, List.sum_ofFn]

theorem stateVars_index (v : Vary) (h : v.isFinite = false) : ∃ k, v.vecIndex = some k ∧ k < 6 := by
  cases v <;> simp [Vary.isFinite, Vary.vecIndex] at h ⊢

theorem addIdx_total {c : Fin 6 → ℝ} {v : Vary} (h : v.isFinite = false) (x : ℝ) :
    ∃ c', addIdx c v.vecIndex x = .ok c' := by
  obtain ⟨k, hk, hlt⟩ := stateVars_index v h
  refine ⟨Function.update c ⟨k, hlt⟩ (c ⟨k, hlt⟩ + x), ?_⟩
  rw [addIdx, hk]
  show (if h : k < 6 then _ else _) = _
  rw [dif_pos hlt]

/-- Adding the corrections of the state variables never fails. -/
theorem stateCorr_total (C : Cfg Fr E LF nv no) (w : Fin nv → ℝ) : ∃ c, C.stateCorr w = .ok c := by
  unfold Cfg.stateCorr
  generalize (0 : Fin 6 → ℝ) = c0
  induction List.finRange nv generalizing c0 with
  | nil => exact ⟨c0, rfl⟩
  | cons i l ih =>
    simp only [foldRes]
    by_cases hf : (C.vars i).comp.isFinite = true
    · obtain ⟨c, hc⟩ := ih c0
      exact ⟨c, by rw [if_pos hf]; exact hc⟩
    · obtain ⟨d, hd⟩ := addIdx_total (c := c0) (by simpa using hf) (w i)
      obtain ⟨c, hc⟩ := ih d
      exact ⟨c, by rw [if_neg hf, hd]; exact hc⟩

/-- Corrections add up. -/
theorem stateCorr_add {w w' : Fin nv → ℝ} {c c' : Fin 6 → ℝ} (h : C.stateCorr w = .ok c) (h' : C.stateCorr w' = .ok c') :
    C.stateCorr (fun i => w i + w' i) = .ok (c + c') := by
  obtain ⟨d, hd⟩ := stateCorr_total C fun i => w i + w' i
  rw [hd]
  congr 1
  funext j
  rw [stateCorr_ok hd, Pi.add_apply, stateCorr_ok h, stateCorr_ok h', ← Finset.sum_add_distrib]
  refine Finset.sum_congr rfl fun i _ => ?_
  split <;> simp

/-- The rule of the iterations: what holds of the first state and is kept by every correction holds of the
state on which the targeter returned. -/
theorem loop_ok {start : Craft ℝ Fr} {t0 t : Int} {fin : Bool} (I : Nat → Burn → Craft ℝ Fr → (Fin nv → ℝ) → Prop)
    (hI : ∀ it b x total δ b' c x', I it b x total → C.burnCorr t0 t b δ = .ok b' →
      C.stateCorr (fun i => (C.vars i).limited (δ i)) = .ok c → C.applyCorr x c = some x' →
      I (it + 1) b' x' fun i => total i + (C.vars i).limited (δ i)) :
    ∀ (fuel it : Nat) (prev : Option ℝ) (b : Burn) (x : Craft ℝ Fr) (total : Fin nv → ℝ) (s : Sol Fr nv no),
      I it b x total → C.loop start t0 t fin fuel it prev b x total = .ok s →
      ∃ b' x' total' ev k, k < it + fuel ∧ I k b' x' total' ∧ C.evaluate fin x' b' t = .ok ev ∧
        (∀ i, ev.met i = true) ∧ C.finish start fin total' ev k = .ok s
  | 0, _, _, _, _, _, _, _, h => by simp [Cfg.loop] at h
  | fuel + 1, it, prev, b, x, total, s, h0, h => by
    rw [Cfg.loop] at h
    obtain ⟨ev, hev, h⟩ := bind_ok.1 h
    split at h
    · rename_i hm
      exact ⟨b, x, total, ev, it, by omega, h0, hev, hm, h⟩
    · split at h
      · simp at h
      · obtain ⟨P, -, h⟩ := bind_ok.1 h
        obtain ⟨b', hb, h⟩ := bind_ok.1 h
        obtain ⟨c, hc, h⟩ := bind_ok.1 h
        obtain ⟨x', hx, h⟩ := bind_ok.1 h
        rw [orErr_ok] at hx
        obtain ⟨b2, x2, w2, ev2, k, hk, r⟩ :=
          loop_ok I hI fuel (it + 1) _ b' x' _ s (hI it b x total _ b' c x' h0 hb hc hx) h
        exact ⟨b2, x2, w2, ev2, k, by omega, r⟩

theorem evaluate_ok {fin : Bool} {x : Craft ℝ Fr} {b : Burn} {t : Int} {ev : Eval Fr nv no}
    (h : C.evaluate fin x b t = .ok ev) :
    ∃ (xf : Craft ℝ Fr) (y : Orb Fr) (bp : Option (Dual × Dual × Dual)) (w : Fin no → Dual), C.flow fin b x t = some xf ∧ C.view (orbitOf xf) = some y ∧ C.bp y = some bp ∧
      (∀ i, C.value bp y (C.objs i).param = .ok (w i)) ∧
      (∀ i j, C.jacEntry fin x b t (w i).1 (C.objs i) (C.vars j) = .ok (ev.jac i j)) ∧
      ev.xf = orbitOf xf ∧ (∀ i, ev.met i = (C.objs i).met (w i).1) ∧ ∀ i, ev.err i = (C.objs i).error (w i).1 := by
  unfold Cfg.evaluate at h
  obtain ⟨xf, h1, h⟩ := bind_ok.1 h
  obtain ⟨y, h2, h⟩ := bind_ok.1 h
  obtain ⟨bp, h3, h⟩ := bind_ok.1 h
  obtain ⟨r, h4, h⟩ := bind_ok.1 h
  rw [orErr_ok] at h1 h2 h3
  rw [seqFin_ok] at h4
  cases h
  have h5 : ∀ i, ∃ w, C.value bp y (C.objs i).param = .ok w ∧ w.1 = (r i).1 ∧
      ∀ j, C.jacEntry fin x b t w.1 (C.objs i) (C.vars j) = .ok ((r i).2 j) := by
    intro i
    obtain ⟨w, hw, hr⟩ := bind_ok.1 (h4 i)
    obtain ⟨row, hrow, hr⟩ := bind_ok.1 hr
    rw [seqFin_ok] at hrow
    cases hri : r i
    rw [hri] at hr
    cases hr
    exact ⟨w, hw, rfl, hrow⟩
  choose w hw hw1 hj using h5
  refine ⟨xf, y, bp, w, h1, h2, h3, hw, hj, rfl, fun i => ?_, fun i => ?_⟩ <;> simp [hw1]

/-- The loop of the initial guesses: the flag tells a finite burn variable, the correction is the sum of
the guesses, and every variable passed the checks. -/
theorem guess_fold (C : Cfg Fr E LF nv no) (thr : Bool) : ∀ (l : List (Fin nv)) {s s' : Burn × Bool × (Fin 6 → ℝ)},
    foldRes (C.guessOne thr) l s = .ok s' →
      (s'.2.1 = (s.2.1 || l.any fun i => (C.vars i).comp.isFinite)) ∧
      (∀ j, s'.2.2 j = s.2.2 j + (l.map fun i => if moves (C.vars i) j then (C.vars i).guess else 0).sum) ∧
      ∀ i ∈ l, (C.vars i).Valid ∧ C.frameCheck (C.vars i) = .ok () ∧
        ((C.vars i).comp.isFinite = true → thr = true)
  | [], s, s', h => by cases h; simp
  | i :: l, s, s', h => by
    simp only [foldRes] at h
    obtain ⟨d, hd, h⟩ := bind_ok.1 h
    obtain ⟨h1, h2, h3⟩ := guess_fold C thr l h
    unfold Cfg.guessOne at hd
    split at hd
    · simp at hd
    · rename_i hv
      rw [not_not] at hv
      obtain ⟨u, hu, hd⟩ := bind_ok.1 hd
      by_cases hf : (C.vars i).comp.isFinite = true
      · rw [if_pos hf] at hd
        split at hd
        · rename_i ht
          obtain ⟨b, hb, hd⟩ := bind_ok.1 hd
          cases hd
          refine ⟨by rw [h1]; simp [hf], fun j => by rw [h2 j]; simp [moves, hf], ?_⟩
          intro k hk
          rcases List.mem_cons.1 hk with rfl | hk
          · exact ⟨hv, hu, fun _ => ht⟩
          · exact h3 k hk
        · simp at hd
      · rw [if_neg hf] at hd
        obtain ⟨c, hc, hd⟩ := bind_ok.1 hd
        cases hd
        have hf' : (C.vars i).comp.isFinite = false := by simpa using hf
        refine ⟨by rw [h1]; simp [hf'], fun j => by rw [h2 j]; simp [moves, hf', addIdx_ok hc j, add_assoc], ?_⟩
        intro k hk
        rcases List.mem_cons.1 hk with rfl | hk
        · exact ⟨hv, hu, fun h => absurd h hf⟩
        · exact h3 k hk

/-- The correction of the initial guesses is the one which the solution would report for them. -/
theorem guess_corr {thr : Bool} {b : Burn} {g : Burn × Bool × (Fin 6 → ℝ)}
    (h : foldRes (C.guessOne thr) (List.finRange nv) (b, false, 0) = .ok g) :
    C.stateCorr (fun i => (C.vars i).guess) = .ok g.2.2 ∧ g.2.1 = C.isFinite := by
  obtain ⟨h1, h2, -⟩ := guess_fold C thr _ h
  constructor
  · obtain ⟨c, hc⟩ := stateCorr_total C fun i => (C.vars i).guess
    rw [hc]
    congr 1
    funext j
    rw [stateCorr_ok hc, h2 j]
    simp only [Pi.zero_apply, zero_add]
    rw [← List.ofFn_eq_map, List.sum_ofFn]
  · rw [h1, Cfg.isFinite, Bool.eq_iff_iff]
    simp

/-- What a successful run passed through. -/
theorem try_ok {x0 : Craft ℝ Fr} {t0 t : Int} {s : Sol Fr nv no} (h : C.tryAchieve x0 t0 t = .ok s)
    (I : Nat → Burn → Craft ℝ Fr → (Fin nv → ℝ) → Prop)
    (h0 : ∀ start b x c, C.prop none none x0 t0 = some start → C.stateCorr (fun i => (C.vars i).guess) = .ok c →
      (if C.isFinite then x = start else C.applyCorr start c = some x) → I 0 b x fun i => (C.vars i).guess)
    (hI : ∀ it b x total δ b' c x', I it b x total → C.burnCorr t0 t b δ = .ok b' →
      C.stateCorr (fun i => (C.vars i).limited (δ i)) = .ok c → C.applyCorr x c = some x' →
      I (it + 1) b' x' fun i => total i + (C.vars i).limited (δ i)) :
    ∃ start b x total ev, C.prop none none x0 t0 = some start ∧ I s.iterations b x total ∧
      C.evaluate C.isFinite x b t = .ok ev ∧ (∀ i, ev.met i = true) ∧ s.iterations ≤ C.iterations ∧
      (∃ c, (if C.isFinite then c = 0 else C.stateCorr total = .ok c) ∧ C.applyCorr start c = some s.corrected) ∧
      s.achieved = withOrbit start ev.xf ∧ s.correction = total ∧ s.errors = ev.err ∧ no ≠ 0 := by
  unfold Cfg.tryAchieve at h
  split at h
  · simp at h
  · rename_i hno
    obtain ⟨start, hs, h⟩ := bind_ok.1 h
    rw [orErr_ok] at hs
    obtain ⟨g, hg, h⟩ := bind_ok.1 h
    obtain ⟨x, hx, h⟩ := bind_ok.1 h
    obtain ⟨hc, hf⟩ := guess_corr hg
    rw [hf] at hx h
    obtain ⟨b', x', w', ev, k, hk, hI', hev, hm, hfin⟩ := loop_ok I hI _ 0 none g.1 x _ s
      (h0 start g.1 x g.2.2 hs hc (by
        split at hx
        · rename_i hh; cases hx; rw [if_pos hh]
        · rename_i hh; rw [if_neg hh]; exact orErr_ok.1 hx)) h
    unfold Cfg.finish at hfin
    obtain ⟨c, hc, hfin⟩ := bind_ok.1 hfin
    obtain ⟨z, hz, hfin⟩ := bind_ok.1 hfin
    rw [orErr_ok] at hz
    cases hfin
    refine ⟨start, b', x', w', ev, hs, hI', hev, hm, by simp only; omega, ⟨c, ?_, hz⟩, rfl, rfl, rfl, hno⟩
    split at hc
    · rename_i hh; cases hc; rw [if_pos hh]
    · rename_i hh; rw [if_neg hh]; exact hc

end Verif.Target
