import Verif.Traj.More
import Verif.Propagate.Examples
/-!
Iteration when interpolation fails; the hypotheses of the theorems on trajectories are met.
-/
namespace Verif.Traj
open Verif.Propagate (exEnv exFixed exFixed_drivable forDuration demo_keeps St)

variable {X E : Type}

theorem collectAt_prefix (f : Int → Res (AtErr E) (TS X)) (es : List Int) :
    ∃ p q, es = p ++ q ∧ (collectAt f es).map Res.ok = p.map f ∧
      (∀ e, q.head? = some e → ∀ s, f e ≠ .ok s) := by
  induction es with
  | nil => exact ⟨[], [], rfl, rfl, by simp⟩
  | cons e es ih =>
    obtain ⟨p, q, h1, h2, h3⟩ := ih
    cases h : f e with
    | ok s => exact ⟨e :: p, q, by rw [h1]; rfl, by simp [collectAt, h, h2], h3⟩
    | err x => exact ⟨[], e :: es, rfl, by simp [collectAt, h], by simp [h]⟩
    | panic => exact ⟨[], e :: es, rfl, by simp [collectAt, h], by simp [h]⟩

/-- **C17 (interpolation errors).** Whatever the interpolation does, iterating between two epochs with a
positive step yields the values of `at` at the epochs `max start first + k * step`, `k = 0, 1, …`, up to
the last one not after `min end last`, or up to the first one where `at` fails: an error ends the
iteration without notice. -/
theorem every_between_prefix (search : List Int → Int → Except Nat Nat)
    (interp : TS X → Int → List (TS X) → Except E (TS X)) (l : List (TS X))
    (f la : TS X) (hf : l.head? = some f) (hla : l.getLast? = some la)
    (step start end_ : Int) (hstep : 0 < step) :
    ∃ r, everyBetween search interp l step start end_ = .ok (some r) ∧
      (∀ (k : Nat) s, r[k]? = some s →
        at_ search interp l (max start f.epoch + k * step) = .ok s ∧
        max start f.epoch + k * step ≤ min end_ la.epoch) ∧
      (max start f.epoch + r.length * step ≤ min end_ la.epoch →
        ∀ s, at_ search interp l (max start f.epoch + r.length * step) ≠ .ok s) := by
  set a := max start f.epoch with ha
  set b := min end_ la.epoch with hb
  by_cases hlt : b < a
  · refine ⟨[], ?_, by simp, ?_⟩
    · unfold everyBetween
      rw [hf, hla]
      simp only [timeSeries]
      rw [if_pos hlt]
      rfl
    · intro h; simp at h; omega
  · have hser : timeSeries a b step = some ((List.range (((b - a) / step).toNat + 1)).map
        (fun (k : Nat) => a + (k : Int) * step)) := by
      unfold timeSeries
      rw [if_neg hlt, if_neg (by omega)]
    set n := ((b - a) / step).toNat + 1 with hn
    obtain ⟨p, q, h1, h2, h3⟩ := collectAt_prefix (at_ search interp l)
      ((List.range n).map (fun (k : Nat) => a + (k : Int) * step))
    have hlen : (collectAt (at_ search interp l)
      ((List.range n).map (fun (k : Nat) => a + (k : Int) * step))).length = p.length := by
      simpa using congrArg List.length h2
    have hpn : p.length ≤ n := by
      have := congrArg List.length h1
      simp at this
      omega
    have hq0 : 0 ≤ (b - a) / step := Int.ediv_nonneg (by omega) (by omega)
    have hdiv : (b - a) / step * step ≤ b - a := Int.ediv_mul_le _ (by omega)
    have hdiv2 : b - a < ((b - a) / step + 1) * step := Int.lt_ediv_add_one_mul_self _ hstep
    have hnn : (n : Int) = (b - a) / step + 1 := by omega
    have hk : ∀ k, k < n → ((List.range n).map (fun (k : Nat) => a + (k : Int) * step))[k]? =
        some (a + (k : Int) * step) := by
      intro k hk
      simp [hk]
    refine ⟨collectAt (at_ search interp l)
      ((List.range n).map (fun (k : Nat) => a + (k : Int) * step)), ?_, ?_, ?_⟩
    · unfold everyBetween
      rw [hf, hla]
      simp only
      rw [← ha, ← hb, hser]
      rfl
    · intro k s hs
      have hkp : k < p.length := by
        rw [← hlen]; exact (List.getElem?_eq_some_iff.1 hs).1
      have e1 := congrArg (fun l => l[k]?) h2
      simp only [List.getElem?_map, hs, Option.map_some] at e1
      have e2 : p[k]? = some (a + (k : Int) * step) := by
        have := hk k (by omega)
        rw [h1, List.getElem?_append_left hkp] at this
        exact this
      rw [e2] at e1
      simp only [Option.map_some, Option.some.injEq] at e1
      refine ⟨e1.symm, ?_⟩
      have : (k : Int) * step ≤ (b - a) / step * step :=
        Int.mul_le_mul_of_nonneg_right (by omega) (by omega)
      omega
    · rw [hlen]
      intro hle
      have hlt' : p.length < n := by
        by_contra hc
        have : ((b - a) / step + 1) * step ≤ p.length * step :=
          Int.mul_le_mul_of_nonneg_right (by omega) (by omega)
        omega
      have := hk p.length hlt'
      rw [h1, List.getElem?_append_right (le_refl _), Nat.sub_self] at this
      exact h3 _ (by rw [List.head?_eq_getElem?]; exact this)

/-- Three states. -/
def exL : List (TS Unit) := [⟨0, ()⟩, ⟨10, ()⟩, ⟨20, ()⟩]

theorem exL_search (e : Int) : SearchOk (exL.map TS.epoch) e (linSearch (exL.map TS.epoch) e) :=
  linSearch_ok _ _ (by decide)

/-- An interpolation that fails after 14. -/
def exInterp (s : TS Unit) (e : Int) (_ : List (TS Unit)) : Except Unit (TS Unit) :=
  if e ≤ 14 then .ok ⟨e, s.x⟩ else .error ()

theorem exL_sorted : Sorted exL := by simp [Sorted, exL]

/-- `every_between_prefix`: the iteration stops at 15, before 20. -/
example : ∃ r, everyBetween linSearch exInterp exL 5 (-3) 100 = .ok (some r) ∧
    r.map TS.epoch = [0, 5, 10] ∧
    (∀ (k : Nat) s, r[k]? = some s → at_ linSearch exInterp exL (0 + k * 5) = .ok s ∧
      (0 + k * 5 : Int) ≤ 20) := by
  obtain ⟨r, h1, h2, _⟩ := every_between_prefix linSearch exInterp exL ⟨0, ()⟩ ⟨20, ()⟩ rfl rfl 5 (-3) 100
    (by decide)
  have h : everyBetween linSearch exInterp exL 5 (-3) 100 =
      .ok (some [⟨0, ()⟩, ⟨5, ()⟩, ⟨10, ()⟩]) := by decide
  rw [h] at h1
  simp only [Res.ok.injEq, Option.some.injEq] at h1
  subst h1
  exact ⟨_, h, rfl, h2⟩

/-- An interpolation that always succeeds. -/
def exInterp' (s : TS Unit) (e : Int) (_ : List (TS Unit)) : Except Unit (TS Unit) := .ok ⟨e, s.x⟩

example : ∃ r, everyBetween linSearch exInterp' exL 7 3 100 = .ok (some r) ∧
    ∀ e, e ∈ r.map TS.epoch ↔ ∃ k : Nat, e = 3 + k * 7 ∧ e ≤ 20 := by
  obtain ⟨r, h1, _, h2, _⟩ := every_between_grid linSearch exInterp' (fun _ _ _ => ⟨_, rfl, rfl⟩) exL exL_search
    ⟨0, ()⟩ ⟨20, ()⟩ rfl rfl 7 3 100 (by decide)
  exact ⟨r, h1, h2⟩

example : ∃ r, resample linSearch exInterp' exL 7 = .ok (some r) ∧
    ∀ e, e ∈ r.map TS.epoch ↔ ∃ k : Nat, e = 0 + k * 7 ∧ e ≤ 20 := by
  obtain ⟨r, h1, _, _, h2⟩ := resample_grid linSearch exInterp' (fun _ _ _ => ⟨_, rfl, rfl⟩) exL exL_sorted
    exL_search ⟨0, ()⟩ ⟨20, ()⟩ rfl rfl 7 (by decide)
  exact ⟨r, h1, h2⟩

example : at_ linSearch exInterp' exL 10 = .ok ⟨10, ()⟩ ∧ at_ linSearch exInterp' exL 21 = .err .noData ∧
    at_ linSearch exInterp' exL 13 ≠ .panic :=
  ⟨at_stored linSearch exInterp' exL ⟨10, ()⟩ exL_sorted (by decide) (exL_search _),
   at_outside linSearch exInterp' exL 21 (Or.inr (Or.inr ⟨⟨20, ()⟩, rfl, by decide⟩)),
   at_never_panics linSearch exInterp' exL 13 (exL_search _)⟩

example : ∃ prev next : TS Unit, prev.epoch < 13 ∧ 13 < next.epoch := by
  obtain ⟨prev, next, win, _, h1, h2, _⟩ := at_brackets_partial linSearch exInterp' exL 13 (exL_search _)
    ⟨⟨0, ()⟩, ⟨20, ()⟩, rfl, rfl, by decide, by decide⟩ (by decide)
  exact ⟨prev, next, h1, h2⟩

/-- Delivered out of order. -/
example : (finalize ([⟨2, true⟩, ⟨1, false⟩] : List (TS Bool))).Perm [⟨2, true⟩, ⟨1, false⟩] :=
  (finalize_sorted_complete_partial _).2.2.2 (by decide)

example : finalize exL = exL := finalize_idem_of_sorted _ exL_sorted

/-- A backward propagation whose states are delivered in reverse order. -/
example : ∃ o, forDuration exEnv 10 (-25) exFixed = some o ∧
    Sorted (withTraj (o.sent.map ofSt).reverse (ofSt exFixed.st)) := by
  have h : ∃ o, forDuration exEnv 10 (-25) exFixed = some o := ⟨_, rfl⟩
  obtain ⟨o, h⟩ := h
  exact ⟨o, h, (for_duration_with_traj_deterministic exEnv (demo_keeps _ _ _) 10 (-25) exFixed 2
    exFixed_drivable (fun _ => le_refl _) o h _ (List.reverse_perm _)).2⟩

example : (⟨10, ()⟩ : TS Unit) ∈ filterByEpoch exL (.excluded 0) (.included 10) :=
  ((filter_by_epoch_exact exL (.excluded 0) (.included 10)).2 _).2 ⟨by decide, by
    simp [InBounds]⟩

example : (⟨10, ()⟩ : TS Unit) ∈ filterByOffset exL (.included 5) (.included 10) :=
  ((filter_by_offset_partial exL exL_sorted (.included 5) (.included 10) (by simp) (by simp) ⟨0, ()⟩ rfl).2
    _).2 ⟨by decide, by simp [InBounds]⟩

example : add (fun b : Bool => b) [⟨0, true⟩, ⟨1, true⟩] [⟨5, false⟩] = .err () :=
  add_frame_mismatch _ _ _ ⟨0, true⟩ ⟨5, false⟩ rfl rfl (by decide)

example : add (fun b : Bool => b) [⟨0, true⟩] [] = .panic := (add_empty_panics _ _).1

/-- A propellant mass of 100 kg losing 2 kg per second: at 3 s, between states at 2 s and 4 s, 8 kg less
than the 94 kg expected. -/
example : interpMass (100 + -2 * 4) 3 (0, 100 + -2 * 0) (8, 100 + -2 * 8) = 94 - 8 := by
  rw [interpMass_affine_error _ _ _ _ _ _ (by norm_num)]; norm_num

example : interpMass 50 3 (0, 50) (8, 50) = linInterp 3 (2, 50) (4, 50) := interpMass_constant_partial ..

example : (smooth 2 [5, 1, 9, 3]).length = 4 ∧ (median (winOf 2 3 [5, 1, 9, 3])).isSome :=
  ⟨(smooth_values_partial _ _).1, smooth_window_nonempty _ _ _ (by decide)⟩

end Verif.Traj
