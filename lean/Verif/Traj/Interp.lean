import Verif.Traj.Theorems
import Verif.Traj.HermiteError
import Verif.Propagate.Model
/-!
C221: the accuracy of `Traj::at` between the stored states: nyx-core/src/md/trajectory/interpolatable.rs
(`Spacecraft::interpolate`) with the Hermite interpolation.
-/
namespace Verif.Traj
open Finset Polynomial
open Propagate (toSec)

/-- Position and velocity. -/
abbrev PosVel : Type := (Fin 3 → ℝ) × (Fin 3 → ℝ)

/-- `hermite_eval` of ANISE: times, values, derivatives at these times, and the time at which to evaluate; value and derivative. -/
abbrev HermiteEval : Type := List ℝ → List ℝ → List ℝ → ℝ → Option (ℝ × ℝ)

/-- The seconds of an epoch. Simplified: `to_et_seconds` is a rounded count of the seconds of another time scale. -/
noncomputable def secs (e : Int) : ℝ := ((toSec e : ℚ) : ℝ)

/-- The orbit part of `Spacecraft::interpolate`: each axis is interpolated with its positions and velocities.
interpolatable.rs:49-94. The propellant is `interpMass` (C20); the thrust direction, reset to `None`, is not modelled here. The arrays of
`INTERPOLATION_SAMPLES` elements would panic with more states; `at` gives at most that many (C16). -/
noncomputable def interpolate (herm : HermiteEval) (_ : TS PosVel) (epoch : Int) (states : List (TS PosVel)) : Except Unit (TS PosVel) :=
  let ts := states.map fun s => secs s.epoch
  let axis := fun k => herm ts (states.map fun s => s.x.1 k) (states.map fun s => s.x.2 k) (secs epoch)
  match axis 0 with
  | none => .error ()
  | some (x, vx) => match axis 1 with
    | none => .error ()
    | some (y, vy) => match axis 2 with
      | none => .error ()
      | some (z, vz) => .ok ⟨epoch, (![x, y, z], ![vx, vy, vz])⟩

/-- What `hermite_eval` returns at increasing times: the value and the derivative of the polynomial of degree below twice the number of times which has the given
values and derivatives. -/
def HermiteEval.Ok (herm : HermiteEval) : Prop := ∀ (ts xs vs : List ℝ) (t p v : ℝ), ts.Pairwise (· < ·) → xs.length = ts.length → vs.length = ts.length →
  herm ts xs vs t = some (p, v) → ∃ P : ℝ[X], P.degree < (2 * ts.length : ℕ) ∧
    (∀ (j : Nat) (s x y : ℝ), ts[j]? = some s → xs[j]? = some x → vs[j]? = some y → P.eval s = x ∧ P.derivative.eval s = y) ∧
    p = P.eval t ∧ v = P.derivative.eval t

theorem secs_lt {a b : Int} : secs a < secs b ↔ a < b := by
  unfold secs toSec
  rw [Rat.cast_lt, div_lt_div_iff_of_pos_right (by norm_num)]
  exact_mod_cast Iff.rfl

/-- The result of the interpolation, axis by axis. -/
theorem interpolate_axis {herm : HermiteEval} {s r : TS PosVel} {epoch : Int} {states : List (TS PosVel)} (h : interpolate herm s epoch states = .ok r) (k : Fin 3) :
    r.epoch = epoch ∧ herm (states.map fun s => secs s.epoch) (states.map fun s => s.x.1 k) (states.map fun s => s.x.2 k) (secs epoch) = some (r.x.1 k, r.x.2 k) := by
  unfold interpolate at h
  simp only at h
  split at h
  · cases h
  split at h
  · cases h
  split at h
  · cases h
  rename_i h0 _ _ _ h1 _ _ _ h2
  cases h
  refine ⟨rfl, ?_⟩
  fin_cases k
  · exact h0
  · exact h1
  · exact h2

/-- The motion of the spacecraft: `x k 0` is the position on the axis `k`, `x k j` its derivative of order `j`. The stored states are within `ε` (position) and
`ε'` (velocity) of it. -/
structure Stores (x : Fin 3 → Nat → ℝ → ℝ) (ε ε' : ℝ) (s : TS PosVel) : Prop where
  pos : ∀ k, |s.x.1 k - x k 0 (secs s.epoch)| ≤ ε
  vel : ∀ k, |s.x.2 k - x k 1 (secs s.epoch)| ≤ ε'

/-- The error of the interpolation over one window. -/
theorem interpolate_error {herm : HermiteEval} (hh : herm.Ok) {x : Fin 3 → Nat → ℝ → ℝ} {A B κ M ε ε' : ℝ} {win : List (TS PosVel)} (hsort : Sorted win)
    (hn : 1 ≤ win.length) (hst : ∀ s ∈ win, Stores x ε ε' s) (hsp : Spread (win.map fun s => secs s.epoch).toFinset A B κ)
    (hx : ∀ k, Derivs (x k) (2 * win.length) A B) (hM : ∀ k, ∀ s ∈ Set.Icc A B, |x k (2 * win.length) s| ≤ M) (hε : 0 ≤ ε) (hε' : 0 ≤ ε')
    {s r : TS PosVel} {epoch : Int} (ht : secs epoch ∈ Set.Icc A B) (h : interpolate herm s epoch win = .ok r) (k : Fin 3) :
    |r.x.1 k - x k 0 (secs epoch)| ≤ M * (B - A) ^ (2 * win.length) / (2 * win.length).factorial + amplification win.length κ * (ε + (B - A) * ε') ∧
    (B - A) * |r.x.2 k - x k 1 (secs epoch)| ≤
      M * (B - A) ^ (2 * win.length) / (2 * win.length - 1).factorial + amplification win.length κ * (ε + (B - A) * ε') := by
  have hpw : (win.map fun s => secs s.epoch).Pairwise (· < ·) := by
    rw [List.pairwise_map]
    exact hsort.imp fun h => secs_lt.2 h
  have hcard : (win.map fun s => secs s.epoch).toFinset.card = win.length := by
    rw [List.toFinset_card_of_nodup (hpw.imp fun h => h.ne), List.length_map]
  obtain ⟨P, hd, hP, e1, e2⟩ := hh _ _ _ _ _ _ hpw (by simp) (by simp) (interpolate_axis h k).2
  rw [List.length_map] at hd
  have hnode : ∀ u ∈ (win.map fun s => secs s.epoch).toFinset, |P.eval u - x k 0 u| ≤ ε ∧ |P.derivative.eval u - x k 1 u| ≤ ε' := by
    intro u hu
    rw [List.mem_toFinset, List.mem_map] at hu
    obtain ⟨w, hw, rfl⟩ := hu
    obtain ⟨j, hj, e⟩ := List.getElem_of_mem hw
    have hj' : win[j]? = some w := by rw [List.getElem?_eq_getElem hj, e]
    obtain ⟨p1, p2⟩ := hP j (secs w.epoch) (w.x.1 k) (w.x.2 k) (by simp [hj']) (by simp [hj']) (by simp [hj'])
    rw [p1, p2]
    exact ⟨(hst w hw).pos k, (hst w hw).vel k⟩
  rw [e1, e2]
  have := hermite_error (F := x k) (M := M) (by rw [hcard]; exact hn) hsp (by rw [hcard]; exact hx k) (by rw [hcard]; exact hM k) (by rw [hcard]; exact hd) hε hε'
    (fun u hu => (hnode u hu).1) (fun u hu => (hnode u hu).2) ht
  rw [hcard] at this
  exact this

/-- The stored states are between `g` and `G` seconds apart. -/
def Gaps (g G : ℝ) (l : List (TS PosVel)) : Prop := ∀ (j : Nat) (a b : TS PosVel), l[j]? = some a → l[j + 1]? = some b →
  g ≤ secs b.epoch - secs a.epoch ∧ secs b.epoch - secs a.epoch ≤ G

theorem Gaps.span {g G : ℝ} {l : List (TS PosVel)} (h : Gaps g G l) : ∀ (d j : Nat) (a b : TS PosVel), l[j]? = some a → l[j + d]? = some b →
    d * g ≤ secs b.epoch - secs a.epoch ∧ secs b.epoch - secs a.epoch ≤ d * G := by
  intro d
  induction d with
  | zero =>
    intro j a b ha hb
    rw [Nat.add_zero, ha] at hb
    cases hb
    simp
  | succ d ih =>
    intro j a b ha hb
    have hlt : j + d < l.length := by
      have := (List.getElem?_eq_some_iff.1 hb).1
      omega
    obtain ⟨c, hc⟩ : ∃ c, l[j + d]? = some c := ⟨_, List.getElem?_eq_getElem hlt⟩
    obtain ⟨h1, h2⟩ := ih j a c ha hc
    obtain ⟨h3, h4⟩ := h (j + d) c b hc (by rw [show j + d + 1 = j + (d + 1) by omega]; exact hb)
    push_cast
    constructor <;> linarith

theorem window_size (len idx : Nat) (h0 : 0 < idx) (h1 : idx < len) :
    min 12 len ≤ (window len idx).2 - (window len idx).1 ∧ (window len idx).2 - 1 - min (window len idx).1 (idx - 1) ≤ 12 ∧
    2 ≤ (window len idx).2 - (window len idx).1 := by
  unfold window samples
  simp only
  split <;> simp only <;> omega

/-- **C221.** The states of a trajectory are stored `g` to `G` seconds apart, within `ε` and `ε'` of a motion with 26 derivatives, bounded by `M`, over the
span of the trajectory. Whatever the epoch, stored or not, the state returned by `at` is at this epoch; its position and its velocity are within the errors of the
Hermite interpolation with some number `n` of states, 12 or 13 of them if the trajectory has that many. -/
theorem at_error {search : List Int → Int → Except Nat Nat} {herm : HermiteEval} (hh : herm.Ok) {x : Fin 3 → Nat → ℝ → ℝ} {g G M ε ε' : ℝ} (hg : 0 < g)
    {l : List (TS PosVel)} (hsort : Sorted l) (hgap : Gaps g G l) (hgG : g ≤ G) (hst : ∀ s ∈ l, Stores x ε ε' s) {T₀ T₁ : ℝ} (hT : ∀ s ∈ l, secs s.epoch ∈ Set.Icc T₀ T₁)
    (hx : ∀ k, Derivs (x k) 26 T₀ T₁) (hM : ∀ k, ∀ j ≤ 26, ∀ s ∈ Set.Icc T₀ T₁, |x k j s| ≤ M) (hε : 0 ≤ ε) (hε' : 0 ≤ ε') {epoch : Int}
    (hs : SearchOk (l.map TS.epoch) epoch (search (l.map TS.epoch) epoch)) {r : TS PosVel} (h : at_ search (interpolate herm) l epoch = .ok r) :
    r.epoch = epoch ∧ ∃ n : Nat, min 12 l.length ≤ n ∧ n ≤ 13 ∧ ∀ k,
      |r.x.1 k - x k 0 (secs epoch)| ≤ M * (12 * G) ^ (2 * n) / (2 * n).factorial + amplification n (12 * G / g) * (ε + 12 * G * ε') ∧
      |r.x.2 k - x k 1 (secs epoch)| ≤ M * (12 * G) ^ (2 * n - 1) / (2 * n - 1).factorial + amplification n (12 * G / g) * (ε / g + ε') := by
  have hG : 0 < G := hg.trans_le hgG
  have hκ : 1 ≤ 12 * G / g := by rw [le_div_iff₀ hg]; linarith
  rcases at_spec search (interpolate herm) l epoch hs with ⟨he, -⟩ | ⟨t, ht, he, hat⟩ | ⟨idx, t, h0, h1, ht, ha, hb, hat⟩
  · rw [he] at h
    cases h
  · rw [hat] at h
    cases h
    subst he
    have hl : 1 ≤ l.length := List.length_pos_of_mem ht
    refine ⟨rfl, min 12 l.length, le_rfl, by omega, fun k => ?_⟩
    have hn : 1 ≤ min 12 l.length := by omega
    have hamp : 1 ≤ amplification (min 12 l.length) (12 * G / g) := by
      unfold amplification
      have a1 : (1 : ℝ) ≤ (min 12 l.length : ℕ) ^ 3 := one_le_pow₀ (by exact_mod_cast hn)
      have a2 : (1 : ℝ) ≤ (12 * G / g) ^ (3 * min 12 l.length) := one_le_pow₀ hκ
      nlinarith
    have hM0 : 0 ≤ M := (abs_nonneg _).trans (hM k 0 (by norm_num) _ (hT _ ht))
    constructor
    · refine ((hst _ ht).pos k).trans ?_
      have : 0 ≤ M * (12 * G) ^ (2 * min 12 l.length) / (2 * min 12 l.length).factorial := by positivity
      have : 0 ≤ 12 * G * ε' := by positivity
      nlinarith
    · refine ((hst _ ht).vel k).trans ?_
      have : 0 ≤ M * (12 * G) ^ (2 * min 12 l.length - 1) / (2 * min 12 l.length - 1).factorial := by positivity
      have : 0 ≤ ε / g := by positivity
      nlinarith
  · obtain ⟨w1, w2, w3, w4, -⟩ := window_in_range _ _ h0 h1
    obtain ⟨w6, w7, w8⟩ := window_size _ _ h0 h1
    generalize hwf : (window l.length idx).1 = wf at *
    generalize hwl : (window l.length idx).2 = wl at *
    obtain ⟨win, hwin⟩ : ∃ win, win = (l.drop wf).take (wl - wf) := ⟨_, rfl⟩
    rw [← hwin] at hat
    have hlen : win.length = wl - wf := by rw [hwin, List.length_take, List.length_drop]; omega
    have hsub : win.Sublist l := by rw [hwin]; exact (List.take_sublist _ _).trans (List.drop_sublist _ _)
    have hwsort : Sorted win := List.Pairwise.sublist hsub hsort
    have hat' : interpolate herm t epoch win = .ok r := by
      rw [h] at hat
      split at hat
      · rename_i r' hr
        cases hat
        exact hr
      · cases hat
    have hget : ∀ j, j < l.length → ∃ s, l[j]? = some s := fun j hj => ⟨_, List.getElem?_eq_getElem hj⟩
    have hmem : ∀ w ∈ win, ∃ j, wf ≤ j ∧ j < wl ∧ l[j]? = some w := by
      intro w hw
      obtain ⟨j, hj, e⟩ := List.getElem_of_mem hw
      have hj' : win[j]? = some w := by rw [List.getElem?_eq_getElem hj, e]
      rw [hwin, List.getElem?_take, if_pos (by omega), List.getElem?_drop] at hj'
      exact ⟨wf + j, by omega, by omega, hj'⟩
    obtain ⟨lo, hlo⟩ : ∃ lo, lo = min wf (idx - 1) := ⟨_, rfl⟩
    rw [← hlo] at w7
    obtain ⟨sA, hA⟩ := hget lo (by omega)
    obtain ⟨sB, hB⟩ := hget (wl - 1) (by omega)
    obtain ⟨sp, hsp⟩ := hget (idx - 1) (by omega)
    have hspan : ∀ (j k : Nat) a b, j ≤ k → l[j]? = some a → l[k]? = some b →
        ((k - j : ℕ) : ℝ) * g ≤ secs b.epoch - secs a.epoch ∧ secs b.epoch - secs a.epoch ≤ ((k - j : ℕ) : ℝ) * G := by
      intro j k a b hjk hja hkb
      exact hgap.span (k - j) j a b hja (by rw [Nat.add_sub_cancel' hjk]; exact hkb)
    have hmono : ∀ (j k : Nat) a b, j ≤ k → l[j]? = some a → l[k]? = some b → secs a.epoch ≤ secs b.epoch := by
      intro j k a b hjk hja hkb
      have := (hspan j k a b hjk hja hkb).1
      have : (0 : ℝ) ≤ ((k - j : ℕ) : ℝ) * g := by positivity
      linarith
    obtain ⟨A, hAd⟩ : ∃ A, A = secs sA.epoch := ⟨_, rfl⟩
    obtain ⟨B, hBd⟩ : ∃ B, B = secs sB.epoch := ⟨_, rfl⟩
    have hAB := hspan lo (wl - 1) sA sB (by omega) hA hB
    rw [← hAd, ← hBd] at hAB
    have hWG : B - A ≤ 12 * G := by
      refine hAB.2.trans ?_
      have : ((wl - 1 - lo : ℕ) : ℝ) ≤ 12 := by exact_mod_cast w7
      gcongr
    have hWg : g ≤ B - A := by
      refine le_trans ?_ hAB.1
      have : (1 : ℝ) ≤ ((wl - 1 - lo : ℕ) : ℝ) := by exact_mod_cast (by omega : 1 ≤ wl - 1 - lo)
      nlinarith
    have hsubT : ∀ u ∈ Set.Icc A B, u ∈ Set.Icc T₀ T₁ := fun u hu => by
      have h1 := (hT sA (List.mem_of_getElem? hA)).1
      have h2 := (hT sB (List.mem_of_getElem? hB)).2
      rw [← hAd] at h1
      rw [← hBd] at h2
      exact ⟨h1.trans hu.1, hu.2.trans h2⟩
    have hspread : Spread (win.map fun s => secs s.epoch).toFinset A B (12 * G / g) := by
      refine ⟨by linarith, ?_, ?_, hκ⟩
      · intro u hu
        rw [List.mem_toFinset, List.mem_map] at hu
        obtain ⟨w, hw, rfl⟩ := hu
        obtain ⟨j, j1, j2, j3⟩ := hmem w hw
        rw [hAd, hBd]
        exact ⟨hmono lo j sA w (by omega) hA j3, hmono j (wl - 1) w sB (by omega) j3 hB⟩
      · intro u hu v hv huv
        rw [List.mem_toFinset, List.mem_map] at hu hv
        obtain ⟨w, hw, rfl⟩ := hu
        obtain ⟨w', hw', rfl⟩ := hv
        obtain ⟨j, j1, j2, j3⟩ := hmem w hw
        obtain ⟨j', k1, k2, k3⟩ := hmem w' hw'
        have hne : j ≠ j' := by
          rintro rfl
          rw [j3] at k3
          cases k3
          exact huv rfl
        have hfar : g ≤ |secs w.epoch - secs w'.epoch| := by
          rcases lt_or_gt_of_ne hne with hlt | hlt
          · have := (hspan j j' w w' hlt.le j3 k3).1
            have h1 : (1 : ℝ) ≤ ((j' - j : ℕ) : ℝ) := by exact_mod_cast (by omega : 1 ≤ j' - j)
            rw [abs_sub_comm]
            exact le_trans (by nlinarith) (le_abs_self _)
          · have := (hspan j' j w' w hlt.le k3 j3).1
            have h1 : (1 : ℝ) ≤ ((j - j' : ℕ) : ℝ) := by exact_mod_cast (by omega : 1 ≤ j - j')
            exact le_trans (by nlinarith) (le_abs_self _)
        calc B - A ≤ 12 * G := hWG
          _ = 12 * G / g * g := by field_simp
          _ ≤ 12 * G / g * |secs w.epoch - secs w'.epoch| := by gcongr
    have htAB : secs epoch ∈ Set.Icc A B := by
      rw [hAd, hBd]
      have h2 := secs_lt.2 (ha (idx - 1) sp (by omega) hsp)
      have h3 := secs_lt.2 (hb idx t le_rfl ht)
      exact ⟨(hmono lo (idx - 1) sA sp (by omega) hA hsp).trans h2.le, h3.le.trans (hmono idx (wl - 1) t sB (by omega) ht hB)⟩
    have hn13 : win.length ≤ 13 := by omega
    refine ⟨(interpolate_axis hat' 0).1, win.length, by omega, hn13, fun k => ?_⟩
    obtain ⟨r1, r2⟩ := interpolate_error hh (κ := 12 * G / g) (M := M) hwsort (by omega) (fun s hs => hst s (hsub.subset hs)) hspread
      (fun k j hj u hu => hx k j (by omega) u (hsubT u hu)) (fun k u hu => hM k _ (by omega) u (hsubT u hu)) hε hε' htAB hat' k
    have hW0 : 0 < B - A := by linarith
    have hM0 : 0 ≤ M := (abs_nonneg _).trans (hM k 0 (by norm_num) _ (hT _ (List.mem_of_getElem? hA)))
    have hamp : 0 ≤ amplification win.length (12 * G / g) := by unfold amplification; positivity
    constructor
    · refine r1.trans ?_
      gcongr
    · have e : M * (B - A) ^ (2 * win.length) / (2 * win.length - 1).factorial + amplification win.length (12 * G / g) * (ε + (B - A) * ε') =
          (B - A) * (M * (B - A) ^ (2 * win.length - 1) / (2 * win.length - 1).factorial + amplification win.length (12 * G / g) * (ε / (B - A) + ε')) := by
        have : (B - A) ^ (2 * win.length) = (B - A) ^ (2 * win.length - 1) * (B - A) := by rw [← pow_succ, Nat.sub_add_cancel (by omega)]
        rw [this]
        field_simp
      rw [e] at r2
      refine (le_of_mul_le_mul_left r2 hW0).trans ?_
      gcongr

end Verif.Traj
