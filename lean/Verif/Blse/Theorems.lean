import Verif.Blse.Model
import Verif.Kalman.Chol
import Mathlib.Analysis.Matrix.PosDef
/-!
C40: what the batch least squares estimator solves.
-/
namespace Verif.Blse
open Verif.Kalman Verif.Process Matrix

variable {T K Ω : Type} [DecidableEq K] {s : Nat}

/-- One scalar observation that entered the sums: measurement, type, value, reference state, matrix `M`
mapping the initial deviation to that state, row of partials, computed value, variance. -/
structure Use (T K Ω : Type) (s : Nat) where
  z : Meas T K
  k : K
  value : ℝ
  x : Nominal Ω s
  M : Matrix (Fin s) (Fin s) ℝ
  row : Fin s → ℝ
  computed : List (K × ℝ)
  R : ℝ

/-- Its row with respect to the initial state. -/
def Use.h (u : Use T K Ω s) : Fin s → ℝ := u.row ᵥ* u.M

/-- Its residual: real minus computed value. -/
def Use.res (u : Use T K Ω s) : ℝ := u.value - (look u.computed u.k).getD 0

/-- `Σ H^T W H` over scalar observations. -/
noncomputable def infoSum (l : List (Use T K Ω s)) : Matrix (Fin s) (Fin s) ℝ :=
  (l.map fun u => u.R⁻¹ • vecMulVec u.h u.h).sum

/-- `Σ H^T W y`. -/
noncomputable def normalSum (l : List (Use T K Ω s)) : Fin s → ℝ :=
  (l.map fun u => (u.R⁻¹ * u.res) • u.h).sum

/-- `Σ y^T W y`. -/
noncomputable def squareSum (l : List (Use T K Ω s)) : ℝ := (l.map fun u => u.R⁻¹ * u.res ^ 2).sum

/-- The observation is a value of the measurement `z` at the reference state `x`, as seen by its device. -/
structure Use.Valid (devices : T → Option (BDev T K Ω s)) (u : Use T K Ω s) : Prop where
  value : (u.k, some u.value) ∈ u.z.data
  device : ∃ dev, devices u.z.tracker = some dev ∧ dev.hTilde u.z u.k u.x = .ok u.row ∧
    dev.measure u.x = .ok (some u.computed) ∧ dev.variance u.k u.z.epoch = .ok u.R
  noise : 0 < u.R

/-- Sums that are the initial ones plus those of a list of observations. -/
def Sums.Extends (q q' : Sums s) (l : List (Use T K Ω s)) : Prop :=
  q'.info = q.info + infoSum l ∧ q'.normal = q.normal + normalSum l ∧ q'.sumSq = q.sumSq + squareSum l

theorem Sums.Extends.refl (q : Sums s) : Sums.Extends q q ([] : List (Use T K Ω s)) := by
  simp [Sums.Extends, infoSum, normalSum, squareSum]

theorem Sums.Extends.trans {q q' q'' : Sums s} {l l' : List (Use T K Ω s)} (h : q.Extends q' l)
    (h' : q'.Extends q'' l') : q.Extends q'' (l ++ l') := by
  obtain ⟨h1, h2, h3⟩ := h
  obtain ⟨h4, h5, h6⟩ := h'
  refine ⟨?_, ?_, ?_⟩
  · rw [h4, h1]; simp [infoSum, add_assoc]
  · rw [h5, h2]; simp [normalSum, add_assoc]
  · rw [h6, h3]; simp [squareSum, add_assoc]

/-- The types of a measurement, each with its value, that the uses of one visit must cover: all of them if
the device sees the spacecraft, none otherwise. -/
theorem useAll_spec {devices : T → Option (BDev T K Ω s)} {dev : BDev T K Ω s} {z : Meas T K}
    {x : Nominal Ω s} {M : Matrix (Fin s) (Fin s) ℝ} (hdev : devices z.tracker = some dev) :
    ∀ (l : List (K × Option ℝ)) (q q' : Sums s), (∀ e ∈ l, e ∈ z.data) →
      useAll dev z x M l q = .ok q' →
      ∃ us : List (Use T K Ω s), q.Extends q' us ∧
        (∀ u ∈ us, u.Valid devices ∧ u.z = z ∧ u.x = x ∧ u.M = M) ∧
        (dev.measure x ≠ .ok none → us.map (fun u => u.k) = l.map Prod.fst) := by
  intro l
  induction l with
  | nil =>
    intro q q' _ h
    cases h
    exact ⟨[], Sums.Extends.refl q, by simp, by simp⟩
  | cons e l ih =>
    intro q q' hl h
    obtain ⟨k, v⟩ := e
    obtain ⟨q1, h1, h2⟩ := Res.bind_eq_ok.1 h
    obtain ⟨us, hus, hv, hk⟩ := ih q1 q' (fun e he => hl e (List.mem_cons_of_mem _ he)) h2
    unfold useValue at h1
    obtain ⟨h0, hh, h1⟩ := Res.bind_eq_ok.1 h1
    obtain ⟨o, ho, h1⟩ := Res.bind_eq_ok.1 h1
    cases o with
    | none =>
      cases h1
      exact ⟨us, hus, hv, fun hne => absurd ho hne⟩
    | some comp =>
      cases v with
      | none => cases h1
      | some real =>
        obtain ⟨R, hR, h1⟩ := Res.bind_eq_ok.1 h1
        by_cases hp : 0 < R
        · rw [if_pos hp] at h1
          injection h1 with h1
          refine ⟨⟨z, k, real, x, M, h0, comp, R⟩ :: us, ?_, ?_, ?_⟩
          · refine Sums.Extends.trans (l := [⟨z, k, real, x, M, h0, comp, R⟩]) ?_ hus
            rw [← h1]
            refine ⟨?_, ?_, ?_⟩
            · simp [Sums.add, infoSum, Use.h]
            · simp [Sums.add, normalSum, Use.h, Use.res, mul_comm]
            · simp [Sums.add, squareSum, Use.res]; ring
          · intro u hu
            rcases List.mem_cons.1 hu with rfl | hu
            · exact ⟨⟨hl _ (List.mem_cons_self ..), ⟨dev, hdev, hh, ho, hR⟩, hp⟩, rfl, rfl, rfl⟩
            · exact hv u hu
          · intro hne
            simp [hk hne]
        · rw [if_neg hp] at h1; cases h1

theorem atMsr_spec {cfg : BCfg T K Ω s} {z : Meas T K} {x : Nominal Ω s} {M : Matrix (Fin s) (Fin s) ℝ}
    {q q' : Sums s} (h : atMsr cfg z x M q = .ok q') :
    ∃ us : List (Use T K Ω s), q.Extends q' us ∧
      (∀ u ∈ us, u.Valid cfg.devices ∧ u.z = z ∧ u.x = x ∧ u.M = M) ∧
      (us ≠ [] → |x.epoch - z.epoch| < cfg.precision) ∧
      (|x.epoch - z.epoch| < cfg.precision → ∀ dev, cfg.devices z.tracker = some dev →
        dev.measure x ≠ .ok none → us.map (fun u => u.k) = z.data.map Prod.fst) := by
  unfold atMsr at h
  split at h
  · rename_i hp
    cases hd : cfg.devices z.tracker with
    | none =>
      rw [hd] at h; simp only at h
      cases h
      exact ⟨[], Sums.Extends.refl q, by simp, by simp, fun _ dev h => by cases h⟩
    | some dev =>
      rw [hd] at h; simp only at h
      obtain ⟨us, h1, h2, h3⟩ := useAll_spec hd z.data q q' (fun _ h => h) h
      refine ⟨us, h1, h2, fun _ => hp, fun _ dev' h' => ?_⟩
      cases h'; exact h3
  · rename_i hp
    cases h
    exact ⟨[], Sums.Extends.refl q, by simp, by simp, fun h => absurd h hp⟩

/-! ### All the measurements -/

/-- What is assumed of the propagator: it advances the epoch by the duration asked for (C01) and leaves a
step of at least `lo` (C04). -/
structure Arrives (adv : PInst Ω s → Int → Res (PInst Ω s)) (lo : Int) : Prop where
  epoch : ∀ p d p', adv p d = .ok p' → p'.state.epoch = p.state.epoch + d
  step : ∀ p d p', adv p d = .ok p' → lo ≤ p.step → lo ≤ p'.step

/-- The measurements of the arc that are not rejected and are after `t` and after all the previous ones. -/
def fresh (t : Int) : List (Meas T K) → List (Meas T K)
  | [] => []
  | z :: l => if z.rejected = false ∧ t < z.epoch then z :: fresh z.epoch l else fresh t l

/-- A property of the state of the propagator and of the accumulated matrix that every step keeps. -/
def Kept (adv : PInst Ω s → Int → Res (PInst Ω s))
    (Inv : Nominal Ω s → Matrix (Fin s) (Fin s) ℝ → Prop) : Prop :=
  ∀ p d p' S M, Inv p.state S → adv p d = .ok p' → p'.state.stm = some M → Inv p'.state (M * S)

theorem gatherOne_spec {cfg : BCfg T K Ω s} {lo : Int} (hadv : Arrives cfg.adv lo)
    {Inv : Nominal Ω s → Matrix (Fin s) (Fin s) ℝ → Prop} (hinv : Kept cfg.adv Inv) (z : Meas T K) :
    ∀ (n : Nat) (st st' : BSt Ω s), st.inst.state.epoch = st.epoch → Inv st.inst.state st.stm →
      gatherOne cfg z n st = some (.ok st') →
      st'.inst.state.epoch = st'.epoch ∧ Inv st'.inst.state st'.stm ∧ st'.epoch = max st.epoch z.epoch ∧
      ∃ us : List (Use T K Ω s), st.sums.Extends st'.sums us ∧
        (∀ u ∈ us, u.Valid cfg.devices ∧ u.z = z ∧ |u.x.epoch - z.epoch| < cfg.precision ∧
          st.epoch < z.epoch ∧ Inv u.x u.M) ∧
        (cfg.precision = 1 → st.epoch < z.epoch → ∀ dev, cfg.devices z.tracker = some dev →
          (∀ x, dev.measure x ≠ .ok none) → us.map (fun u => u.k) = z.data.map Prod.fst) := by
  intro n
  induction n with
  | zero => intro st st' _ _ h; cases h
  | succ n ih =>
    intro st st' he hi h
    unfold gatherOne at h
    split at h
    · rename_i hle
      cases h
      refine ⟨he, hi, by omega, [], Sums.Extends.refl _, by simp, fun _ hlt => by omega⟩
    · rename_i hgt
      split at h
      · cases h
      · cases h
      · rename_i p hp
        split at h
        · cases h
        · rename_i M hM
          split at h
          · cases h
          · cases h
          · rename_i q hq
            have hpe := hadv.epoch _ _ _ hp
            obtain ⟨us, h1, h2, h2', h3⟩ := atMsr_spec hq
            have hi' := hinv _ _ _ _ _ hi hp hM
            obtain ⟨g1, gi, g2, us', g3, g4, g5⟩ := ih _ st' rfl hi' h
            have hb : p.state.epoch ≤ z.epoch := by
              rw [hpe, he]; unfold nextStep; omega
            refine ⟨g1, gi, by rw [g2]; simp only; omega, us ++ us', h1.trans g3, ?_, ?_⟩
            · intro u hu
              rcases List.mem_append.1 hu with hu | hu
              · obtain ⟨a, b, c, d⟩ := h2 u hu
                exact ⟨a, b, c ▸ h2' (List.ne_nil_of_mem hu), by omega, c ▸ d ▸ hi'⟩
              · obtain ⟨a, b, c, d, e⟩ := g4 u hu
                exact ⟨a, b, c, by omega, e⟩
            · intro hprec _ dev hd hs
              by_cases hpz : p.state.epoch = z.epoch
              · have : us' = [] := by
                  by_contra hne
                  obtain ⟨u, hu⟩ := List.exists_mem_of_ne_nil _ hne
                  obtain ⟨_, _, _, d, _⟩ := g4 u hu
                  simp only at d; omega
                rw [this, List.append_nil]
                exact h3 (by rw [hprec, hpz]; simp) dev hd (hs _)
              · have : us = [] := by
                  by_contra hne
                  have := h2' hne
                  rw [hprec] at this
                  have := abs_lt.1 this
                  omega
                rw [this, List.nil_append]
                exact g5 hprec (by simp only; omega) dev hd hs

/-- **C40 (what enters the sums).** Whatever the arc, the sums of an iteration are the identity (for the
information matrix) plus the sums over a list of valid scalar observations of measurements that are not
rejected, seen within the precision of their epoch. When epochs are matched to the nanosecond and devices
are known and always see the spacecraft, these observations are exactly, in order and once each, all the
values of the measurements strictly after the initial epoch and after all the earlier measurements: the
others are not used (missing part of the claim). `Inv` is any property of the reference state and of the
accumulated matrix kept by the steps; it holds at each observation. -/
theorem gather_uses {cfg : BCfg T K Ω s} {lo : Int} (hadv : Arrives cfg.adv lo)
    {Inv : Nominal Ω s → Matrix (Fin s) (Fin s) ℝ → Prop} (hinv : Kept cfg.adv Inv) (fuel : Nat) :
    ∀ (arc : List (Meas T K)) (st st' : BSt Ω s), st.inst.state.epoch = st.epoch →
      Inv st.inst.state st.stm → gather cfg fuel arc st = some (.ok st') →
      ∃ us : List (Use T K Ω s), st.sums.Extends st'.sums us ∧
        (∀ u ∈ us, u.Valid cfg.devices ∧ u.z ∈ fresh st.epoch arc ∧
          |u.x.epoch - u.z.epoch| < cfg.precision ∧ Inv u.x u.M) ∧
        (cfg.precision = 1 → (∀ z ∈ arc, ∃ dev, cfg.devices z.tracker = some dev ∧
            ∀ x, dev.measure x ≠ .ok none) →
          us.map (fun u => (u.z, u.k)) =
            (fresh st.epoch arc).flatMap fun z => z.data.map fun e => (z, e.1)) := by
  intro arc
  induction arc with
  | nil =>
    intro st st' _ _ h
    cases h
    exact ⟨[], Sums.Extends.refl _, by simp, by simp [fresh]⟩
  | cons z l ih =>
    intro st st' he hi h
    unfold gather at h
    split at h
    · rename_i hr
      obtain ⟨us, h1, h2, h3⟩ := ih st st' he hi h
      have hf : fresh st.epoch (z :: l) = fresh st.epoch l := by simp [fresh, hr]
      refine ⟨us, h1, ?_, ?_⟩
      · rw [hf]; exact h2
      · rw [hf]; exact fun hp hd => h3 hp fun z hz => hd z (List.mem_cons_of_mem _ hz)
    · rename_i hr
      have hr' : z.rejected = false := by simpa using hr
      split at h
      · cases h
      · rename_i st1 hg
        obtain ⟨g1, gi, g2, us, g3, g4, g5⟩ := gatherOne_spec hadv hinv z fuel st st1 he hi hg
        obtain ⟨us', h1, h2, h3⟩ := ih st1 st' g1 gi h
        refine ⟨us ++ us', g3.trans h1, ?_, ?_⟩
        · intro u hu
          by_cases hlt : st.epoch < z.epoch
          · have hf : fresh st.epoch (z :: l) = z :: fresh z.epoch l := by simp [fresh, hr', hlt]
            have h1e : st1.epoch = z.epoch := by omega
            rw [hf]
            rcases List.mem_append.1 hu with hu | hu
            · obtain ⟨a, b, c, _, d⟩ := g4 u hu
              exact ⟨a, by rw [b]; exact List.mem_cons_self .., by rw [b]; exact c, d⟩
            · obtain ⟨a, b, c⟩ := h2 u hu
              exact ⟨a, List.mem_cons_of_mem _ (h1e ▸ b), c⟩
          · have hf : fresh st.epoch (z :: l) = fresh st.epoch l := by simp [fresh, hr', hlt]
            have h1e : st1.epoch = st.epoch := by omega
            rw [hf]
            rcases List.mem_append.1 hu with hu | hu
            · obtain ⟨_, _, _, d, _⟩ := g4 u hu
              exact absurd d hlt
            · exact h1e ▸ h2 u hu
        · intro hp hd
          rw [List.map_append, h3 hp fun z hz => hd z (List.mem_cons_of_mem _ hz)]
          by_cases hlt : st.epoch < z.epoch
          · have hf : fresh st.epoch (z :: l) = z :: fresh z.epoch l := by simp [fresh, hr', hlt]
            have h1e : st1.epoch = z.epoch := by omega
            rw [hf, h1e, List.flatMap_cons]
            congr 1
            obtain ⟨dev, hdev, hs⟩ := hd z (List.mem_cons_self ..)
            have hk := g5 hp hlt dev hdev hs
            have e1 : us.map (fun u => (u.z, u.k)) = (us.map fun u => u.k).map fun k => (z, k) := by
              rw [List.map_map]
              exact List.map_congr_left fun u hu => by simp [(g4 u hu).2.1]
            rw [e1, hk, List.map_map]
            rfl
          · have hf : fresh st.epoch (z :: l) = fresh st.epoch l := by simp [fresh, hr', hlt]
            have h1e : st1.epoch = st.epoch := by omega
            have : us = [] := by
              by_contra hne
              obtain ⟨u, hu⟩ := List.exists_mem_of_ne_nil _ hne
              exact hlt (g4 u hu).2.2.2.1
            rw [hf, h1e, this]
            simp
      · rename_i hne hg
        cases h
        exact (hne st' rfl).elim

end Verif.Blse
