import Verif.Device.Builder
import Verif.Noise.Stats
/-!
C123: instantaneous measurements of a ground station. C124: measurements over an integration time.
C127: constant biases in the filters.
-/
namespace Verif.Device
open Verif.Noise Verif.Spacecraft MeasureTheory
open Verif.Mc (Out)

variable {S Fr : Type}

/-! ### Lemmas -/

theorem bind_ok {α β : Type} {x : Out α} {f : α → Out β} {b : β} :
    x.bind f = .ok b ↔ ∃ a, x = .ok a ∧ f a = .ok b := by
  cases x <;> simp [Out.bind]

theorem elim_err {α β : Type} {x : Option α} {f : α → Out β} {b : β} :
    x.elim .err f = .ok b ↔ ∃ a, x = some a ∧ f a = .ok b := by
  cases x <;> simp

theorem upsert_new {α : Type} {k : MsrType} {v : α} {d : List (MsrType × α)} (h : k ∉ d.map Prod.fst) :
    upsert k v d = d ++ [(k, v)] := by
  induction d with
  | nil => rfl
  | cons p l ih =>
    rw [List.map_cons, List.mem_cons, not_or] at h
    rw [upsert, if_neg (Ne.symm h.1), ih h.2]
    rfl

/-- The map filled has the types in order, each with the value computed from its own noise. -/
theorem fill_ok {f : MsrType → ℝ → Out ℝ} : ∀ {ks : List MsrType} {ns : List ℝ} {d d' : List (MsrType × ℝ)},
    ks.Nodup → (∀ k ∈ ks, k ∉ d.map Prod.fst) → fill f ks ns d = .ok d' →
    ∃ vs : List ℝ, vs.length = ks.length ∧ d' = d ++ ks.zip vs ∧
      ∀ (i : Nat) k, ks[i]? = some k → ∃ n v, ns[i]? = some n ∧ vs[i]? = some v ∧ f k n = .ok v
  | [], _, d, d', _, _, h => by
    cases h
    exact ⟨[], rfl, by simp, by simp⟩
  | _ :: _, [], _, _, _, _, h => by cases h
  | k :: ks, n :: ns, d, d', hn, hd, h => by
    rw [List.nodup_cons] at hn
    obtain ⟨v, hv, h⟩ := bind_ok.1 h
    rw [upsert_new (hd k List.mem_cons_self)] at h
    obtain ⟨vs, h1, h2, h3⟩ := fill_ok hn.2 (by
      intro j hj hc
      simp only [List.map_append, List.map_cons, List.map_nil, List.mem_append, List.mem_singleton] at hc
      rcases hc with hc | hc
      · exact hd j (List.mem_cons_of_mem _ hj) hc
      · subst hc
        exact hn.1 hj) h
    refine ⟨v :: vs, by simp [h1], by rw [h2]; simp, ?_⟩
    intro i j hj
    cases i with
    | zero => cases hj; exact ⟨n, v, rfl, rfl, hv⟩
    | succ i => exact h3 i j hj

theorem fill_total {f : MsrType → ℝ → Out ℝ} {ks₀ : List MsrType} (hf : ∀ k n, ∃ v, k ∈ ks₀ → f k n = .ok v) :
    ∀ {ks : List MsrType} {ns : List ℝ} {d : List (MsrType × ℝ)}, (∀ k ∈ ks, k ∈ ks₀) → ns.length = ks.length →
    ∃ d', fill f ks ns d = .ok d'
  | [], _, d, _, _ => ⟨d, rfl⟩
  | _ :: _, [], _, _, h => by simp at h
  | k :: ks, n :: ns, d, hk, h => by
    obtain ⟨v, hv⟩ := hf k n
    rw [fill, hv (hk k List.mem_cons_self)]
    exact fill_total hf (fun j hj => hk j (List.mem_cons_of_mem _ hj)) (by simpa using h)

/-- Specification: the state of the generator before the noise of the type of index `i`: the noises of the
types before it have been sampled in order. -/
noncomputable def stateBefore (g : Rng S) (t : Int) (m : List (MsrType × Stoch)) (ks : List MsrType) (i : Nat) (s : S) :
    S := (ks.take i).foldl (fun s k => (find k m).elim s fun n => (n.sample g t s).2.2) s

theorem foldl_upsert {g : Rng S} {t : Int} {m : List (MsrType × Stoch)} {k : MsrType} {n' : Stoch} :
    ∀ (l : List MsrType) (s : S), k ∉ l →
    l.foldl (fun s j => (find j (upsert k n' m)).elim s fun n => (n.sample g t s).2.2) s =
    l.foldl (fun s j => (find j m).elim s fun n => (n.sample g t s).2.2) s
  | [], _, _ => rfl
  | j :: l, s, h => by
    rw [List.mem_cons, not_or] at h
    rw [List.foldl_cons, List.foldl_cons, foldl_upsert l _ h.2, find_upsert, if_neg (Ne.symm h.1)]

theorem sampleAll_spec {g : Rng S} {t : Int} : ∀ {ks : List MsrType} {m : List (MsrType × Stoch)} {s : S}
    {q : List ℝ × List (MsrType × Stoch) × S}, ks.Nodup → sampleAll g t ks m s = some q →
    q.1.length = ks.length ∧ (∀ j, j ∉ ks → find j q.2.1 = find j m) ∧ q.2.2 = stateBefore g t m ks ks.length s ∧
    ∀ (i : Nat) k, ks[i]? = some k → ∃ n, find k m = some n ∧
      q.1[i]? = some (n.sample g t (stateBefore g t m ks i s)).1 ∧
      find k q.2.1 = some (n.sample g t (stateBefore g t m ks i s)).2.1
  | [], m, s, q, _, h => by
    cases h
    exact ⟨rfl, fun _ _ => rfl, rfl, by simp⟩
  | k :: ks, m, s, q, hn, h => by
    rw [List.nodup_cons] at hn
    rw [sampleAll] at h
    cases hf : find k m with
    | none => rw [hf] at h; cases h
    | some n =>
      rw [hf, Option.bind_some, Option.map_eq_some_iff] at h
      obtain ⟨r, hr, rfl⟩ := h
      obtain ⟨h1, h2, h3, h4⟩ := sampleAll_spec hn.2 hr
      have hst : ∀ i, stateBefore g t m (k :: ks) (i + 1) s =
          stateBefore g t (upsert k (n.sample g t s).2.1 m) ks i (n.sample g t s).2.2 := by
        intro i
        unfold stateBefore
        rw [List.take_succ_cons, List.foldl_cons, hf, foldl_upsert _ _ fun hc => hn.1 (List.mem_of_mem_take hc)]
        rfl
      refine ⟨by simp [h1], ?_, ?_, ?_⟩
      · intro j hj
        rw [List.mem_cons, not_or] at hj
        rw [h2 j hj.2, find_upsert, if_neg hj.1]
      · rw [List.length_cons, hst]
        exact h3
      · intro i j hj
        cases i with
        | zero =>
          cases hj
          refine ⟨n, hf, rfl, ?_⟩
          show find k r.2.1 = _
          rw [h2 k hn.1, find_upsert, if_pos rfl]
          rfl
        | succ i =>
          obtain ⟨n', e1, e2, e3⟩ := h4 i j hj
          have hjk : j ≠ k := by
            rintro rfl
            exact hn.1 (List.mem_of_getElem? hj)
          rw [find_upsert, if_neg hjk] at e1
          refine ⟨n', e1, ?_, ?_⟩
          · rw [hst]; exact e2
          · rw [hst]; exact e3

theorem sampleAll_total {g : Rng S} {t : Int} : ∀ {ks : List MsrType} {m : List (MsrType × Stoch)} {s : S},
    (∀ k ∈ ks, k ∈ m.map Prod.fst) → ∃ q, sampleAll g t ks m s = some q
  | [], m, s, _ => ⟨_, rfl⟩
  | k :: ks, m, s, h => by
    obtain ⟨n, hn⟩ := Option.isSome_iff_exists.1 (find_isSome.2 (h k List.mem_cons_self))
    obtain ⟨q, hq⟩ := sampleAll_total (g := g) (t := t) (ks := ks) (m := upsert k (n.sample g t s).2.1 m)
      (s := (n.sample g t s).2.2) (fun j hj => by
        rw [keys_upsert, mem_insertSet]
        exact Or.inr (h j (List.mem_cons_of_mem _ hj)))
    exact ⟨_, by rw [sampleAll, hn, Option.bind_some, hq]; rfl⟩

/-- Specification: what the noises of a station are. Without generator they are zero and nothing changes.
With a generator, the noise of the timestamp is drawn first, then those of the types in order; the noise
processes of the types are kept as left by their sample. -/
def NoisesDrawn (g : Rng S) (st : Station) (t : Int) (rng : Option S) (stamp : ℝ) (ns : List ℝ) (st' : Station)
    (rng' : Option S) : Prop :=
  match rng with
  | none => stamp = 0 ∧ ns = List.replicate st.types.length 0 ∧ st' = st ∧ rng' = none
  | some s => ∃ m s1, st.noises = some m ∧
      (st.stamp = none → stamp = 0 ∧ s1 = s) ∧
      (∀ n, st.stamp = some n → stamp = (n.sample g t s).1 ∧ s1 = (n.sample g t s).2.2) ∧
      ns.length = st.types.length ∧ rng' = some (stateBefore g t m st.types st.types.length s1) ∧
      st'.name = st.name ∧ st'.types = st.types ∧ st'.integ = st.integ ∧ st'.stamp = st.stamp ∧
      ∃ m', st'.noises = some m' ∧ (∀ j, j ∉ st.types → find j m' = find j m) ∧
      ∀ (i : Nat) k, st.types[i]? = some k → ∃ n, find k m = some n ∧
        ns[i]? = some (n.sample g t (stateBefore g t m st.types i s1)).1 ∧
        find k m' = some (n.sample g t (stateBefore g t m st.types i s1)).2.1

theorem noisesAt_spec {g : Rng S} {st : Station} (hn : st.types.Nodup) {t : Int} {rng : Option S}
    {q : (ℝ × List ℝ) × Station × Option S} (h : st.noisesAt g t rng = .ok q) :
    NoisesDrawn g st t rng q.1.1 q.1.2 q.2.1 q.2.2 := by
  unfold Station.noisesAt at h
  cases rng with
  | none => cases h; exact ⟨rfl, rfl, rfl, rfl⟩
  | some s =>
    rw [Option.elim_some] at h
    obtain ⟨m, hm, h⟩ := elim_err.1 h
    obtain ⟨r, hr, h⟩ := elim_err.1 h
    cases h
    obtain ⟨h1, h2, h3, h4⟩ := sampleAll_spec hn hr
    refine ⟨m, (stampNoise g t st.stamp s).2, hm, ?_, ?_, h1, ?_, rfl, rfl, rfl, rfl, r.2.1, rfl, h2, h4⟩
    · intro e; rw [e]; exact ⟨rfl, rfl⟩
    · intro n e; rw [e]; exact ⟨rfl, rfl⟩
    · rw [← h3]

theorem noisesAt_total (g : Rng S) {st : Station} (hc : Consistent st) (t : Int) (rng : Option S)
    (h : rng.isSome → st.noises.isSome) : ∃ q, st.noisesAt g t rng = .ok q := by
  unfold Station.noisesAt
  cases rng with
  | none => exact ⟨_, rfl⟩
  | some s =>
    obtain ⟨m, hm⟩ := Option.isSome_iff_exists.1 (h rfl)
    rw [Option.elim_some, hm, Option.elim_some]
    obtain ⟨q, hq⟩ := sampleAll_total (g := g) (t := t) (ks := st.types) (m := m)
      (s := (stampNoise g t st.stamp s).2) (fun k hk => by
        have := (hc.same k).1 hk
        rwa [hm] at this)
    rw [hq]
    exact ⟨_, rfl⟩

/-! ### C123 -/

/-- Specification: what a station can observe directly. -/
def seen (a : Aer) : MsrType → Option ℝ
  | .range => some a.range
  | .doppler => some a.rate
  | .azimuth => some a.az
  | .elevation => some a.el
  | _ => none

theorem oneWay_seen (k : MsrType) (a : Aer) (n : ℝ) : oneWay k a n = (seen a k).map (· + n) := by
  cases k <;> rfl

/-- C123. What an instantaneous measurement is. If the spacecraft is below the mask or obstructed there is
none, and neither the station nor the generator changes. Otherwise the measurement is labelled with the
station and the epoch of the state plus the noise of the timestamp; it has the enabled types, in order and no
other, each with the value seen plus its noise; noises are drawn as specified by `NoisesDrawn` (all zero
without a generator). -/
theorem instant_measurement (g : Rng S) (durOf : ℝ → Int) (aer : Craft ℝ Fr → Option Aer) (st st' : Station)
    (hst : Built st) (rx : Craft ℝ Fr) (rng rng' : Option S) (msr : Option Msr)
    (h : st.instant g durOf aer rx rng = .ok (msr, st', rng')) :
    ∃ a, aer rx = some a ∧
      ((a.mask < 0 ∨ a.obstructed = true) → msr = none ∧ st' = st ∧ rng' = rng) ∧
      (0 ≤ a.mask → a.obstructed = false → ∃ stamp ns vs, NoisesDrawn g st rx.epoch rng stamp ns st' rng' ∧
        msr = some ⟨st.name, rx.epoch + durOf stamp, st.types.zip vs, false⟩ ∧ vs.length = st.types.length ∧
        ∀ (i : Nat) k, st.types[i]? = some k → ∃ n v, ns[i]? = some n ∧ seen a k = some v ∧ vs[i]? = some (v + n)) := by
  have hn := (built_consistent hst).types
  obtain ⟨a, ha, h⟩ := elim_err.1 h
  refine ⟨a, ha, ?_, ?_⟩
  · intro hc
    rw [if_neg] at h
    · cases h; exact ⟨rfl, rfl, rfl⟩
    · rintro ⟨h1, h2⟩
      rcases hc with hc | hc
      · linarith
      · rw [hc] at h2; cases h2
  · intro h1 h2
    rw [if_pos ⟨h1, h2⟩] at h
    obtain ⟨q, hq, h⟩ := bind_ok.1 h
    obtain ⟨d, hd, h⟩ := bind_ok.1 h
    cases h
    obtain ⟨vs, e1, e2, e3⟩ := fill_ok hn (by simp) hd
    refine ⟨q.1.1, q.1.2, vs, noisesAt_spec hn hq, by rw [e2]; rfl, e1, ?_⟩
    intro i k hk
    obtain ⟨n, v, f1, f2, f3⟩ := e3 i k hk
    rw [oneWayOut, oneWay_seen] at f3
    cases hs : seen a k with
    | none => rw [hs] at f3; cases f3
    | some w =>
      rw [hs] at f3
      cases f3
      exact ⟨n, w, f1, rfl, f2⟩

/-- C123. An instantaneous measurement never panics, and it fails only if the ephemerides do, or if the
spacecraft is visible and a type is enabled which a station cannot observe, or a generator is given and the
station never had a noise. -/
theorem instant_total (g : Rng S) (durOf : ℝ → Int) (aer : Craft ℝ Fr → Option Aer) (st : Station)
    (hst : Built st) (rx : Craft ℝ Fr) (rng : Option S) (a : Aer) (ha : aer rx = some a)
    (hk : ∀ k ∈ st.types, k = .range ∨ k = .doppler ∨ k = .azimuth ∨ k = .elevation)
    (hr : rng.isSome → st.noises.isSome) : ∃ r, st.instant g durOf aer rx rng = .ok r := by
  unfold Station.instant
  rw [ha, Option.elim_some]
  split
  · obtain ⟨q, hq⟩ := noisesAt_total g (built_consistent hst) rx.epoch rng hr
    have hlen : q.1.2.length = st.types.length := by
      have := noisesAt_spec (built_consistent hst).types hq
      cases rng with
      | none => rw [this.2.1]; simp
      | some s => obtain ⟨m, s1, -, -, -, h, -⟩ := this; exact h
    obtain ⟨d, hd⟩ := fill_total (ks₀ := st.types) (f := oneWayOut a) (d := []) (fun k n => by
      by_cases hm : k ∈ st.types
      · rcases hk k hm with rfl | rfl | rfl | rfl <;> exact ⟨_, fun _ => rfl⟩
      · exact ⟨0, fun hc => absurd hc hm⟩) (fun _ h => h) hlen
    exact ⟨_, bind_ok.2 ⟨q, hq, bind_ok.2 ⟨d, hd, rfl⟩⟩⟩
  · exact ⟨_, rfl⟩

/-! ### C124 -/

theorem twoWay_seen (k : MsrType) (a0 a1 : Aer) (n : ℝ) :
    twoWay k a0 a1 n = (seen a0 k).bind fun v0 => (seen a1 k).map fun v1 => (v0 + v1) / 2 + n / Real.sqrt 2 := by
  cases k <;> simp only [twoWay, seen, Option.bind_some, Option.map_some, Option.bind_none] <;>
    norm_num <;> ring

/-- C124. What a measurement over an integration time is: the epoch is that of its end, each value is the
mean of what is seen at both ends plus its noise divided by the square root of two, the noises are drawn at
the middle; there is none when the trajectory does not have both ends or when the spacecraft is hidden at
one of them, and then neither the station nor the generator changes.
Missing: the variance of the noise is not that declared (`integrated_variance`), nor the azimuth the middle
(`azimuth_through_north`). -/
theorem integrated_measurement_partial (g : Rng S) (durOf : ℝ → Int) (aer : Craft ℝ Fr → Option Aer)
    (traj : Int → Option (Craft ℝ Fr)) (st st' : Station) (hst : Built st) (integ : Int)
    (hi : st.integ = some integ) (t : Int) (rng rng' : Option S) (msr : Option Msr)
    (h : st.measure g durOf aer traj t rng = .ok (msr, st', rng')) :
    ((traj (t - integ) = none ∨ traj t = none) → msr = none ∧ st' = st ∧ rng' = rng) ∧
    ∀ rx0 rx1, traj (t - integ) = some rx0 → traj t = some rx1 → ∃ a0 a1, aer rx0 = some a0 ∧ aer rx1 = some a1 ∧
      ((a0.mask < 0 ∨ a1.mask < 0 ∨ a0.obstructed = true ∨ a1.obstructed = true) →
        msr = none ∧ st' = st ∧ rng' = rng) ∧
      (0 ≤ a0.mask → 0 ≤ a1.mask → a0.obstructed = false → a1.obstructed = false →
        ∃ stamp ns vs, NoisesDrawn g st (t - integ / 2) rng stamp ns st' rng' ∧
        msr = some ⟨st.name, t + durOf stamp, st.types.zip vs, false⟩ ∧ vs.length = st.types.length ∧
        ∀ (i : Nat) k, st.types[i]? = some k → ∃ n v0 v1, ns[i]? = some n ∧ seen a0 k = some v0 ∧ seen a1 k = some v1 ∧
          vs[i]? = some ((v0 + v1) / 2 + n / Real.sqrt 2)) := by
  have hn := (built_consistent hst).types
  unfold Station.measure at h
  rw [hi] at h
  constructor
  · rintro (hc | hc)
    · simp only [hc, Option.elim_none] at h
      cases h; exact ⟨rfl, rfl, rfl⟩
    · cases h0 : traj (t - integ) with
      | none => simp only [h0, Option.elim_none] at h; cases h; exact ⟨rfl, rfl, rfl⟩
      | some r => simp only [h0, Option.elim_some, hc, Option.elim_none] at h; cases h; exact ⟨rfl, rfl, rfl⟩
  · intro rx0 rx1 e0 e1
    simp only [e0, e1, Option.elim_some] at h
    obtain ⟨a0, h0, h⟩ := elim_err.1 h
    obtain ⟨a1, h1, h⟩ := elim_err.1 h
    refine ⟨a0, a1, h0, h1, ?_, ?_⟩
    · intro hc
      by_cases hm : a0.mask < 0 ∨ a1.mask < 0
      · rw [if_pos hm] at h
        cases h; exact ⟨rfl, rfl, rfl⟩
      · rw [if_neg hm, if_pos (by tauto)] at h
        cases h; exact ⟨rfl, rfl, rfl⟩
    · intro m0 m1 o0 o1
      rw [if_neg (by rintro (hc | hc) <;> linarith), if_neg (by simp [o0, o1])] at h
      obtain ⟨q, hq, h⟩ := bind_ok.1 h
      obtain ⟨d, hd, h⟩ := bind_ok.1 h
      cases h
      obtain ⟨vs, f1, f2, f3⟩ := fill_ok hn (by simp) hd
      refine ⟨q.1.1, q.1.2, vs, noisesAt_spec hn hq, by rw [f2]; rfl, f1, ?_⟩
      intro i k hk
      obtain ⟨n, v, k1, k2, k3⟩ := f3 i k hk
      rw [twoWayOut, twoWay_seen] at k3
      cases hs0 : seen a0 k with
      | none => rw [hs0] at k3; cases k3
      | some v0 =>
        cases hs1 : seen a1 k with
        | none => rw [hs0, hs1] at k3; cases k3
        | some v1 =>
          rw [hs0, hs1] at k3
          cases k3
          exact ⟨n, v0, v1, k1, rfl, rfl, k2⟩

/-- C124. Without an integration time, `measure` is the instantaneous measurement of the state of the
trajectory at that epoch. -/
theorem measure_instant (g : Rng S) (durOf : ℝ → Int) (aer : Craft ℝ Fr → Option Aer)
    (traj : Int → Option (Craft ℝ Fr)) (st : Station) (hi : st.integ = none) (t : Int) (rng : Option S) :
    (∀ rx, traj t = some rx → st.measure g durOf aer traj t rng = st.instant g durOf aer rx rng) ∧
    (traj t = none → st.measure g durOf aer traj t rng = .err) := by
  unfold Station.measure
  rw [hi]
  constructor
  · intro rx hrx; simp [hrx]
  · intro hrx; simp [hrx]

/-- C124, refuted for the azimuth. When the azimuth passes through north between both ends (in the values
from 0 to 360 degrees), the mean points to the other side: the angle between the azimuth measured and
either end is more than 90 degrees. -/
theorem azimuth_through_north (a0 a1 : Aer) (h : 180 < |a1.az - a0.az|) (h2 : |a1.az - a0.az| < 360) :
    ∃ v, twoWay .azimuth a0 a1 0 = some v ∧ Real.cos ((v - a0.az) * Real.pi / 180) < 0 ∧
      Real.cos ((v - a1.az) * Real.pi / 180) < 0 := by
  have hp := Real.pi_pos
  have key : ∀ d : ℝ, |d| = |a1.az - a0.az| / 2 → Real.cos (d * Real.pi / 180) < 0 := by
    intro d hd
    rw [← Real.cos_abs, abs_div, abs_mul, abs_of_pos hp, abs_of_pos (by norm_num : (0 : ℝ) < 180), hd]
    apply Real.cos_neg_of_pi_div_two_lt_of_lt
    · rw [div_lt_div_iff₀ (by norm_num) (by norm_num)]
      nlinarith
    · have : |a1.az - a0.az| / 2 * Real.pi / 180 < Real.pi := by
        rw [div_lt_iff₀ (by norm_num)]
        nlinarith
      linarith
  have h2' : |(2 : ℝ)| = 2 := abs_of_pos (by norm_num)
  refine ⟨_, rfl, key _ ?_, key _ ?_⟩
  · rw [← h2', ← abs_div, h2']
    congr 1
    rw [zero_div]
    norm_num
    ring
  · rw [abs_sub_comm a1.az, ← h2', ← abs_div, h2']
    congr 1
    rw [zero_div]
    norm_num
    ring

/-- The first sample of a noise is integrable. -/
theorem sample_integrable {Ω : Type} [MeasurableSpace Ω] {P : Measure Ω} {z : Ω → ℕ → ℝ} (hz : StdSeq P z)
    (n : Stoch) (hn : Fresh n) (t : Int) (i : ℕ) : Integrable (fun w => (n.sample (rngOf (z w)) t i).1) P := by
  have := hz.prob
  obtain ⟨wn, b⟩ := n
  simp only [Stoch.sample, whitePart_eq]
  refine ((integrable_const _).add ((integrable_const _).add ((hz.int1 i).const_mul _))).add ?_
  cases b with
  | none => exact integrable_const _
  | some b =>
    have hb := (hn b rfl).2
    simp only [Stoch.biasPart, Option.elim_some, Gm.sample, Gm.start, hb, Option.elim_none]
    exact ((((hz.int1 _).const_mul _).mul_const _).add ((hz.int1 _).const_mul _)).add (integrable_const _)

theorem var_affine {Ω : Type} [MeasurableSpace Ω] {P : Measure Ω} (hP : IsProbabilityMeasure P) {f : Ω → ℝ}
    (hf : Integrable f P) (c k : ℝ) : varOf P (fun w => c + f w * k) = k ^ 2 * varOf P f := by
  have hm : meanOf P (fun w => c + f w * k) = c + meanOf P f * k := by
    have e : ∫ w, (c + f w * k) ∂P = ∫ _, c ∂P + ∫ w, f w * k ∂P := integral_add (integrable_const c) (hf.mul_const k)
    unfold meanOf
    rw [e, integral_mul_const]
    simp
  unfold varOf
  rw [hm, ← integral_const_mul]
  congr 1
  funext w
  ring

/-- C124, refuted for the weight of the measurement. Over an integration time, the variance of the error of
the first measurement is half of the covariance which the station gives to the filter. -/
theorem integrated_variance {Ω : Type} [MeasurableSpace Ω] {P : Measure Ω} {z : Ω → ℕ → ℝ} (hz : StdSeq P z)
    (st : Station) (hst : Built st) (k : MsrType) (n : Stoch) (hk : st.Has k n) (hn : Fresh n) (t : Int) (i : ℕ)
    (a0 a1 : Aer) (v0 v1 : ℝ) (h0 : seen a0 k = some v0) (h1 : seen a1 k = some v1) :
    ∃ f : Ω → ℝ, (∀ w, twoWay k a0 a1 (n.sample (rngOf (z w)) t i).1 = some (f w)) ∧
      ∃ c, st.covar k = .ok c ∧ varOf P f = c / 2 := by
  refine ⟨fun w => (v0 + v1) / 2 + (n.sample (rngOf (z w)) t i).1 / Real.sqrt 2, fun w => by
    rw [twoWay_seen, h0, h1]; rfl, n.covariance, ?_, ?_⟩
  · obtain ⟨m, hm, hmem⟩ := hk
    have hkeys := (built_consistent hst).keys
    rw [hm, Option.getD_some] at hkeys
    unfold Station.covar
    rw [hm, Option.elim_some, find_of_mem hkeys hmem]
    rfl
  · have hv := (first_sample_partial hz n hn t i).2.1
    have hk2 : (1 / Real.sqrt 2) ^ 2 = 1 / 2 := by
      rw [div_pow, Real.sq_sqrt (by norm_num)]
      norm_num
    have := var_affine hz.prob (sample_integrable hz n hn t i) ((v0 + v1) / 2) (1 / Real.sqrt 2)
    rw [hv, hk2] at this
    simp_rw [mul_one_div] at this
    rw [this]
    ring

/-! ### C127 -/

/-- Specification: a noise which is only the constant bias `c`. -/
def constantBias (tau : Int) (c : ℝ) : Stoch := ⟨none, some ⟨tau, 0, some c, none, none⟩⟩

/-- C127, refuted. A station whose only noise for a type is the constant bias `c` observes the value seen plus
`c`. The observation predicted by the filter at the true state is the value seen, and the bias given to
the filter is `c`. The residual of the Kalman filter is then `2 c`, and that of the batch filter is `c`: the
bias is added to the residual by the first and not removed by the second. -/
theorem constant_bias_doubled (g : Rng S) (durOf : ℝ → Int) (aer : Craft ℝ Fr → Option Aer) (st : Station)
    (hst : Built st) (k : MsrType) (tau : Int) (c : ℝ) (hk : st.Has k (constantBias tau c)) (rx : Craft ℝ Fr) (s : S)
    (real computed : Msr) (st1 st2 : Station) (s1 : Option S) (s2 : Option S)
    (hr : st.instant g durOf aer rx (some s) = .ok (some real, st1, s1))
    (hc : st.instant g durOf aer rx none = .ok (some computed, st2, s2)) :
    ∃ y yc, find k real.data = some y ∧ find k computed.data = some yc ∧ st.biasOf k = .ok c ∧
      kalmanResidual y yc c = 2 * c ∧ batchResidual y yc = c := by
  have hcons := built_consistent hst
  obtain ⟨m, hm, hmem⟩ := hk
  have hkeys := hcons.keys
  rw [hm] at hkeys
  have hfind : find k m = some (constantBias tau c) := find_of_mem hkeys hmem
  have hkt : k ∈ st.types := by
    rw [hcons.same, hm]
    exact List.mem_map.2 ⟨_, hmem, rfl⟩
  obtain ⟨i, hi⟩ := List.mem_iff_getElem?.1 hkt
  have zipfind : ∀ (ks : List MsrType) (vs : List ℝ), ks.Nodup → ∀ (i : Nat) v, ks[i]? = some k → vs[i]? = some v →
      find k (ks.zip vs) = some v := by
    intro ks
    induction ks with
    | nil => intro vs _ i v h; simp at h
    | cons a ks ih =>
      intro vs hnd i v h1 h2
      rw [List.nodup_cons] at hnd
      cases vs with
      | nil => simp at h2
      | cons b vs =>
        cases i with
        | zero => cases h1; cases h2; simp [find]
        | succ i =>
          have hne : a ≠ k := by
            rintro rfl
            exact hnd.1 (List.mem_of_getElem? h1)
          rw [List.zip_cons_cons, find, if_neg hne]
          exact ih vs hnd.2 i v h1 h2
  obtain ⟨a, ha, hv1, hv2⟩ := instant_measurement g durOf aer st st1 hst rx _ _ _ hr
  have hvis : 0 ≤ a.mask ∧ a.obstructed = false := by
    constructor
    · by_contra hcon
      have := (hv1 (Or.inl (not_le.1 hcon))).1
      cases this
    · cases ho : a.obstructed with
      | false => rfl
      | true => have := (hv1 (Or.inr ho)).1; cases this
  obtain ⟨stamp, ns, vs, hd, hmsr, -, hval⟩ := hv2 hvis.1 hvis.2
  cases hmsr
  obtain ⟨n, v, e1, e2, e3⟩ := hval i k hi
  obtain ⟨m2, s0, hm2, -, -, -, -, -, -, -, -, m3, -, -, hs⟩ := hd
  rw [hm] at hm2
  cases hm2
  obtain ⟨n2, f1, f2, -⟩ := hs i k hi
  rw [hfind] at f1
  cases f1
  rw [e1] at f2
  have hn : n = c := by
    cases f2
    simp [Stoch.sample, Stoch.whitePart, Stoch.biasPart, constantBias, Gm.sample, Gm.start, Gm.steady]
  subst hn
  obtain ⟨a', ha', -, hv2'⟩ := instant_measurement g durOf aer st st2 hst rx _ _ _ hc
  rw [ha] at ha'
  cases ha'
  obtain ⟨stamp', ns', vs', hd', hmsr', -, hval'⟩ := hv2' hvis.1 hvis.2
  cases hmsr'
  obtain ⟨n', v', e1', e2', e3'⟩ := hval' i k hi
  have hn' : n' = 0 := by
    rw [hd'.2.1] at e1'
    exact (List.mem_replicate.1 (List.mem_of_getElem? e1')).2
  rw [e2] at e2'
  cases e2'
  refine ⟨v + n, v + n', zipfind _ _ hcons.types i _ hi e3, zipfind _ _ hcons.types i _ hi e3', ?_, ?_, ?_⟩
  · unfold Station.biasOf
    rw [hm, Option.elim_some, hfind]
    rfl
  · rw [hn', kalmanResidual]; ring
  · rw [hn', batchResidual]; ring

/-! ### The hypotheses can be met -/

/-- A state. -/
noncomputable def craft0 : Craft ℝ Unit := ⟨(), 0, ![7000, 0, 0], ![0, 7, 0], 100, 50, 0, 1, 1, 1, 2, none, .coast, none, none⟩

/-- What is seen of it. -/
noncomputable def aer0 : Aer := ⟨1000, 2, 359, 30, 25, false⟩

/-- What is seen of it a minute later. -/
noncomputable def aer1 : Aer := ⟨1100, 2, 1, 31, 26, false⟩

-- `instant_total`, `instant_measurement`
example (g : Rng ℕ) : ∃ r, station0.instant g (fun _ => 0) (fun _ => some aer0) craft0 (some 0) = .ok r :=
  instant_total g _ _ station0 station0_built craft0 _ aer0 rfl (by simp [station0, Station.withType, Station.fromPoint, insertSet]) (fun _ => rfl)

example (g : Rng ℕ) : ∃ msr st' rng', station0.instant g (fun _ => 0) (fun _ => some aer0) craft0 none = .ok (msr, st', rng') ∧
    ∃ a, some aer0 = some a ∧ (0 ≤ a.mask → a.obstructed = false → ∃ stamp ns vs,
      NoisesDrawn g station0 craft0.epoch none stamp ns st' rng' ∧
      msr = some ⟨station0.name, craft0.epoch + 0, station0.types.zip vs, false⟩) := by
  obtain ⟨⟨msr, st', rng'⟩, h⟩ := instant_total g (fun _ => 0) (fun _ => some aer0) station0 station0_built craft0 none aer0
    rfl (by simp [station0, Station.withType, Station.fromPoint, insertSet]) (by simp)
  obtain ⟨a, ha, -, hv⟩ := instant_measurement g _ _ _ _ station0_built _ _ _ _ h
  refine ⟨msr, st', rng', h, a, ha, fun h1 h2 => ?_⟩
  obtain ⟨stamp, ns, vs, k1, k2, -⟩ := hv h1 h2
  exact ⟨stamp, ns, vs, k1, k2⟩

-- `azimuth_through_north`: from 359 to 1 degree the azimuth measured is 180 degrees.
example : ∃ v, twoWay .azimuth aer0 aer1 0 = some v ∧ Real.cos ((v - 359) * Real.pi / 180) < 0 := by
  obtain ⟨v, h1, h2, -⟩ := azimuth_through_north aer0 aer1
    (by show (180 : ℝ) < |1 - 359|; norm_num [abs_of_neg]) (by show |(1 : ℝ) - 359| < 360; norm_num [abs_of_neg])
  exact ⟨v, h1, h2⟩

-- `integrated_variance`
example : ∃ f : (ℕ → ℝ) → ℝ, ∃ c, station0.covar .range = .ok c ∧
    varOf (Measure.infinitePi fun _ : ℕ => ProbabilityTheory.gaussianReal 0 1) f = c / 2 := by
  obtain ⟨f, -, c, h1, h2⟩ := integrated_variance std_seq_gaussian station0 station0_built .range _ station0_has
    (by intro b hb; cases hb) 0 0 aer0 aer1 _ _ rfl rfl
  exact ⟨f, c, h1, h2⟩

/-- A station with an integration time of a minute. -/
noncomputable def station1 : Station := station0.withInteg (some 60)

-- `integrated_measurement_partial`
example (g : Rng ℕ) : ∃ msr st' rng', station1.measure g (fun _ => 0) (fun _ => some aer0) (fun _ => some craft0) 100 none =
      .ok (msr, st', rng') ∧ ∃ vs, msr = some ⟨"A", 100 + 0, station1.types.zip vs, false⟩ := by
  have ht : station1.types = [.range, .doppler] := by
    simp [station1, Station.withInteg, station0, Station.withType, Station.fromPoint, insertSet]
  have h : station1.measure g (fun _ => 0) (fun _ => some aer0) (fun _ => some craft0) 100 none =
      .ok (some ⟨"A", 100 + 0, [(.range, (1000 + 1000) * 0.5 + 0 / Real.sqrt 2), (.doppler, (2 + 2) * 0.5 + 0 / Real.sqrt 2)], false⟩,
        station1, none) := by
    unfold Station.measure
    have hi : station1.integ = some 60 := rfl
    rw [hi]
    simp only [Option.elim_some, Station.integrated]
    rw [if_neg (by simp [aer0]), if_neg (by simp [aer0]), Station.noisesAt, Option.elim_none, ht]
    rfl
  obtain ⟨-, h2⟩ := integrated_measurement_partial g _ _ _ _ _ (.withInteg _ _ station0_built) 60 rfl _ _ _ _ h
  obtain ⟨a0, a1, h3, h4, -, h5⟩ := h2 _ _ rfl rfl
  cases h3
  cases h4
  obtain ⟨stamp, ns, vs, -, k, -⟩ := h5 (by show (0 : ℝ) ≤ 25; norm_num) (by show (0 : ℝ) ≤ 25; norm_num) rfl rfl
  exact ⟨_, _, _, h, vs, k⟩

/-- A station with a constant bias of 3 km. -/
noncomputable def station2 : Station := (Station.fromPoint "A").withType .range (constantBias 60 3)

-- `constant_bias_doubled`
example (g : Rng ℕ) : ∃ real computed st1 st2 s1 s2,
    station2.instant g (fun _ => 0) (fun _ => some aer0) craft0 (some 0) = .ok (some real, st1, s1) ∧
    station2.instant g (fun _ => 0) (fun _ => some aer0) craft0 none = .ok (some computed, st2, s2) ∧
    ∃ y yc, find .range real.data = some y ∧ find .range computed.data = some yc ∧ kalmanResidual y yc 3 = 6 := by
  have hb : Built station2 := .withType _ _ _ (.point "A")
  have hk : ∀ k ∈ station2.types, k = .range ∨ k = .doppler ∨ k = .azimuth ∨ k = .elevation := by
    simp [station2, Station.withType, Station.fromPoint, insertSet]
  have vis : ∀ rng : Option ℕ, ∃ m st s, station2.instant g (fun _ => 0) (fun _ => some aer0) craft0 rng = .ok (some m, st, s) := by
    intro rng
    obtain ⟨⟨msr, st', rng'⟩, h⟩ := instant_total g (fun _ => 0) (fun _ => some aer0) station2 hb craft0 rng aer0 rfl hk
      (fun _ => rfl)
    obtain ⟨a, ha, -, hv⟩ := instant_measurement g _ _ _ _ hb _ _ _ _ h
    cases ha
    obtain ⟨stamp, ns, vs, k1, k2, -⟩ := hv (by show (0 : ℝ) ≤ 25; norm_num) rfl
    exact ⟨_, st', rng', by rw [h, k2]⟩
  obtain ⟨real, st1, s1, hr⟩ := vis (some 0)
  obtain ⟨comp, st2, s2, hc⟩ := vis none
  obtain ⟨y, yc, e1, e2, -, e3, -⟩ := constant_bias_doubled g _ _ station2 hb .range 60 3
    ⟨_, rfl, List.mem_cons_self⟩ craft0 0 real comp st1 st2 s1 s2 hr hc
  exact ⟨real, comp, st1, st2, s1, s2, hr, hc, y, yc, e1, e2, by rw [e3]; norm_num⟩

example (g : Rng ℕ) := (measure_instant (Fr := Unit) g (fun _ => 0) (fun _ => some aer0) (fun _ => some craft0) station0 rfl 100 none).1 craft0 rfl

/-- **C127, in part.** The residuals at the true state are those of the same measurement without bias, zero, exactly when the constant bias
is zero. Missing: every other bias (`constant_bias_doubled`). -/
theorem constant_bias_partial (g : Rng S) (durOf : ℝ → Int) (aer : Craft ℝ Fr → Option Aer) (st : Station)
    (hst : Built st) (k : MsrType) (tau : Int) (c : ℝ) (hk : st.Has k (constantBias tau c)) (rx : Craft ℝ Fr) (s : S)
    (real computed : Msr) (st1 st2 : Station) (s1 : Option S) (s2 : Option S)
    (hr : st.instant g durOf aer rx (some s) = .ok (some real, st1, s1))
    (hc : st.instant g durOf aer rx none = .ok (some computed, st2, s2)) :
    ∃ y yc b, find k real.data = some y ∧ find k computed.data = some yc ∧ st.biasOf k = .ok b ∧
      (kalmanResidual y yc b = 0 ↔ c = 0) ∧ (batchResidual y yc = 0 ↔ c = 0) := by
  obtain ⟨y, yc, h1, h2, h3, h4, h5⟩ := constant_bias_doubled g durOf aer st hst k tau c hk rx s real computed st1 st2 s1 s2 hr hc
  refine ⟨y, yc, c, h1, h2, h3, ?_, by rw [h5]⟩
  rw [h4]
  constructor
  · intro h; linarith
  · rintro rfl; simp

example (g : Rng ℕ) (real computed st1 st2 s1 s2)
    (hr : station2.instant g (fun _ => 0) (fun _ => some aer0) craft0 (some 0) = .ok (some real, st1, s1))
    (hc : station2.instant g (fun _ => 0) (fun _ => some aer0) craft0 none = .ok (some computed, st2, s2)) :=
  constant_bias_partial g _ _ station2 (.withType _ _ _ (.point "A")) .range 60 3 ⟨_, rfl, List.mem_cons_self⟩ craft0 0 real computed st1 st2 s1 s2
    hr hc

end Verif.Device
