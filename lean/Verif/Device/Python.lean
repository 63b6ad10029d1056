import Verif.Device.Measure
/-!
C251: a ground station made in Python. C252: a ground station edited in Python.

Model of the Python methods of `GroundStation`, `od/ground_station/python.rs`. The conversion of the arguments
by PyO3 is not modelled, except that a dictionary becomes a `std::collections::HashMap`.
-/
namespace Verif.DevPy
open Verif.Noise Verif.Spacecraft Verif.Device
open Verif.Mc (Out)

variable {S Fr : Type}

/-! ### Model -/

/-- `GroundStation::py_new`, od/ground_station/python.rs:15-37. `entries` are the items of the `HashMap` in the
order in which it iterates: the keys are distinct, and the order is that of randomly seeded hashes, so it is
any order, and another one for another map with the same items. -/
def pyNew (name : String) (integ : Option Int) (stamp : Option Stoch) (entries : List (MsrType × Stoch)) : Station :=
  ⟨name, entries.map Prod.fst, integ, stamp, some entries⟩

/-- `set_integration_time`, od/ground_station/python.rs:118-120. -/
def setInteg (st : Station) (t : Option Int) : Station := ⟨st.name, st.types, t, st.stamp, st.noises⟩

/-- `set_timestamp_noise_s`, od/ground_station/python.rs:138-140. -/
def setStamp (st : Station) (n : Option Stoch) : Station := ⟨st.name, st.types, st.integ, n, st.noises⟩

/-- `set_measurement_types`, od/ground_station/python.rs:148-150: collects the types in an `IndexSet`. -/
def setTypes (st : Station) (ks : List MsrType) : Station :=
  ⟨st.name, ks.foldl (fun l k => insertSet k l) [], st.integ, st.stamp, st.noises⟩

/-- `add_measurement_type`, od/ground_station/python.rs:152-157. -/
def addType (st : Station) (k : MsrType) (n : Stoch) : Station :=
  ⟨st.name, insertSet k st.types, st.integ, st.stamp, some (upsert k n (st.noises.getD []))⟩

/-- `remove_measurement_type`, od/ground_station/python.rs:159-163 (`shift_remove`); the value returned, whether
the type was enabled, is left out. -/
def removeType (st : Station) (k : MsrType) : Station :=
  ⟨st.name, st.types.erase k, st.integ, st.stamp, st.noises⟩

/-- `clear_measurement_types`, od/ground_station/python.rs:165-167. -/
def clearTypes (st : Station) : Station := ⟨st.name, [], st.integ, st.stamp, st.noises⟩

/-- `set_stochastic_noise`, od/ground_station/python.rs:182-186. -/
def setNoise (st : Station) (k : MsrType) (n : Stoch) : Station :=
  ⟨st.name, st.types, st.integ, st.stamp, some (upsert k n (st.noises.getD []))⟩

/-- `remove_stochastic_noise`, od/ground_station/python.rs:188-192 (`shift_remove`); the noise returned is left
out. -/
def removeNoise (st : Station) (k : MsrType) : Station :=
  ⟨st.name, st.types, st.integ, st.stamp, st.noises.map (List.eraseP fun p => p.1 = k)⟩

/-- `clear_stochastic_noises`, od/ground_station/python.rs:194-196. -/
def clearNoises (st : Station) : Station := ⟨st.name, st.types, st.integ, st.stamp, none⟩

/-! ### Lemmas -/

theorem find_perm {α : Type} {l₁ l₂ : List (MsrType × α)} (h : l₁.Perm l₂) (hn : (l₁.map Prod.fst).Nodup) (k : MsrType) :
    find k l₁ = find k l₂ := by
  have hn2 : (l₂.map Prod.fst).Nodup := (h.map _).nodup_iff.1 hn
  cases h1 : find k l₁ with
  | some v => exact (find_of_mem hn2 (h.mem_iff.1 (find_some_mem h1))).symm
  | none =>
    cases h2 : find k l₂ with
    | none => rfl
    | some v =>
      rw [find_of_mem hn (h.mem_iff.2 (find_some_mem h2))] at h1
      cases h1

/-- The loop which fills a measurement with noises all zero, when every type has a value. -/
theorem fill_zero_ok {f : MsrType → ℝ → Out ℝ} {v : MsrType → ℝ} : ∀ {ks : List MsrType} {d : List (MsrType × ℝ)},
    (∀ k ∈ ks, f k 0 = .ok (v k)) →
    ∃ d', fill f ks (List.replicate ks.length 0) d = .ok d' ∧
      ∀ j, find j d' = if j ∈ ks then some (v j) else find j d
  | [], d, _ => ⟨d, rfl, by simp⟩
  | k :: ks, d, h => by
    obtain ⟨d', h1, h2⟩ := fill_zero_ok (f := f) (v := v) (ks := ks) (d := upsert k (v k) d)
      fun j hj => h j (List.mem_cons_of_mem _ hj)
    refine ⟨d', ?_, ?_⟩
    · rw [List.length_cons, List.replicate_succ, fill, h k List.mem_cons_self]
      exact h1
    · intro j
      rw [h2 j, find_upsert]
      by_cases e1 : j = k
      · subst e1; simp
      · by_cases e2 : j ∈ ks <;> simp [e1, e2]

/-- The loop which fills a measurement with noises all zero, when a type has no value. -/
theorem fill_zero_err {f : MsrType → ℝ → Out ℝ} (hf : ∀ k, f k 0 = .err ∨ ∃ v, f k 0 = .ok v) :
    ∀ {ks : List MsrType} {d : List (MsrType × ℝ)}, (∃ k ∈ ks, f k 0 = .err) →
    fill f ks (List.replicate ks.length 0) d = .err
  | [], _, h => by obtain ⟨k, hk, _⟩ := h; cases hk
  | k :: ks, d, h => by
    rw [List.length_cons, List.replicate_succ, fill]
    rcases hf k with e | ⟨v, e⟩
    · rw [e]; rfl
    · rw [e]
      obtain ⟨j, hj, hje⟩ := h
      rcases List.mem_cons.1 hj with rfl | hj
      · rw [e] at hje; cases hje
      · exact fill_zero_err hf ⟨j, hj, hje⟩

/-- Two orders of the types: both fail, or both have the same value for each type. -/
theorem fill_zero_perm {f : MsrType → ℝ → Out ℝ} (hf : ∀ k, f k 0 = .err ∨ ∃ v, f k 0 = .ok v)
    {ks₁ ks₂ : List MsrType} (h : ∀ k, k ∈ ks₁ ↔ k ∈ ks₂) :
    (fill f ks₁ (List.replicate ks₁.length 0) [] = .err ∧ fill f ks₂ (List.replicate ks₂.length 0) [] = .err) ∨
    ∃ d₁ d₂, fill f ks₁ (List.replicate ks₁.length 0) [] = .ok d₁ ∧
      fill f ks₂ (List.replicate ks₂.length 0) [] = .ok d₂ ∧ ∀ k, find k d₁ = find k d₂ := by
  by_cases hc : ∃ k ∈ ks₁, f k 0 = .err
  · left
    obtain ⟨k, hk, e⟩ := hc
    exact ⟨fill_zero_err hf ⟨k, hk, e⟩, fill_zero_err hf ⟨k, (h k).1 hk, e⟩⟩
  · right
    have hv : ∀ k, ∃ v, k ∈ ks₁ → f k 0 = .ok v := by
      intro k
      rcases hf k with e | ⟨v, e⟩
      · exact ⟨0, fun hk => absurd ⟨k, hk, e⟩ hc⟩
      · exact ⟨v, fun _ => e⟩
    choose v hv using hv
    obtain ⟨d₁, a1, a2⟩ := fill_zero_ok (f := f) (v := v) (ks := ks₁) (d := []) hv
    obtain ⟨d₂, b1, b2⟩ := fill_zero_ok (f := f) (v := v) (ks := ks₂) (d := []) fun k hk => hv k ((h k).2 hk)
    refine ⟨d₁, d₂, a1, b1, fun k => ?_⟩
    rw [a2, b2]
    by_cases e : k ∈ ks₁
    · rw [if_pos e, if_pos ((h k).1 e)]
    · rw [if_neg e, if_neg fun hk => e ((h k).2 hk)]

theorem oneWayOut_kind (a : Aer) (k : MsrType) : oneWayOut a k 0 = .err ∨ ∃ v, oneWayOut a k 0 = .ok v := by
  cases k <;> first | exact .inl rfl | exact .inr ⟨_, rfl⟩

theorem twoWayOut_kind (a0 a1 : Aer) (k : MsrType) : twoWayOut a0 a1 k 0 = .err ∨ ∃ v, twoWayOut a0 a1 k 0 = .ok v := by
  cases k <;> first | exact .inl rfl | exact .inr ⟨_, rfl⟩

/-! ### C251 -/

/-- Specification: both measurements are from the same tracker and epoch, and have the same value for each
type. -/
def SameMsr (m₁ m₂ : Msr) : Prop :=
  m₁.tracker = m₂.tracker ∧ m₁.epoch = m₂.epoch ∧ m₁.rejected = m₂.rejected ∧ ∀ k, find k m₁.data = find k m₂.data

/-- Specification: both calls fail, or both find the spacecraft invisible, or both give the same measurement. -/
def SameOut (r₁ r₂ : Out (Option Msr × Station × Option S)) : Prop :=
  (r₁ = .err ∧ r₂ = .err) ∨
  (∃ s₁ s₂, r₁ = .ok (none, s₁, none) ∧ r₂ = .ok (none, s₂, none)) ∨
  ∃ m₁ m₂ s₁ s₂, r₁ = .ok (some m₁, s₁, none) ∧ r₂ = .ok (some m₂, s₂, none) ∧ SameMsr m₁ m₂

theorem instant_quiet (g : Rng S) (durOf : ℝ → Int) (aer : Craft ℝ Fr → Option Aer) (st₁ st₂ : Station)
    (hname : st₁.name = st₂.name) (ht : ∀ k, k ∈ st₁.types ↔ k ∈ st₂.types) (rx : Craft ℝ Fr) :
    SameOut (st₁.instant g durOf aer rx none) (st₂.instant g durOf aer rx none) := by
  unfold Station.instant
  cases ha : aer rx with
  | none => exact .inl ⟨rfl, rfl⟩
  | some a =>
    simp only [Option.elim_some]
    split
    · rcases fill_zero_perm (oneWayOut_kind a) ht with ⟨e1, e2⟩ | ⟨d₁, d₂, e1, e2, e3⟩
      · refine .inl ⟨?_, ?_⟩
        · show (fill (oneWayOut a) st₁.types (List.replicate st₁.types.length 0) []).bind _ = _
          rw [e1]; rfl
        · show (fill (oneWayOut a) st₂.types (List.replicate st₂.types.length 0) []).bind _ = _
          rw [e2]; rfl
      · refine .inr (.inr ⟨⟨st₁.name, rx.epoch + durOf 0, d₁, false⟩, ⟨st₂.name, rx.epoch + durOf 0, d₂, false⟩, st₁, st₂,
          ?_, ?_, hname, rfl, rfl, e3⟩)
        · show (fill (oneWayOut a) st₁.types (List.replicate st₁.types.length 0) []).bind _ = _
          rw [e1]; rfl
        · show (fill (oneWayOut a) st₂.types (List.replicate st₂.types.length 0) []).bind _ = _
          rw [e2]; rfl
    · exact .inr (.inl ⟨_, _, rfl, rfl⟩)

theorem integrated_quiet (g : Rng S) (durOf : ℝ → Int) (aer : Craft ℝ Fr → Option Aer) (st₁ st₂ : Station)
    (hname : st₁.name = st₂.name) (ht : ∀ k, k ∈ st₁.types ↔ k ∈ st₂.types) (t integ : Int) (rx0 rx1 : Craft ℝ Fr) :
    SameOut (st₁.integrated g durOf aer t integ rx0 rx1 none) (st₂.integrated g durOf aer t integ rx0 rx1 none) := by
  unfold Station.integrated
  cases ha0 : aer rx0 with
  | none => exact .inl ⟨rfl, rfl⟩
  | some a0 =>
    cases ha1 : aer rx1 with
    | none => exact .inl ⟨rfl, rfl⟩
    | some a1 =>
      simp only [Option.elim_some]
      split
      · exact .inr (.inl ⟨_, _, rfl, rfl⟩)
      · split
        · exact .inr (.inl ⟨_, _, rfl, rfl⟩)
        · rcases fill_zero_perm (twoWayOut_kind a0 a1) ht with ⟨e1, e2⟩ | ⟨d₁, d₂, e1, e2, e3⟩
          · refine .inl ⟨?_, ?_⟩
            · show (fill (twoWayOut a0 a1) st₁.types (List.replicate st₁.types.length 0) []).bind _ = _
              rw [e1]; rfl
            · show (fill (twoWayOut a0 a1) st₂.types (List.replicate st₂.types.length 0) []).bind _ = _
              rw [e2]; rfl
          · refine .inr (.inr ⟨⟨st₁.name, t + durOf 0, d₁, false⟩, ⟨st₂.name, t + durOf 0, d₂, false⟩, st₁, st₂,
              ?_, ?_, hname, rfl, rfl, e3⟩)
            · show (fill (twoWayOut a0 a1) st₁.types (List.replicate st₁.types.length 0) []).bind _ = _
              rw [e1]; rfl
            · show (fill (twoWayOut a0 a1) st₂.types (List.replicate st₂.types.length 0) []).bind _ = _
              rw [e2]; rfl

/-- C251, partial. A station is made twice in Python from the same dictionary, whose items come in two orders.
Both stations enable the same types, namely the keys, each once, with the same noise, variance and bias, namely
those of the dictionary; and without a generator of noise both give the same measurements. Missing: the same
for a generator with the same seed (`py_seed_false`). -/
theorem py_new_partial (g : Rng S) (durOf : ℝ → Int) (aer : Craft ℝ Fr → Option Aer)
    (traj : Int → Option (Craft ℝ Fr)) (name : String) (integ : Option Int) (stamp : Option Stoch)
    (l₁ l₂ : List (MsrType × Stoch)) (h : l₁.Perm l₂) (hn : (l₁.map Prod.fst).Nodup) :
    ((pyNew name integ stamp l₁).types.Nodup ∧ (pyNew name integ stamp l₂).types.Nodup) ∧
    (∀ k n, (k, n) ∈ l₁ → k ∈ (pyNew name integ stamp l₁).types ∧ k ∈ (pyNew name integ stamp l₂).types ∧
      (pyNew name integ stamp l₁).Has k n ∧ (pyNew name integ stamp l₂).Has k n ∧
      (pyNew name integ stamp l₁).covar k = .ok n.covariance ∧ (pyNew name integ stamp l₂).covar k = .ok n.covariance) ∧
    (∀ k, k ∈ (pyNew name integ stamp l₁).types ↔ ∃ n, (k, n) ∈ l₁) ∧
    (∀ k, (pyNew name integ stamp l₁).covar k = (pyNew name integ stamp l₂).covar k ∧
      (pyNew name integ stamp l₁).biasOf k = (pyNew name integ stamp l₂).biasOf k) ∧
    ∀ t, SameOut ((pyNew name integ stamp l₁).measure g durOf aer traj t none)
      ((pyNew name integ stamp l₂).measure g durOf aer traj t none) := by
  have hn2 : (l₂.map Prod.fst).Nodup := (h.map _).nodup_iff.1 hn
  refine ⟨⟨hn, hn2⟩, ?_, ?_, ?_, ?_⟩
  · intro k n hm
    have hm2 := h.mem_iff.1 hm
    refine ⟨List.mem_map.2 ⟨_, hm, rfl⟩, List.mem_map.2 ⟨_, hm2, rfl⟩, ⟨l₁, rfl, hm⟩, ⟨l₂, rfl, hm2⟩, ?_, ?_⟩
    · show (find k l₁).elim _ _ = _
      rw [find_of_mem hn hm]; rfl
    · show (find k l₂).elim _ _ = _
      rw [find_of_mem hn2 hm2]; rfl
  · intro k
    constructor
    · intro hk
      obtain ⟨⟨a, n⟩, hm, rfl⟩ := List.mem_map.1 hk
      exact ⟨n, hm⟩
    · rintro ⟨n, hm⟩
      exact List.mem_map.2 ⟨_, hm, rfl⟩
  · intro k
    constructor
    · show (find k l₁).elim _ _ = (find k l₂).elim _ _
      rw [find_perm h hn k]
    · show (find k l₁).elim _ _ = (find k l₂).elim _ _
      rw [find_perm h hn k]
  · intro t
    have ht : ∀ k, k ∈ (pyNew name integ stamp l₁).types ↔ k ∈ (pyNew name integ stamp l₂).types :=
      fun k => (h.map Prod.fst).mem_iff
    cases integ with
    | none =>
      show SameOut ((traj t).elim _ _) ((traj t).elim _ _)
      cases traj t with
      | none => exact .inl ⟨rfl, rfl⟩
      | some rx =>
        simp only [Option.elim_some]
        exact instant_quiet g durOf aer (pyNew name none stamp l₁) (pyNew name none stamp l₂) rfl ht rx
    | some i =>
      show SameOut ((traj (t - i)).elim _ _) ((traj (t - i)).elim _ _)
      cases traj (t - i) with
      | none => exact .inr (.inl ⟨_, _, rfl, rfl⟩)
      | some rx0 =>
        simp only [Option.elim_some]
        cases traj t with
        | none => exact .inr (.inl ⟨_, _, rfl, rfl⟩)
        | some rx1 =>
          simp only [Option.elim_some]
          exact integrated_quiet g durOf aer (pyNew name (some i) stamp l₁) (pyNew name (some i) stamp l₂) rfl ht t i rx0 rx1

/-- White noise of the given standard deviation. -/
def white (σ : ℝ) : Stoch := ⟨some ⟨0, σ⟩, none⟩

/-- C251, negation. A station which measures the range and the Doppler, made twice from the same dictionary with
the items in two orders: with the same seed, the range measured first is `a.range + σ z₀` for one and
`a.range + σ z₁` for the other, `z₀` and `z₁` being the first two values of the generator. -/
theorem py_seed_false (g : Rng S) (durOf : ℝ → Int) (aer : Craft ℝ Fr → Option Aer) (rx : Craft ℝ Fr) (a : Aer)
    (ha : aer rx = some a) (hm : 0 ≤ a.mask) (ho : a.obstructed = false) (seed : S) (name : String) (σ τ : ℝ)
    (hσ : σ ≠ 0) (hz : (g.draw seed).1 ≠ (g.draw (g.draw seed).2).1) :
    ∃ l₁ l₂ m₁ m₂ s₁ s₂ r₁ r₂, List.Perm l₁ l₂ ∧ (l₁.map Prod.fst).Nodup ∧
      (∀ k n, (k, n) ∈ l₁ ↔ (k = .range ∧ n = white σ) ∨ (k = .doppler ∧ n = white τ)) ∧
      (pyNew name none none l₁).instant g durOf aer rx (some seed) = .ok (some m₁, s₁, r₁) ∧
      (pyNew name none none l₂).instant g durOf aer rx (some seed) = .ok (some m₂, s₂, r₂) ∧
      find .range m₁.data = some (a.range + σ * (g.draw seed).1) ∧
      find .range m₂.data = some (a.range + σ * (g.draw (g.draw seed).2).1) ∧
      find .range m₁.data ≠ find .range m₂.data := by
  have e1 : (pyNew name none none [(.range, white σ), (.doppler, white τ)]).instant g durOf aer rx (some seed) =
      .ok (some ⟨name, rx.epoch + durOf 0, [(.range, a.range + (0 + (0 + σ * (g.draw seed).1) + 0)),
        (.doppler, a.rate + (0 + (0 + τ * (g.draw (g.draw seed).2).1) + 0))], false⟩,
        pyNew name none none [(.range, white σ), (.doppler, white τ)], some (g.draw (g.draw seed).2).2) := by
    unfold Station.instant
    rw [ha, Option.elim_some, if_pos ⟨hm, ho⟩]
    rfl
  have e2 : (pyNew name none none [(.doppler, white τ), (.range, white σ)]).instant g durOf aer rx (some seed) =
      .ok (some ⟨name, rx.epoch + durOf 0, [(.doppler, a.rate + (0 + (0 + τ * (g.draw seed).1) + 0)),
        (.range, a.range + (0 + (0 + σ * (g.draw (g.draw seed).2).1) + 0))], false⟩,
        pyNew name none none [(.doppler, white τ), (.range, white σ)], some (g.draw (g.draw seed).2).2) := by
    unfold Station.instant
    rw [ha, Option.elim_some, if_pos ⟨hm, ho⟩]
    rfl
  have f1 : find MsrType.range [(MsrType.range, a.range + (0 + (0 + σ * (g.draw seed).1) + 0)),
        (.doppler, a.rate + (0 + (0 + τ * (g.draw (g.draw seed).2).1) + 0))] =
      some (a.range + σ * (g.draw seed).1) := by
    simp [find]
  have f2 : find MsrType.range [(MsrType.doppler, a.rate + (0 + (0 + τ * (g.draw seed).1) + 0)),
        (.range, a.range + (0 + (0 + σ * (g.draw (g.draw seed).2).1) + 0))] =
      some (a.range + σ * (g.draw (g.draw seed).2).1) := by
    simp [find]
  refine ⟨_, _, _, _, _, _, _, _, List.Perm.swap _ _ [], ?_, ?_, e1, e2, f1, f2, ?_⟩
  · simp
  · intro k n
    simp
  · show find MsrType.range [_, _] ≠ find MsrType.range [_, _]
    rw [f1, f2]
    simp only [ne_eq, Option.some.injEq, add_right_inj, mul_eq_mul_left_iff, not_or]
    exact ⟨hz, hσ⟩

/-! ### C252 -/

/-- Specification: the stations which can be made and edited in Python. -/
inductive PyMade : Station → Prop
  | new (name : String) (integ : Option Int) (stamp : Option Stoch) (l : List (MsrType × Stoch)) :
      (l.map Prod.fst).Nodup → PyMade (pyNew name integ stamp l)
  | integ (st : Station) (t : Option Int) : PyMade st → PyMade (setInteg st t)
  | stamp (st : Station) (n : Option Stoch) : PyMade st → PyMade (setStamp st n)
  | types (st : Station) (ks : List MsrType) : PyMade st → PyMade (setTypes st ks)
  | add (st : Station) (k : MsrType) (n : Stoch) : PyMade st → PyMade (addType st k n)
  | remove (st : Station) (k : MsrType) : PyMade st → PyMade (removeType st k)
  | clear (st : Station) : PyMade st → PyMade (clearTypes st)
  | noise (st : Station) (k : MsrType) (n : Stoch) : PyMade st → PyMade (setNoise st k n)
  | removeNoise (st : Station) (k : MsrType) : PyMade st → PyMade (removeNoise st k)
  | clearNoises (st : Station) : PyMade st → PyMade (clearNoises st)

/-- Specification: every enabled type has a noise. -/
def Equipped (st : Station) : Prop := ∀ k ∈ st.types, ∃ n, st.Has k n

theorem nodup_fold : ∀ (ks l : List MsrType), l.Nodup → (ks.foldl (fun l k => insertSet k l) l).Nodup
  | [], _, h => h
  | _ :: ks, _, h => nodup_fold ks _ (nodup_insertSet h)

theorem mem_fold {j : MsrType} : ∀ (ks l : List MsrType), j ∈ ks.foldl (fun l k => insertSet k l) l ↔ j ∈ l ∨ j ∈ ks
  | [], l => by simp
  | k :: ks, l => by
    rw [List.foldl_cons, mem_fold ks, mem_insertSet, List.mem_cons]
    tauto

theorem made_nodup {st : Station} (h : PyMade st) :
    st.types.Nodup ∧ ((st.noises.getD []).map Prod.fst).Nodup := by
  induction h with
  | new name integ stamp l hl => exact ⟨hl, hl⟩
  | integ st t _ ih => exact ih
  | stamp st n _ ih => exact ih
  | types st ks _ ih => exact ⟨nodup_fold ks [] List.nodup_nil, ih.2⟩
  | add st k n _ ih =>
    refine ⟨nodup_insertSet ih.1, ?_⟩
    show ((upsert k n (st.noises.getD [])).map Prod.fst).Nodup
    rw [keys_upsert]
    exact nodup_insertSet ih.2
  | remove st k _ ih => exact ⟨ih.1.erase k, ih.2⟩
  | clear st _ ih => exact ⟨List.nodup_nil, ih.2⟩
  | noise st k n _ ih =>
    refine ⟨ih.1, ?_⟩
    show ((upsert k n (st.noises.getD [])).map Prod.fst).Nodup
    rw [keys_upsert]
    exact nodup_insertSet ih.2
  | removeNoise st k _ ih =>
    refine ⟨ih.1, ?_⟩
    have e : (removeNoise st k).noises.getD [] = (st.noises.getD []).eraseP fun p => p.1 = k := by
      unfold removeNoise
      cases st.noises <;> rfl
    rw [e]
    exact ih.2.sublist (List.Sublist.map _ List.eraseP_sublist)
  | clearNoises st _ ih => exact ⟨ih.1, List.nodup_nil⟩

theorem has_iff {st : Station} (h : ((st.noises.getD []).map Prod.fst).Nodup) (k : MsrType) (n : Stoch) :
    st.Has k n ↔ find k (st.noises.getD []) = some n := by
  unfold Station.Has
  cases hm : st.noises with
  | none => simp [find]
  | some m =>
    rw [hm] at h
    constructor
    · rintro ⟨m', e, hk⟩
      cases e
      exact find_of_mem h hk
    · intro e
      exact ⟨m, rfl, find_some_mem e⟩

theorem find_eraseP {α : Type} {k j : MsrType} : ∀ {m : List (MsrType × α)}, (m.map Prod.fst).Nodup →
    find j (m.eraseP fun p => p.1 = k) = if j = k then none else find j m
  | [], _ => by simp [find]
  | p :: l, h => by
    rw [List.map_cons, List.nodup_cons] at h
    by_cases hp : p.1 = k
    · rw [List.eraseP_cons_of_pos (by simpa using hp)]
      by_cases hj : j = k
      · rw [if_pos hj]
        cases hf : find j l with
        | none => rfl
        | some v =>
          exfalso
          apply h.1
          rw [hp, ← hj]
          exact find_isSome.1 (by rw [hf]; rfl)
      · rw [if_neg hj, find, if_neg (by rw [hp]; exact Ne.symm hj)]
    · rw [List.eraseP_cons_of_neg (by simpa using hp), find, find_eraseP h.2]
      by_cases hpj : p.1 = j
      · have : j ≠ k := fun e => hp (hpj.trans e)
        rw [if_pos hpj, if_neg this, find, if_pos hpj]
      · rw [if_neg hpj, find, if_neg hpj]

theorem sampleAll_missing {g : Rng S} {t : Int} {k : MsrType} : ∀ {ks : List MsrType} {m : List (MsrType × Stoch)} {s : S},
    k ∈ ks → find k m = none → sampleAll g t ks m s = none
  | [], _, _, h, _ => by cases h
  | j :: ks, m, s, h, hf => by
    rw [sampleAll]
    by_cases e : j = k
    · subst e; rw [hf]; rfl
    · cases hj : find j m with
      | none => rfl
      | some n =>
        rw [Option.bind_some, sampleAll_missing (k := k)]
        · rfl
        · rcases List.mem_cons.1 h with h | h
          · exact absurd h.symm e
          · exact h
        · rw [find_upsert, if_neg (Ne.symm e)]
          exact hf

/-- C252. What each edit does to the types enabled and to the noises. -/
theorem py_edit_effects (st : Station) (h : PyMade st) (k : MsrType) (n : Stoch) (ks : List MsrType) :
    ((∀ j, j ∈ (addType st k n).types ↔ j = k ∨ j ∈ st.types) ∧
      ∀ j w, (addType st k n).Has j w ↔ (j = k ∧ w = n) ∨ (j ≠ k ∧ st.Has j w)) ∧
    ((∀ j, j ∈ (removeType st k).types ↔ j ≠ k ∧ j ∈ st.types) ∧ ∀ j w, (removeType st k).Has j w ↔ st.Has j w) ∧
    ((∀ j, j ∈ (setTypes st ks).types ↔ j ∈ ks) ∧ ∀ j w, (setTypes st ks).Has j w ↔ st.Has j w) ∧
    ((∀ j, j ∉ (clearTypes st).types) ∧ ∀ j w, (clearTypes st).Has j w ↔ st.Has j w) ∧
    ((setNoise st k n).types = st.types ∧
      ∀ j w, (setNoise st k n).Has j w ↔ (j = k ∧ w = n) ∨ (j ≠ k ∧ st.Has j w)) ∧
    ((removeNoise st k).types = st.types ∧ ∀ j w, (removeNoise st k).Has j w ↔ j ≠ k ∧ st.Has j w) ∧
    (clearNoises st).types = st.types ∧ ∀ j w, ¬ (clearNoises st).Has j w := by
  obtain ⟨hn, hk⟩ := made_nodup h
  have hup : ∀ j w, find j (upsert k n (st.noises.getD [])) = some w ↔ (j = k ∧ w = n) ∨ (j ≠ k ∧ st.Has j w) := by
    intro j w
    rw [find_upsert, has_iff hk]
    by_cases e : j = k
    · simp [e, eq_comm]
    · simp [e]
  refine ⟨⟨fun j => mem_insertSet, ?_⟩, ⟨fun j => ?_, fun j w => Iff.rfl⟩, ⟨fun j => ?_, fun j w => Iff.rfl⟩,
    ⟨fun j hj => ?_, fun j w => Iff.rfl⟩, ⟨rfl, ?_⟩, ⟨rfl, ?_⟩, rfl, ?_⟩
  · intro j w
    rw [has_iff (made_nodup (.add st k n h)).2]
    exact hup j w
  · exact hn.mem_erase_iff
  · show j ∈ ks.foldl _ [] ↔ _
    rw [mem_fold]
    simp
  · cases hj
  · intro j w
    rw [has_iff (made_nodup (.noise st k n h)).2]
    exact hup j w
  · intro j w
    have e : (removeNoise st k).noises.getD [] = (st.noises.getD []).eraseP fun p => p.1 = k := by
      unfold removeNoise
      cases st.noises <;> rfl
    rw [has_iff (made_nodup (.removeNoise st k h)).2, e, find_eraseP hk, has_iff hk]
    by_cases e : j = k
    · simp [e]
    · simp [e]
  · rintro j w ⟨m, e, -⟩
    cases e

/-- C252, partial. A station made and edited in any way in Python enables no type twice and has at most one
noise for each type. As long as every enabled type has a noise, and a station can observe it, a measurement of
a visible spacecraft succeeds and has exactly the enabled types, in order; and the variance of each is known.
Adding or removing a type, clearing the types, setting a noise, an integration time or the noise of the time
tags keeps it so. Missing: the same for the other edits (`remove_noise_false`). -/
theorem py_edits_partial (g : Rng S) (durOf : ℝ → Int) (aer : Craft ℝ Fr → Option Aer) (st : Station) (h : PyMade st) :
    (st.types.Nodup ∧ ∀ k n n', st.Has k n → st.Has k n' → n = n') ∧
    (Equipped st → (∀ k ∈ st.types, k = .range ∨ k = .doppler ∨ k = .azimuth ∨ k = .elevation) →
      (∀ k ∈ st.types, ∃ n, st.Has k n ∧ st.covar k = .ok n.covariance) ∧
      ∀ rx a rng, aer rx = some a → 0 ≤ a.mask → a.obstructed = false →
        (rng.isSome → st.noises ≠ none) →
        ∃ m st' rng', st.instant g durOf aer rx rng = .ok (some m, st', rng') ∧ m.tracker = st.name ∧
          m.data.map Prod.fst = st.types) ∧
    (Equipped st → (∀ k n, Equipped (addType st k n)) ∧ (∀ k, Equipped (removeType st k)) ∧ Equipped (clearTypes st) ∧
      (∀ k n, Equipped (setNoise st k n)) ∧ (∀ t, Equipped (setInteg st t)) ∧ (∀ n, Equipped (setStamp st n)) ∧
      (∀ k, k ∉ st.types → Equipped (removeNoise st k)) ∧
      ∀ ks, (∀ k ∈ ks, ∃ n, st.Has k n) → Equipped (setTypes st ks)) := by
  obtain ⟨hn, hk⟩ := made_nodup h
  have hadd : Equipped st → ∀ k n j, (j = k ∨ j ∈ st.types) → ∃ n', (some (upsert k n (st.noises.getD []))) = some n' ∧
      ∃ w, (j, w) ∈ n' := by
    intro he k n j hj
    refine ⟨_, rfl, ?_⟩
    by_cases e : j = k
    · exact ⟨n, find_some_mem (by rw [find_upsert, if_pos e])⟩
    · obtain ⟨w, hw⟩ := he j (hj.resolve_left e)
      exact ⟨w, find_some_mem (by rw [find_upsert, if_neg e]; exact (has_iff hk j w).1 hw)⟩
  refine ⟨⟨hn, ?_⟩, ?_, ?_⟩
  · intro k n n' h1 h2
    rw [has_iff hk] at h1 h2
    rw [h1] at h2
    exact Option.some.inj h2
  · intro he hs
    refine ⟨?_, ?_⟩
    · intro k hkt
      obtain ⟨n, hh⟩ := he k hkt
      refine ⟨n, hh, ?_⟩
      obtain ⟨m, hm, hmem⟩ := hh
      unfold Station.covar
      rw [hm, Option.getD_some] at hk
      rw [hm]
      rw [Option.elim_some, find_of_mem hk hmem]
      rfl
    · intro rx a rng ha hm ho hr
      have hq : ∃ q, st.noisesAt g rx.epoch rng = .ok q := by
        unfold Station.noisesAt
        cases rng with
        | none => exact ⟨_, rfl⟩
        | some s =>
          obtain ⟨m, hm⟩ := Option.ne_none_iff_exists'.1 (hr rfl)
          rw [Option.elim_some, hm, Option.elim_some]
          obtain ⟨q, hq⟩ := sampleAll_total (g := g) (t := rx.epoch) (ks := st.types) (m := m)
            (s := (stampNoise g rx.epoch st.stamp s).2) (fun k hkt => by
              obtain ⟨n, m', e, hmem⟩ := he k hkt
              rw [hm] at e
              cases e
              exact List.mem_map.2 ⟨_, hmem, rfl⟩)
          rw [hq]
          exact ⟨_, rfl⟩
      obtain ⟨q, hq⟩ := hq
      have hlen : q.1.2.length = st.types.length := by
        have := noisesAt_spec hn hq
        cases rng with
        | none => rw [this.2.1]; simp
        | some s => obtain ⟨m, s1, -, -, -, h, -⟩ := this; exact h
      obtain ⟨d, hd⟩ := fill_total (ks₀ := st.types) (f := oneWayOut a) (d := []) (fun k n => by
        by_cases hm : k ∈ st.types
        · rcases hs k hm with rfl | rfl | rfl | rfl <;> exact ⟨_, fun _ => rfl⟩
        · exact ⟨0, fun hc => absurd hc hm⟩) (fun _ h => h) hlen
      obtain ⟨vs, e1, e2, -⟩ := fill_ok hn (by simp) hd
      refine ⟨⟨st.name, rx.epoch + durOf q.1.1, d, false⟩, q.2.1, q.2.2, ?_, rfl, ?_⟩
      · unfold Station.instant
        rw [ha, Option.elim_some, if_pos ⟨hm, ho⟩, hq]
        show (fill (oneWayOut a) st.types q.1.2 []).bind _ = _
        rw [hd]
        rfl
      · show d.map Prod.fst = _
        rw [e2, List.nil_append, List.map_fst_zip (by omega)]
  · intro he
    refine ⟨?_, ?_, ?_, ?_, ?_, ?_, ?_, ?_⟩
    · intro k n j hj
      obtain ⟨m, hm, w, hw⟩ := hadd he k n j (mem_insertSet.1 hj)
      exact ⟨w, m, hm, hw⟩
    · intro k j hj
      exact he j (List.mem_of_mem_erase hj)
    · intro j hj
      cases hj
    · intro k n j hj
      obtain ⟨m, hm, w, hw⟩ := hadd he k n j (.inr hj)
      exact ⟨w, m, hm, hw⟩
    · intro t; exact he
    · intro n; exact he
    · intro k hkt j hj
      obtain ⟨w, m, hm, hw⟩ := he j hj
      rw [hm, Option.getD_some] at hk
      refine ⟨w, m.eraseP fun p => p.1 = k, ?_, ?_⟩
      · show st.noises.map _ = _
        rw [hm]; rfl
      · refine find_some_mem ?_
        rw [find_eraseP hk, if_neg (show j ≠ k by rintro rfl; exact hkt hj)]
        exact find_of_mem hk hw
    · intro ks hks j hj
      rcases (mem_fold ks []).1 hj with hj | hj
      · cases hj
      · exact hks j hj

/-- C252, negation. Removing the noise of an enabled type in Python leaves the type enabled: then no measurement
of a visible spacecraft with noise succeeds, and the variance of the type is not known. Removing all the noises
does the same, and asking for a variance, which a filter does for each measurement, panics. -/
theorem remove_noise_false (g : Rng S) (durOf : ℝ → Int) (aer : Craft ℝ Fr → Option Aer) (st : Station) (h : PyMade st)
    (k : MsrType) (hkt : k ∈ st.types) (rx : Craft ℝ Fr) (a : Aer) (ha : aer rx = some a) (hm : 0 ≤ a.mask)
    (ho : a.obstructed = false) (seed : S) :
    (k ∈ (removeNoise st k).types ∧ (removeNoise st k).instant g durOf aer rx (some seed) = .err ∧
      ∀ v, (removeNoise st k).covar k ≠ .ok v) ∧
    (clearNoises st).types = st.types ∧ (clearNoises st).instant g durOf aer rx (some seed) = .err ∧
      (clearNoises st).covar k = .panic := by
  obtain ⟨-, hk⟩ := made_nodup h
  refine ⟨⟨hkt, ?_, ?_⟩, rfl, ?_, rfl⟩
  · unfold Station.instant
    rw [ha, Option.elim_some, if_pos ⟨hm, ho⟩]
    have : (removeNoise st k).noisesAt g rx.epoch (some seed) = .err := by
      unfold Station.noisesAt removeNoise
      cases hm : st.noises with
      | none => rfl
      | some m =>
        rw [hm, Option.getD_some] at hk
        show (sampleAll g rx.epoch st.types (m.eraseP fun p => p.1 = k) _).elim _ _ = _
        rw [sampleAll_missing hkt (by rw [find_eraseP hk, if_pos rfl])]
        rfl
    rw [this]
    rfl
  · intro v
    unfold Station.covar removeNoise
    cases hm : st.noises with
    | none => intro e; cases e
    | some m =>
      rw [hm, Option.getD_some] at hk
      show (find k (m.eraseP fun p => p.1 = k)).elim _ _ ≠ _
      rw [find_eraseP hk, if_pos rfl]
      intro e; cases e
  · unfold Station.instant
    rw [ha, Option.elim_some, if_pos ⟨hm, ho⟩]
    rfl

/-! ### Examples -/

/-- A dictionary with two types. -/
noncomputable def exDict : List (MsrType × Stoch) := [(.range, white 2), (.doppler, white 3)]

/-- A generator which counts. -/
noncomputable def exGen : Rng ℕ := ⟨fun n => (n, n + 1)⟩

theorem exDict_made : PyMade (pyNew "A" none none exDict) := .new _ _ _ _ (by simp [exDict])

example := py_new_partial exGen (fun _ => 0) (fun _ => some aer0) (fun _ => some craft0) "A" (some 60) none exDict exDict.reverse
  (List.reverse_perm _).symm (by simp [exDict])

example := py_seed_false exGen (fun _ => 0) (fun _ => some aer0) craft0 aer0 rfl (by norm_num [aer0]) rfl 0 "A" 2 3
  (by norm_num) (by norm_num [exGen])

example : ∃ m st' rng', (addType (pyNew "A" none none exDict) .azimuth (white 1)).instant exGen (fun _ => 0) (fun _ => some aer0)
    craft0 (some 0) = .ok (some m, st', rng') ∧ m.tracker = "A" ∧ m.data.map Prod.fst = [.range, .doppler, .azimuth] := by
  have he : Equipped (pyNew "A" none none exDict) := by
    intro k hk
    obtain ⟨⟨j, n⟩, h, rfl⟩ := List.mem_map.1 hk
    exact ⟨n, exDict, rfl, h⟩
  have he2 := (py_edits_partial (Fr := Unit) exGen (fun _ => 0) (fun _ => some aer0) _ exDict_made).2.2 he
  exact ((py_edits_partial exGen (fun _ => 0) (fun _ => some aer0) _ (.add _ .azimuth (white 1) exDict_made)).2.1
    (he2.1 _ _) (by intro k hk; simp [addType, pyNew, exDict, insertSet] at hk; tauto)).2
    craft0 aer0 (some 0) rfl (by norm_num [aer0]) rfl (by simp [addType])

example := py_edit_effects _ exDict_made .range (white 5) [.doppler, .elevation]

example := remove_noise_false exGen (fun _ => 0) (fun _ => some aer0) _ exDict_made .range (by simp [pyNew, exDict]) craft0 aer0
  rfl (by norm_num [aer0]) rfl 0

end Verif.DevPy
