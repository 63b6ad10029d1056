import Mathlib.Algebra.Order.BigOperators.Group.List
import Verif.Sched.Model
import Verif.Tracking.Theorems
/-!
C47: the simulated measurements. C135: devices that are announced as ignored. C136: the check of a
configuration.
-/
namespace Verif.Sched
open Verif Verif.Util
open Verif.Tracking (IMap Msr get sort Sorts)

/-! ### One strand -/

/-- What happens at an epoch, whatever the state of the noise: error, not visible, or measured. -/
inductive Kind where
  | fail | hidden | seen
  deriving DecidableEq

/-- The kind of a shot. -/
def Shot.kind {M : Type} : Shot M → Kind
  | .fail => .fail
  | .hidden => .hidden
  | .seen _ => .seen

/-- Enough fuel for a strand that is sampled with a positive step. -/
def fuelFor (start stop step : Int) : Nat := ((stop - start) / step + 1).toNat + 1

variable {S M : Type}

/-- The epochs measured in one strand: on the grid from its start, not after its end, visible, and
after no failure in this strand. -/
def Taken (kind : Int → Kind) (start stop step e : Int) : Prop :=
  ∃ k : Nat, e = start + k * step ∧ e ≤ stop ∧ kind e = .seen ∧
    ∀ j : Nat, j < k → kind (start + j * step) ≠ .fail

theorem taken_step (kind : Int → Kind) (cur stop step e : Int) (hle : cur ≤ stop)
    (hk : kind cur ≠ .fail) : Taken kind cur stop step e ↔
      (e = cur ∧ kind cur = .seen) ∨ Taken kind (cur + step) stop step e := by
  constructor
  · rintro ⟨k, h1, h2, h3, h4⟩
    cases k with
    | zero =>
      simp at h1
      subst h1
      exact .inl ⟨rfl, h3⟩
    | succ k =>
      refine .inr ⟨k, by rw [h1]; push_cast; ring, h2, h3, fun j hj => ?_⟩
      have := h4 (j + 1) (by omega)
      have e1 : cur + ((j + 1 : Nat) : Int) * step = cur + step + j * step := by push_cast; ring
      rwa [e1] at this
  · rintro (⟨rfl, h⟩ | ⟨k, h1, h2, h3, h4⟩)
    · exact ⟨0, by simp, hle, h, fun j hj => by omega⟩
    · refine ⟨k + 1, by rw [h1]; push_cast; ring, h2, h3, fun j hj => ?_⟩
      cases j with
      | zero => simpa using hk
      | succ j =>
        have := h4 j (by omega)
        have e1 : cur + ((j + 1 : Nat) : Int) * step = cur + step + j * step := by push_cast; ring
        rwa [e1]

/-- The strand loop ends when the step is positive, and appends measurements of exactly the epochs
`Taken`, in order, each one returned by the device for that epoch. -/
theorem strandLoop_spec (measure : S → Int → S × Shot M) (kind : Int → Kind)
    (hkind : ∀ s e, (measure s e).2.kind = kind e) (epochOf : M → Int) (P : M → Prop)
    (hep : ∀ s e x, (measure s e).2 = .seen x → epochOf x = e ∧ P x)
    (stop step : Int) (hstep : 0 < step) (fuel : Nat) (cur : Int) (s : S) (acc : List M)
    (hf : fuelFor cur stop step ≤ fuel) :
    ∃ s' l, strandLoop measure stop step fuel cur s acc = some (s', acc ++ l) ∧
      (∀ x ∈ l, P x ∧ Taken kind cur stop step (epochOf x)) ∧
      (∀ e, Taken kind cur stop step e → ∃ x ∈ l, epochOf x = e) := by
  induction fuel generalizing cur s acc with
  | zero => unfold fuelFor at hf; omega
  | succ f ih =>
    unfold strandLoop
    by_cases hgt : cur > stop
    · rw [if_pos hgt]
      refine ⟨s, [], by simp, by simp, ?_⟩
      rintro e ⟨k, h1, h2, -, -⟩
      have : 0 ≤ (k : Int) * step := by positivity
      omega
    · rw [if_neg hgt]
      have hle : cur ≤ stop := by omega
      have hk := hkind s cur
      have hf' : fuelFor (cur + step) stop step ≤ f := by
        unfold fuelFor at hf ⊢
        have h1 : (stop - (cur + step)) / step = (stop - cur) / step - 1 := by
          have : stop - (cur + step) = (stop - cur) + (-1) * step := by ring
          rw [this, Int.add_mul_ediv_right _ _ (by omega)]; ring
        have h2 : 0 ≤ (stop - cur) / step := Int.ediv_nonneg (by omega) (by omega)
        omega
      rcases hm : measure s cur with ⟨s', sh⟩
      rw [hm] at hk
      cases sh with
      | fail =>
        refine ⟨s', [], by simp, by simp, ?_⟩
        rintro e ⟨k, h1, h2, h3, h4⟩
        simp only [Shot.kind] at hk
        cases k with
        | zero => simp at h1; rw [h1, ← hk] at h3; cases h3
        | succ k => exact absurd (by simpa using hk.symm) (h4 0 (by omega))
      | hidden =>
        simp only [Shot.kind] at hk
        obtain ⟨s2, l, h1, h2, h3⟩ := ih (cur + step) s' acc hf'
        have ht := fun e => taken_step kind cur stop step e hle (by rw [← hk]; decide)
        refine ⟨s2, l, h1, fun x hx => ⟨(h2 x hx).1, (ht _).2 (.inr (h2 x hx).2)⟩, fun e he => ?_⟩
        rcases (ht e).1 he with ⟨-, h⟩ | h
        · rw [← hk] at h; cases h
        · exact h3 e h
      | seen x =>
        simp only [Shot.kind] at hk
        obtain ⟨s2, l, h1, h2, h3⟩ := ih (cur + step) s' (acc ++ [x]) hf'
        have ht := fun e => taken_step kind cur stop step e hle (by rw [← hk]; decide)
        obtain ⟨g1, g2⟩ := hep s cur x (by rw [hm])
        refine ⟨s2, x :: l, by simp only [h1, List.append_assoc, List.singleton_append], ?_,
          fun e he => ?_⟩
        · intro y hy
          rcases List.mem_cons.1 hy with rfl | hy
          · exact ⟨g2, (ht _).2 (.inl ⟨g1, hk.symm⟩)⟩
          · exact ⟨(h2 y hy).1, (ht _).2 (.inr (h2 y hy).2)⟩
        · rcases (ht e).1 he with ⟨rfl, -⟩ | h
          · exact ⟨x, by simp, g1⟩
          · obtain ⟨y, hy, hy'⟩ := h3 e h
            exact ⟨y, List.mem_cons_of_mem _ hy, hy'⟩

/-! ### All strands, all devices -/

theorem strandsLoop_spec (measure : S → Int → S × Shot M) (kind : Int → Kind)
    (hkind : ∀ s e, (measure s e).2.kind = kind e) (epochOf : M → Int) (P : M → Prop)
    (hep : ∀ s e x, (measure s e).2 = .seen x → epochOf x = e ∧ P x)
    (step : Int) (hstep : 0 < step) (fuel : Nat) (sts : List Strand) (s : S) (acc : List M)
    (hf : ∀ st ∈ sts, fuelFor st.start st.stop step ≤ fuel) :
    ∃ s' l, strandsLoop measure fuel step sts s acc = some (s', acc ++ l) ∧
      (∀ x ∈ l, P x ∧ ∃ st ∈ sts, Taken kind st.start st.stop step (epochOf x)) ∧
      (∀ e, (∃ st ∈ sts, Taken kind st.start st.stop step e) → ∃ x ∈ l, epochOf x = e) := by
  induction sts generalizing s acc with
  | nil => exact ⟨s, [], by simp [strandsLoop], by simp, by simp⟩
  | cons st sts ih =>
    obtain ⟨s1, l1, a1, a2, a3⟩ := strandLoop_spec measure kind hkind epochOf P hep st.stop step hstep
      fuel st.start s acc (hf st (by simp))
    obtain ⟨s2, l2, b1, b2, b3⟩ := ih s1 (acc ++ l1) (fun t ht => hf t (List.mem_cons_of_mem _ ht))
    refine ⟨s2, l1 ++ l2, by simp only [strandsLoop, a1, b1, List.append_assoc], ?_, ?_⟩
    · intro x hx
      rcases List.mem_append.1 hx with hx | hx
      · exact ⟨(a2 x hx).1, st, by simp, (a2 x hx).2⟩
      · obtain ⟨h1, t, ht, h2⟩ := b2 x hx
        exact ⟨h1, t, List.mem_cons_of_mem _ ht, h2⟩
    · rintro e ⟨t, ht, h⟩
      rcases List.mem_cons.1 ht with rfl | ht
      · obtain ⟨x, hx, h'⟩ := a3 e h
        exact ⟨x, List.mem_append_left _ hx, h'⟩
      · obtain ⟨x, hx, h'⟩ := b3 e ⟨t, ht, h⟩
        exact ⟨x, List.mem_append_right _ hx, h'⟩

/-- The tracker `n` has a strand in which it takes a measurement at `e`. -/
def TakenBy {N : Type} [DecidableEq N] (kind : N → Int → Kind) (configs : IMap N Cfg) (n : N)
    (e : Int) : Prop :=
  ∃ c l st, get configs n = some c ∧ c.strands = some l ∧ st ∈ l ∧
    Taken (kind n) st.start st.stop c.sampling e

/-- A device of the simulation is ready: if it has a scheduler, its strands were built, and it is
sampled with a positive step. -/
def Ready {N : Type} [DecidableEq N] (configs : IMap N Cfg) (n : N) : Prop :=
  ∀ c, get configs n = some c → (c.scheduler.isSome → c.strands.isSome) ∧ 0 < c.sampling

theorem devicesLoop_spec {N : Type} [DecidableEq N] (measure : N → S → Int → S × Shot M)
    (kind : N → Int → Kind) (hkind : ∀ n s e, (measure n s e).2.kind = kind n e)
    (epochOf : M → Int) (trackerOf : M → N) (Q : M → Prop)
    (hep : ∀ n s e x, (measure n s e).2 = .seen x → epochOf x = e ∧ trackerOf x = n ∧ Q x)
    (configs : IMap N Cfg) (ds : List N) (hr : ∀ n ∈ ds, Ready configs n) (s : S) (acc : List M)
    (fuel : Nat) (hf : ∀ n ∈ ds, ∀ c l st, get configs n = some c → c.strands = some l → st ∈ l →
      fuelFor st.start st.stop c.sampling ≤ fuel) :
    ∃ s' l, devicesLoop measure fuel configs ds s acc = .ok (s', acc ++ l) ∧
      (∀ x ∈ l, Q x ∧ trackerOf x ∈ ds ∧ TakenBy kind configs (trackerOf x) (epochOf x)) ∧
      (∀ n ∈ ds, ∀ e, TakenBy kind configs n e → ∃ x ∈ l, epochOf x = e ∧ trackerOf x = n) := by
  induction ds generalizing s acc with
  | nil => exact ⟨s, [], by simp [devicesLoop], by simp, by simp⟩
  | cons n ds ih =>
    have ih' := fun s acc => ih (fun k hk => hr k (List.mem_cons_of_mem _ hk)) s acc
      (fun k hk => hf k (List.mem_cons_of_mem _ hk))
    unfold devicesLoop
    -- no measurement from this device
    have skip : (∀ e, ¬ TakenBy kind configs n e) → ∃ s' l,
        devicesLoop measure fuel configs ds s acc = .ok (s', acc ++ l) ∧
        (∀ x ∈ l, Q x ∧ trackerOf x ∈ n :: ds ∧ TakenBy kind configs (trackerOf x) (epochOf x)) ∧
        (∀ k ∈ n :: ds, ∀ e, TakenBy kind configs k e → ∃ x ∈ l, epochOf x = e ∧ trackerOf x = k) := by
      intro hno
      obtain ⟨s2, l, b1, b2, b3⟩ := ih' s acc
      refine ⟨s2, l, b1, fun x hx => ⟨(b2 x hx).1, List.mem_cons_of_mem _ (b2 x hx).2.1, (b2 x hx).2.2⟩,
        fun k hk e he => ?_⟩
      rcases List.mem_cons.1 hk with rfl | hk
      · exact absurd he (hno e)
      · exact b3 k hk e he
    cases hg : get configs n with
    | none =>
      simp only
      refine skip ?_
      rintro e ⟨c, l, st, h1, -⟩
      rw [hg] at h1; cases h1
    | some c =>
      simp only
      cases hs : c.strands with
      | none =>
        simp only
        have hns : c.scheduler.isSome = false := by
          by_contra hcon
          have := (hr n (by simp) c hg).1 (Bool.eq_true_of_not_eq_false hcon)
          rw [hs] at this
          cases this
        rw [if_neg (by rw [hns]; decide)]
        refine skip ?_
        rintro e ⟨c', l, st, h1, h2, -⟩
        rw [hg] at h1; cases h1
        rw [hs] at h2; cases h2
      | some sts =>
        simp only
        obtain ⟨s1, l1, a1, a2, a3⟩ := strandsLoop_spec (measure n) (kind n) (hkind n) epochOf
          (fun x => trackerOf x = n ∧ Q x) (hep n) c.sampling (hr n (by simp) c hg).2 fuel sts s acc
          (fun st hst => hf n (by simp) c sts st hg hs hst)
        obtain ⟨s2, l2, b1, b2, b3⟩ := ih' s1 (acc ++ l1)
        refine ⟨s2, l1 ++ l2, by simp only [a1, b1, List.append_assoc], ?_, ?_⟩
        · intro x hx
          rcases List.mem_append.1 hx with hx | hx
          · obtain ⟨⟨h1, h2⟩, st, h3, h4⟩ := a2 x hx
            exact ⟨h2, by rw [h1]; simp, by rw [h1]; exact ⟨c, sts, st, hg, hs, h3, h4⟩⟩
          · obtain ⟨h1, h2, h3⟩ := b2 x hx
            exact ⟨h1, List.mem_cons_of_mem _ h2, h3⟩
        · intro k hk e he
          by_cases hkn : k = n
          · subst hkn
            obtain ⟨c', l', st, h1, h2, h3, h4⟩ := he
            rw [hg] at h1; cases h1
            rw [hs] at h2; cases h2
            obtain ⟨x, hx, h5⟩ := a3 e ⟨st, h3, h4⟩
            exact ⟨x, List.mem_append_left _ hx, h5, (a2 x hx).1.1⟩
          · rcases List.mem_cons.1 hk with h | hk
            · exact absurd h hkn
            · obtain ⟨x, hx, h5⟩ := b3 k hk e he
              exact ⟨x, List.mem_append_right _ hx, h5⟩

/-! ### C47 -/

variable {N K : Type} [LinearOrder N] [DecidableEq K]

/-- C47. When every device is ready, the simulation ends. The arc is sorted by epoch and then tracker
with no duplicates, and it has a measurement of the tracker `n` at the epoch `e` exactly when `n` is a
device that has a strand where `e` is on its sampling grid from the start of the strand, not after its
end, the vehicle is visible, and no call failed before in that strand. A failure only ends its own
strand. (Assumes of a device that its measurements hold its name and the requested epoch, and that the
noise does not decide whether it sees the vehicle.) -/
theorem measurements_exact (srt : List (Msr N K) → List (Msr N K)) (hsrt : Sorts srt)
    (measure : N → S → Int → S × Shot (Msr N K)) (kind : N → Int → Kind)
    (hkind : ∀ n s e, (measure n s e).2.kind = kind n e)
    (hep : ∀ n s e x, (measure n s e).2 = .seen x → x.epoch = e ∧ x.tracker = n)
    (devices : List N) (configs : IMap N Cfg) (hr : ∀ n ∈ devices, Ready configs n) (s : S) :
    ∃ F, ∀ fuel, F ≤ fuel → ∃ l,
      generateMeasurements srt measure fuel devices configs s = .ok l ∧
      l.Pairwise (fun a b => a.epoch < b.epoch ∨ (a.epoch = b.epoch ∧ a.tracker < b.tracker)) ∧
      ∀ e n, (∃ m ∈ l, m.epoch = e ∧ m.tracker = n) ↔ n ∈ devices ∧
        ∃ c sts st, get configs n = some c ∧ c.strands = some sts ∧ st ∈ sts ∧
          ∃ k : Nat, e = st.start + k * c.sampling ∧ e ≤ st.stop ∧ kind n e = .seen ∧
            ∀ j : Nat, j < k → kind n (st.start + j * c.sampling) ≠ .fail := by
  have hfuel : ∃ F, ∀ n ∈ devices, ∀ c l st, get configs n = some c → c.strands = some l → st ∈ l →
      fuelFor st.start st.stop c.sampling ≤ F := by
    clear hr
    induction devices with
    | nil => exact ⟨0, by simp⟩
    | cons n ds ih =>
      obtain ⟨F, hF⟩ := ih
      have : ∃ G, ∀ c l st, get configs n = some c → c.strands = some l → st ∈ l →
          fuelFor st.start st.stop c.sampling ≤ G := by
        cases hg : get configs n with
        | none => exact ⟨0, by simp⟩
        | some c =>
          cases hs : c.strands with
          | none => exact ⟨0, by rintro c' l st h1 h2; cases h1; rw [hs] at h2; cases h2⟩
          | some sts =>
            refine ⟨(sts.map fun st => fuelFor st.start st.stop c.sampling).sum, ?_⟩
            rintro c' l st h1 h2 h3
            cases h1
            rw [hs] at h2; cases h2
            exact List.le_sum_of_mem (List.mem_map_of_mem h3)
      obtain ⟨G, hG⟩ := this
      refine ⟨max F G, fun k hk c l st h1 h2 h3 => ?_⟩
      rcases List.mem_cons.1 hk with rfl | hk
      · exact le_trans (hG c l st h1 h2 h3) (le_max_right _ _)
      · exact le_trans (hF k hk c l st h1 h2 h3) (le_max_left _ _)
  obtain ⟨F, hF⟩ := hfuel
  refine ⟨F, fun fuel hfu => ?_⟩
  obtain ⟨s', l, h1, h2, h3⟩ := devicesLoop_spec measure kind hkind Msr.epoch Msr.tracker
    (fun _ => True) (fun n s e x h => ⟨(hep n s e x h).1, (hep n s e x h).2, trivial⟩) configs devices hr
    s [] fuel (fun n hn c l st a b d => le_trans (hF n hn c l st a b d) hfu)
  simp only [List.nil_append] at h1
  refine ⟨sort srt l, by simp only [generateMeasurements, h1], Tracking.coalesce_strict _ (hsrt.sorted l),
    fun e n => ?_⟩
  have hkey := Tracking.coalesce_key (srt l) e n
  unfold Tracking.HasKey at hkey
  have : (∃ m ∈ sort srt l, m.epoch = e ∧ m.tracker = n) ↔ ∃ m ∈ l, m.epoch = e ∧ m.tracker = n := by
    refine Iff.trans hkey ?_
    simp only [(hsrt.perm l).mem_iff]
  rw [this]
  constructor
  · rintro ⟨m, hm, rfl, rfl⟩
    obtain ⟨-, a1, c, sts, st, a2, a3, a4, a5⟩ := h2 m hm
    exact ⟨a1, c, sts, st, a2, a3, a4, a5⟩
  · rintro ⟨hn, c, sts, st, a2, a3, a4, a5⟩
    obtain ⟨x, hx, h5⟩ := h3 n hn e ⟨c, sts, st, a2, a3, a4, a5⟩
    exact ⟨x, hx, h5⟩

/-- A device whose schedule was not built: the simulation returns an error, provided that the devices
before it are ready. -/
theorem schedule_required (srt : List (Msr N K) → List (Msr N K))
    (measure : N → S → Int → S × Shot (Msr N K))
    (before after : List N) (n : N) (configs : IMap N Cfg) (hr : ∀ k ∈ before, Ready configs k)
    (c : Cfg) (hc : get configs n = some c) (h1 : c.scheduler.isSome) (h2 : c.strands = none) (s : S)
    (fuel : Nat) (hf : ∀ n ∈ before, ∀ c l st, get configs n = some c → c.strands = some l → st ∈ l →
      fuelFor st.start st.stop c.sampling ≤ fuel) :
    generateMeasurements srt measure fuel (before ++ n :: after) configs s = .err := by
  have key : ∀ (before : List N) (hr : ∀ k ∈ before, Ready configs k)
      (hf : ∀ n ∈ before, ∀ c l st, get configs n = some c → c.strands = some l → st ∈ l →
        fuelFor st.start st.stop c.sampling ≤ fuel) (s : S) (acc : List (Msr N K)),
      devicesLoop measure fuel configs (before ++ n :: after) s acc = .err := by
    intro before
    induction before with
    | nil =>
      intro _ _ s acc
      simp only [List.nil_append, devicesLoop, hc, h2, h1, if_true]
    | cons k ds ih =>
      intro hr hf s acc
      have ih' := fun s acc => ih (fun k hk => hr k (List.mem_cons_of_mem _ hk))
        (fun k hk => hf k (List.mem_cons_of_mem _ hk)) s acc
      rw [List.cons_append]
      unfold devicesLoop
      cases hg : get configs k with
      | none => exact ih' s acc
      | some ck =>
        simp only
        cases hs : ck.strands with
        | none =>
          simp only
          split
          · rfl
          · exact ih' s acc
        | some sts =>
          simp only
          have hloop : ∀ (sts : List Strand), (∀ st ∈ sts, fuelFor st.start st.stop ck.sampling ≤ fuel) →
              ∀ s acc, ∃ r, strandsLoop (measure k) fuel ck.sampling sts s acc = some r := by
            intro sts
            induction sts with
            | nil => intro _ s acc; exact ⟨_, rfl⟩
            | cons st sts ih2 =>
              intro hfs s acc
              have hone : ∀ (f : Nat) (cur : Int) s acc, fuelFor cur st.stop ck.sampling ≤ f →
                  ∃ r, strandLoop (measure k) st.stop ck.sampling f cur s acc = some r := by
                intro f cur s acc hff
                -- the epoch of the measurements plays no role here: forget them
                have hstep := (hr k (by simp) ck hg).2
                induction f generalizing cur s acc with
                | zero => unfold fuelFor at hff; omega
                | succ f ihf =>
                  unfold strandLoop
                  by_cases hgt : cur > st.stop
                  · rw [if_pos hgt]; exact ⟨_, rfl⟩
                  · rw [if_neg hgt]
                    have hf' : fuelFor (cur + ck.sampling) st.stop ck.sampling ≤ f := by
                      unfold fuelFor at hff ⊢
                      have h1 : (st.stop - (cur + ck.sampling)) / ck.sampling =
                          (st.stop - cur) / ck.sampling - 1 := by
                        have : st.stop - (cur + ck.sampling) =
                          (st.stop - cur) + (-1) * ck.sampling := by ring
                        rw [this, Int.add_mul_ediv_right _ _ (by omega)]; ring
                      have h2 : 0 ≤ (st.stop - cur) / ck.sampling :=
                        Int.ediv_nonneg (by omega) (by omega)
                      omega
                    rcases measure k s cur with ⟨s', sh⟩
                    cases sh with
                    | fail => exact ⟨_, rfl⟩
                    | hidden => exact ihf _ _ _ hf'
                    | seen x => exact ihf _ _ _ hf'
              obtain ⟨r, hr'⟩ := hone fuel st.start s acc (hfs st (by simp))
              obtain ⟨r2, hr2⟩ := ih2 (fun t ht => hfs t (List.mem_cons_of_mem _ ht)) r.1 r.2
              exact ⟨r2, by simp only [strandsLoop, hr', hr2]⟩
          obtain ⟨r, hr'⟩ := hloop sts (fun st hst => hf k (by simp) ck sts st hg hs hst) s acc
          rw [hr']
          exact ih' r.1 r.2
  have := key before hr hf s []
  simp only [generateMeasurements, this]

/-! ### Steps that are not positive -/

/-- A sampling that is not positive: the loop on a strand never ends, unless the device fails. -/
theorem nonpositive_sampling_loops (measure : S → Int → S × Shot M)
    (hok : ∀ s e, (measure s e).2 ≠ .fail) (start stop step : Int) (hstep : step ≤ 0)
    (hle : start ≤ stop) (s : S) (acc : List M) (fuel : Nat) :
    strandLoop measure stop step fuel start s acc = none := by
  induction fuel generalizing start s acc with
  | zero => rfl
  | succ f ih =>
    unfold strandLoop
    rw [if_neg (by omega)]
    have := hok s start
    rcases hm : measure s start with ⟨s', sh⟩
    rw [hm] at this
    cases sh with
    | fail => exact absurd rfl this
    | hidden => exact ih _ (by omega) _ _
    | seen x => exact ih _ (by omega) _ _

end Verif.Sched
