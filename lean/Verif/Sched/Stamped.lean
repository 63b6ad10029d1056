import Verif.Sched.Added
/-!
C247: the noise of the time tags in a simulation.
-/
namespace Verif.Stamped
open Verif Verif.Sched Verif.Added
open Verif.Tracking (IMap Msr get sort Sorts WF Has HasKey)

variable {N K S : Type} [LinearOrder N] [DecidableEq K]

/-! ### The measurements with the epochs at which they were asked for -/

/-- A shot with the epoch of its request. -/
def stampShot (e : Int) : Shot (Msr N K) → Shot (Int × Msr N K)
  | .fail => .fail
  | .hidden => .hidden
  | .seen x => .seen (e, x)

/-- A device that also returns the epoch of the request. -/
def asked (measure : N → S → Int → S × Shot (Msr N K)) (n : N) (s : S) (e : Int) : S × Shot (Int × Msr N K) :=
  ((measure n s e).1, stampShot e (measure n s e).2)

theorem strandLoop_asked (measure : N → S → Int → S × Shot (Msr N K)) (n : N) (stop step : Int) :
    ∀ (f : Nat) (cur : Int) (s : S) (acc : List (Int × Msr N K)), strandLoop (measure n) stop step f cur s (acc.map Prod.snd) =
      (strandLoop (asked measure n) stop step f cur s acc).map fun r => (r.1, r.2.map Prod.snd) := by
  intro f
  induction f with
  | zero => intro cur s acc; rfl
  | succ f ih =>
    intro cur s acc
    rw [strandLoop, strandLoop]
    by_cases hc : cur > stop
    · rw [if_pos hc, if_pos hc]; rfl
    · rw [if_neg hc, if_neg hc]
      simp only [asked]
      rcases hm : measure n s cur with ⟨s', sh⟩
      cases sh with
      | fail => rfl
      | hidden => simp only [stampShot]; exact ih _ _ _
      | seen x =>
        simp only [stampShot]
        have := ih (cur + step) s' (acc ++ [(cur, x)])
        rw [List.map_append] at this
        exact this

theorem strandsLoop_asked (measure : N → S → Int → S × Shot (Msr N K)) (n : N) (fuel : Nat) (step : Int) :
    ∀ (sts : List Strand) (s : S) (acc : List (Int × Msr N K)), strandsLoop (measure n) fuel step sts s (acc.map Prod.snd) =
      (strandsLoop (asked measure n) fuel step sts s acc).map fun r => (r.1, r.2.map Prod.snd) := by
  intro sts
  induction sts with
  | nil => intro s acc; rfl
  | cons st sts ih =>
    intro s acc
    rw [strandsLoop, strandsLoop, strandLoop_asked]
    cases strandLoop (asked measure n) st.stop step fuel st.start s acc with
    | none => rfl
    | some r => exact ih r.1 r.2

theorem devicesLoop_asked (measure : N → S → Int → S × Shot (Msr N K)) (fuel : Nat) (configs : IMap N Sched.Cfg) :
    ∀ (ns : List N) (s : S) (acc : List (Int × Msr N K)) {r}, devicesLoop (asked measure) fuel configs ns s acc = .ok r →
      devicesLoop measure fuel configs ns s (acc.map Prod.snd) = .ok (r.1, r.2.map Prod.snd) := by
  intro ns
  induction ns with
  | nil => intro s acc r h; cases h; rfl
  | cons n ns ih =>
    intro s acc r h
    rw [devicesLoop] at h ⊢
    cases hg : get configs n with
    | none => rw [hg] at h; exact ih _ _ h
    | some c =>
      rw [hg] at h
      simp only at h ⊢
      cases hs : c.strands with
      | none =>
        rw [hs] at h
        simp only at h ⊢
        split at h
        · cases h
        · rename_i hc
          rw [if_neg hc]
          exact ih _ _ h
      | some sts =>
        rw [hs] at h
        simp only at h ⊢
        rw [strandsLoop_asked]
        cases hl : strandsLoop (asked measure n) fuel c.sampling sts s acc with
        | none => rw [hl] at h; cases h
        | some q => rw [hl] at h; exact ih _ _ h

/-! ### C247 -/

/-- C247, what holds. If the noise of the time tags is less than half of the samplings and of the time between strands, then every
measurement that is taken is in the arc with all of its values and no other, under its noisy tag; and every measurement of the arc
was taken at an epoch of its tracker's strands that its tag misses by at most the noise. Missing: a larger noise, see
`colliding_tags_false`. -/
theorem stamped_kept_partial {srt : List (Msr N K) → List (Msr N K)} (hsrt : Sorts srt) {w : Int}
    {measure : N → S → Int → S × Shot (Msr N K)} (hm : Labels w measure) {kind : N → Int → Kind}
    (hkind : ∀ n s e, (measure n s e).2.kind = kind n e) {ds : List N} (hn : ds.Nodup) {configs : IMap N Sched.Cfg}
    (hr : ∀ n ∈ ds, Ready configs n) (ha : ∀ n ∈ ds, Apart w configs n) (s : S) :
    ∃ F, ∀ fuel, F ≤ fuel → ∃ l, generateMeasurements srt measure fuel ds configs s = .ok l ∧
      (∀ n ∈ ds, ∀ e, TakenBy kind configs n e → ∃ s' x, (measure n s' e).2 = .seen x ∧ (∃ z ∈ l, z.epoch = x.epoch ∧ z.tracker = n) ∧
        ∀ k v, Has l x.epoch n k v ↔ get x.data k = some v) ∧
      ∀ z ∈ l, z.tracker ∈ ds ∧ ∃ e, TakenBy kind configs z.tracker e ∧ |z.epoch - e| ≤ w := by
  have hfuel : ∃ F, ∀ n ∈ ds, ∀ c l st, get configs n = some c → c.strands = some l → st ∈ l →
      fuelFor st.start st.stop c.sampling ≤ F := by
    clear hr ha hn
    induction ds with
    | nil => exact ⟨0, by simp⟩
    | cons n ds ih =>
      obtain ⟨F, hF⟩ := ih
      have : ∃ G, ∀ c l st, get configs n = some c → c.strands = some l → st ∈ l → fuelFor st.start st.stop c.sampling ≤ G := by
        cases hg : get configs n with
        | none => exact ⟨0, by simp⟩
        | some c =>
          cases hs : c.strands with
          | none => exact ⟨0, by rintro c' l st h1 h2; cases h1; rw [hs] at h2; cases h2⟩
          | some sts =>
            refine ⟨(sts.map fun st => fuelFor st.start st.stop c.sampling).sum, ?_⟩
            rintro c' l st h1 h2 h3
            cases h1
            rw [hs] at h2; cases h2
            exact List.le_sum_of_mem (List.mem_map_of_mem h3)
      obtain ⟨G, hG⟩ := this
      refine ⟨max F G, fun k hk c l st h1 h2 h3 => ?_⟩
      rcases List.mem_cons.1 hk with rfl | hk
      · exact le_trans (hG c l st h1 h2 h3) (le_max_right _ _)
      · exact le_trans (hF k hk c l st h1 h2 h3) (le_max_left _ _)
  obtain ⟨F, hF⟩ := hfuel
  refine ⟨F, fun fuel hf => ?_⟩
  have hk' : ∀ n s e, (asked measure n s e).2.kind = kind n e := fun n s e => by
    rw [← hkind n s e]
    unfold asked
    cases (measure n s e).2 <;> rfl
  have hq : ∀ n s e (x : Int × Msr N K), (asked measure n s e).2 = .seen x →
      x.1 = e ∧ x.2.tracker = n ∧ ∃ s', (measure x.2.tracker s' x.1).2 = .seen x.2 := fun n s e x h => by
    unfold asked at h
    cases hx : (measure n s e).2 with
    | fail => rw [hx] at h; cases h
    | hidden => rw [hx] at h; cases h
    | seen y =>
      rw [hx] at h
      cases h
      have := (hm n s e y hx).2.1
      exact ⟨rfl, this, s, by rw [this]; exact hx⟩
  obtain ⟨s1, P, h1, h2, h3⟩ := devicesLoop_spec (asked measure) kind hk' Prod.fst (fun x => x.2.tracker)
    (fun x => ∃ s', (measure x.2.tracker s' x.1).2 = .seen x.2) hq configs ds hr s [] fuel
    (fun n hn c l st a b d => le_trans (hF n hn c l st a b d) hf)
  have h0 := devicesLoop_asked measure fuel configs ds s [] h1
  simp only [List.nil_append, List.map_nil] at h0
  obtain ⟨raw, e1, p1, q1⟩ := devicesLoop_inc hm fuel configs ds s [] hn ha h0
  simp only [List.nil_append] at e1
  rw [e1] at h0
  have hwf : WF raw := fun x hx => (q1 x hx).2
  have hsh := fun e n k v => sort_has hsrt hwf p1 e n k v
  have hkey := fun e n => Tracking.coalesce_key (srt raw) e n
  unfold HasKey at hkey
  simp only [(hsrt.perm raw).mem_iff] at hkey
  haveI : Std.Symm fun p q : Msr N K => ¬ (p.epoch = q.epoch ∧ p.tracker = q.tracker) :=
    ⟨fun p q hpq h => hpq ⟨h.1.symm, h.2.symm⟩⟩
  refine ⟨sort srt raw, by rw [generateMeasurements, h0], fun n hn e he => ?_, fun z hz => ?_⟩
  · obtain ⟨x, hx, rfl, rfl⟩ := h3 n hn e he
    obtain ⟨⟨s', hs'⟩, -⟩ := h2 x hx
    have hraw : x.2 ∈ raw := by rw [← e1]; exact List.mem_map_of_mem hx
    refine ⟨s', x.2, hs', (hkey x.2.epoch x.2.tracker).2 ⟨x.2, hraw, rfl, rfl⟩, fun k v => ?_⟩
    rw [hsh]
    constructor
    · rintro ⟨y, hy, y1, y2, y3⟩
      have : y = x.2 := by
        by_contra hne
        exact p1.forall hy hraw hne ⟨y1, y2⟩
      rwa [this] at y3
    · exact fun hv => ⟨x.2, hraw, rfl, rfl, hv⟩
  · obtain ⟨y, hy, y1, y2⟩ := (hkey z.epoch z.tracker).1 ⟨z, hz, rfl, rfl⟩
    rw [← e1] at hy
    obtain ⟨x, hx, rfl⟩ := List.mem_map.1 hy
    obtain ⟨⟨s', hs'⟩, b1, b2⟩ := h2 x hx
    rw [← y1, ← y2]
    exact ⟨b1, x.1, b2, (hm _ _ _ _ hs').1⟩

/-! ### Larger noises -/

/-- A device whose time tag runs behind by the state of the generator: the noise of the tag is the next value of the generator.
od/ground_station/trk_device.rs:158-215 (`epoch + noises[0].seconds()`). -/
def late (n : N) (s : Nat) (e : Int) : Nat × Shot (Msr N Unit) := (s + 1, .seen ⟨n, e - s, [((), (e : Rat))], false⟩)

/-- C247 is false of the code when the noise can be as large as the sampling: two measurements, taken at two epochs of a strand, get
the same tag, and the arc has only one of them. -/
theorem colliding_tags_false {srt : List (Msr N Unit) → List (Msr N Unit)} (hsrt : Sorts srt) (n : N) :
    ∃ configs : IMap N Sched.Cfg, Ready configs n ∧ TakenBy (fun _ _ => .seen) configs n 0 ∧ TakenBy (fun _ _ => .seen) configs n 1 ∧
      ∃ l, generateMeasurements srt late 3 [n] configs 0 = .ok l ∧ l.length = 1 := by
  let c : Sched.Cfg := { scheduler := none, sampling := 1, strands := some [⟨0, 1⟩] }
  have hg : get [(n, c)] n = some c := by simp [Tracking.get]
  have r1 : devicesLoop late 3 [(n, c)] [n] 0 [] = .ok (2, [⟨n, 0, [((), 0)], false⟩, ⟨n, 0, [((), 1)], false⟩]) := by
    simp [devicesLoop, hg, c, strandsLoop, strandLoop, late]
  refine ⟨[(n, c)], fun c' h => ?_, ⟨c, _, ⟨0, 1⟩, hg, rfl, by simp, 0, by simp, by simp, rfl, by simp⟩,
    ⟨c, _, ⟨0, 1⟩, hg, rfl, by simp, 1, by simp [c], by simp, rfl, by simp⟩, _, by rw [generateMeasurements, r1], ?_⟩
  · rw [hg] at h; cases h; exact ⟨by simp [c], by decide⟩
  · set raw : List (Msr N Unit) := [⟨n, 0, [((), 0)], false⟩, ⟨n, 0, [((), 1)], false⟩] with hraw
    have hp := Tracking.coalesce_strict _ (hsrt.sorted raw)
    have hall : ∀ z ∈ sort srt raw, z.epoch = 0 ∧ z.tracker = n := by
      intro z hz
      obtain ⟨y, hy, y1, y2⟩ := (Tracking.coalesce_key (srt raw) z.epoch z.tracker).1 ⟨z, hz, rfl, rfl⟩
      rw [(hsrt.perm raw).mem_iff, hraw] at hy
      simp only [List.mem_cons, List.not_mem_nil, or_false] at hy
      rcases hy with rfl | rfl <;> exact ⟨y1.symm, y2.symm⟩
    have hex : ∃ z ∈ sort srt raw, z.epoch = 0 ∧ z.tracker = n :=
      (Tracking.coalesce_key (srt raw) 0 n).2 ⟨⟨n, 0, [((), 0)], false⟩, by rw [(hsrt.perm raw).mem_iff, hraw]; simp, rfl, rfl⟩
    change (Tracking.coalesce (srt raw)).length = 1
    change ∀ z ∈ Tracking.coalesce (srt raw), _ at hall
    change ∃ z ∈ Tracking.coalesce (srt raw), _ at hex
    rcases hl : Tracking.coalesce (srt raw) with - | ⟨a, - | ⟨b, t⟩⟩
    · rw [hl] at hex; simp at hex
    · rfl
    · exfalso
      rw [hl] at hp hall
      have h1 := hall a (by simp)
      have h2 := hall b (by simp)
      rcases (List.pairwise_cons.1 hp).1 b (by simp) with h | ⟨-, h⟩
      · rw [h1.1, h2.1] at h; exact absurd h (lt_irrefl _)
      · rw [h1.2, h2.2] at h; exact absurd h (lt_irrefl _)

/-! ### The hypotheses are met -/

/-- Tags that are one nanosecond early or late, with strands sampled every five nanoseconds. -/
example := stamped_kept_partial (N := Nat) (K := Unit) (S := Nat) (w := 1) Tracking.exSrt_sorts
  (measure := fun n s e => (s + 1, .seen ⟨n, e + (if s % 2 = 0 then 1 else -1), [((), (e : Rat))], false⟩))
  (by
    intro n s e x h
    simp only [Shot.seen.injEq] at h
    subst h
    refine ⟨?_, rfl, by simp⟩
    simp only
    split <;> rw [abs_le] <;> constructor <;> omega)
  (kind := fun _ _ => .seen) (fun n s e => rfl) (ds := [0]) (by simp)
  (configs := [(0, { scheduler := none, sampling := 5, strands := some [⟨0, 20⟩, ⟨30, 50⟩] })])
  (by intro n hn c hc; rw [List.mem_singleton.1 hn] at hc; simp [Tracking.get] at hc; subst hc; simp)
  (by
    intro n hn c hc
    rw [List.mem_singleton.1 hn] at hc
    simp [Tracking.get] at hc
    subst hc
    refine ⟨by decide, by decide, ?_⟩
    rintro sts h
    cases h
    simp)
  0

example := colliding_tags_false (N := Nat) Tracking.exSrt_sorts 3

end Verif.Stamped
