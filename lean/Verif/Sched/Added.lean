import Verif.Blse.Simulated
import Verif.Tracking.Examples
/-!
C246: a tracker added to a simulation. The trackers share one random number generator, and they are simulated one after the other
in the order of their names.
-/
namespace Verif.Added
open Verif Verif.Sched Verif.Simulated
open Verif.Tracking (IMap Msr get sort Sorts WF Has HasKey)

variable {N K S : Type} [LinearOrder N] [DecidableEq K]

/-! ### Specification -/

/-- The arcs `l` and `l'` have the same data of the tracker `n`: the same values of the same types at the same epochs. -/
def SameData (n : N) (l l' : List (Msr N K)) : Prop := ∀ e k v, Has l e n k v ↔ Has l' e n k v

/-- The strands of the tracker `n` follow one another, and both the step of the sampling and the time between two strands are longer
than `2 * w`. -/
def Apart (w : Int) (configs : IMap N Sched.Cfg) (n : N) : Prop :=
  ∀ c, get configs n = some c → 0 < c.sampling ∧ 2 * w < c.sampling ∧
    ∀ sts, c.strands = some sts → sts.Pairwise fun a b => a.stop + 2 * w < b.start

/-- A measurement of a device has its name, one value per type, and the epoch of the request, up to a noise of the time tag of at
most `w`. -/
def Labels (w : Int) (measure : N → S → Int → S × Shot (Msr N K)) : Prop :=
  ∀ n s e x, (measure n s e).2 = .seen x → |x.epoch - e| ≤ w ∧ x.tracker = n ∧ (x.data.map Prod.fst).Nodup

/-! ### Lemmas -/

theorem strandLoop_inc {w : Int} {measure : N → S → Int → S × Shot (Msr N K)} (hm : Labels w measure) (n : N) (stop step : Int)
    (hs : 0 < step) (hw : 2 * w < step) :
    ∀ (f : Nat) (cur : Int) (s : S) (acc : List (Msr N K)) {s' acc'}, strandLoop (measure n) stop step f cur s acc = some (s', acc') →
      ∃ l, acc' = acc ++ l ∧ (l.Pairwise fun a b => a.epoch < b.epoch) ∧
        ∀ x ∈ l, cur - w ≤ x.epoch ∧ x.epoch ≤ stop + w ∧ x.tracker = n ∧ (x.data.map Prod.fst).Nodup := by
  intro f
  induction f with
  | zero => intro cur s acc s' acc' h; simp [strandLoop] at h
  | succ f ih =>
    intro cur s acc s' acc' h
    rw [strandLoop] at h
    split at h
    · cases h; exact ⟨[], by simp, by simp, by simp⟩
    · split at h
      · cases h; exact ⟨[], by simp, by simp, by simp⟩
      · obtain ⟨l, h1, h2, h3⟩ := ih _ _ _ h
        exact ⟨l, h1, h2, fun x hx => ⟨by have := (h3 x hx).1; omega, (h3 x hx).2⟩⟩
      · rename_i s1 x hx
        obtain ⟨l, h1, h2, h3⟩ := ih _ _ _ h
        obtain ⟨e1, e2, e3⟩ := hm n s cur x (by rw [hx])
        rw [abs_le] at e1
        refine ⟨x :: l, by rw [h1]; simp, List.pairwise_cons.2 ⟨fun y hy => ?_, h2⟩, fun y hy => ?_⟩
        · have := (h3 y hy).1; omega
        · rcases List.mem_cons.1 hy with rfl | hy
          · exact ⟨by omega, by omega, e2, e3⟩
          · exact ⟨by have := (h3 y hy).1; omega, (h3 y hy).2⟩

theorem strandsLoop_inc {w : Int} {measure : N → S → Int → S × Shot (Msr N K)} (hm : Labels w measure) (n : N) (fuel : Nat) (step : Int)
    (hs : 0 < step) (hw : 2 * w < step) : ∀ (sts : List Strand) (s : S) (acc : List (Msr N K)) {s' acc'},
    (sts.Pairwise fun a b => a.stop + 2 * w < b.start) → strandsLoop (measure n) fuel step sts s acc = some (s', acc') →
      ∃ l, acc' = acc ++ l ∧ (l.Pairwise fun a b => a.epoch ≠ b.epoch) ∧
        ∀ x ∈ l, (∃ st ∈ sts, st.start - w ≤ x.epoch ∧ x.epoch ≤ st.stop + w) ∧ x.tracker = n ∧ (x.data.map Prod.fst).Nodup := by
  intro sts
  induction sts with
  | nil => intro s acc s' acc' _ h; cases h; exact ⟨[], by simp, by simp, by simp⟩
  | cons st sts ih =>
    intro s acc s' acc' hp h
    rw [strandsLoop] at h
    split at h
    · rename_i s1 acc1 h1
      obtain ⟨l1, rfl, a2, a3⟩ := strandLoop_inc hm n _ _ hs hw _ _ _ _ h1
      obtain ⟨l2, b1, b2, b3⟩ := ih _ _ (List.pairwise_cons.1 hp).2 h
      refine ⟨l1 ++ l2, by rw [b1, List.append_assoc], List.pairwise_append.2 ⟨a2.imp fun h => ne_of_lt h, b2, fun x hx y hy => ?_⟩,
        fun x hx => ?_⟩
      · obtain ⟨t, ht, h3, -⟩ := (b3 y hy).1
        have := (List.pairwise_cons.1 hp).1 t ht
        have := (a3 x hx).2.1
        omega
      · rcases List.mem_append.1 hx with hx | hx
        · exact ⟨⟨st, by simp, (a3 x hx).1, (a3 x hx).2.1⟩, (a3 x hx).2.2⟩
        · obtain ⟨⟨t, ht, h3⟩, h4⟩ := b3 x hx
          exact ⟨⟨t, by simp [ht], h3⟩, h4⟩
    · cases h

/-- The measurements of a list of devices: each one of a device of the list; and, of each device whose strands are apart, no two at
the same epoch. -/
theorem devicesLoop_inc {w : Int} {measure : N → S → Int → S × Shot (Msr N K)} (hm : Labels w measure) (fuel : Nat) (configs : IMap N Sched.Cfg) :
    ∀ (ns : List N) (s : S) (acc : List (Msr N K)) {r}, ns.Nodup → (∀ n ∈ ns, Apart w configs n) →
      devicesLoop measure fuel configs ns s acc = .ok r →
      ∃ l, r.2 = acc ++ l ∧ (l.Pairwise fun a b => ¬ (a.epoch = b.epoch ∧ a.tracker = b.tracker)) ∧
        ∀ x ∈ l, x.tracker ∈ ns ∧ (x.data.map Prod.fst).Nodup := by
  intro ns
  induction ns with
  | nil => intro s acc r _ _ h; cases h; exact ⟨[], by simp, by simp, by simp⟩
  | cons n ns ih =>
    intro s acc r hn ha h
    rw [devicesLoop] at h
    have hn' := (List.nodup_cons.1 hn).2
    have ha' : ∀ k ∈ ns, Apart w configs k := fun k hk => ha k (by simp [hk])
    have skip : devicesLoop measure fuel configs ns s acc = .ok r → ∃ l, r.2 = acc ++ l ∧
        (l.Pairwise fun a b => ¬ (a.epoch = b.epoch ∧ a.tracker = b.tracker)) ∧
        ∀ x ∈ l, x.tracker ∈ n :: ns ∧ (x.data.map Prod.fst).Nodup := fun h => by
      obtain ⟨l, h1, h2, h3⟩ := ih _ _ hn' ha' h
      exact ⟨l, h1, h2, fun x hx => ⟨by simp [(h3 x hx).1], (h3 x hx).2⟩⟩
    split at h
    · rename_i c hg
      split at h
      · rename_i sts hs
        split at h
        · rename_i s1 acc1 h1
          obtain ⟨l1, rfl, a2, a3⟩ := strandsLoop_inc hm n fuel _ (ha n (by simp) c hg).1 (ha n (by simp) c hg).2.1 sts s acc
            ((ha n (by simp) c hg).2.2 sts hs) h1
          obtain ⟨l2, b1, b2, b3⟩ := ih _ _ hn' ha' h
          refine ⟨l1 ++ l2, by rw [b1, List.append_assoc], List.pairwise_append.2 ⟨a2.imp fun h h' => h h'.1, b2, fun x hx y hy h => ?_⟩,
            fun x hx => ?_⟩
          · refine (List.nodup_cons.1 hn).1 ?_
            rw [← (a3 x hx).2.1, h.2]
            exact (b3 y hy).1
          · rcases List.mem_append.1 hx with hx | hx
            · exact ⟨by rw [(a3 x hx).2.1]; simp, (a3 x hx).2.2⟩
            · exact ⟨by simp [(b3 x hx).1], (b3 x hx).2⟩
        · cases h
      · split at h
        · cases h
        · exact skip h
    · exact skip h

theorem devicesLoop_append (measure : N → S → Int → S × Shot (Msr N K)) (fuel : Nat) (configs : IMap N Sched.Cfg) :
    ∀ (as bs : List N) (s : S) (acc : List (Msr N K)), devicesLoop measure fuel configs (as ++ bs) s acc =
      match devicesLoop measure fuel configs as s acc with
      | .ok r => devicesLoop measure fuel configs bs r.1 r.2
      | .err => .err
      | .loops => .loops := by
  intro as
  induction as with
  | nil => intro bs s acc; simp [devicesLoop]
  | cons n as ih =>
    intro bs s acc
    rw [List.cons_append, devicesLoop, devicesLoop]
    cases get configs n with
    | none => exact ih bs s acc
    | some c =>
      simp only
      cases c.strands with
      | none =>
        simp only
        split
        · rfl
        · exact ih bs s acc
      | some sts =>
        simp only
        cases strandsLoop (measure n) fuel c.sampling sts s acc with
        | none => rfl
        | some p => exact ih bs p.1 p.2

/-- In a sorted arc, the data of a tracker which has no two measurements at one epoch are those before the sort. -/
theorem sort_has {srt : List (Msr N K) → List (Msr N K)} (hsrt : Sorts srt) {l : List (Msr N K)} (hw : WF l)
    (hp : l.Pairwise fun a b => ¬ (a.epoch = b.epoch ∧ a.tracker = b.tracker)) (e : Int) (n : N) (k : K) (v : Rat) :
    Has (sort srt l) e n k v ↔ Has l e n k v := by
  have hws : WF (srt l) := fun x hx => hw x ((hsrt.perm l).mem_iff.1 hx)
  have hl : Has (srt l) e n k v ↔ Has l e n k v := by
    unfold Has
    simp only [(hsrt.perm l).mem_iff]
  haveI : Std.Symm fun p q : Msr N K => ¬ (p.epoch = q.epoch ∧ p.tracker = q.tracker) :=
    ⟨fun p q hpq h => hpq ⟨h.1.symm, h.2.symm⟩⟩
  refine ⟨fun h => hl.1 (Tracking.coalesce_has_sound _ hws _ _ _ _ h), fun h => ?_⟩
  obtain ⟨w, hv⟩ := Tracking.coalesce_has_complete _ hws e n k ⟨v, hl.2 h⟩
  obtain ⟨x, hx, x1, x2, x3⟩ := h
  obtain ⟨y, hy, y1, y2, y3⟩ := Tracking.coalesce_has_sound _ hws _ _ _ _ hv
  have hxy : x = y := by
    by_contra hne
    exact hp.forall hx ((hsrt.perm l).mem_iff.1 hy) hne ⟨by rw [x1, y1], by rw [x2, y2]⟩
  rw [hxy, y3] at x3
  cases x3
  exact hv

/-! ### C246 -/

/-- C246, what holds with noise. The data of the trackers `as` do not change when trackers `bs` that come after them in the order of
the names are added (when the noise of the time tags cannot make two measurements of a tracker share a tag). Missing: the trackers that come before, see
`added_tracker_false`. -/
theorem earlier_unchanged_partial {w : Int} {srt : List (Msr N K) → List (Msr N K)} (hsrt : Sorts srt)
    {measure : N → S → Int → S × Shot (Msr N K)} (hm : Labels w measure) {fuel : Nat} {configs : IMap N Sched.Cfg} {as bs : List N}
    (hn : (as ++ bs).Nodup) (ha : ∀ n ∈ as ++ bs, Apart w configs n) {s : S} {l l' : List (Msr N K)}
    (h : generateMeasurements srt measure fuel as configs s = .ok l)
    (h' : generateMeasurements srt measure fuel (as ++ bs) configs s = .ok l') :
    ∀ n ∈ as, SameData n l l' := by
  unfold generateMeasurements at h h'
  rw [devicesLoop_append] at h'
  split at h
  · rename_i s1 l1 h1
    cases h
    rw [h1] at h'
    simp only at h'
    split at h'
    · rename_i s2 l2 h2
      cases h'
      have hna := List.nodup_append.1 hn
      obtain ⟨la, e1, p1, q1⟩ := devicesLoop_inc hm fuel configs as s [] hna.1 (fun n hn => ha n (by simp [hn])) h1
      obtain ⟨lb, e2, p2, q2⟩ := devicesLoop_inc hm fuel configs bs s1 l1 hna.2.1 (fun n hn => ha n (by simp [hn])) h2
      simp only [List.nil_append] at e1 e2
      subst e1 e2
      intro n hn e k v
      have hdis : ∀ x ∈ lb, x.tracker ≠ n := fun x hx hxn => hna.2.2 n hn n (by rw [← hxn]; exact (q2 x hx).1) rfl
      rw [sort_has hsrt (fun x hx => (q1 x hx).2) p1, sort_has hsrt ?_ (List.pairwise_append.2 ⟨p1, p2, ?_⟩)]
      · unfold Has
        constructor
        · rintro ⟨x, hx, hr⟩
          exact ⟨x, List.mem_append_left _ hx, hr⟩
        · rintro ⟨x, hx, r1, r2, r3⟩
          rcases List.mem_append.1 hx with hx | hx
          · exact ⟨x, hx, r1, r2, r3⟩
          · exact absurd r2 (hdis x hx)
      · intro x hx
        rcases List.mem_append.1 hx with hx | hx
        · exact (q1 x hx).2
        · exact (q2 x hx).2
      · intro x hx y hy hxy
        exact hna.2.2 _ (q1 x hx).1 _ (q2 y hy).1 hxy.2
    · cases h'
    · cases h'
  · cases h
  · cases h

/-- C246, what holds without noise. Whatever the other trackers, their order and the state of the generator, two simulations have the
same data of a tracker that both have with the same configuration. -/
theorem quiet_unchanged {srt : List (Msr N K) → List (Msr N K)} (hsrt : Sorts srt)
    {measure : N → S → Int → S × Shot (Msr N K)} {value : N → Int → IMap K Rat} (hm : NoiseFree measure value)
    (hk : ∀ n e, ((value n e).map Prod.fst).Nodup) {kind : N → Int → Kind} (hkind : ∀ n s e, (measure n s e).2.kind = kind n e)
    {configs configs' : IMap N Sched.Cfg} {ds ds' : List N} (hr : ∀ n ∈ ds, Ready configs n) (hr' : ∀ n ∈ ds', Ready configs' n)
    {n : N} (hn : n ∈ ds) (hn' : n ∈ ds') (hc : get configs n = get configs' n) (s s' : S) :
    ∃ F, ∀ fuel, F ≤ fuel → ∃ l l', generateMeasurements srt measure fuel ds configs s = .ok l ∧
      generateMeasurements srt measure fuel ds' configs' s' = .ok l' ∧ SameData n l l' := by
  have hep : ∀ n s e x, (measure n s e).2 = .seen x → x.epoch = e ∧ x.tracker = n := fun n s e x h => by
    rw [hm n s e x h]; exact ⟨rfl, rfl⟩
  obtain ⟨F1, h1⟩ := measurements_exact srt hsrt measure kind hkind hep ds configs hr s
  obtain ⟨F2, h2⟩ := measurements_exact srt hsrt measure kind hkind hep ds' configs' hr' s'
  refine ⟨max F1 F2, fun fuel hf => ?_⟩
  obtain ⟨l, a1, a2, a3⟩ := h1 fuel (le_trans (le_max_left _ _) hf)
  obtain ⟨l', b1, b2, b3⟩ := h2 fuel (le_trans (le_max_right _ _) hf)
  refine ⟨l, l', a1, b1, fun e k v => ?_⟩
  have on : ∀ cf : IMap N Sched.Cfg, OnGrid cf 1 0 := fun cf k c _ => ⟨one_dvd _, fun _ _ _ _ => one_dvd _⟩
  have v1 := simulated_values hsrt hm hk (on configs) a1
  have v2 := simulated_values hsrt hm hk (on configs') b1
  have keys : (∃ m ∈ l, m.epoch = e ∧ m.tracker = n) ↔ ∃ m ∈ l', m.epoch = e ∧ m.tracker = n := by
    rw [a3 e n, b3 e n, hc]
    simp only [hn, hn', true_and]
  unfold Has
  constructor
  · rintro ⟨m, hm, r1, r2, r3⟩
    obtain ⟨m', hm', q1, q2⟩ := keys.1 ⟨m, hm, r1, r2⟩
    have := ((v1 m hm).2.2.2 k v).1 r3
    exact ⟨m', hm', q1, q2, ((v2 m' hm').2.2.2 k v).2 (by rw [q1, q2]; rwa [r1, r2] at this)⟩
  · rintro ⟨m, hm, r1, r2, r3⟩
    obtain ⟨m', hm', q1, q2⟩ := keys.2 ⟨m, hm, r1, r2⟩
    have := ((v2 m hm).2.2.2 k v).1 r3
    exact ⟨m', hm', q1, q2, ((v1 m' hm').2.2.2 k v).2 (by rw [q1, q2]; rwa [r1, r2] at this)⟩

/-! ### The trackers that come before -/

/-- A device with white noise of unit deviation on its only observable, always visible: each measurement is the true value (zero) plus
the next value of the shared generator (no noise on the time of the measurement). od/ground_station/trk_device.rs:158-215, od/noise/white.rs:110-112. -/
def noisy (draw : S → Rat × S) (n : N) (s : S) (e : Int) : S × Shot (Msr N Unit) :=
  ((draw s).2, .seen ⟨n, e, [((), (draw s).1)], false⟩)

theorem noisy_labels (draw : S → Rat × S) : Labels 0 (noisy (N := N) draw) := by
  intro n s e x h
  simp only [noisy, Shot.seen.injEq] at h
  subst h
  exact ⟨by simp, rfl, by simp⟩

/-- Two trackers, each with one strand from epoch 0 to epoch 0. -/
def twoCfg (a b : N) : IMap N Sched.Cfg :=
  [(a, { scheduler := none, sampling := 1, strands := some [⟨0, 0⟩] }), (b, { scheduler := none, sampling := 1, strands := some [⟨0, 0⟩] })]

/-- C246 is false of the code with noise: for any generator whose two first values differ, adding a tracker with a name before that of
a tracker changes the data of the latter, although they are independent. -/
theorem added_tracker_false {srt : List (Msr N Unit) → List (Msr N Unit)} (hsrt : Sorts srt) (draw : S → Rat × S) (s : S)
    (hd : (draw s).1 ≠ (draw (draw s).2).1) (a b : N) (hab : a < b) :
    ∃ l l', generateMeasurements srt (noisy draw) 2 [b] (twoCfg a b) s = .ok l ∧
      generateMeasurements srt (noisy draw) 2 [a, b] (twoCfg a b) s = .ok l' ∧
      Has l 0 b () (draw s).1 ∧ Has l' 0 b () (draw (draw s).2).1 ∧ ¬ SameData b l l' := by
  have hne : a ≠ b := ne_of_lt hab
  have g1 : get (twoCfg a b) a = some { scheduler := none, sampling := 1, strands := some [⟨0, 0⟩] } := by
    simp [twoCfg, Tracking.get]
  have g2 : get (twoCfg a b) b = some { scheduler := none, sampling := 1, strands := some [⟨0, 0⟩] } := by
    simp [twoCfg, Tracking.get, hne]
  have r1 : devicesLoop (noisy draw) 2 (twoCfg a b) [b] s [] =
      .ok ((draw s).2, [⟨b, 0, [((), (draw s).1)], false⟩]) := by
    simp [devicesLoop, g2, strandsLoop, strandLoop, noisy]
  have r2 : devicesLoop (noisy draw) 2 (twoCfg a b) [a, b] s [] =
      .ok ((draw (draw s).2).2, [⟨a, 0, [((), (draw s).1)], false⟩, ⟨b, 0, [((), (draw (draw s).2).1)], false⟩]) := by
    simp [devicesLoop, g1, g2, strandsLoop, strandLoop, noisy]
  have w1 := fun v => sort_has (l := [(⟨b, 0, [((), (draw s).1)], false⟩ : Msr N Unit)]) hsrt
    (by intro x hx; rw [List.mem_singleton.1 hx]; simp) (by simp) 0 b () v
  have w2 := fun v => sort_has (l := [(⟨a, 0, [((), (draw s).1)], false⟩ : Msr N Unit), ⟨b, 0, [((), (draw (draw s).2).1)], false⟩]) hsrt
    (by intro x hx; simp only [List.mem_cons, List.not_mem_nil, or_false] at hx; rcases hx with rfl | rfl <;> simp)
    (by simp [hne]) 0 b () v
  refine ⟨_, _, by rw [generateMeasurements, r1], by rw [generateMeasurements, r2], (w1 _).2 ?_, (w2 _).2 ?_, fun h => ?_⟩
  · exact ⟨⟨b, 0, [((), (draw s).1)], false⟩, by simp, rfl, rfl, by simp [Tracking.get]⟩
  · exact ⟨⟨b, 0, [((), (draw (draw s).2).1)], false⟩, by simp, rfl, rfl, by simp [Tracking.get]⟩
  · have h0 := (w2 _).1 ((h 0 () (draw s).1).1 ((w1 _).2
      ⟨⟨b, 0, [((), (draw s).1)], false⟩, by simp, rfl, rfl, by simp [Tracking.get]⟩))
    obtain ⟨x, hx, -, x2, x3⟩ := h0
    simp only [List.mem_cons, List.not_mem_nil, or_false] at hx
    rcases hx with rfl | rfl
    · exact hne x2
    · simp only [Tracking.get, if_true, Option.some.injEq] at x3
      exact hd x3.symm

/-! ### The hypotheses are met -/

/-- A generator that counts. -/
def count (s : Nat) : Rat × Nat := (s, s + 1)

/-- The data of the first tracker do not change when the second one is added. -/
example : ∃ l l', generateMeasurements Tracking.exSrt (noisy count) 2 [0] (twoCfg 0 1) 0 = .ok l ∧
    generateMeasurements Tracking.exSrt (noisy count) 2 ([0] ++ [1]) (twoCfg 0 1) 0 = .ok l' ∧ SameData 0 l l' := by
  refine ⟨_, _, rfl, rfl, earlier_unchanged_partial (as := [0]) (bs := [1]) (configs := twoCfg 0 1) (fuel := 2) (s := 0) (Tracking.exSrt_sorts) (noisy_labels count) (by decide) ?_
    rfl rfl 0 (by simp)⟩
  intro n hn c hc
  simp only [List.cons_append, List.nil_append, List.mem_cons, List.not_mem_nil, or_false] at hn
  rcases hn with rfl | rfl <;> · simp [twoCfg, Tracking.get] at hc; subst hc; exact ⟨by decide, by decide, by rintro sts h; cases h; simp⟩

example := added_tracker_false (N := Nat) (Tracking.exSrt_sorts) count 0 (by simp [count]) 0 1 (by decide)

/-- Without noise: alone, or after another tracker and with another state of the generator, the tracker 1 has the same data. -/
example := quiet_unchanged (S := Nat) (srt := Tracking.exSrt) (Tracking.exSrt_sorts)
  (measure := fun n s e => (s + 1, .seen ⟨n, e, [((), (n : Rat) + e)], false⟩)) (value := fun n e => [((), (n : Rat) + e)])
  (fun n s e x h => by simp only [Shot.seen.injEq] at h; exact h.symm) (fun n e => by simp) (kind := fun _ _ => .seen)
  (fun n s e => rfl) (configs := twoCfg 0 1) (configs' := twoCfg 0 1) (ds := [1]) (ds' := [0, 1])
  (by intro n hn c hc; rw [List.mem_singleton.1 hn] at hc; simp [twoCfg, Tracking.get] at hc; subst hc; simp)
  (by
    intro n hn c hc
    simp only [List.mem_cons, List.not_mem_nil, or_false] at hn
    rcases hn with rfl | rfl <;> · simp [twoCfg, Tracking.get] at hc; subst hc; simp)
  (n := 1) (by simp) (by simp) rfl 0 7

end Verif.Added
