import Mathlib.Data.List.Nodup
import Verif.Sched.Handoff
/-!
C45, C46 for the whole of `generate_schedule`.
-/
namespace Verif.Sched
open Verif Verif.Util
open Verif.Tracking (IMap get get_mem get_of_mem)

variable {N : Type} [DecidableEq N]

/-! ### The snapshot -/

omit [DecidableEq N] in
theorem mem_entriesOf (e : N × Cfg) (x : Entry N) :
    x ∈ entriesOf e ↔ x.name = e.1 ∧ (e.2.strands.bind fun l => l[x.pos]?) = some x.strand := by
  unfold entriesOf
  cases hs : e.2.strands with
  | none => simp
  | some l =>
    simp only [List.mem_map, Option.bind_some]
    constructor
    · rintro ⟨p, hp, rfl⟩
      exact ⟨rfl, List.mk_mem_zipIdx_iff_getElem?.1 hp⟩
    · rintro ⟨h1, h2⟩
      exact ⟨(x.strand, x.pos), List.mk_mem_zipIdx_iff_getElem?.2 h2, by cases x; simp_all⟩

theorem mem_snapshot (m : IMap N Cfg) (hk : (m.map Prod.fst).Nodup) (x : Entry N) :
    x ∈ snapshot m ↔ strandAt m x.key = some x.strand := by
  unfold snapshot
  rw [(sortBy_perm _ _).mem_iff, List.mem_flatMap]
  unfold strandAt Entry.key
  constructor
  · rintro ⟨e, he, hx⟩
    rw [mem_entriesOf] at hx
    rw [hx.1, get_of_mem m hk e.1 e.2 he]
    exact hx.2
  · intro h
    cases hg : get m x.name with
    | none => rw [hg] at h; cases h
    | some c =>
      rw [hg] at h
      exact ⟨(x.name, c), get_mem m _ _ hg, (mem_entriesOf _ _).2 ⟨rfl, h⟩⟩

omit [DecidableEq N] in
theorem snapshot_sorted (m : IMap N Cfg) :
    (snapshot m).Pairwise (fun a b => a.strand.start ≤ b.strand.start) :=
  sortBy_sorted _ _

omit [DecidableEq N] in
theorem snapshot_keys (m : IMap N Cfg) (hk : (m.map Prod.fst).Nodup) :
    ((snapshot m).map Entry.key).Nodup := by
  have hp : ((snapshot m).map Entry.key).Perm ((m.flatMap entriesOf).map Entry.key) :=
    (sortBy_perm _ _).map _
  rw [hp.nodup_iff]
  induction m with
  | nil => simp
  | cons e m ih =>
    rw [List.map_cons, List.nodup_cons] at hk
    rw [List.flatMap_cons, List.map_append, List.nodup_append]
    refine ⟨?_, ih hk.2 ((sortBy_perm _ _).map _), ?_⟩
    · unfold entriesOf
      cases e.2.strands with
      | none => simp
      | some l =>
        simp only [List.map_map]
        have : ((l.zipIdx.map Prod.snd).map fun i => (e.1, i)).Nodup := by
          rw [List.zipIdx_map_snd]
          exact List.Nodup.map (fun a b h => by simpa using h) (List.nodup_range')
        rw [List.map_map] at this
        exact this
    · intro a ha b hb hab
      rw [List.mem_map] at ha hb
      obtain ⟨x, hx, rfl⟩ := ha
      obtain ⟨y, hy, rfl⟩ := hb
      rw [mem_entriesOf] at hx
      rw [List.mem_flatMap] at hy
      obtain ⟨e', he', hy⟩ := hy
      rw [mem_entriesOf] at hy
      have : x.name = y.name := congrArg Prod.fst hab
      apply hk.1
      rw [← hx.1, this, hy.1]
      exact List.mem_map_of_mem he'

/-! ### The loop on the devices -/

theorem buildAll_get (vis : N → Int → Option (List Strand)) (configs : IMap N Cfg) (ds : List N)
    (hd : ds.Nodup) (m m' : IMap N Cfg) (h : buildAll vis configs ds m = some m')
    (hm : ∀ n ∈ ds, get m n = get configs n) :
    m'.map Prod.fst = m.map Prod.fst ∧
    (∀ n, samplingOf m' n = samplingOf m n) ∧
    (∀ n, n ∉ ds → get m' n = get m n) ∧
    (∀ n c s, n ∈ ds → get configs n = some c → c.scheduler = some s →
      ∃ arcs, vis n c.sampling = some arcs ∧
        get m' n = some ⟨none, c.sampling, some (strandsOf s c.sampling arcs)⟩) ∧
    (∀ n c, n ∈ ds → get configs n = some c → c.scheduler = none → get m' n = some c) := by
  induction ds generalizing m with
  | nil =>
    simp only [buildAll, Option.some.injEq] at h
    subst h
    simp
  | cons x ds ih =>
    rw [List.nodup_cons] at hd
    unfold buildAll at h
    cases hg : get configs x with
    | none =>
      rw [hg] at h
      obtain ⟨a1, a2, a3, a4, a5⟩ := ih hd.2 m h (fun n hn => hm n (List.mem_cons_of_mem _ hn))
      refine ⟨a1, a2, fun n hn => a3 n (fun h => hn (List.mem_cons_of_mem _ h)), ?_, ?_⟩
      · intro n c s hn hc hs
        rcases List.mem_cons.1 hn with rfl | hn
        · rw [hg] at hc; cases hc
        · exact a4 n c s hn hc hs
      · intro n c hn hc hs
        rcases List.mem_cons.1 hn with rfl | hn
        · rw [hg] at hc; cases hc
        · exact a5 n c hn hc hs
    | some c =>
      rw [hg] at h
      simp only at h
      cases hsch : c.scheduler with
      | none =>
        rw [hsch] at h
        obtain ⟨a1, a2, a3, a4, a5⟩ := ih hd.2 m h (fun n hn => hm n (List.mem_cons_of_mem _ hn))
        refine ⟨a1, a2, fun n hn => a3 n (fun h => hn (List.mem_cons_of_mem _ h)), ?_, ?_⟩
        · intro n c' s hn hc hs
          rcases List.mem_cons.1 hn with rfl | hn
          · rw [hg] at hc; cases hc; rw [hsch] at hs; cases hs
          · exact a4 n c' s hn hc hs
        · intro n c' hn hc hs
          rcases List.mem_cons.1 hn with rfl | hn
          · rw [a3 n hd.1, hm n (by simp), hc]
          · exact a5 n c' hn hc hs
      | some s =>
        rw [hsch] at h
        simp only at h
        cases hv : vis x c.sampling with
        | none => rw [hv] at h; cases h
        | some arcs =>
          rw [hv] at h
          simp only at h
          obtain ⟨a1, a2, a3, a4, a5⟩ := ih hd.2 _ h (fun n hn => by
            rw [get_modify, if_neg (fun (h : n = x) => hd.1 (h ▸ hn))]
            exact hm n (List.mem_cons_of_mem _ hn))
          refine ⟨by rw [a1, modify_keys], fun n => ?_, fun n hn => ?_, ?_, ?_⟩
          · rw [a2]; apply samplingOf_modifyStrand; intro c; rfl
          · rw [List.mem_cons, not_or] at hn
            rw [a3 n hn.2, get_modify, if_neg hn.1]
          · intro n c' s' hn hc hs
            rcases List.mem_cons.1 hn with rfl | hn
            · rw [hg] at hc
              cases hc
              rw [hsch] at hs
              cases hs
              refine ⟨arcs, hv, ?_⟩
              rw [a3 n hd.1, get_modify, if_pos rfl, hm n (by simp), hg]
              rfl
            · exact a4 n c' s' hn hc hs
          · intro n c' hn hc hs
            rcases List.mem_cons.1 hn with rfl | hn
            · rw [hg] at hc; cases hc; rw [hsch] at hs; cases hs
            · exact a5 n c' hn hc hs

/-! ### The handoff loop on configurations -/

theorem handPair_get (configs m : IMap N Cfg) (a b : Entry N) (n : N) (c : Cfg)
    (h : get m n = some c) : ∃ c', get (handPair configs m a b) n = some c' ∧
      c'.scheduler = c.scheduler ∧ c'.sampling = c.sampling ∧
      c'.strands.map List.length = c.strands.map List.length := by
  have key : ∀ (x : N) (i : Nat) (f : Strand → Strand), ∃ c',
      get (modify m x fun c => { c with strands := c.strands.map fun l => l.modify i f }) n = some c' ∧
      c'.scheduler = c.scheduler ∧ c'.sampling = c.sampling ∧
      c'.strands.map List.length = c.strands.map List.length := by
    intro x i f
    rw [get_modify]
    by_cases hx : n = x
    · rw [if_pos hx, h]
      refine ⟨_, rfl, rfl, rfl, ?_⟩
      cases hcs : c.strands <;> simp [hcs]
    · rw [if_neg hx]
      exact ⟨c, h, rfl, rfl, rfl⟩
  unfold handPair
  cases handoffOf configs a.name with
  | none => exact ⟨c, h, rfl, rfl, rfl⟩
  | some hd =>
    simp only
    split
    · exact key _ _ _
    · split
      · exact key _ _ _
      · exact ⟨c, h, rfl, rfl, rfl⟩

theorem handLoop_get (configs : IMap N Cfg) (L : List (Entry N)) (m : IMap N Cfg) (n : N) (c : Cfg)
    (h : get m n = some c) : ∃ c', get (handLoop configs L m) n = some c' ∧
      c'.scheduler = c.scheduler ∧ c'.sampling = c.sampling ∧
      c'.strands.map List.length = c.strands.map List.length := by
  induction L generalizing m c with
  | nil => exact ⟨c, h, rfl, rfl, rfl⟩
  | cons a l ih =>
    cases l with
    | nil => exact ⟨c, h, rfl, rfl, rfl⟩
    | cons b l =>
      obtain ⟨c1, h1, h2, h3, h4⟩ := handPair_get configs m a b n c h
      obtain ⟨c2, g1, g2, g3, g4⟩ := ih _ _ h1
      exact ⟨c2, g1, g2.trans h2, g3.trans h3, g4.trans h4⟩

/-- After the handoff of the strands of `m`: any strand of the result is the one of `m` of same
tracker and position, handed over. -/
theorem handLoop_at (configs m : IMap N Cfg) (hk : (m.map Prod.fst).Nodup) (k : N × Nat) :
    (strandAt m k = none → strandAt (handLoop configs (snapshot m) m) k = none) ∧
    ∀ s, strandAt m k = some s → ∃ (i : Nat) (e : Entry N), (snapshot m)[i]? = some e ∧ e.key = k ∧
      e.strand = s ∧ strandAt (handLoop configs (snapshot m) m) k =
        (handed configs (samplingOf m)
          (((snapshot m).head?.map fun e => e.strand.start).getD 0) (snapshot m))[i]? := by
  obtain ⟨h1, h2⟩ := handLoop_spec configs (snapshot m) (snapshot_keys m hk) m
    (((snapshot m).head?.map fun e => e.strand.start).getD 0)
    (fun a ha => by
      rw [ha]
      exact (mem_snapshot m hk a).1 (List.mem_of_mem_head? ha))
    (fun e he => (mem_snapshot m hk e).1 (List.mem_of_mem_tail he))
  refine ⟨fun hn => ?_, fun s hs => ?_⟩
  · rw [h2 k, hn]
    intro hmem
    rw [List.mem_map] at hmem
    obtain ⟨e, he, rfl⟩ := hmem
    rw [mem_snapshot m hk, hn] at he
    cases he
  · have he : (⟨k.1, k.2, s⟩ : Entry N) ∈ snapshot m := (mem_snapshot m hk _).2 hs
    obtain ⟨i, hi⟩ := List.mem_iff_getElem?.1 he
    exact ⟨i, _, hi, rfl, rfl, h1 i _ hi⟩

omit [DecidableEq N] in
theorem head_start (m : IMap N Cfg) (a : Entry N) (ha : (snapshot m).head? = some a) :
    a.strand.start ≤ (((snapshot m).head?.map fun e => e.strand.start).getD 0) := by
  rw [ha]; exact le_refl _

/-- The strands only get shorter in the handoff. -/
theorem handLoop_narrows (configs m : IMap N Cfg) (hk : (m.map Prod.fst).Nodup)
    (hs : ∀ n, 0 ≤ samplingOf m n) (k : N × Nat) (s : Strand) (h : strandAt m k = some s) :
    ∃ s', strandAt (handLoop configs (snapshot m) m) k = some s' ∧
      s.start ≤ s'.start ∧ s'.stop ≤ s.stop := by
  obtain ⟨i, e, h1, h2, h3, h4⟩ := (handLoop_at configs m hk k).2 s h
  have hn := handed_narrows configs (samplingOf m) hs _ (snapshot m) (head_start m)
  obtain ⟨hi, h5⟩ := List.getElem?_eq_some_iff.1 h1
  have hi' : i < (handed configs (samplingOf m)
      (((snapshot m).head?.map fun e => e.strand.start).getD 0) (snapshot m)).length := by
    rw [handed_length]; exact hi
  have := List.Forall₂.get hn hi' hi
  rw [h4]
  refine ⟨_, List.getElem?_eq_getElem hi', ?_⟩
  simp only [List.get_eq_getElem, h5, h3] at this
  exact this

/-! ### C45 -/

/-- A later step only made the strand shorter. -/
def Narrowed (s' s : Strand) : Prop := s.start ≤ s'.start ∧ s'.stop ≤ s.stop

theorem generateSchedule_ok {D : Type} (checked : Bool) (vis : N → Int → Option (List Strand))
    (devices : IMap N D) (configs m' : IMap N Cfg)
    (h : generateSchedule checked vis devices configs = .ok m') :
    ∃ m, buildAll vis configs (devices.map Prod.fst) configs = some m ∧
      m' = handLoop configs (snapshot m) m := by
  unfold generateSchedule at h
  cases hb : buildAll vis configs (devices.map Prod.fst) configs with
  | none => rw [hb] at h; cases h
  | some m =>
    rw [hb] at h
    simp only at h
    split at h
    · cases h
    · cases h; exact ⟨m, rfl, rfl⟩

theorem samplingOf_nonneg (m : IMap N Cfg) (h : ∀ n c, get m n = some c → 0 < c.sampling) (n : N) :
    0 ≤ samplingOf m n := by
  unfold samplingOf
  cases hg : get m n with
  | none => exact le_refl _
  | some c => exact le_of_lt (h n c hg)

/-- C45. In a generated schedule, each tracker that has a scheduler gets a list of strands and no
scheduler; its sampling is unchanged. The strands are those built from its visibility arcs, possibly
shortened by the handoff. So each one is inside a visibility arc up to half of the alignment, and an
intermittent cadence is respected. -/
theorem schedule_partial {D : Type} (checked : Bool) (vis : N → Int → Option (List Strand))
    (devices : IMap N D) (configs m' : IMap N Cfg) (hd : (devices.map Prod.fst).Nodup)
    (hk : (configs.map Prod.fst).Nodup)
    (hpos : ∀ n c, get configs n = some c → 0 < c.sampling)
    (h : generateSchedule checked vis devices configs = .ok m')
    (n : N) (hn : n ∈ devices.map Prod.fst) (c : Cfg) (hc : get configs n = some c)
    (s : Scheduler) (hs : c.scheduler = some s) (ha : AlignOk s.alignment) :
    ∃ arcs l, vis n c.sampling = some arcs ∧ get m' n = some ⟨none, c.sampling, some l⟩ ∧
      List.Forall₂ Narrowed l (strandsOf s c.sampling arcs) ∧
      (∀ st ∈ l, ∃ a ∈ arcs, c.sampling * s.minSamples ≤ a.stop - a.start ∧
        2 * (a.start - st.start) ≤ slack s.alignment ∧ 2 * (st.stop - a.stop) ≤ slack s.alignment) ∧
      (∀ on off, s.cadence = .intermittent on off →
        (∀ st ∈ l, st.duration ≤ on) ∧ l.IsChain (fun p q => p.stop + off ≤ q.start)) := by
  obtain ⟨m, hb, rfl⟩ := generateSchedule_ok checked vis devices configs m' h
  obtain ⟨b1, b2, b3, b4, b5⟩ := buildAll_get vis configs _ hd configs m hb (fun _ _ => rfl)
  obtain ⟨arcs, hv, hg⟩ := b4 n c s hn hc hs
  have hk' : (m.map Prod.fst).Nodup := by rw [b1]; exact hk
  have hsm : ∀ n, 0 ≤ samplingOf m n := fun n => by
    rw [b2]; exact samplingOf_nonneg configs hpos n
  obtain ⟨c', g1, g2, g3, g4⟩ := handLoop_get configs (snapshot m) m n _ hg
  obtain ⟨sch, smp, str⟩ := c'
  simp only at g2 g3
  subst g2 g3
  cases str with
  | none => simp at g4
  | some l =>
    simp only [Option.map_some, Option.some.injEq] at g4
    have hF : List.Forall₂ Narrowed l (strandsOf s c.sampling arcs) := by
      rw [List.forall₂_iff_get]
      refine ⟨g4, fun i h1 h2 => ?_⟩
      have e1 : strandAt m (n, i) = some (strandsOf s c.sampling arcs)[i] := by
        simp [strandAt, hg, List.getElem?_eq_getElem h2]
      obtain ⟨s', q1, q2⟩ := handLoop_narrows configs m hk' hsm (n, i) _ e1
      have e2 : strandAt (handLoop configs (snapshot m) m) (n, i) = some l[i] := by
        simp [strandAt, g1, List.getElem?_eq_getElem h1]
      rw [e2] at q1
      cases q1
      exact q2
    obtain ⟨w1, w2⟩ := strands_within_partial s c.sampling ha arcs
    have hmem : ∀ st ∈ l, ∃ s0 ∈ strandsOf s c.sampling arcs, Narrowed st s0 := by
      intro st hst
      obtain ⟨i, hi, rfl⟩ := List.mem_iff_getElem.1 hst
      have hi' : i < (strandsOf s c.sampling arcs).length := by rw [← g4]; exact hi
      exact ⟨_, List.getElem_mem hi', List.Forall₂.get hF hi hi'⟩
    refine ⟨arcs, l, hv, g1, hF, fun st hst => ?_, fun on off hcad => ⟨fun st hst => ?_, ?_⟩⟩
    · obtain ⟨s0, h0, hnar⟩ := hmem st hst
      obtain ⟨a, ha, h3, h4, h5⟩ := w1 s0 h0
      exact ⟨a, ha, h3, by have := hnar.1; omega, by have := hnar.2; omega⟩
    · obtain ⟨s0, h0, hnar⟩ := hmem st hst
      have := (w2 on off hcad).1 s0 h0
      unfold Strand.duration at this ⊢
      have := hnar.1
      have := hnar.2
      omega
    · have hch := (w2 on off hcad).2
      rw [List.isChain_iff_getElem] at hch ⊢
      intro i hi
      have e1 := List.Forall₂.get hF (i := i) (by omega) (by omega)
      have e2 := List.Forall₂.get hF (i := i + 1) (by omega) (by omega)
      have e3 := hch i (by omega)
      simp only [List.get_eq_getElem, Narrowed] at e1 e2
      omega

/-! ### C46 -/

/-- No epoch is in both strands. -/
def Disjoint2 (s t : Strand) : Prop := ∀ e, ¬ (s.contains e ∧ t.contains e)

theorem disjoint_of_lt {s t : Strand} (h : s.stop < t.start ∨ t.stop < s.start) : Disjoint2 s t := by
  intro e ⟨h1, h2⟩
  unfold Strand.contains at h1 h2
  omega

theorem handLoop_disjoint (configs m : IMap N Cfg) (hk : (m.map Prod.fst).Nodup)
    (hP : (handed configs (samplingOf m)
      (((snapshot m).head?.map fun e => e.strand.start).getD 0) (snapshot m)).Pairwise
        (fun p q => p.stop < q.start))
    (k1 k2 : N × Nat) (hne : k1 ≠ k2) (s1 s2 : Strand)
    (h1 : strandAt (handLoop configs (snapshot m) m) k1 = some s1)
    (h2 : strandAt (handLoop configs (snapshot m) m) k2 = some s2) :
    s1.stop < s2.start ∨ s2.stop < s1.start := by
  have at_ : ∀ (k : N × Nat) s, strandAt (handLoop configs (snapshot m) m) k = some s →
      ∃ (i : Nat) (e : Entry N), (snapshot m)[i]? = some e ∧ e.key = k ∧
        (handed configs (samplingOf m)
          (((snapshot m).head?.map fun e => e.strand.start).getD 0) (snapshot m))[i]? = some s := by
    intro k s hs
    obtain ⟨a1, a2⟩ := handLoop_at configs m hk k
    cases hm : strandAt m k with
    | none => rw [a1 hm] at hs; cases hs
    | some s0 =>
      obtain ⟨i, e, b1, b2, -, b4⟩ := a2 s0 hm
      exact ⟨i, e, b1, b2, b4 ▸ hs⟩
  obtain ⟨i, e, a1, a2, a3⟩ := at_ k1 s1 h1
  obtain ⟨j, f, b1, b2, b3⟩ := at_ k2 s2 h2
  have hij : i ≠ j := by
    rintro rfl
    rw [a1] at b1
    cases b1
    exact hne (a2.symm.trans b2)
  obtain ⟨hi, rfl⟩ := List.getElem?_eq_some_iff.1 a3
  obtain ⟨hj, rfl⟩ := List.getElem?_eq_some_iff.1 b3
  rw [List.pairwise_iff_getElem] at hP
  rcases Nat.lt_or_gt_of_ne hij with h | h
  · exact .inl (hP i j hi hj h)
  · exact .inr (hP j i hj hi h)

/-- The policy of a tracker that has a scheduler which is not Overlap. -/
def EagerOrGreedy (configs : IMap N Cfg) (n : N) : Prop :=
  ∃ c s, get configs n = some c ∧ c.scheduler = some s ∧ (s.handoff = .eager ∨ s.handoff = .greedy)

/-- The policy of a tracker that has an Eager scheduler. -/
def IsEager (configs : IMap N Cfg) (n : N) : Prop :=
  ∃ c s, get configs n = some c ∧ c.scheduler = some s ∧ s.handoff = .eager

/-- Every strand of the result was there before the handoff. -/
theorem handLoop_isSome (configs m : IMap N Cfg) (hk : (m.map Prod.fst).Nodup)
    (e : Entry N) (he : e ∈ snapshot m) :
    ∃ s, strandAt (handLoop configs (snapshot m) m) e.key = some s := by
  obtain ⟨i, f, h1, h2, h3, h4⟩ := (handLoop_at configs m hk e.key).2 _ ((mem_snapshot m hk e).1 he)
  rw [h4]
  obtain ⟨hi, -⟩ := List.getElem?_eq_some_iff.1 h1
  exact ⟨_, List.getElem?_eq_getElem (by rw [handed_length]; exact hi)⟩

/-- C46. In a generated schedule, two strands (of two trackers or of the same) never overlap, when
every tracker that has a strand is Eager, or when every one is Eager or Greedy and the handoff left
no strand that ends before it starts. -/
theorem handoff_partial {D : Type} (checked : Bool) (vis : N → Int → Option (List Strand))
    (devices : IMap N D) (configs m' : IMap N Cfg) (hd : (devices.map Prod.fst).Nodup)
    (hk : (configs.map Prod.fst).Nodup)
    (hpos : ∀ n c, get configs n = some c → 0 < c.sampling)
    (h : generateSchedule checked vis devices configs = .ok m')
    (hp : (∀ n i s, strandAt m' (n, i) = some s → IsEager configs n) ∨
      (∀ n i s, strandAt m' (n, i) = some s → EagerOrGreedy configs n ∧ s.start ≤ s.stop))
    (n₁ n₂ : N) (i₁ i₂ : Nat) (hne : (n₁, i₁) ≠ (n₂, i₂)) (s₁ s₂ : Strand)
    (h₁ : strandAt m' (n₁, i₁) = some s₁) (h₂ : strandAt m' (n₂, i₂) = some s₂) :
    ∀ e, ¬ (s₁.contains e ∧ s₂.contains e) := by
  obtain ⟨m, hb, rfl⟩ := generateSchedule_ok checked vis devices configs m' h
  obtain ⟨b1, b2, b3, b4, b5⟩ := buildAll_get vis configs _ hd configs m hb (fun _ _ => rfl)
  have hk' : (m.map Prod.fst).Nodup := by rw [b1]; exact hk
  -- the sampling rates of the trackers in the snapshot are positive
  have hsmp : ∀ e ∈ snapshot m, ∃ c, get configs e.name = some c ∧ samplingOf m e.name = c.sampling := by
    intro e he
    have := (mem_snapshot m hk' e).1 he
    unfold strandAt at this
    cases hg : get m e.key.1 with
    | none => rw [hg] at this; cases this
    | some c =>
      have hmem : e.name ∈ configs.map Prod.fst := by
        rw [← b1]
        exact List.mem_map.2 ⟨_, get_mem m _ _ hg, rfl⟩
      have := (Tracking.get_isSome_iff configs e.name).2 hmem
      obtain ⟨c', hc'⟩ := Option.isSome_iff_exists.1 this
      refine ⟨c', hc', ?_⟩
      rw [b2]
      unfold samplingOf
      rw [hc']
  -- a positive sampling function that agrees on the snapshot
  have agree : ∀ (L : List (Entry N)) (s0 : Int) (f g : N → Int), (∀ e ∈ L, f e.name = g e.name) →
      handed configs f s0 L = handed configs g s0 L := by
    intro L
    induction L with
    | nil => intros; rfl
    | cons a l ih =>
      intro s0 f g hfg
      cases l with
      | nil => rfl
      | cons b l =>
        have ha := hfg a (by simp)
        have hb := hfg b (by simp)
        simp only [handed, startAfter, stopAfter, ha, hb]
        rw [ih _ f g (fun e he => hfg e (List.mem_cons_of_mem _ he))]
  let smp : N → Int := fun n => max (samplingOf m n) 1
  have hsp : ∀ n, 0 < smp n := fun n => by
    have : 1 ≤ smp n := le_max_right _ _
    omega
  have hag := agree (snapshot m) (((snapshot m).head?.map fun e => e.strand.start).getD 0)
    (samplingOf m) smp (fun e he => by
      obtain ⟨c, hc, hs⟩ := hsmp e he
      have := hpos _ _ hc
      simp only [smp]
      rw [hs, max_eq_left (by omega)])
  apply disjoint_of_lt
  refine handLoop_disjoint configs m hk' ?_ _ _ hne s₁ s₂ h₁ h₂
  rw [hag]
  rcases hp with hp | hp
  · refine handed_eager configs smp hsp _ _ (snapshot_sorted m) (head_start m) (fun e he => ?_)
    obtain ⟨s, hs⟩ := handLoop_isSome configs m hk' e he
    obtain ⟨c, sc, g1, g2, g3⟩ := hp e.name e.pos s hs
    simp [handoffOf, g1, g2, g3]
  · refine pairwise_of_chain _ (handed_chain configs smp hsp _ _ (fun e he => ?_)) ?_
    · obtain ⟨s, hs⟩ := handLoop_isSome configs m hk' e he
      obtain ⟨⟨c, sc, g1, g2, g3⟩, -⟩ := hp e.name e.pos s hs
      rcases g3 with g3 | g3 <;> simp [handoffOf, g1, g2, g3]
    · intro s hs
      rw [← hag] at hs
      obtain ⟨i, hi, rfl⟩ := List.mem_iff_getElem.1 hs
      have hi' : i < (snapshot m).length := by rw [handed_length] at hi; exact hi
      have he : (snapshot m)[i] ∈ snapshot m := List.getElem_mem hi'
      obtain ⟨a1, a2⟩ := handLoop_spec configs (snapshot m) (snapshot_keys m hk') m
        (((snapshot m).head?.map fun e => e.strand.start).getD 0)
        (fun a ha => by
          rw [ha]
          exact (mem_snapshot m hk' a).1 (List.mem_of_mem_head? ha))
        (fun e he => (mem_snapshot m hk' e).1 (List.mem_of_mem_tail he))
      have h3 := a1 i _ (List.getElem?_eq_getElem hi')
      rw [List.getElem?_eq_getElem hi] at h3
      exact (hp _ _ _ h3).2

end Verif.Sched
