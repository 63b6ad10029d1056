import Verif.Sequence.Theorems
/-!
What `setup` builds, and the sequences that were set up.
-/
namespace Verif.Sequence
open Verif.Spacecraft (Craft Thruster V3)
open Verif.Tracking (IMap get_insert)
open Verif.Mc (Out)

variable {F L C B M OW OE : Type}

/-- The propagator named `n` is used by an enabled activity. -/
def Used (es : List (Entry F L M OW OE)) (n : String) : Prop :=
  ∃ e ∈ es, ∃ a, e.2 = .activity a ∧ a.disabled = false ∧ a.propagator = n

/-- Specification of the propagators after `setup`: those that were there are kept, those that an enabled
activity uses are built from their configuration, there are no others. -/
def Built₁ (w : World F C B M OW OE) (props : IMap String C) (es : List (Entry F L M OW OE))
    (ps ps' : IMap String (Setup F B M OW OE)) : Prop :=
  ∀ n, (∀ x, Tracking.get ps n = some x → Tracking.get ps' n = some x) ∧
    (Tracking.get ps n = none → Used es n → ∃ c x, Tracking.get props n = some c ∧ w.build c = some x ∧
      Tracking.get ps' n = some x) ∧
    (Tracking.get ps n = none → ¬ Used es n → Tracking.get ps' n = none)

theorem setupLoop_spec (w : World F C B M OW OE) (props : IMap String C) (es : List (Entry F L M OW OE))
    (ps : IMap String (Setup F B M OW OE))
    (hv : ∀ e ∈ es, ∀ a, e.2 = .activity a → (Tracking.get props a.propagator).isSome) :
    ∃ b ps', setupLoop w props es ps = .ok (b, ps') ∧
      (b = true ↔ ∀ n, Used es n → Tracking.get ps n = none →
        ∃ c, Tracking.get props n = some c ∧ (w.build c).isSome) ∧
      (b = true → Built₁ w props es ps ps') := by
  induction es generalizing ps with
  | nil =>
    refine ⟨true, ps, rfl, ?_, ?_⟩
    · simp [Used]
    · intro _ n
      refine ⟨fun x h => h, fun _ h => ?_, fun h _ => h⟩
      obtain ⟨e, he, _⟩ := h
      cases he
  | cons e es ih =>
    have hv' : ∀ x ∈ es, ∀ a, x.2 = .activity a → (Tracking.get props a.propagator).isSome :=
      fun x hx => hv x (List.mem_cons_of_mem _ hx)
    -- an entry that changes nothing
    have skip : setupPhase w props ps e.2 = .ok (true, ps) →
        (∀ n, Used (e :: es) n → Tracking.get ps n = none → Used es n) →
        ∃ b ps', setupLoop w props (e :: es) ps = .ok (b, ps') ∧
          (b = true ↔ ∀ n, Used (e :: es) n → Tracking.get ps n = none →
            ∃ c, Tracking.get props n = some c ∧ (w.build c).isSome) ∧
          (b = true → Built₁ w props (e :: es) ps ps') := by
      intro h hu
      obtain ⟨b, ps', h1, h2, h3⟩ := ih ps hv'
      have hw : ∀ n, Used es n → Used (e :: es) n := by
        rintro n ⟨x, hx, r⟩
        exact ⟨x, List.mem_cons_of_mem _ hx, r⟩
      refine ⟨b, ps', by rw [setupLoop, h]; exact h1, ?_, ?_⟩
      · rw [h2]
        constructor
        · intro H n hn hg; exact H n (hu n hn hg) hg
        · intro H n hn hg; exact H n (hw n hn) hg
      · intro hb n
        obtain ⟨a1, a2, a3⟩ := h3 hb n
        exact ⟨a1, fun hg hn => a2 hg (hu n hn hg), fun hg hn => a3 hg (fun h => hn (hw n h))⟩
    obtain ⟨t, ph⟩ := e
    cases ph with
    | terminate =>
      refine skip rfl ?_
      rintro n ⟨x, hx, a, ha, r⟩ _
      rcases List.mem_cons.1 hx with rfl | hx
      · cases ha
      · exact ⟨x, hx, a, ha, r⟩
    | activity a =>
      by_cases hc : (!a.disabled && (Tracking.get ps a.propagator).isNone) = true
      · have hd : a.disabled = false := by
          rcases (Bool.and_eq_true _ _ |>.mp hc) with ⟨h, _⟩; simpa using h
        have hn : Tracking.get ps a.propagator = none := by
          rcases (Bool.and_eq_true _ _ |>.mp hc) with ⟨_, h⟩; simpa using h
        obtain ⟨cfg, hcfg⟩ := Option.isSome_iff_exists.1 (hv _ List.mem_cons_self a rfl)
        have hused : Used ((t, Phase.activity a) :: es) a.propagator :=
          ⟨_, List.mem_cons_self, a, rfl, hd, rfl⟩
        cases hb : w.build cfg with
        | none =>
          refine ⟨false, ps, ?_, ?_, ?_⟩
          · rw [setupLoop, setupPhase, if_pos hc, hcfg]; simp only [hb]
          · constructor
            · intro h; cases h
            · intro h
              obtain ⟨c, h1, h2⟩ := h _ hused hn
              rw [hcfg, Option.some.injEq] at h1
              subst h1
              rw [hb] at h2
              cases h2
          · intro h; cases h
        | some x =>
          obtain ⟨b, ps', h1, h2, h3⟩ := ih (Tracking.insert ps a.propagator x) hv'
          refine ⟨b, ps', ?_, ?_, ?_⟩
          · rw [setupLoop, setupPhase, if_pos hc, hcfg]; simp only [hb]; exact h1
          · rw [h2]
            constructor
            · intro H n hu hg
              by_cases hna : a.propagator = n
              · subst hna; exact ⟨cfg, hcfg, by rw [hb]; rfl⟩
              · obtain ⟨e, he, a', ha', hd', hp⟩ := hu
                rcases List.mem_cons.1 he with rfl | he
                · simp only [Phase.activity.injEq] at ha'
                  subst ha'
                  exact absurd hp hna
                · exact H n ⟨e, he, a', ha', hd', hp⟩ (by rw [get_insert, if_neg hna]; exact hg)
            · rintro H n ⟨e, he, r⟩ hg
              rw [get_insert] at hg
              split_ifs at hg with hna
              exact H n ⟨e, List.mem_cons_of_mem _ he, r⟩ hg
          · intro hb' n
            obtain ⟨a1, a2, a3⟩ := h3 hb' n
            rw [get_insert] at a1 a2 a3
            by_cases hna : a.propagator = n
            · subst hna
              rw [if_pos rfl] at a1 a2 a3
              refine ⟨fun y hy => ?_, fun _ _ => ⟨cfg, x, hcfg, hb, a1 x rfl⟩, fun _ hnu => absurd hused hnu⟩
              rw [hn] at hy; cases hy
            · rw [if_neg hna] at a1 a2 a3
              refine ⟨a1, fun hg hu => ?_, fun hg hu => ?_⟩
              · obtain ⟨e, he, a', ha', hd', hp⟩ := hu
                rcases List.mem_cons.1 he with rfl | he
                · simp only [Phase.activity.injEq] at ha'
                  subst ha'
                  exact absurd hp hna
                · exact a2 hg ⟨e, he, a', ha', hd', hp⟩
              · exact a3 hg (fun ⟨e, he, r⟩ => hu ⟨e, List.mem_cons_of_mem _ he, r⟩)
      · refine skip (by simp only [setupPhase, if_neg hc]) ?_
        rintro n ⟨x, hx, a', ha', hd', hp⟩ hg
        rcases List.mem_cons.1 hx with rfl | hx
        · simp only [Phase.activity.injEq] at ha'
          subst ha'
          subst hp
          exact absurd (by rw [hd', hg]; rfl) hc
        · exact ⟨x, hx, a', ha', hd', hp⟩

/-- `setup` never panics and only changes the propagators that are set up. It succeeds exactly when the sequence
is valid and the configurations of the propagators that are used, and not built yet, can be built; it then builds
these and no others, and keeps those that were there. -/
theorem setup_spec (q : ScSeq F L C B M OW OE) (w : World F C B M OW OE) :
    ∃ b q', q.setup w = .ok (b, q') ∧ q'.seq = q.seq ∧ q'.thrusterSets = q.thrusterSets ∧
      q'.propagators = q.propagators ∧
      (b = true ↔ q.validate = true ∧ ∀ n, Used q.seq n → Tracking.get q.propSetups n = none →
        ∃ c, Tracking.get q.propagators n = some c ∧ (w.build c).isSome) ∧
      (b = true → Built₁ w q.propagators q.seq q.propSetups q'.propSetups) ∧
      (q.validate = false → q' = q) := by
  by_cases hv : q.validate = true
  · obtain ⟨b, ps, h1, h2, h3⟩ := setupLoop_spec w q.propagators q.seq q.propSetups
      (fun e he a ha => (((validate_iff q).1 hv).2 e he a ha).1)
    refine ⟨b, ⟨q.seq, q.thrusterSets, q.propagators, ps⟩, ?_, rfl, rfl, rfl, ?_, h3, ?_⟩
    · rw [ScSeq.setup, if_pos hv, h1]
    · rw [h2]; simp [hv]
    · intro h; rw [hv] at h; cases h
  · refine ⟨false, q, ?_, rfl, rfl, rfl, ?_, ?_, fun _ => rfl⟩
    · rw [ScSeq.setup, if_neg hv]
    · simp [hv]
    · intro h; cases h

/-- A sequence that was set up is ready to be propagated. -/
theorem setup_ready (q q' : ScSeq F L C B M OW OE) (w : World F C B M OW OE)
    (h : q.setup w = .ok (true, q')) : Ready q' ∧ EndsWell q' ∧ q'.seq = q.seq := by
  obtain ⟨b, q1, h1, h2, h3, h4, h5, h6, -⟩ := setup_spec q w
  rw [h1, Out.ok.injEq, Prod.mk.injEq] at h
  obtain ⟨rfl, rfl⟩ := h
  obtain ⟨hv, -⟩ := h5.1 rfl
  obtain ⟨he, hc⟩ := (validate_iff q).1 hv
  refine ⟨?_, ?_, h2⟩
  · intro e hm a ha hd
    rw [h2] at hm
    refine ⟨?_, by rw [h3]; exact (hc e hm a ha).2⟩
    obtain ⟨b1, b2, -⟩ := h6 rfl a.propagator
    cases hg : Tracking.get q.propSetups a.propagator with
    | none =>
      obtain ⟨c, x, -, -, hx⟩ := b2 hg ⟨e, hm, a, ha, hd, rfl⟩
      rw [hx]; rfl
    | some x => rw [b1 x hg]; rfl
  · rw [EndsWell, h2]; exact he

/-- **C73.** After a successful `setup`, `propagate` panics exactly when every phase is before the
epoch of the state (in particular when there is no phase). -/
theorem setup_then_propagate_partial [Field F] (q q' : ScSeq F L C B M OW OE) (w : World F C B M OW OE)
    (s : Craft F Frame) (stop : Option String) (hq : q.Wf) (hw : ∀ x s t, w.run x s t ≠ .panic)
    (h : q.setup w = .ok (true, q')) :
    q'.propagate w s stop = .panic ↔ ∀ e ∈ q.seq, e.1 < s.epoch := by
  obtain ⟨h1, h2, h3⟩ := setup_ready q q' w h
  rw [← h3]
  exact propagate_panic_iff q' w s stop (by rw [ScSeq.Wf, h3]; exact hq) hw h1 h2

/-- A sequence that was not set up panics as soon as it has an activity to fly. -/
theorem not_set_up_panics [Field F] (q : ScSeq F L C B M OW OE) (w : World F C B M OW OE)
    (s s1 : Craft F Frame) (stop : Option String) (hq : q.propSetups = []) (e : Entry F L M OW OE)
    (a : Activity F L M OW OE) (es : List (Entry F L M OW OE)) (hl : later q s = e :: es)
    (ha : e.2 = .activity a) (hd : a.disabled = false) (hs : stop ≠ some a.name)
    (he : Entered w a.onEntry s s1) : q.propagate w s stop = .panic := by
  obtain ⟨t, ph⟩ := e
  simp only at ha
  subst ha
  have hl' : q.seq.filter (fun e => decide (s.epoch ≤ e.1)) = (t, Phase.activity a) :: es := hl
  rw [ScSeq.propagate, hl', ScSeq.go, if_neg hs, if_neg (by simp [hd])]
  rw [bind_panic]
  refine Or.inl ?_
  rw [ScSeq.phase, (enter_iff w a.onEntry s s1).2 he]
  cases es with
  | nil => rfl
  | cons e' es => simp [Out.bind, ScSeq.arm, hq, Tracking.get]

/-- `setup` a second time changes nothing, whatever the configurations are by then: a propagator that was
built is not built again. -/
theorem setup_again (q q' : ScSeq F L C B M OW OE) (w w' : World F C B M OW OE)
    (h : q.setup w = .ok (true, q')) (props : IMap String C)
    (hp : ∀ n, (Tracking.get q.propagators n).isSome → (Tracking.get props n).isSome) :
    ∃ q'', (⟨q'.seq, q'.thrusterSets, props, q'.propSetups⟩ : ScSeq F L C B M OW OE).setup w' = .ok (true, q'') ∧
      ∀ n, Tracking.get q''.propSetups n = Tracking.get q'.propSetups n := by
  obtain ⟨h1, h2, h3⟩ := setup_ready q q' w h
  obtain ⟨b, q1, k1, -, k3, k4, k5, -, -⟩ := setup_spec q w
  rw [k1, Out.ok.injEq, Prod.mk.injEq] at h
  obtain ⟨rfl, rfl⟩ := h
  obtain ⟨hv, -⟩ := k5.1 rfl
  obtain ⟨-, hc⟩ := (validate_iff q).1 hv
  obtain ⟨b, q2, m1, m2, m3, m4, m5, m6, -⟩ :=
    setup_spec (⟨q1.seq, q1.thrusterSets, props, q1.propSetups⟩ : ScSeq F L C B M OW OE) w'
  have hall : ∀ n, Used q1.seq n → Tracking.get q1.propSetups n ≠ none := by
    rintro n ⟨e, he, a, ha, hd, rfl⟩ hn
    have := (h1 e he a ha hd).1
    rw [hn] at this
    cases this
  have hb : b = true := by
    rw [m5]
    refine ⟨(validate_iff _).2 ⟨h2, ?_⟩, ?_⟩
    · intro e he a ha
      have he' : e ∈ q.seq := h3 ▸ he
      refine ⟨hp _ (hc e he' a ha).1, ?_⟩
      have := (hc e he' a ha).2
      simpa only [k3] using this
    · intro n hu hn
      exact absurd hn (hall n hu)
  subst hb
  refine ⟨q2, m1, fun n => ?_⟩
  obtain ⟨a1, a2, a3⟩ := m6 rfl n
  cases hg : Tracking.get q1.propSetups n with
  | some x => exact a1 x hg
  | none => exact a3 hg (fun hu => hall n hu hg)

/-! ### The configuration of a propagator -/

variable {P G GD T R D I : Type}

/-- The propagator built has exactly the models that are configured, the mass decreases and there is no law. -/
theorem build_spec [Field F] (load : G → Option GD) (c : PropCfg P G T R D I) :
    (∀ x : Setup F (Built P GD T R D I) M OW OE, c.build load = some x →
      x.decrementMass = true ∧ x.law = none ∧ x.base.integrator = c.integrator ∧
      (∀ p, .pointMasses p ∈ x.base.accels ↔ c.pointMasses = some p) ∧
      (∀ t, .tides t ∈ x.base.accels ↔ c.tides = some t) ∧
      (∀ d, .gravity d ∈ x.base.accels ↔ ∃ g, c.gravity = some g ∧ load g = some d) ∧
      (∀ r, .srp r ∈ x.base.forces ↔ c.srp = some r) ∧
      (∀ d, .drag d ∈ x.base.forces ↔ c.drag = some d) ∧
      x.base.accels.length = c.pointMasses.toList.length + c.gravity.toList.length + c.tides.toList.length ∧
      x.base.forces.length = c.srp.toList.length + c.drag.toList.length) ∧
    ((c.build load : Option (Setup F (Built P GD T R D I) M OW OE)) = none ↔
      ∃ g, c.gravity = some g ∧ load g = none) := by
  obtain ⟨pm, g, t, r, d, i⟩ := c
  cases g with
  | none =>
    refine ⟨fun x hx => ?_, by simp [PropCfg.build]⟩
    simp only [PropCfg.build, Option.some.injEq] at hx
    subst hx
    cases pm <;> cases t <;> cases r <;> cases d <;> simp [pushOpt, eq_comm]
  | some g =>
    cases hl : load g with
    | none => refine ⟨fun x hx => ?_, by simp [PropCfg.build, hl]⟩; simp [PropCfg.build, hl] at hx
    | some gd =>
      refine ⟨fun x hx => ?_, by simp [PropCfg.build, hl]⟩
      simp only [PropCfg.build, hl, Option.some.injEq] at hx
      subst hx
      cases pm <;> cases t <;> cases r <;> cases d <;> simp [pushOpt, eq_comm, hl]

/-! ### Serialization -/

theorem oinsert_last {V : Type} (m : List (Int × V)) (k : Int) (v : V) (h : ∀ e ∈ m, e.1 < k) :
    oinsert m k v = m ++ [(k, v)] := by
  induction m with
  | nil => rfl
  | cons e m ih =>
    obtain ⟨k', v'⟩ := e
    have h1 : k' < k := h _ List.mem_cons_self
    rw [oinsert, if_neg (by omega), if_neg (by omega), ih (fun e he => h e (List.mem_cons_of_mem _ he))]
    rfl

/-- The sequence of phases is the same after a round trip through its serialization. -/
theorem pairs_round_trip {V : Type} (m : List (Int × V)) (hm : (m.map Prod.fst).Pairwise (· < ·)) :
    pairsAsMap (mapAsPairs m) = m := by
  have key : ∀ (l acc : List (Int × V)), ((acc ++ l).map Prod.fst).Pairwise (· < ·) →
      l.foldl (fun m p => oinsert m p.1 p.2) acc = acc ++ l := by
    intro l
    induction l with
    | nil => intro acc _; simp
    | cons p l ih =>
      intro acc h
      have hlt : ∀ e ∈ acc, e.1 < p.1 := by
        rw [List.map_append, List.pairwise_append] at h
        intro e he
        exact h.2.2 _ (List.mem_map.2 ⟨e, he, rfl⟩) _ (by simp)
      rw [List.foldl_cons, oinsert_last acc p.1 p.2 hlt]
      rw [ih (acc ++ [(p.1, p.2)]) (by simpa using h)]
      simp
  have := key m [] (by simpa using hm)
  simpa [pairsAsMap, mapAsPairs] using this

/-- Whatever the list of pairs that is read, the keys are sorted and each holds the last value read for it. -/
theorem pairs_as_map_spec {V : Type} (ps : List (Int × V)) :
    ((pairsAsMap ps).map Prod.fst).Pairwise (· < ·) ∧
      ∀ k v, (k, v) ∈ pairsAsMap ps ↔ ps.reverse.find? (fun p => p.1 == k) = some (k, v) := by
  have ins : ∀ (m : List (Int × V)) (k : Int) (v : V), (m.map Prod.fst).Pairwise (· < ·) →
      ((oinsert m k v).map Prod.fst).Pairwise (· < ·) ∧
        ∀ k' v', (k', v') ∈ oinsert m k v ↔ (k' = k ∧ v' = v) ∨ (k' ≠ k ∧ (k', v') ∈ m) := by
    intro m k v
    induction m with
    | nil => intro _; simp [oinsert]
    | cons e m ih =>
      obtain ⟨k0, v0⟩ := e
      intro hm
      rw [List.map_cons, List.pairwise_cons] at hm
      obtain ⟨i1, i2⟩ := ih hm.2
      have hlt : ∀ k' v', (k', v') ∈ m → k0 < k' := fun k' v' h => hm.1 _ (List.mem_map.2 ⟨_, h, rfl⟩)
      rw [oinsert]
      split_ifs with h1 h2
      · refine ⟨?_, ?_⟩
        · rw [List.map_cons, List.pairwise_cons]
          refine ⟨?_, by rw [List.map_cons, List.pairwise_cons]; exact hm⟩
          intro x hx
          rw [List.map_cons, List.mem_cons] at hx
          rcases hx with rfl | hx
          · exact h1
          · have := hm.1 x hx; simp only at this ⊢; omega
        · intro k' v'
          simp only [List.mem_cons, Prod.mk.injEq]
          constructor
          · rintro (h | h | h)
            · exact Or.inl h
            · exact Or.inr ⟨by omega, Or.inl h⟩
            · have := hlt _ _ h; exact Or.inr ⟨by omega, Or.inr h⟩
          · rintro (h | ⟨_, h | h⟩)
            · exact Or.inl h
            · exact Or.inr (Or.inl h)
            · exact Or.inr (Or.inr h)
      · subst h2
        refine ⟨by rw [List.map_cons, List.pairwise_cons]; exact hm, ?_⟩
        intro k' v'
        simp only [List.mem_cons, Prod.mk.injEq]
        constructor
        · rintro (h | h)
          · exact Or.inl h
          · have := hlt _ _ h; exact Or.inr ⟨by omega, Or.inr h⟩
        · rintro (h | ⟨h', h | h⟩)
          · exact Or.inl h
          · exact absurd h.1 h'
          · exact Or.inr h
      · refine ⟨?_, ?_⟩
        · rw [List.map_cons, List.pairwise_cons]
          refine ⟨?_, i1⟩
          intro x hx
          obtain ⟨⟨k', v'⟩, he, rfl⟩ := List.mem_map.1 hx
          rcases (i2 k' v').1 he with ⟨rfl, _⟩ | ⟨_, h⟩
          · simp only; omega
          · exact hlt _ _ h
        · intro k' v'
          simp only [List.mem_cons, Prod.mk.injEq, i2]
          constructor
          · rintro (h | h | ⟨h', h⟩)
            · exact Or.inr ⟨by omega, Or.inl h⟩
            · exact Or.inl h
            · exact Or.inr ⟨h', Or.inr h⟩
          · rintro (h | ⟨h', h | h⟩)
            · exact Or.inr (Or.inl h)
            · exact Or.inl h
            · exact Or.inr (Or.inr ⟨h', h⟩)
  induction ps using List.reverseRecOn with
  | nil => simp [pairsAsMap]
  | append_singleton ps p ih =>
    have hstep : pairsAsMap (ps ++ [p]) = oinsert (pairsAsMap ps) p.1 p.2 := by
      simp [pairsAsMap, List.foldl_append]
    obtain ⟨j1, j2⟩ := ins (pairsAsMap ps) p.1 p.2 ih.1
    rw [hstep]
    refine ⟨j1, fun k v => ?_⟩
    rw [j2, List.reverse_append, List.reverse_singleton, List.singleton_append, List.find?_cons]
    obtain ⟨k0, v0⟩ := p
    by_cases hk : k0 = k
    · subst hk
      simp [eq_comm]
    · have : (k0 == k) = false := by simpa using hk
      simp only [this, ← ih.2]
      constructor
      · rintro (⟨h, _⟩ | ⟨_, h⟩)
        · exact absurd h.symm hk
        · exact h
      · intro h; exact Or.inr ⟨fun h => hk h.symm, h⟩

end Verif.Sequence
