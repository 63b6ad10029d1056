import Mathlib.Data.List.Basic
import Mathlib.Tactic.Ring
import Mathlib.Tactic.Linarith
import Verif.Sequence.Model
import Verif.Tracking.Lemmas
/-!
Theorems about the mission sequences: what `propagate` executes, when it panics, and what `setup` builds.
-/
namespace Verif.Sequence
open Verif.Spacecraft (Craft Thruster V3)
open Verif.Tracking (IMap get_insert)
open Verif.Mc (Out)

variable {F L C B M OW OE : Type} [Field F]

/-! ### Specification -/

/-- An entry of the sequence. -/
abbrev Entry (F L M OW OE : Type) := Int × Phase F L M OW OE

/-- The sequence goes on at a phase: it is neither a terminate nor the phase where the caller asked to stop. -/
def goesOn (stop : Option String) : Phase F L M OW OE → Bool
  | .terminate => false
  | .activity a => decide (stop ≠ some a.name)

/-- The phase is an activity that is not disabled. -/
def enabled : Phase F L M OW OE → Bool
  | .terminate => false
  | .activity a => !a.disabled

/-- Specification of the phases that are flown: of the pairs of consecutive entries, those before the first
phase that stops the sequence, and not disabled. -/
def flights (stop : Option String) (es : List (Entry F L M OW OE)) :
    List (Entry F L M OW OE × Entry F L M OW OE) :=
  ((es.zip es.tail).takeWhile (fun p => goesOn stop p.1.2)).filter (fun p => enabled p.1.2)

/-- Specification of the properties left after a change of `sign` times those of the event. -/
def Changed (sign : F) (p : Option (PhysProps F)) (dv : Option (V3 F)) (s s' : Craft F Frame) : Prop :=
  let m := (p.bind PhysProps.mass).getD (0, 0, 0)
  let r := (p.bind PhysProps.srp).getD (0, 0)
  let d := (p.bind PhysProps.drag).getD (0, 0)
  let v := dv.getD 0
  s' = ⟨s.frame, s.epoch, s.pos, fun i => s.vel i + v i, s.dry + sign * m.1, s.prop + sign * m.2.1,
    s.extra + sign * m.2.2, s.srpArea + sign * r.1, s.cr + sign * r.2, s.dragArea + sign * d.1,
    s.cd + sign * d.2, s.thruster, s.mode, s.dir, s.stm⟩

/-- Specification of the discrete events. -/
inductive Entered (w : World F C B M OW OE) : Option (Event F L) → Craft F Frame → Craft F Frame → Prop
  | none (s) : Entered w none s s
  | same (s f) (h : f = s.frame) : Entered w (some (.frameSwap f)) s s
  | swap (s f o) (h : f ≠ s.frame) (ht : w.translate s f = some o) :
      Entered w (some (.frameSwap f)) s
        ⟨o.1, s.epoch, o.2.1, o.2.2, s.dry, s.prop, s.extra, s.srpArea, s.cr, s.dragArea, s.cd, s.thruster,
          s.mode, s.dir, s.stm⟩
  | staging (s s' m p) (h : Changed (-1) p (m.map Impulse.dv) s s') : Entered w (some (.staging m p)) s s'
  | docking (s s' m p) (h : Changed 1 p (m.map Impulse.dv) s s') : Entered w (some (.docking m p)) s s'

/-- Specification of the guidance law of a phase. -/
inductive LawOf : Steering F M OW OE → Craft F Frame → Law F M OW OE → Prop
  | burn (m s) : LawOf (.finiteBurn m) s (.burn m)
  | kluever (o e s) : LawOf (.kluever o e) s (.kluever o e)
  | ruggiero (o e s) : LawOf (.ruggiero o e) s (.ruggiero o e s)

/-- Specification of the propagator and of the state with which a phase is flown. -/
inductive Armed (q : ScSeq F L C B M OW OE) (a : Activity F L M OW OE) (s : Craft F Frame) :
    Setup F B M OW OE → Craft F Frame → Prop
  | coast (x) (hg : a.guidance = none) (hx : Tracking.get q.propSetups a.propagator = some x) :
      Armed q a s x s
  | guided (x g th l) (hg : a.guidance = some g) (hx : Tracking.get q.propSetups a.propagator = some x)
      (ht : Tracking.get q.thrusterSets g.thruster = some th)
      (hl : LawOf g.law { s with thruster := some th } l) :
      Armed q a s ⟨x.base, !g.disablePropMass, some l⟩ { s with thruster := some th }

/-- Specification of the flight of a list of phases (with the entry that follows each): the state at the
entry of each phase satisfies `P`, the event is applied, the phase is propagated until the epoch of the entry that
follows it, the trajectory gets the name of the phase, and the next phase starts from the state reached. -/
inductive Flown (w : World F C B M OW OE) (q : ScSeq F L C B M OW OE)
    (P : Craft F Frame → Entry F L M OW OE → Prop) :
    List (Entry F L M OW OE × Entry F L M OW OE) → Craft F Frame → List (Named F) → Prop
  | nil (s) : Flown w q P [] s []
  | cons (p ps a s s1 s2 s3 x tr ts) (hP : P s p.1) (ha : p.1.2 = .activity a)
      (he : Entered w a.onEntry s s1) (hx : Armed q a s1 x s2) (hr : w.run x s2 p.2.1 = .ok (s3, tr))
      (h : Flown w q P ps s3 ts) : Flown w q P (p :: ps) s (⟨some a.name, tr⟩ :: ts)

/-- The entries at or after the epoch of the state. -/
def later (q : ScSeq F L C B M OW OE) (s : Craft F Frame) : List (Entry F L M OW OE) :=
  q.seq.filter (fun e => decide (s.epoch ≤ e.1))

/-! ### The events and the setup of a phase meet their specification -/

omit [Field F] in
theorem frame_eq (f g : Frame) : f = g ↔ ¬(f.orient ≠ g.orient ∨ f.ephem ≠ g.ephem) := by
  cases f; cases g; simp only [Frame.mk.injEq]; tauto

theorem staged (m : Option (Impulse F L)) (p : Option (PhysProps F)) (s s' : Craft F Frame) :
    decr p (applyDv m s) = s' ↔ Changed (-1) p (m.map Impulse.dv) s s' := by
  rw [Changed, eq_comm]
  have : decr p (applyDv m s) = ⟨s.frame, s.epoch, s.pos, fun i => s.vel i + ((m.map Impulse.dv).getD 0) i,
    s.dry + -1 * ((p.bind PhysProps.mass).getD (0, 0, 0)).1,
    s.prop + -1 * ((p.bind PhysProps.mass).getD (0, 0, 0)).2.1,
    s.extra + -1 * ((p.bind PhysProps.mass).getD (0, 0, 0)).2.2,
    s.srpArea + -1 * ((p.bind PhysProps.srp).getD (0, 0)).1,
    s.cr + -1 * ((p.bind PhysProps.srp).getD (0, 0)).2,
    s.dragArea + -1 * ((p.bind PhysProps.drag).getD (0, 0)).1,
    s.cd + -1 * ((p.bind PhysProps.drag).getD (0, 0)).2, s.thruster, s.mode, s.dir, s.stm⟩ := by
    rcases m with _ | m <;> rcases p with _ | ⟨_ | m, _ | r, _ | d⟩ <;>
      simp [decr, applyDv, decrMass, decrSrp, decrDrag, sub_eq_add_neg]
  rw [this]

theorem docked (m : Option (Impulse F L)) (p : Option (PhysProps F)) (s s' : Craft F Frame) :
    incr p (applyDv m s) = s' ↔ Changed 1 p (m.map Impulse.dv) s s' := by
  rw [Changed, eq_comm]
  have : incr p (applyDv m s) = ⟨s.frame, s.epoch, s.pos, fun i => s.vel i + ((m.map Impulse.dv).getD 0) i,
    s.dry + 1 * ((p.bind PhysProps.mass).getD (0, 0, 0)).1,
    s.prop + 1 * ((p.bind PhysProps.mass).getD (0, 0, 0)).2.1,
    s.extra + 1 * ((p.bind PhysProps.mass).getD (0, 0, 0)).2.2,
    s.srpArea + 1 * ((p.bind PhysProps.srp).getD (0, 0)).1,
    s.cr + 1 * ((p.bind PhysProps.srp).getD (0, 0)).2,
    s.dragArea + 1 * ((p.bind PhysProps.drag).getD (0, 0)).1,
    s.cd + 1 * ((p.bind PhysProps.drag).getD (0, 0)).2, s.thruster, s.mode, s.dir, s.stm⟩ := by
    rcases m with _ | m <;> rcases p with _ | ⟨_ | m, _ | r, _ | d⟩ <;>
      simp [incr, applyDv, incrMass, incrSrp, incrDrag]
  rw [this]

/-- The event on entry does what the specification says. -/
theorem enter_iff (w : World F C B M OW OE) (ev : Option (Event F L)) (s s' : Craft F Frame) :
    enter w ev s = .ok s' ↔ Entered w ev s s' := by
  constructor
  · intro h
    rcases ev with _ | (⟨m, p⟩ | ⟨m, p⟩ | ⟨f⟩)
    · rw [enter, Out.ok.injEq] at h; subst h; exact .none s
    · rw [enter, Out.ok.injEq] at h; exact .staging _ _ _ _ ((staged _ _ _ _).1 h)
    · rw [enter, Out.ok.injEq] at h; exact .docking _ _ _ _ ((docked _ _ _ _).1 h)
    · rw [enter] at h
      split_ifs at h with hc
      · have hne : f ≠ s.frame := fun e => ((frame_eq _ _).1 e) hc
        cases ht : w.translate s f with
        | none => rw [ht] at h; cases h
        | some o =>
          rw [ht] at h
          simp only [Out.ok.injEq] at h
          subst h
          exact .swap s f o hne ht
      · rw [Out.ok.injEq] at h; subst h; exact .same s f ((frame_eq _ _).2 hc)
  · intro h
    cases h with
    | none => rfl
    | same _ f h => rw [enter, if_neg ((frame_eq _ _).1 h)]
    | swap _ f o h ht =>
      rw [enter, if_pos (not_not.1 (fun hc => h ((frame_eq _ _).2 hc))), ht]
    | staging _ _ m p h => rw [enter, (staged _ _ _ _).2 h]
    | docking _ _ m p h => rw [enter, (docked _ _ _ _).2 h]

omit [Field F] in
theorem lawOf_iff (l : Steering F M OW OE) (s : Craft F Frame) (x : Law F M OW OE) :
    l.toLaw s = x ↔ LawOf l s x := by
  constructor
  · intro h; subst h; cases l <;> constructor
  · intro h; cases h <;> rfl

omit [Field F] in
/-- The propagator of a phase is what the specification says. -/
theorem arm_iff (q : ScSeq F L C B M OW OE) (a : Activity F L M OW OE) (s : Craft F Frame)
    (x : Setup F B M OW OE) (s' : Craft F Frame) : q.arm a s = .ok (x, s') ↔ Armed q a s x s' := by
  constructor
  · intro h
    rw [ScSeq.arm] at h
    cases hx : Tracking.get q.propSetups a.propagator with
    | none => rw [hx] at h; cases h
    | some y =>
      rw [hx] at h
      cases hg : a.guidance with
      | none =>
        rw [hg] at h
        simp only [Out.ok.injEq, Prod.mk.injEq] at h
        obtain ⟨rfl, rfl⟩ := h
        exact .coast _ hg hx
      | some g =>
        rw [hg] at h
        simp only at h
        cases ht : Tracking.get q.thrusterSets g.thruster with
        | none => rw [ht] at h; cases h
        | some th =>
          rw [ht] at h
          simp only [Out.ok.injEq, Prod.mk.injEq] at h
          obtain ⟨rfl, rfl⟩ := h
          exact .guided y g th _ hg hx ht ((lawOf_iff _ _ _).1 rfl)
  · intro h
    cases h with
    | coast _ hg hx => simp only [ScSeq.arm, hx, hg]
    | guided y g th l hg hx ht hl =>
      rw [← lawOf_iff] at hl
      subst hl
      simp only [ScSeq.arm, hx, hg, ht]

/-! ### What is flown -/

omit [Field F] in
theorem flights_cons (stop : Option String) (e e' : Entry F L M OW OE) (es : List (Entry F L M OW OE)) :
    flights stop (e :: e' :: es) =
      if goesOn stop e.2 then
        (if enabled e.2 then (e, e') :: flights stop (e' :: es) else flights stop (e' :: es))
      else [] := by
  simp only [flights, List.tail_cons, List.zip_cons_cons, List.takeWhile_cons]
  split_ifs with h1 h2
  · rw [List.filter_cons_of_pos (by simpa using h2)]
  · rw [List.filter_cons_of_neg (by simpa using h2)]
  · rfl

theorem bind_ok {α β : Type} (x : Out α) (f : α → Out β) (b : β) :
    x.bind f = .ok b ↔ ∃ a, x = .ok a ∧ f a = .ok b := by
  cases x <;> simp [Out.bind]

/-- Flying one phase. -/
theorem phase_iff (q : ScSeq F L C B M OW OE) (w : World F C B M OW OE) (a : Activity F L M OW OE)
    (t : Int) (s s3 : Craft F Frame) (n : Named F) :
    q.phase w a (some t) s = .ok (s3, n) ↔ ∃ s1 s2 x tr, Entered w a.onEntry s s1 ∧ Armed q a s1 x s2 ∧
      w.run x s2 t = .ok (s3, tr) ∧ n = ⟨some a.name, tr⟩ := by
  simp only [ScSeq.phase, bind_ok, Out.ok.injEq, Prod.mk.injEq]
  constructor
  · rintro ⟨s1, h1, x, h2, r, h3, h4, h5⟩
    exact ⟨s1, x.2, x.1, r.2, (enter_iff _ _ _ _).1 h1, (arm_iff _ _ _ _ _).1 h2, by rw [h3, ← h4], h5.symm⟩
  · rintro ⟨s1, s2, x, tr, h1, h2, h3, h4⟩
    exact ⟨s1, (enter_iff _ _ _ _).2 h1, (x, s2), (arm_iff _ _ _ _ _).2 h2, (s3, tr), h3, rfl, h4.symm⟩

/-- The loop over the phases. -/
theorem go_iff (q : ScSeq F L C B M OW OE) (w : World F C B M OW OE) (stop : Option String)
    (es : List (Entry F L M OW OE)) (s : Craft F Frame) (acc r : List (Named F)) :
    q.go w stop es s acc = .ok r ↔ (∃ e ∈ es, goesOn stop e.2 = false) ∧
      ∃ ts, Flown w q (fun _ _ => True) (flights stop es) s ts ∧ r = acc ++ ts := by
  induction es generalizing s acc with
  | nil => simp [ScSeq.go]
  | cons e es ih =>
    obtain ⟨t, ph⟩ := e
    cases ph with
    | terminate =>
      have hf : flights stop ((t, Phase.terminate) :: es : List (Entry F L M OW OE)) = [] := by
        cases es with
        | nil => rfl
        | cons e' es => rw [flights_cons]; rfl
      rw [ScSeq.go, hf, Out.ok.injEq]
      constructor
      · intro h
        exact ⟨⟨_, List.mem_cons_self, rfl⟩, [], .nil _, by simp [h]⟩
      · rintro ⟨_, ts, h, rfl⟩
        cases h
        simp
    | activity a =>
      rw [ScSeq.go]
      split_ifs with hs hd
      · have hg : goesOn stop (Phase.activity a) = false := by simp [goesOn, hs]
        have hf : flights stop ((t, Phase.activity a) :: es : List (Entry F L M OW OE)) = [] := by
          cases es with
          | nil => rfl
          | cons e' es => rw [flights_cons, if_neg (by simp [hg])]
        rw [hf, Out.ok.injEq]
        constructor
        · intro h
          exact ⟨⟨_, List.mem_cons_self, hg⟩, [], .nil _, by simp [h]⟩
        · rintro ⟨_, ts, h, rfl⟩
          cases h
          simp
      · have hg : goesOn stop (Phase.activity a) = true := by simp [goesOn, hs]
        have hen : enabled (Phase.activity a) = false := by simp [enabled, hd]
        rw [ih]
        cases es with
        | nil => simp [hg]
        | cons e' es =>
          rw [flights_cons (stop := stop) (e := (t, Phase.activity a)), if_pos hg, if_neg (by simp [hen])]
          simp [hg]
      · have hg : goesOn stop (Phase.activity a) = true := by simp [goesOn, hs]
        have hen : enabled (Phase.activity a) = true := by simp [enabled, hd]
        cases es with
        | nil =>
          have : ∀ r', q.phase w a (([] : List (Entry F L M OW OE)).head?.map Prod.fst) s ≠ .ok r' := by
            intro r' h
            simp only [List.head?_nil, Option.map_none, ScSeq.phase, bind_ok] at h
            obtain ⟨_, _, h⟩ := h
            cases h
          simp only [bind_ok]
          constructor
          · rintro ⟨x, h, _⟩
            exact absurd h (this x)
          · rintro ⟨⟨e, he, h⟩, _⟩
            simp only [List.mem_singleton] at he
            subst he
            rw [hg] at h
            cases h
        | cons e' es =>
          rw [flights_cons (stop := stop) (e := (t, Phase.activity a)), if_pos hg, if_pos hen]
          simp only [bind_ok, List.head?_cons, Option.map_some]
          constructor
          · rintro ⟨⟨s3, n⟩, h1, h2⟩
            obtain ⟨s1, s2, x, tr, he, hx, hr, rfl⟩ := (phase_iff _ _ _ _ _ _ _).1 h1
            obtain ⟨⟨y, hy, hyg⟩, ts, hf, rfl⟩ := (ih _ _).1 h2
            exact ⟨⟨y, List.mem_cons_of_mem _ hy, hyg⟩, _, .cons _ _ a s s1 s2 s3 x tr ts trivial rfl he hx hr hf,
              by simp⟩
          · rintro ⟨⟨y, hy, hyg⟩, ts, hf, rfl⟩
            cases hf with
            | cons _ _ a' _ s1 s2 s3 x tr ts hP ha he hx hr h =>
              simp only [Phase.activity.injEq] at ha
              subst ha
              refine ⟨(s3, ⟨some a.name, tr⟩), (phase_iff _ _ _ _ _ _ _).2 ⟨s1, s2, x, tr, he, hx, hr, rfl⟩, ?_⟩
              refine (ih _ _).2 ⟨⟨y, ?_, hyg⟩, ts, h, by simp⟩
              rcases List.mem_cons.1 hy with rfl | hy
              · rw [hg] at hyg; cases hyg
              · exact hy

/-- **C73.** `propagate` succeeds exactly when there is, at or after the epoch of the state, a phase that stops the
sequence and the phases before it can be flown; it returns their trajectories, in chronological order, each with
the name of its phase. -/
theorem propagate_iff (q : ScSeq F L C B M OW OE) (w : World F C B M OW OE) (s : Craft F Frame)
    (stop : Option String) (ts : List (Named F)) :
    q.propagate w s stop = .ok ts ↔ (∃ e ∈ later q s, goesOn stop e.2 = false) ∧
      Flown w q (fun _ _ => True) (flights stop (later q s)) s ts := by
  rw [ScSeq.propagate, go_iff]
  simp only [List.nil_append]
  constructor
  · rintro ⟨h, ts', hf, rfl⟩; exact ⟨h, hf⟩
  · rintro ⟨h, hf⟩; exact ⟨h, ts, hf, rfl⟩

theorem flown_names (w : World F C B M OW OE) (q : ScSeq F L C B M OW OE)
    (P : Craft F Frame → Entry F L M OW OE → Prop) (ps : List (Entry F L M OW OE × Entry F L M OW OE))
    (s : Craft F Frame) (ts : List (Named F)) (h : Flown w q P ps s ts) :
    List.Forall₂ (fun p t => ∃ a, p.1.2 = .activity a ∧ t.name = some a.name) ps ts := by
  induction h with
  | nil => exact .nil
  | cons p ps a s s1 s2 s3 x tr ts hP ha he hx hr h ih => exact .cons ⟨a, ha, rfl⟩ ih

omit [Field F] in
/-- The phases that are flown are in chronological order, none before the epoch of the state. -/
theorem flights_chrono (q : ScSeq F L C B M OW OE) (s : Craft F Frame) (stop : Option String) (hq : q.Wf) :
    ((flights stop (later q s)).map (fun p => p.1.1)).Pairwise (· < ·) ∧
      ∀ p ∈ flights stop (later q s), s.epoch ≤ p.1.1 ∧ p.1.1 < p.2.1 ∧ p.1 ∈ q.seq ∧ p.2 ∈ q.seq := by
  have hl : ((later q s).map Prod.fst).Pairwise (· < ·) :=
    hq.sublist ((List.filter_sublist (l := q.seq)).map Prod.fst)
  have key : ∀ es : List (Entry F L M OW OE), (es.map Prod.fst).Pairwise (· < ·) →
      ((flights stop es).map (fun p => p.1.1)).Pairwise (· < ·) ∧
      ∀ p ∈ flights stop es, p.1.1 < p.2.1 ∧ p.1 ∈ es ∧ p.2 ∈ es := by
    intro es hes
    induction es with
    | nil => exact ⟨List.Pairwise.nil, by intro p hp; cases hp⟩
    | cons e es ih =>
      cases es with
      | nil => exact ⟨List.Pairwise.nil, by intro p hp; cases hp⟩
      | cons e' es =>
        have h1 := List.pairwise_cons.1 hes
        obtain ⟨i1, i2⟩ := ih h1.2
        rw [flights_cons]
        split_ifs with hg he
        · refine ⟨?_, ?_⟩
          · rw [List.map_cons, List.pairwise_cons]
            refine ⟨?_, i1⟩
            intro x hx
            obtain ⟨p, hp, rfl⟩ := List.mem_map.1 hx
            exact h1.1 _ (List.mem_map.2 ⟨p.1, (i2 p hp).2.1, rfl⟩)
          · intro p hp
            rcases List.mem_cons.1 hp with rfl | hp
            · exact ⟨h1.1 _ (List.mem_map.2 ⟨e', List.mem_cons_self, rfl⟩), List.mem_cons_self,
                List.mem_cons_of_mem _ List.mem_cons_self⟩
            · obtain ⟨a, b, c⟩ := i2 p hp
              exact ⟨a, List.mem_cons_of_mem _ b, List.mem_cons_of_mem _ c⟩
        · exact ⟨i1, fun p hp => ⟨(i2 p hp).1, List.mem_cons_of_mem _ (i2 p hp).2.1,
            List.mem_cons_of_mem _ (i2 p hp).2.2⟩⟩
        · exact ⟨List.Pairwise.nil, by intro p hp; cases hp⟩
  obtain ⟨k1, k2⟩ := key _ hl
  refine ⟨k1, fun p hp => ?_⟩
  obtain ⟨a, b, c⟩ := k2 p hp
  have hb := List.mem_filter.1 b
  exact ⟨by simpa using hb.2, a, hb.1, (List.mem_filter.1 c).1⟩

/-! ### Panics -/

theorem bind_panic {α β : Type} (x : Out α) (f : α → Out β) :
    x.bind f = .panic ↔ x = .panic ∨ ∃ a, x = .ok a ∧ f a = .panic := by
  cases x <;> simp [Out.bind]

theorem enter_no_panic (w : World F C B M OW OE) (ev : Option (Event F L)) (s : Craft F Frame) :
    enter w ev s ≠ .panic := by
  rcases ev with _ | (⟨m, p⟩ | ⟨m, p⟩ | ⟨f⟩)
  · simp [enter]
  · simp [enter]
  · simp [enter]
  · rw [enter]
    split_ifs
    · cases w.translate s f <;> simp
    · simp

/-- Every enabled activity has its propagator set up, and every guided one has its thruster. -/
def Ready (q : ScSeq F L C B M OW OE) : Prop :=
  ∀ e ∈ q.seq, ∀ a, e.2 = .activity a → a.disabled = false →
    (Tracking.get q.propSetups a.propagator).isSome ∧
      ∀ g, a.guidance = some g → (Tracking.get q.thrusterSets g.thruster).isSome

/-- The last entry, if any, is a terminate. -/
def EndsWell (q : ScSeq F L C B M OW OE) : Prop := ∀ e, q.seq.getLast? = some e → e.2 = .terminate

theorem phase_no_panic (q : ScSeq F L C B M OW OE) (w : World F C B M OW OE) (a : Activity F L M OW OE)
    (t : Int) (s : Craft F Frame) (hw : ∀ x s t, w.run x s t ≠ .panic)
    (h1 : (Tracking.get q.propSetups a.propagator).isSome)
    (h2 : ∀ g, a.guidance = some g → (Tracking.get q.thrusterSets g.thruster).isSome) :
    q.phase w a (some t) s ≠ .panic := by
  intro h
  simp only [ScSeq.phase, bind_panic] at h
  rcases h with h | ⟨s1, _, h | ⟨x, _, h | ⟨r, _, h⟩⟩⟩
  · exact enter_no_panic _ _ _ h
  · rw [ScSeq.arm] at h
    obtain ⟨y, hy⟩ := Option.isSome_iff_exists.1 h1
    rw [hy] at h
    cases hg : a.guidance with
    | none => rw [hg] at h; cases h
    | some g =>
      obtain ⟨th, ht⟩ := Option.isSome_iff_exists.1 (h2 g hg)
      rw [hg] at h
      simp only [ht] at h
      cases h
  · exact hw _ _ _ h
  · cases h

theorem go_no_panic (q : ScSeq F L C B M OW OE) (w : World F C B M OW OE) (stop : Option String)
    (es : List (Entry F L M OW OE)) (s : Craft F Frame) (acc : List (Named F))
    (hw : ∀ x s t, w.run x s t ≠ .panic) (hs : ∀ e ∈ es, e ∈ q.seq) (hr : Ready q)
    (hl : ∃ e, es.getLast? = some e ∧ e.2 = .terminate) : q.go w stop es s acc ≠ .panic := by
  induction es generalizing s acc with
  | nil => obtain ⟨e, h, _⟩ := hl; cases h
  | cons e es ih =>
    obtain ⟨t, ph⟩ := e
    cases ph with
    | terminate => rw [ScSeq.go]; intro h; cases h
    | activity a =>
      cases es with
      | nil =>
        obtain ⟨e, h, h'⟩ := hl
        simp only [List.getLast?_singleton, Option.some.injEq] at h
        subst h
        cases h'
      | cons e' es =>
        have hl' : ∃ e, (e' :: es).getLast? = some e ∧ e.2 = .terminate := by
          rw [List.getLast?_cons_cons] at hl; exact hl
        have hs' : ∀ x ∈ e' :: es, x ∈ q.seq := fun x hx => hs x (List.mem_cons_of_mem _ hx)
        rw [ScSeq.go]
        split_ifs with h1 h2
        · intro h; cases h
        · exact ih _ _ hs' hl'
        · intro h
          rcases (bind_panic _ _).1 h with h | ⟨r, _, h⟩
          · have := hr _ (hs _ List.mem_cons_self) a rfl (by simpa using h2)
            exact phase_no_panic q w a e'.1 s hw this.1 this.2 h
          · exact ih _ _ hs' hl' h

omit [Field F] in
theorem getLast_later (q : ScSeq F L C B M OW OE) (s : Craft F Frame) (hq : q.Wf) (e : Entry F L M OW OE)
    (he : e ∈ q.seq) (hs : s.epoch ≤ e.1) :
    ∃ l, q.seq.getLast? = some l ∧ (later q s).getLast? = some l := by
  have hne : q.seq ≠ [] := List.ne_nil_of_mem he
  obtain ⟨init, l, hil⟩ : ∃ init l, q.seq = init ++ [l] :=
    ⟨q.seq.dropLast, q.seq.getLast hne, (List.dropLast_append_getLast hne).symm⟩
  have hlast : e.1 ≤ l.1 := by
    rw [hil] at he
    rcases List.mem_append.1 he with h | h
    · have hp : ((init ++ [l]).map Prod.fst).Pairwise (· < ·) := by rw [← hil]; exact hq
      rw [List.map_append, List.pairwise_append] at hp
      exact le_of_lt (hp.2.2 _ (List.mem_map.2 ⟨e, h, rfl⟩) _ (by simp))
    · simp only [List.mem_singleton] at h; rw [h]
  refine ⟨l, by rw [hil]; simp, ?_⟩
  rw [later, hil, List.filter_append, List.filter_cons_of_pos (by simpa using le_trans hs hlast)]
  simp

/-- **C73.** A sequence whose last phase is a terminate and which is ready panics exactly when every phase is
before the epoch of the state. -/
theorem propagate_panic_iff (q : ScSeq F L C B M OW OE) (w : World F C B M OW OE) (s : Craft F Frame)
    (stop : Option String) (hq : q.Wf) (hw : ∀ x s t, w.run x s t ≠ .panic) (hr : Ready q) (he : EndsWell q) :
    q.propagate w s stop = .panic ↔ ∀ e ∈ q.seq, e.1 < s.epoch := by
  constructor
  · intro h e hm
    by_contra hc
    obtain ⟨l, h1, h2⟩ := getLast_later q s hq e hm (not_lt.1 hc)
    exact go_no_panic q w stop _ s [] hw (fun e he => (List.mem_filter.1 he).1) hr ⟨l, h2, he l h1⟩ h
  · intro h
    have : q.seq.filter (fun e => decide (s.epoch ≤ e.1)) = [] := by
      rw [List.filter_eq_nil_iff]
      intro e he
      simpa using h e he
    rw [ScSeq.propagate, this, ScSeq.go]

omit [Field F] in
/-- What `validate` checks. -/
theorem validate_iff (q : ScSeq F L C B M OW OE) :
    q.validate = true ↔ EndsWell q ∧ ∀ e ∈ q.seq, ∀ a, e.2 = .activity a →
      (Tracking.get q.propagators a.propagator).isSome ∧
        ∀ g, a.guidance = some g → (Tracking.get q.thrusterSets g.thruster).isSome := by
  rw [ScSeq.validate, Bool.and_eq_true, List.all_eq_true]
  refine and_congr ?_ (forall₂_congr fun e he => ?_)
  · rw [ScSeq.endsInActivity, EndsWell]
    cases h : q.seq.getLast? with
    | none => simp
    | some e =>
      obtain ⟨t, ph⟩ := e
      cases ph <;> simp
  · obtain ⟨t, ph⟩ := e
    cases ph with
    | terminate => simp [ScSeq.checkPhase]
    | activity a =>
      simp only [ScSeq.checkPhase, Bool.and_eq_true, Phase.activity.injEq, forall_eq']
      refine and_congr Iff.rfl ?_
      cases a.guidance <;> simp

end Verif.Sequence
