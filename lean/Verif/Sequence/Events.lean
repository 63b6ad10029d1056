import Verif.Sequence.Setup
import Mathlib.Data.Matrix.Mul
import Mathlib.Tactic.FieldSimp
/-!
The epochs at which the phases are entered, the discrete events, and what the code does not do.
-/
namespace Verif.Sequence
open Verif.Spacecraft (Craft Thruster V3)
open Verif.Tracking (IMap)
open Verif.Mc (Out)

variable {F L C B M OW OE : Type} [Field F]

/-- The propagator ends at the epoch that it is asked for (proved of it in `Verif.Propagate`). -/
def Lands (w : World F C B M OW OE) : Prop :=
  ∀ x s t s' tr, w.run x s t = .ok (s', tr) → s'.epoch = t

theorem flown_on_time (w : World F C B M OW OE) (q : ScSeq F L C B M OW OE) (hw : Lands w)
    (stop : Option String) (es : List (Entry F L M OW OE)) (s : Craft F Frame) (ts : List (Named F))
    (hs : ∀ e, es.head? = some e → e.1 = s.epoch)
    (hd : ∀ e ∈ es, ∀ a, e.2 = .activity a → a.disabled = false)
    (h : Flown w q (fun _ _ => True) (flights stop es) s ts) :
    Flown w q (fun s e => s.epoch = e.1) (flights stop es) s ts := by
  induction es generalizing s ts with
  | nil => cases h; exact .nil _
  | cons e es ih =>
    cases es with
    | nil => cases h; exact .nil _
    | cons e' es =>
      rw [flights_cons] at h ⊢
      split_ifs at h ⊢ with hg hen
      · cases h with
        | cons _ _ a _ s1 s2 s3 x tr ts hP ha he hx hr h =>
          have h3 : s3.epoch = e'.1 := hw _ _ _ _ _ hr
          refine .cons _ _ a s s1 s2 s3 x tr ts (hs e rfl).symm ha he hx hr ?_
          refine ih s3 ts ?_ (fun x hx => hd x (List.mem_cons_of_mem _ hx)) h
          intro y hy
          simp only [List.head?_cons, Option.some.injEq] at hy
          rw [h3, ← hy]
      · exfalso
        obtain ⟨t, ph⟩ := e
        cases ph with
        | terminate => cases hg
        | activity a => exact hen (by simp [enabled, hd _ List.mem_cons_self a rfl])
      · cases h; exact .nil _

/-- If the sequence starts at the epoch of one of its phases and none of the later ones is disabled, each phase is
entered exactly at its own epoch. -/
theorem phases_on_time_partial (q : ScSeq F L C B M OW OE) (w : World F C B M OW OE) (s : Craft F Frame)
    (stop : Option String) (ts : List (Named F)) (hq : q.Wf) (hw : Lands w)
    (hs : ∃ e ∈ q.seq, e.1 = s.epoch)
    (hd : ∀ e ∈ q.seq, s.epoch ≤ e.1 → ∀ a, e.2 = .activity a → a.disabled = false)
    (h : q.propagate w s stop = .ok ts) :
    Flown w q (fun s e => s.epoch = e.1) (flights stop (later q s)) s ts := by
  obtain ⟨-, hf⟩ := (propagate_iff q w s stop ts).1 h
  refine flown_on_time w q hw stop _ s ts ?_ ?_ hf
  · intro e he
    have hm : e ∈ later q s := List.mem_of_head? he
    have hge : s.epoch ≤ e.1 := by simpa using (List.mem_filter.1 hm).2
    obtain ⟨e0, h0, h0s⟩ := hs
    have hm0 : e0 ∈ later q s := List.mem_filter.2 ⟨h0, by simp [h0s]⟩
    have hp : ((later q s).map Prod.fst).Pairwise (· < ·) :=
      hq.sublist ((List.filter_sublist (l := q.seq)).map Prod.fst)
    cases hl : later q s with
    | nil => rw [hl] at hm; cases hm
    | cons y ys =>
      rw [hl] at he hm0 hp
      simp only [List.head?_cons, Option.some.injEq] at he
      subst he
      rcases List.mem_cons.1 hm0 with rfl | h1
      · exact h0s
      · rw [List.map_cons, List.pairwise_cons] at hp
        have := hp.1 _ (List.mem_map.2 ⟨e0, h1, rfl⟩)
        omega
  · intro e he a ha
    have := List.mem_filter.1 he
    exact hd e this.1 (by simpa using this.2) a ha

omit [Field F] in
/-- A phase that started before the epoch of the state is never flown, even when it is the one in progress. -/
theorem in_progress_skipped (q : ScSeq F L C B M OW OE) (s : Craft F Frame) (stop : Option String)
    (hq : q.Wf) (e : Entry F L M OW OE) (he : e.1 < s.epoch) :
    e ∉ (flights stop (later q s)).map Prod.fst := by
  intro h
  obtain ⟨p, hp, rfl⟩ := List.mem_map.1 h
  have := ((flights_chrono q s stop hq).2 p hp).1
  omega

/-! ### The discrete events -/

/-- Docking what was staged, with the opposite maneuver, gives the first state back. -/
theorem stage_then_dock (w : World F C B M OW OE) (s s1 : Craft F Frame) (l l' : L) (dv : V3 F)
    (p : Option (PhysProps F)) (h : enter w (some (.staging (some ⟨l, dv⟩) p)) s = .ok s1) :
    enter w (some (.docking (some ⟨l', fun i => -dv i⟩) p)) s1 = .ok s := by
  rw [enter_iff] at h ⊢
  cases h with
  | staging _ _ _ _ h =>
    refine .docking _ _ _ _ ?_
    rw [Changed] at h ⊢
    subst h
    simp

/-- Staging removes exactly the total mass of the properties, docking adds it. -/
theorem event_mass (w : World F C B M OW OE) (s s1 : Craft F Frame) (m : Option (Impulse F L))
    (a b c : F) (srp drag : Option (F × F)) :
    (enter w (some (.staging m (some ⟨some (a, b, c), srp, drag⟩))) s = .ok s1 →
      s1.mass = s.mass - (a + b + c)) ∧
    (enter w (some (.docking m (some ⟨some (a, b, c), srp, drag⟩))) s = .ok s1 →
      s1.mass = s.mass + (a + b + c)) := by
  constructor
  · intro h
    rw [enter_iff] at h
    cases h with
    | staging _ _ _ _ h =>
      rw [Changed] at h
      subst h
      simp only [Craft.mass, Option.bind_some, Option.getD_some]
      ring
  · intro h
    rw [enter_iff] at h
    cases h with
    | docking _ _ _ _ h =>
      rw [Changed] at h
      subst h
      simp only [Craft.mass, Option.bind_some, Option.getD_some]
      ring

/-- Nothing checks what is left: staging more than the spacecraft has leaves negative masses, areas and
coefficients, whatever the state. -/
theorem staging_below_zero [LinearOrder F] [IsStrictOrderedRing F] (w : World F C B M OW OE)
    (s : Craft F Frame) :
    ∃ (p : PhysProps F) (s1 : Craft F Frame),
      enter w (some (.staging (none : Option (Impulse F L)) (some p))) s = .ok s1 ∧
        s1.dry < 0 ∧ s1.prop < 0 ∧ s1.srpArea < 0 ∧ s1.cd < 0 := by
  refine ⟨⟨some (s.dry + 1, s.prop + 1, 0), some (s.srpArea + 1, 0), some (0, s.cd + 1)⟩, _,
    (enter_iff _ _ _ _).2 (.staging _ _ _ _ rfl), ?_, ?_, ?_, ?_⟩ <;>
    simp only [Option.bind_some, Option.getD_some] <;> linarith

/-- The local frame of an impulsive maneuver is not read: a maneuver that is given in a local frame which turns it
changes the velocity by its components, not by the turned vector. -/
theorem local_frame_ignored (w : World F C B M OW OE) (s : Craft F Frame)
    (dcm : L → Matrix (Fin 3) (Fin 3) F) (l : L) (dv : V3 F) (hl : (dcm l).mulVec dv ≠ dv)
    (p : Option (PhysProps F)) (ev : Option (Impulse F L) → Option (PhysProps F) → Event F L)
    (hev : ev = Event.staging ∨ ev = Event.docking) :
    ∃ s1, enter w (some (ev (some ⟨l, dv⟩) p)) s = .ok s1 ∧
      s1.vel ≠ fun i => s.vel i + (dcm l).mulVec dv i := by
  rcases hev with rfl | rfl
  · refine ⟨_, (enter_iff _ _ _ _).2 (.staging _ _ _ _ rfl), ?_⟩
    intro h
    refine hl (funext fun i => ?_)
    have := congrFun h i
    simp only [Option.map_some, Option.getD_some] at this
    exact (add_left_cancel this).symm
  · refine ⟨_, (enter_iff _ _ _ _).2 (.docking _ _ _ _ rfl), ?_⟩
    intro h
    refine hl (funext fun i => ?_)
    have := congrFun h i
    simp only [Option.map_some, Option.getD_some] at this
    exact (add_left_cancel this).symm

/-- A swap of frame changes neither the epoch nor the masses nor the coefficients, and fails exactly when the frame
differs and the translation fails. -/
theorem frame_swap_spec (w : World F C B M OW OE) (s : Craft F Frame) (f : Frame) :
    (∀ s1, enter w (some (.frameSwap f : Event F L)) s = .ok s1 →
      s1.epoch = s.epoch ∧ s1.dry = s.dry ∧ s1.prop = s.prop ∧ s1.extra = s.extra ∧ s1.cr = s.cr ∧
      s1.cd = s.cd ∧ s1.srpArea = s.srpArea ∧ s1.dragArea = s.dragArea ∧ s1.stm = s.stm ∧
      (f = s.frame → s1 = s)) ∧
    (enter w (some (.frameSwap f : Event F L)) s = .err ↔ f ≠ s.frame ∧ w.translate s f = none) := by
  constructor
  · intro s1 h
    rw [enter_iff] at h
    cases h with
    | same _ _ h => simp
    | swap _ _ o h ht =>
      exact ⟨rfl, rfl, rfl, rfl, rfl, rfl, rfl, rfl, rfl, fun he => absurd he h⟩
  · rw [enter]
    split_ifs with hc
    · have hne : f ≠ s.frame := fun e => ((frame_eq _ _).1 e) hc
      cases w.translate s f <;> simp [hne]
    · have he : f = s.frame := (frame_eq _ _).2 hc
      simp [he]

/-! ### Witnesses -/

/-- A world where everything succeeds: the propagator returns the state at the end epoch. -/
def demoWorld : World ℚ Unit Unit Unit Unit Unit where
  build _ := some ⟨(), true, none⟩
  translate s f := some (f, s.pos, s.vel)
  run _ s t := .ok ({ s with epoch := t }, [s, { s with epoch := t }])

/-- A spacecraft of 100 kg at the epoch `t`. -/
def demoCraft (t : Int) : Craft ℚ Frame :=
  ⟨⟨399, 1⟩, t, fun _ => 0, fun _ => 0, 100, 10, 0, 1, 1, 1, 1, none, .coast, none, none⟩

/-- An activity. -/
def demoAct (n : String) (ev : Option (Event ℚ Unit)) (disabled : Bool) : Phase ℚ Unit Unit Unit Unit :=
  .activity ⟨n, "p", none, ev, disabled⟩

/-- A sequence with one propagator. -/
def demoSeq (es : List (Entry ℚ Unit Unit Unit Unit)) : ScSeq ℚ Unit Unit Unit Unit Unit Unit :=
  ⟨es, [], [("p", ())], []⟩

/-- The same after `setup`. -/
def demoReady (es : List (Entry ℚ Unit Unit Unit Unit)) : ScSeq ℚ Unit Unit Unit Unit Unit Unit :=
  ⟨es, [], [("p", ())], [("p", ⟨(), true, none⟩)]⟩

/-- Three phases, the second one of them staging. -/
def demoEntries (disabled : Bool) : List (Entry ℚ Unit Unit Unit Unit) :=
  [(0, demoAct "a" none false), (10, demoAct "b" none disabled),
    (20, demoAct "c" (some (.staging none (some ⟨some (50, 0, 0), none, none⟩))) false), (30, .terminate)]

theorem demo_setup (d : Bool) :
    (demoSeq (demoEntries d)).setup demoWorld = .ok (true, demoReady (demoEntries d)) := by
  cases d <;> rfl

theorem demo_wf (d : Bool) : (demoSeq (demoEntries d)).Wf := by
  simp [ScSeq.Wf, demoSeq, demoEntries]

theorem demo_lands : Lands demoWorld := by
  intro x s t s' tr h
  simp only [demoWorld, Out.ok.injEq, Prod.mk.injEq] at h
  rw [← h.1]

/-- **C73, refuted in part.** A sequence without any phase is valid and can be set up, and panics. -/
theorem empty_sequence_panics :
    (demoSeq []).validate = true ∧ (demoSeq []).setup demoWorld = .ok (true, demoSeq []) ∧
      ∀ s stop, (demoSeq []).propagate demoWorld s stop = .panic := by
  refine ⟨rfl, rfl, fun s stop => rfl⟩

/-- **C73, refuted in part.** A valid sequence that was not set up panics. -/
theorem valid_not_set_up_panics :
    (demoSeq (demoEntries false)).validate = true ∧
      (demoSeq (demoEntries false)).propagate demoWorld (demoCraft 0) none = .panic := by
  refine ⟨rfl, rfl⟩

/-- A state in the middle of the first phase: it is the second phase that is flown, from the epoch of the
state, though it starts later. -/
theorem mid_phase_start :
    ∃ s1 s2 s3, (demoReady (demoEntries false)).propagate demoWorld (demoCraft 5) none =
      .ok [⟨some "b", [s1, s2]⟩, ⟨some "c", [s3, { s3 with epoch := 30 }]⟩] ∧ s1.epoch = 5 ∧ s2.epoch = 20 := by
  refine ⟨_, _, _, rfl, rfl, rfl⟩

theorem disabled_never_on_time (s : Craft ℚ Frame) (ts : List (Named ℚ)) (hs : s.epoch = 0) :
    ¬ Flown demoWorld (demoReady (demoEntries true)) (fun s e => s.epoch = e.1)
        (flights none (later (demoReady (demoEntries true)) s)) s ts := by
  intro h
  have hfl : flights none (later (demoReady (demoEntries true)) s) =
      [((0, demoAct "a" none false), (10, demoAct "b" none true)),
        ((20, demoAct "c" (some (.staging none (some ⟨some (50, 0, 0), none, none⟩))) false),
          (30, .terminate))] := by
    rw [later, hs]; rfl
  rw [hfl] at h
  cases h with
  | cons _ _ a _ s1 s2 s3 x tr ts hP ha he hx hr h =>
    have h3 : s3.epoch = 10 := demo_lands _ _ _ _ _ hr
    cases h with
    | cons _ _ a _ s1 s2 s3 x tr ts hP ha he hx hr h =>
      rw [h3] at hP
      simp at hP

/-- With the second phase disabled, the third one is entered when the disabled phase should have started: the
stage is released at 10, not at 20. -/
theorem disabled_phase_shifts :
    ∃ s1 s2 s3 s4, (demoReady (demoEntries true)).propagate demoWorld (demoCraft 0) none =
      .ok [⟨some "a", [s1, s2]⟩, ⟨some "c", [s3, s4]⟩] ∧ s3.epoch = 10 ∧ s3.dry = 100 - 50 ∧ s4.epoch = 30 ∧
      ∀ ts, ¬ Flown demoWorld (demoReady (demoEntries true)) (fun s e => s.epoch = e.1)
        (flights none (later (demoReady (demoEntries true)) (demoCraft 0))) (demoCraft 0) ts :=
  ⟨_, _, _, _, rfl, rfl, rfl, rfl, fun ts => disabled_never_on_time _ ts rfl⟩

/-! ### The hypotheses are met -/

example := propagate_iff (demoReady (demoEntries false)) demoWorld (demoCraft 0) (some "c")
example := flights_chrono (demoSeq (demoEntries false)) (demoCraft 0) none (demo_wf false)
example := setup_then_propagate_partial _ _ demoWorld (demoCraft 0) none (demo_wf false)
  (by intro x s t h; cases h) (demo_setup false)
example := setup_again _ _ demoWorld demoWorld (demo_setup true) [("p", ()), ("q", ())] (by
  intro n h
  by_cases hn : "p" = n
  · subst hn; rfl
  · simp [demoSeq, Tracking.get, hn] at h)
example := not_set_up_panics (demoSeq (demoEntries false)) demoWorld (demoCraft 0) (demoCraft 0) none rfl
  (0, demoAct "a" none false) _ (demoEntries false).tail rfl rfl rfl (by simp) (.none _)

/-- The sequence is flown on time when no phase is disabled. -/
example : ∃ ts, Flown demoWorld (demoReady (demoEntries false)) (fun s e => s.epoch = e.1)
    (flights none (later (demoReady (demoEntries false)) (demoCraft 0))) (demoCraft 0) ts :=
  ⟨_, phases_on_time_partial (demoReady (demoEntries false)) demoWorld (demoCraft 0) none _ (demo_wf false) demo_lands
    ⟨_, List.mem_cons_self, rfl⟩ (by
      intro e he _ a ha
      simp only [demoReady, demoEntries, demoAct, List.mem_cons, List.not_mem_nil, or_false] at he
      rcases he with rfl | rfl | rfl | rfl <;> simp_all
      all_goals subst ha; rfl) rfl⟩

example := in_progress_skipped (demoSeq (demoEntries false)) (demoCraft 5) none (demo_wf false)
  (0, demoAct "a" none false) (by simp [demoCraft])
example := stage_then_dock demoWorld (demoCraft 0) _ () () (fun _ => 1)
  (some ⟨some (50, 0, 0), some (1, 0), none⟩) rfl
example := (event_mass demoWorld (demoCraft 0) _ (none : Option (Impulse ℚ Unit)) 50 0 0 none none).1 rfl
example := local_frame_ignored demoWorld (demoCraft 0) (fun _ : Unit => !![0, 1, 0; 1, 0, 0; 0, 0, 1]) ()
  ![1, 0, 0] (by
    intro h
    have := congrFun h 0
    simp [Matrix.mulVec, dotProduct, Fin.sum_univ_three] at this) none Event.staging (Or.inl rfl)
example := (frame_swap_spec (L := Unit) demoWorld (demoCraft 0) ⟨301, 1⟩).1 _ rfl
example := pairs_round_trip (demoEntries false) (demo_wf false)
example : pairsAsMap [((20 : Int), "c"), (0, "a"), (20, "d")] = [(0, "a"), (20, "d")] := rfl
example := (build_spec (F := ℚ) (M := Unit) (OW := Unit) (OE := Unit) (fun n : Nat => some n)
  (⟨some "pm", some 3, none, some "srp", none, "rk89"⟩ :
    PropCfg String Nat Unit String Unit String)).1 _ rfl

/-! ### What holds of C149, C152 and C153 -/

/-- **C149, in part.** A phase which starts at the epoch of the state, which is enabled, which does not stop the sequence and which has
a following entry is the first one flown. Missing: a phase in progress, which started before (`in_progress_skipped`). -/
theorem phase_first_partial (q : ScSeq F L C B M OW OE) (s : Craft F Frame) (stop : Option String) (hq : q.Wf)
    (pre post : List (Entry F L M OW OE)) (e next : Entry F L M OW OE) (hs : q.seq = pre ++ e :: next :: post) (he : e.1 = s.epoch)
    (a : Activity F L M OW OE) (ha : e.2 = .activity a) (hd : a.disabled = false) (hg : goesOn stop e.2 = true) :
    (flights stop (later q s)).head? = some (e, next) := by
  rw [ScSeq.Wf, hs, List.map_append, List.pairwise_append, List.map_cons, List.pairwise_cons] at hq
  have hl : later q s = e :: next :: post := by
    rw [later, hs, List.filter_append]
    have h1 : pre.filter (fun e => decide (s.epoch ≤ e.1)) = [] := by
      rw [List.filter_eq_nil_iff]
      intro x hx
      have := hq.2.2 x.1 (List.mem_map.2 ⟨x, hx, rfl⟩) e.1 (by simp)
      simp only [decide_eq_true_eq]
      omega
    rw [h1, List.nil_append, List.filter_eq_self]
    intro x hx
    simp only [decide_eq_true_eq]
    rcases List.mem_cons.1 hx with rfl | hx
    · omega
    · have := hq.2.1.1 x.1 (List.mem_map.2 ⟨x, hx, rfl⟩)
      omega
  have hen : enabled e.2 = true := by rw [ha]; simp [enabled, hd]
  rw [hl, flights_cons, if_pos hg, if_pos hen]
  rfl

example := phase_first_partial (demoSeq (demoEntries false)) (demoCraft 10) none (demo_wf false) [(0, demoAct "a" none false)] _ _ _ rfl rfl _ rfl rfl rfl

/-- **C152, in part.** A maneuver whose vector is the same in its local frame and in that of the state changes the velocity as it should.
Missing: the other ones (`local_frame_ignored`). -/
theorem impulse_partial (w : World F C B M OW OE) (s s1 : Craft F Frame) (dcm : L → Matrix (Fin 3) (Fin 3) F) (l : L) (dv : V3 F)
    (hl : (dcm l).mulVec dv = dv) (p : Option (PhysProps F)) (ev : Option (Impulse F L) → Option (PhysProps F) → Event F L)
    (hev : ev = Event.staging ∨ ev = Event.docking) (h : enter w (some (ev (some ⟨l, dv⟩) p)) s = .ok s1) :
    s1.vel = (fun i => s.vel i + (dcm l).mulVec dv i) ∧ s1.pos = s.pos ∧ s1.epoch = s.epoch := by
  rw [hl]
  rcases hev with rfl | rfl
  · cases (enter_iff _ _ _ _).1 h with
    | staging _ _ _ _ h =>
      rw [Changed] at h
      subst h
      exact ⟨rfl, rfl, rfl⟩
  · cases (enter_iff _ _ _ _).1 h with
    | docking _ _ _ _ h =>
      rw [Changed] at h
      subst h
      exact ⟨rfl, rfl, rfl⟩

example := impulse_partial demoWorld (demoCraft 0) _ (fun _ : Unit => (1 : Matrix (Fin 3) (Fin 3) ℚ)) () ![1, 2, 3] (by simp) none
  Event.staging (.inl rfl) rfl

/-- **C153, in part.** An event which removes no more mass than the spacecraft has leaves no negative mass; and so for the areas.
Missing: the error for the other events (`staging_below_zero`). -/
theorem staging_partial [LinearOrder F] [IsStrictOrderedRing F] (w : World F C B M OW OE) (s s1 : Craft F Frame)
    (m : Option (Impulse F L)) (dry prop extra srp cr drag cd : F)
    (hm : dry ≤ s.dry ∧ prop ≤ s.prop ∧ extra ≤ s.extra) (ha : srp ≤ s.srpArea ∧ drag ≤ s.dragArea)
    (h : enter w (some (.staging m (some ⟨some (dry, prop, extra), some (srp, cr), some (drag, cd)⟩))) s = .ok s1) :
    0 ≤ s1.dry ∧ 0 ≤ s1.prop ∧ 0 ≤ s1.extra ∧ 0 ≤ s1.srpArea ∧ 0 ≤ s1.dragArea ∧
      s1.dry + s1.prop + s1.extra = s.dry + s.prop + s.extra - (dry + prop + extra) := by
  cases (enter_iff _ _ _ _).1 h with
  | staging _ _ _ _ h =>
    rw [Changed] at h
    subst h
    simp only [Option.bind_some, Option.getD_some]
    obtain ⟨h1, h2, h3⟩ := hm
    refine ⟨by linarith, by linarith, by linarith, by linarith [ha.1], by linarith [ha.2], by ring⟩

example := staging_partial (L := Unit) demoWorld { demoCraft 0 with dry := 100, prop := 50, extra := 5, srpArea := 3, dragArea := 3 } _ none
  20 50 0 1 0 1 0 ⟨by norm_num, by norm_num, by norm_num⟩ ⟨by norm_num, by norm_num⟩ rfl

end Verif.Sequence
