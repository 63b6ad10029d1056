import Verif.Guide.Model
/-!
Model of nyx-core/src/dynamics/deltavctrl.rs: a schedule of maneuvers given in chronological order. Nothing in the
repository calls it; what is proved is for a caller who calls `next` at successive epochs and asks for the control
in between.
-/
namespace Verif.Guide
open Matrix
open Verif.Mc (Out)
open Verif.MathU (V3)

/-- What `ImpulsiveBurns` uses of a `Maneuver`, dynamics/guidance/mnvr.rs:40-52 and 206-216: its span and the vector
at an epoch. -/
structure Burn where
  start : Int
  stop : Int
  vec : Int → V3

/-- `ImpulsiveBurns`, dynamics/deltavctrl.rs:38-42. -/
structure Burns where
  mnvrs : List Burn
  no : Nat

/-- `ImpulsiveBurns::from_mnvrs`, dynamics/deltavctrl.rs:46-48. -/
def Burns.ofMnvrs (l : List Burn) : Burns := ⟨l, 0⟩

/-- `ImpulsiveBurns::ctrl_vector` at an epoch, dynamics/deltavctrl.rs:52-63. `dcm` is the matrix from the VNC frame of
the state, `none` if it cannot be computed, and then `unwrap` panics. -/
def Burns.ctrl (s : Burns) (dcm : Option (Matrix (Fin 3) (Fin 3) ℝ)) (e : Int) : Out V3 :=
  match s.mnvrs[s.no]? with
  | none => .ok 0
  | some b =>
    if b.start ≤ e ∧ e ≤ b.stop then
      match dcm with
      | some R => .ok (R *ᵥ b.vec e)
      | none => .panic
    else .ok 0

/-- `ImpulsiveBurns::next` at an epoch, dynamics/deltavctrl.rs:65-72. -/
def Burns.next (s : Burns) (e : Int) : Burns :=
  match s.mnvrs[s.no]? with
  | none => s
  | some b => if b.stop ≤ e then ⟨s.mnvrs, s.no + 1⟩ else s

/-- Calls of `next` at successive epochs. -/
def Burns.run (s : Burns) (es : List Int) : Burns := es.foldl Burns.next s

theorem next_mnvrs (s : Burns) (e : Int) : (s.next e).mnvrs = s.mnvrs := by
  rw [Burns.next]; split
  · rfl
  · split_ifs <;> rfl

theorem run_mnvrs (es : List Int) : ∀ s : Burns, (s.run es).mnvrs = s.mnvrs := by
  induction es with
  | nil => intro s; rfl
  | cons e es ih => intro s; rw [Burns.run, List.foldl_cons, ← Burns.run, ih, next_mnvrs]

theorem next_no_le (s : Burns) (e : Int) : s.no ≤ (s.next e).no := by
  rw [Burns.next]; split
  · exact le_rfl
  · split_ifs
    · exact Nat.le_succ _
    · exact le_rfl

theorem run_no_le (es : List Int) : ∀ s : Burns, s.no ≤ (s.run es).no := by
  induction es with
  | nil => intro s; exact le_rfl
  | cons e es ih => intro s; rw [Burns.run, List.foldl_cons, ← Burns.run]; exact (next_no_le s e).trans (ih _)

theorem run_snoc (s : Burns) (es : List Int) (c : Int) : s.run (es ++ [c]) = (s.run es).next c := by
  simp only [Burns.run, List.foldl_append, List.foldl_cons, List.foldl_nil]

/-- The maneuver `i` is not passed before a call at or after its end. -/
theorem run_no_upper {i : Nat} {b : Burn} (es : List Int) : ∀ s : Burns, s.mnvrs[i]? = some b → s.no ≤ i →
    (∀ c ∈ es, c < b.stop) → (s.run es).no ≤ i := by
  induction es with
  | nil => intro s _ h _; exact h
  | cons e es ih =>
    intro s hb h hc
    rw [Burns.run, List.foldl_cons, ← Burns.run]
    refine ih _ (by rw [next_mnvrs]; exact hb) ?_ fun c hm => hc c (List.mem_cons_of_mem _ hm)
    rw [Burns.next]
    split
    · exact h
    · rename_i b' hb'
      split_ifs with hle
      · rcases Nat.lt_or_ge s.no i with hlt | hge
        · exact hlt
        · have : s.no = i := le_antisymm h hge
          rw [this, hb] at hb'
          cases hb'
          exact absurd hle (not_le.2 (hc e List.mem_cons_self))
      · exact h

/-- If every maneuver up to `i` had a call between its end and the end of the later ones, the maneuver `i` is passed. -/
theorem run_no_lower {l : List Burn} {es : List Int} (hs : es.Pairwise (· ≤ ·)) : ∀ (i : Nat) (hi : i < l.length),
    (∀ j (hj : j ≤ i), ∃ c ∈ es, (l[j]).stop ≤ c ∧ ∀ k (hk : k < l.length), j < k → c < (l[k]).stop) →
    ∀ pre c post, es = pre ++ c :: post → (l[i]).stop ≤ c → i + 1 ≤ ((Burns.ofMnvrs l).run (pre ++ [c])).no := by
  intro i
  induction i with
  | zero =>
    intro hi hv pre c post he hc
    rw [run_snoc]
    have hm : ((Burns.ofMnvrs l).run pre).mnvrs = l := run_mnvrs _ _
    generalize (Burns.ofMnvrs l).run pre = s at hm
    rcases Nat.eq_zero_or_pos s.no with h0 | h0
    · rw [Burns.next, hm, h0, List.getElem?_eq_getElem hi]
      dsimp only
      rw [if_pos hc]
    · exact le_trans h0 (next_no_le _ _)
  | succ i ih =>
    intro hi hv pre c post he hc
    obtain ⟨c', hc', h1, h2⟩ := hv i (Nat.le_succ i)
    have hlt : c' < c := lt_of_lt_of_le (h2 (i + 1) hi (Nat.lt_succ_self i)) hc
    have hmem : c' ∈ pre := by
      rw [he] at hc'
      rcases List.mem_append.1 hc' with h | h
      · exact h
      · exfalso
        rcases List.mem_cons.1 h with h | h
        · omega
        · rw [he, List.pairwise_append] at hs
          have := (List.pairwise_cons.1 hs.2.1).1 _ h
          omega
    obtain ⟨p1, p2, hp⟩ := List.append_of_mem hmem
    have h3 := ih (Nat.lt_of_succ_lt hi) (fun j hj => hv j (Nat.le_succ_of_le hj)) p1 c' (p2 ++ c :: post)
      (by rw [he, hp]; simp) h1
    have h4 : i + 1 ≤ ((Burns.ofMnvrs l).run pre).no := by
      have : (Burns.ofMnvrs l).run pre = ((Burns.ofMnvrs l).run (p1 ++ [c'])).run p2 := by
        rw [hp]; simp only [Burns.run, List.foldl_append, List.foldl_cons, List.foldl_nil]
      rw [this]
      exact h3.trans (run_no_le _ _)
    rw [run_snoc]
    have hm : ((Burns.ofMnvrs l).run pre).mnvrs = l := run_mnvrs _ _
    generalize (Burns.ofMnvrs l).run pre = s at hm h4
    rcases Nat.eq_or_lt_of_le h4 with h0 | h0
    · rw [Burns.next, hm, ← h0, List.getElem?_eq_getElem hi]
      dsimp only
      rw [if_pos hc]
    · exact le_trans h0 (next_no_le _ _)

/-- The control that the schedule asks for at an epoch (specification): the vector of the maneuver whose span holds
the epoch, in the inertial frame, and zero outside of all spans. -/
def Wanted (l : List Burn) (R : Matrix (Fin 3) (Fin 3) ℝ) (e : Int) (v : V3) : Prop :=
  (∃ b ∈ l, b.start ≤ e ∧ e ≤ b.stop ∧ v = R *ᵥ b.vec e) ∨ ((∀ b ∈ l, ¬(b.start ≤ e ∧ e ≤ b.stop)) ∧ v = 0)

/-- **The schedule is followed, in part.** With maneuvers in chronological order, which do not overlap, and `next` called
at successive epochs before `e`, at least once after the end of each maneuver that ended before `e` and before the end
of the following one, the control at `e` is the one that the schedule asks for. -/
theorem burns_partial {l : List Burn} (hord : l.Pairwise fun b b' => b.stop < b'.start) (hspan : ∀ b ∈ l, b.start ≤ b.stop)
    {es : List Int} (hs : es.Pairwise (· ≤ ·)) {e : Int} (hlt : ∀ c ∈ es, c < e)
    (hv : ∀ j (hj : j < l.length), (l[j]).stop < e →
      ∃ c ∈ es, (l[j]).stop ≤ c ∧ ∀ k (hk : k < l.length), j < k → c < (l[k]).stop)
    (R : Matrix (Fin 3) (Fin 3) ℝ) :
    ∃ v, ((Burns.ofMnvrs l).run es).ctrl (some R) e = .ok v ∧ Wanted l R e v := by
  have hget : ∀ i j (hi : i < l.length) (hj : j < l.length), i < j → (l[i]).stop < (l[j]).start := fun i j hi hj h =>
    List.pairwise_iff_getElem.1 hord i j hi hj h
  have hsp : ∀ i (hi : i < l.length), (l[i]).start ≤ (l[i]).stop := fun i hi => hspan _ (List.getElem_mem hi)
  -- every maneuver that ended before e is passed
  have hlow : ∀ i (hi : i < l.length), (l[i]).stop < e → i + 1 ≤ ((Burns.ofMnvrs l).run es).no := by
    intro i hi he
    have hv' : ∀ j (hj : j ≤ i), ∃ c ∈ es, (l[j]).stop ≤ c ∧ ∀ k (hk : k < l.length), j < k → c < (l[k]).stop := by
      intro j hj
      refine hv j (by omega) ?_
      rcases Nat.eq_or_lt_of_le hj with rfl | h
      · exact he
      · have := hget j i (by omega) hi h
        have := hsp i hi
        omega
    obtain ⟨c, hc, h1, -⟩ := hv i hi he
    obtain ⟨pre, post, hp⟩ := List.append_of_mem hc
    have h3 := run_no_lower hs i hi hv' pre c post hp h1
    have : (Burns.ofMnvrs l).run es = ((Burns.ofMnvrs l).run (pre ++ [c])).run post := by
      rw [hp]; simp only [Burns.run, List.foldl_append, List.foldl_cons, List.foldl_nil]
    rw [this]
    exact h3.trans (run_no_le _ _)
  have hup : ∀ i (hi : i < l.length), e ≤ (l[i]).stop → ((Burns.ofMnvrs l).run es).no ≤ i := fun i hi he =>
    run_no_upper es (Burns.ofMnvrs l) (List.getElem?_eq_getElem hi) (Nat.zero_le _) fun c hc => lt_of_lt_of_le (hlt c hc) he
  have hm : ((Burns.ofMnvrs l).run es).mnvrs = l := run_mnvrs _ _
  generalize (Burns.ofMnvrs l).run es = s at hm hlow hup
  rw [Burns.ctrl, hm]
  by_cases hn : s.no < l.length
  · rw [List.getElem?_eq_getElem hn]
    dsimp only
    split_ifs with hin
    · exact ⟨_, rfl, .inl ⟨_, List.getElem_mem hn, hin.1, hin.2, rfl⟩⟩
    · refine ⟨0, rfl, .inr ⟨fun b hb hbin => ?_, rfl⟩⟩
      obtain ⟨i, hi, rfl⟩ := List.getElem_of_mem hb
      have h1 := hup i hi hbin.2
      rcases Nat.eq_or_lt_of_le h1 with h | h
      · subst h; exact hin hbin
      · have h2 := hget _ i hn hi h
        have h3 := hlow _ hn (by omega)
        omega
  · rw [List.getElem?_eq_none (not_lt.1 hn)]
    refine ⟨0, rfl, .inr ⟨fun b hb hbin => ?_, rfl⟩⟩
    obtain ⟨i, hi, rfl⟩ := List.getElem_of_mem hb
    have := hup i hi hbin.2
    omega

/-- Three maneuvers of one second each, one second apart. -/
noncomputable def threeBurns : List Burn := [⟨0, 1, fun _ => ![1, 0, 0]⟩, ⟨2, 3, fun _ => ![0, 1, 0]⟩, ⟨4, 6, fun _ => ![0, 0, 1]⟩]

theorem three_order : threeBurns.Pairwise (fun b b' => b.stop < b'.start) := by simp [threeBurns]
theorem three_span : ∀ b ∈ threeBurns, b.start ≤ b.stop := by simp [threeBurns]

example (R : Matrix (Fin 3) (Fin 3) ℝ) := burns_partial three_order three_span (es := [0, 1, 2, 4]) (by simp) (e := 5)
  (by simp) (by
    intro j hj
    simp only [threeBurns, List.length_cons, List.length_nil] at hj
    have hk : ∀ k, k < threeBurns.length → k = 0 ∨ k = 1 ∨ k = 2 := by
      intro k h; simp [threeBurns] at h; omega
    rcases hk j hj with rfl | rfl | rfl <;> intro h
    · exact ⟨1, by simp, by simp [threeBurns], fun k h1 h2 => by rcases hk k h1 with rfl | rfl | rfl <;> simp [threeBurns] at *⟩
    · exact ⟨4, by simp, by simp [threeBurns], fun k h1 h2 => by rcases hk k h1 with rfl | rfl | rfl <;> simp [threeBurns] at *⟩
    · simp [threeBurns] at h) R

/-- **A maneuver is missed.** If two maneuvers end between two calls, the schedule is one maneuver behind: the third
maneuver is not done although its span holds the epoch. -/
theorem burns_false : ∃ (l : List Burn) (es : List Int) (e : Int), l.Pairwise (fun b b' => b.stop < b'.start) ∧
    es.Pairwise (· ≤ ·) ∧ (∀ c ∈ es, c < e) ∧
    ∀ v, ((Burns.ofMnvrs l).run es).ctrl (some 1) e = .ok v → ¬Wanted l 1 e v := by
  refine ⟨threeBurns, [0, 4], 5, three_order, by simp, by simp, fun v hv hw => ?_⟩
  have h0 : ((Burns.ofMnvrs threeBurns).run [0, 4]).ctrl (some 1) 5 = .ok 0 := by
    simp [Burns.run, Burns.ofMnvrs, Burns.next, Burns.ctrl, threeBurns]
  rw [h0] at hv
  cases hv
  rcases hw with ⟨b, hb, h1, h2, h3⟩ | ⟨h, -⟩
  · simp only [threeBurns, List.mem_cons, List.not_mem_nil, or_false] at hb
    rcases hb with rfl | rfl | rfl
    · norm_num at h2
    · norm_num at h2
    · have := congrFun h3 2
      simp at this
  · exact h ⟨4, 6, fun _ => ![0, 0, 1]⟩ (by simp [threeBurns]) (by norm_num)

/-- A call at the very end of a maneuver ends it, although the span is closed. -/
theorem burn_end {b : Burn} {l : List Burn} (hord : ∀ b' ∈ l, b.stop < b'.start)
    (dcm : Option (Matrix (Fin 3) (Fin 3) ℝ)) : ((Burns.ofMnvrs (b :: l)).next b.stop).ctrl dcm b.stop = .ok 0 := by
  simp only [Burns.next, Burns.ofMnvrs, List.getElem?_cons_zero, le_refl, if_true, Burns.ctrl, List.getElem?_cons_succ]
  cases l with
  | nil => rfl
  | cons b' l =>
    have := hord b' List.mem_cons_self
    rw [List.getElem?_cons_zero]
    dsimp only
    rw [if_neg (by omega)]

noncomputable example := burn_end (b := ⟨0, 1, fun _ => ![1, 0, 0]⟩) (l := [⟨2, 3, fun _ => ![0, 1, 0]⟩]) (by simp) none
end Verif.Guide
