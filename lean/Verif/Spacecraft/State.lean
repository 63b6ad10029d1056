import Verif.Spacecraft.Model
import Mathlib.Tactic.Linarith
import Mathlib.Tactic.Ring
import Mathlib.Tactic.IntervalCases
import Mathlib.Tactic.FinCases
/-!
C48, C49, C74 (the spacecraft) and the addition of deviations.
-/
set_option linter.unusedSectionVars false
namespace Verif.Spacecraft
open Matrix

variable {F : Type} [Field F] [LinearOrder F] [IsStrictOrderedRing F] {Fr : Type}

theorem clamp02_id {x : F} (h0 : 0 ≤ x) (h2 : x ≤ 2) : clamp02 x = x := by
  unfold clamp02
  rw [if_neg (not_lt.2 h0), if_neg (not_lt.2 h2)]

theorem clamp02_range (x : F) : 0 ≤ clamp02 x ∧ clamp02 x ≤ 2 := by
  unfold clamp02
  split
  · exact ⟨le_rfl, by norm_num⟩
  · next h =>
    split
    · exact ⟨by norm_num, le_rfl⟩
    · next h' => exact ⟨not_lt.1 h, not_lt.1 h'⟩

/-- **C48, partial.** Setting the vector of a state gives the state back, at the new epoch, all fields
included. Missing: a reflectivity coefficient outside [0, 2], which `Spacecraft::new`, `with_cr` and
`set_value` accept; see `set_to_vector_clamps`. -/
theorem set_to_vector_partial (s : Craft F Fr) (e : Int) (h0 : 0 ≤ s.cr) (h2 : s.cr ≤ 2) :
    s.set e s.toVector = { s with epoch := e } := by
  obtain ⟨frame, epoch, pos, vel, dry, prop, extra, sa, cr, da, cd, thr, mode, dir, stm⟩ := s
  simp only at h0 h2
  have hpos : (fun i : Fin 3 => Craft.toVector
      (⟨frame, epoch, pos, vel, dry, prop, extra, sa, cr, da, cd, thr, mode, dir, stm⟩ : Craft F Fr) i.val) =
      pos := by
    funext i
    have := i.2
    simp only [Craft.toVector]
    rw [dif_pos this]
  have hvel : (fun i : Fin 3 => Craft.toVector
      (⟨frame, epoch, pos, vel, dry, prop, extra, sa, cr, da, cd, thr, mode, dir, stm⟩ : Craft F Fr)
        (3 + i.val)) = vel := by
    funext i
    have := i.2
    simp only [Craft.toVector]
    rw [dif_neg (by omega), dif_pos (by omega)]
    congr 1
    apply Fin.ext
    simp
  have hstm : (stm.map fun _ => (of fun i j => Craft.toVector
      (⟨frame, epoch, pos, vel, dry, prop, extra, sa, cr, da, cd, thr, mode, dir, stm⟩ : Craft F Fr)
        (9 + 9 * j.val + i.val) : Matrix (Fin 9) (Fin 9) F)) = stm := by
    cases stm with
    | none => rfl
    | some m =>
      simp only [Option.map_some, Option.some.injEq]
      ext i j
      have hi := i.2
      have hj := j.2
      simp only [of_apply, Craft.toVector]
      rw [dif_neg (by omega), dif_neg (by omega), if_neg (by omega), if_neg (by omega), if_neg (by omega),
        dif_pos (by omega)]
      congr 1 <;> apply Fin.ext <;> simp only <;> omega
  unfold Craft.set
  simp only [Craft.mk.injEq, true_and, and_true]
  refine ⟨hpos, hvel, ?_, ?_, ?_, hstm⟩
  · simp only [Craft.toVector]
    norm_num
  · simp only [Craft.toVector]
    norm_num
    exact clamp02_id h0 h2
  · simp only [Craft.toVector]
    norm_num

/-- **C48 refuted in general.** A coefficient above 2 becomes 2. -/
theorem set_to_vector_clamps (s : Craft F Fr) (e : Int) (h : 2 < s.cr) :
    (s.set e s.toVector).cr = 2 ∧ (s.set e s.toVector).cr ≠ s.cr := by
  have : (s.set e s.toVector).cr = 2 := by
    show clamp02 (s.toVector 6) = 2
    have : s.toVector 6 = s.cr := by simp only [Craft.toVector]; norm_num
    rw [this]
    unfold clamp02
    rw [if_neg (by linarith), if_pos h]
  exact ⟨this, by rw [this]; exact ne_of_lt h⟩

/-- **C48.** The vector of a state that was set is the vector, for a state with an STM and a coefficient
within bounds. -/
theorem to_vector_set (s : Craft F Fr) (e : Int) (v : Vec90 F) (hs : s.stm.isSome) (h0 : 0 ≤ v 6)
    (h2 : v 6 ≤ 2) (i : Nat) (hi : i < 90) : (s.set e v).toVector i = v i := by
  obtain ⟨m, hm⟩ := Option.isSome_iff_exists.1 hs
  simp only [Craft.toVector, Craft.set, hm, Option.map_some, of_apply]
  split
  · rfl
  · split
    · next h1 h2 => congr 1; omega
    · split
      · next h => rw [h]; exact clamp02_id h0 h2
      · split
        · next h => rw [h]
        · split
          · next h => rw [h]
          · congr 1
            omega

/-- **C48.** Whatever the vector: Cr is in [0, 2] after `set`; the masses other than the propellant, the
areas, the thruster, the mode, the direction, the frame and the presence of an STM are untouched. -/
theorem set_untouched (s : Craft F Fr) (e : Int) (v : Vec90 F) :
    0 ≤ (s.set e v).cr ∧ (s.set e v).cr ≤ 2 ∧ (s.set e v).frame = s.frame ∧ (s.set e v).dry = s.dry ∧
    (s.set e v).extra = s.extra ∧ (s.set e v).srpArea = s.srpArea ∧ (s.set e v).dragArea = s.dragArea ∧
    (s.set e v).thruster = s.thruster ∧ (s.set e v).mode = s.mode ∧ (s.set e v).dir = s.dir ∧
    (s.set e v).stm.isSome = s.stm.isSome ∧ (s.set e v).epoch = e := by
  refine ⟨(clamp02_range _).1, (clamp02_range _).2, rfl, rfl, rfl, rfl, rfl, rfl, rfl, rfl, ?_, rfl⟩
  show (s.stm.map _).isSome = _
  cases s.stm <;> rfl

/-- **C48 (deviations).** Adding two deviations one after the other is adding their sum, if the
reflectivity coefficient stays within bounds. -/
theorem add_add (s : Craft F Fr) (a b : Fin 9 → F) (h0 : 0 ≤ s.cr + a 6) (h2 : s.cr + a 6 ≤ 2) :
    (s.add a).add b = s.add (a + b) := by
  unfold Craft.add
  simp only [Craft.mk.injEq, true_and, and_true, Pi.add_apply]
  refine ⟨by funext i; ring, by funext i; ring, by ring, ?_, by ring⟩
  rw [clamp02_id h0 h2, add_assoc]

/-- **C48 (deviations), the clamp.** With the clamp a deviation and its opposite do not cancel. -/
theorem add_neg_clamped (s : Craft F Fr) (hs : s.cr = 1.8) :
    ((s.add fun i => if i = 6 then 1 else 0).add fun i => if i = 6 then -1 else 0).cr = 1 := by
  have h1 : (s.add fun i => if i = 6 then (1 : F) else 0).cr = 2 := by
    show clamp02 (s.cr + _) = 2
    rw [hs]
    unfold clamp02
    norm_num
  show clamp02 (_ + _) = 1
  rw [h1]
  unfold clamp02
  norm_num

/-- **C48 (deviations).** The vector of the sum is the sum of the vectors on the nine components. -/
theorem add_vector (s : Craft F Fr) (d : Fin 9 → F) (h0 : 0 ≤ s.cr + d 6) (h2 : s.cr + d 6 ≤ 2)
    (i : Fin 9) : (s.add d).toVector i.val = s.toVector i.val + d i := by
  simp only [Craft.toVector, Craft.add]
  have hi := i.2
  split
  · rfl
  · split
    · next h1 h2 =>
      congr 2
      apply Fin.ext
      simp only
      omega
    · split
      · next h =>
        rw [clamp02_id h0 h2]
        congr 2
        exact Fin.ext h.symm
      · split
        · next h => congr 2; exact Fin.ext h.symm
        · split
          · next h => congr 2; exact Fin.ext h.symm
          · omega

/-! ### C49 -/

/-- **C49.** The mode is recovered from its number, and distinct modes have distinct numbers. -/
theorem mode_round_trip (m m' : Mode) : Mode.ofNum (some (m.toNum : F)) = m ∧
    ((m.toNum : F) = m'.toNum → m = m') := by
  have h : ∀ m : Mode, Mode.ofNum (some (m.toNum : F)) = m := by
    intro m
    have hn : ¬ ((-1 : F) ≥ 1) := by norm_num
    have hn' : (-1 : F) < 0 := by norm_num
    cases m
    · show (if (0 : F) ≥ 1 then Mode.thrust else if (0 : F) < 0 then .inhibit else .coast) = .coast
      norm_num
    · show (if (1 : F) ≥ 1 then Mode.thrust else if (1 : F) < 0 then .inhibit else .coast) = .thrust
      norm_num
    · show (if (-1 : F) ≥ 1 then Mode.thrust else if (-1 : F) < 0 then .inhibit else .coast) = .inhibit
      rw [if_neg hn, if_pos hn']
  refine ⟨h m, fun e => ?_⟩
  rw [← h m, e, h m']

/-- **C49.** Every number decodes to one mode: at least one thrusts, negative inhibits, the rest (and not
a number) coasts. -/
theorem mode_decode (v : Option F) :
    (Mode.ofNum v = .thrust ↔ ∃ x, v = some x ∧ 1 ≤ x) ∧
    (Mode.ofNum v = .inhibit ↔ ∃ x, v = some x ∧ x < 0) ∧
    (Mode.ofNum v = .coast ↔ v = none ∨ ∃ x, v = some x ∧ 0 ≤ x ∧ x < 1) := by
  cases v with
  | none => simp [Mode.ofNum]
  | some x =>
    simp only [Mode.ofNum, Option.some.injEq, exists_eq_left', reduceCtorEq, false_or]
    by_cases h1 : x ≥ 1
    · have : ¬ x < 0 := not_lt.2 (le_trans zero_le_one h1)
      simp [h1, this, not_lt.2 h1]
    · by_cases h2 : x < 0
      · simp [h1, h2]
      · simp [h1, h2, not_lt.1 h2, not_le.1 h1]

/-- **C49.** The number of a mode is not its discriminant: the discriminant of `Inhibit` decodes to
`Thrust`. -/
theorem mode_tag_is_not_number : Mode.ofNum (some ((Mode.inhibit.tag : ℚ))) = .thrust := by decide

/-! ### C74 -/

/-- **C74 (spacecraft), partial.** Decoding what was encoded, followed by anything, gives the state without
its thrust direction and STM, and leaves the rest. Missing: these two fields, which are not written. -/
theorem spacecraft_round_trip_partial (s : Craft F Fr) (rest : List (Tok F Fr)) :
    decode (s.encode ++ rest) = some ({ s with dir := none, stm := none }, rest) := by
  have hm : Mode.ofTag s.mode.tag = some s.mode := by cases s.mode <;> rfl
  obtain ⟨frame, epoch, pos, vel, dry, prop, extra, sa, cr, da, cd, thr, mode, dir, stm⟩ := s
  simp only at hm
  cases thr with
  | none =>
    simp only [Craft.encode, List.append_assoc, List.cons_append, List.nil_append, decode, hm,
      decodeThruster]
  | some t =>
    simp only [Craft.encode, List.append_assoc, List.cons_append, List.nil_append, decode, hm,
      decodeThruster]

/-! ### Example -/

/-- A spacecraft with an STM. -/
def exCraft : Craft ℚ Unit where
  frame := ()
  epoch := 0
  pos := ![7000, 0, 0]
  vel := ![0, 7, 1]
  dry := 100
  prop := 50
  extra := 0
  srpArea := 1
  cr := 1.8
  dragArea := 2
  cd := 2.2
  thruster := some ⟨1, 300⟩
  mode := .coast
  dir := none
  stm := some 1

example := set_to_vector_partial exCraft 60 (by decide +kernel) (by decide +kernel)
example := set_to_vector_clamps { exCraft with cr := 2.5 } 60 (by decide +kernel)
example := to_vector_set exCraft 60 (fun i => if i = 6 then 1 else i) rfl (by decide +kernel) (by decide +kernel)
example := add_add exCraft (fun _ => 0.1) (fun _ => 3) (by decide +kernel) (by decide +kernel)
example := add_neg_clamped exCraft rfl
example := add_vector exCraft (fun _ => 0.1) (by decide +kernel) (by decide +kernel)

end Verif.Spacecraft
