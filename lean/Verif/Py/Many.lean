/-!
C227: the functions of the Python interface that propagate many spacecraft in parallel,
`many_until_epoch`, `many_for_duration`, `many_until_event` (nyx-py/src/py_md.rs:223-365).
-/
namespace Verif.Py

variable {S R Er : Type}

/-- `match prop.until_epoch(..) { Ok(..) => Some(..), Err(e) => { eprintln!("{e}"); None } }`: what is done with the
outcome for one spacecraft; the message on the standard error is left out. nyx-py/src/py_md.rs:244-268, 294-318, 347-361. -/
def keepOk : Except Er R → Option R
  | .ok r => some r
  | .error _ => none

/-- How rayon splits the work on a list: it is done in sequence, or the list is cut after `k` elements and both parts are
done in parallel. -/
inductive Split where
  | seq
  | cut (k : Nat) (left right : Split)

/-- `spacecraft.par_iter().filter_map(..).collect::<Vec<_>>()`: the results of the parts, in the order of the parts.
nyx-py/src/py_md.rs:241-270. -/
def parFilterMap (f : S → Option R) : Split → List S → List R
  | .seq, l => l.filterMap f
  | .cut k p q, l => parFilterMap f p (l.take k) ++ parFilterMap f q (l.drop k)

/-- `many_until_epoch`, `many_for_duration` and `many_until_event`: `build` is the construction of the propagator, `single`
the propagation of one spacecraft with it, the body of the Python functions `until_epoch`, `for_duration`, `until_event`.
nyx-py/src/py_md.rs:223-365. -/
def many {P : Type} (build : Except Er P) (single : P → S → Except Er R) (split : Split) (spacecraft : List S) :
    Except Er (List R) :=
  match build with
  | .error e => .error e
  | .ok p => .ok (parFilterMap (fun sc => keepOk (single p sc)) split spacecraft)

/-- `until_epoch`, `for_duration`, `until_event` for one spacecraft. nyx-py/src/py_md.rs:121-221. -/
def one {P : Type} (build : Except Er P) (single : P → S → Except Er R) (sc : S) : Except Er R :=
  match build with
  | .error e => .error e
  | .ok p => single p sc

theorem parFilterMap_eq (f : S → Option R) (split : Split) : ∀ l, parFilterMap f split l = l.filterMap f := by
  induction split with
  | seq => intro l; rfl
  | cut k p q hp hq =>
    intro l
    rw [parFilterMap, hp, hq, ← List.filterMap_append, List.take_append_drop]

/-- **C227 (partial).** However the work is split: the call fails exactly if the propagator cannot be built (then so do the
calls for one spacecraft); otherwise, if no propagation fails, there is one result per spacecraft, the `i`-th being that of
the call for the `i`-th spacecraft alone; in general the results are those of the spacecraft whose propagation succeeds, in
their order. Missing: that a failure is reported, and the correspondence of the positions after one. -/
theorem many_partial {P : Type} (build : Except Er P) (single : P → S → Except Er R) (split : Split) (l : List S) :
    (∀ e, many build single split l = .error e ↔ build = .error e) ∧
    (∀ e, build = .error e → ∀ sc, one build single sc = .error e) ∧
    (∀ rs, many build single split l = .ok rs →
      (∃ kept : List S, kept.Sublist l ∧ (∀ sc ∈ l, (∃ r, one build single sc = .ok r) → sc ∈ kept) ∧
        kept.map (one build single) = rs.map .ok) ∧
      ((∀ sc ∈ l, ∃ r, one build single sc = .ok r) → l.map (one build single) = rs.map .ok)) := by
  cases build with
  | error e =>
    refine ⟨fun e' => by simp [many], ?_, fun rs h => by simp [many] at h⟩
    rintro e' h sc
    cases h
    rfl
  | ok p =>
    refine ⟨fun e' => by simp [many], ?_, fun rs h => ?_⟩
    · intro e h; cases h
    simp only [many, Except.ok.injEq, parFilterMap_eq] at h
    subst h
    constructor
    · refine ⟨l.filter fun sc => (keepOk (single p sc)).isSome, List.filter_sublist, ?_, ?_⟩
      · intro sc hsc hr
        obtain ⟨r, hr⟩ := hr
        have hr' : single p sc = .ok r := hr
        simp [hsc, hr', keepOk]
      · induction l with
        | nil => rfl
        | cons sc l ih =>
          cases hs : single p sc with
          | error e =>
            have hk : keepOk (single p sc) = none := by rw [hs]; rfl
            rw [List.filter_cons_of_neg (by simp [hk]), List.filterMap_cons, hk]
            exact ih
          | ok r =>
            have hk : keepOk (single p sc) = some r := by rw [hs]; rfl
            have ho : one (.ok p) single sc = .ok r := hs
            rw [List.filter_cons_of_pos (by simp [hk]), List.filterMap_cons, hk, List.map_cons, List.map_cons, ih, ho]
    · intro hall
      induction l with
      | nil => rfl
      | cons sc l ih =>
        obtain ⟨r, hr⟩ := hall sc (by simp)
        have hr' : single p sc = .ok r := hr
        rw [List.filterMap_cons]
        simp only [hr', keepOk, List.map_cons, hr]
        rw [ih fun sc h => hall sc (by simp [h])]
        rfl

/-- **C227 refuted.** If the propagation of any spacecraft fails, the call still succeeds, with fewer results than spacecraft;
and the failed one cannot be told from the results: with the first of two failing, the only result, at the position of the
first spacecraft, is that of the second; the same list is returned by a call for the second alone. -/
theorem many_loses_failures :
    (∀ {P : Type} (p : P) (single : P → S → Except Er R) (split : Split) (l : List S) (sc : S) (e : Er), sc ∈ l →
      single p sc = .error e →
      ∃ rs, many (.ok p) single split l = .ok rs ∧ rs.length < l.length) ∧
    ∃ single : Unit → Nat → Except String Nat, ∀ split,
      single () 0 = .error "NaN" ∧ single () 1 = .ok 7 ∧
      many (.ok ()) single split [0, 1] = .ok [7] ∧ many (.ok ()) single split [1] = .ok [7] := by
  refine ⟨?_, fun _ sc => if sc = 0 then .error "NaN" else .ok 7, fun split => ⟨rfl, rfl, ?_, ?_⟩⟩
  · intro P p single split l sc e hm hf
    refine ⟨_, rfl, ?_⟩
    rw [parFilterMap_eq]
    induction l with
    | nil => cases hm
    | cons a l ih =>
      rcases List.mem_cons.1 hm with rfl | hm
      · have : keepOk (single p sc) = none := by rw [hf]; rfl
        rw [List.filterMap_cons, this, List.length_cons]
        exact Nat.lt_succ_of_le (List.length_filterMap_le _ _)
      · have := ih hm
        rw [List.filterMap_cons, List.length_cons]
        split
        · exact Nat.lt_succ_of_lt this
        · rw [List.length_cons]; exact Nat.succ_lt_succ this
  · simp [many, parFilterMap_eq, keepOk]
  · simp [many, parFilterMap_eq, keepOk]

example : many (Er := String) (.ok 10) (fun p sc => .ok (p + sc)) (.cut 1 .seq (.cut 1 .seq .seq)) [1, 2, 3] = .ok [11, 12, 13] ∧
    [1, 2, 3].map (one (Er := String) (.ok 10) fun p sc => .ok (p + sc)) = [11, 12, 13].map .ok :=
  ⟨rfl, ((many_partial (Er := String) (.ok 10) (fun p sc => .ok (p + sc)) (.cut 1 .seq (.cut 1 .seq .seq)) [1, 2, 3]).2.2
    [11, 12, 13] rfl).2 fun sc _ => ⟨_, rfl⟩⟩

end Verif.Py
