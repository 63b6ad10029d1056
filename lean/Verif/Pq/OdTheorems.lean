import Verif.Pq.OdFile
/-!
Theorems on the files of orbit determination solutions.
-/
namespace Verif.Pq
open Verif.Mc (Out)
open Verif.Spacecraft (Craft Param Mode V3)
open Verif.Device (MsrType)

variable {S Fr D : Type} {m : Nat}

/-! ### What is refused -/

/-- **C191.** A solution without estimates, or whose estimates, residuals, gains and ratios are not as many, is refused. -/
theorem od_export_refused (w : OWriter S Fr D) (sol : OdSol S Fr m) (req : Option (List XPar)) (start stop step : Option Int)
    (h : sol.estimates = [] ∨ sol.estimates.length ≠ sol.residuals.length ∨ sol.estimates.length ≠ sol.gains.length ∨
      sol.estimates.length ≠ sol.ratios.length) :
    odToFile w sol req start stop step = .err := by
  unfold odToFile
  split
  · rename_i e0 eN h0 hN
    rcases h with h | h | h | h
    · rw [h] at h0; simp at h0
    · rw [if_pos h]
    · by_cases h1 : sol.estimates.length = sol.residuals.length
      · rw [if_neg (not_not.mpr h1), if_pos h]
      · rw [if_pos h1]
    · by_cases h1 : sol.estimates.length = sol.residuals.length
      · rw [if_neg (not_not.mpr h1)]
        by_cases h2 : sol.estimates.length = sol.gains.length
        · rw [if_neg (not_not.mpr h2), if_pos h]
        · rw [if_pos h2]
      · rw [if_pos h1]
  · rfl

theorem zip_filter_length_lt {A B : Type} (l : List A) (r : List B) (hlen : l.length = r.length) (P : A → Bool) (a : A)
    (ha : a ∈ l) (hP : P a = false) : ((l.zip r).filter fun p => P p.1).length < l.length := by
  induction l generalizing r with
  | nil => simp at ha
  | cons x l ih =>
    cases r with
    | nil => simp at hlen
    | cons y r =>
      have hlen' : l.length = r.length := by simpa using hlen
      rw [List.zip_cons_cons, List.filter_cons, List.length_cons]
      have hle : ((l.zip r).filter fun p => P p.1).length ≤ l.length := by
        refine (List.length_filter_le _ _).trans ?_
        simp [List.length_zip, hlen']
      rcases List.mem_cons.mp ha with rfl | ha'
      · simp only [hP, Bool.false_eq_true, if_false]
        omega
      · have := ih r hlen' ha'
        split
        · simp only [List.length_cons]; omega
        · omega

/-- **C191 refuted.** Whenever the bounds leave out an estimate, the export fails: the columns of the gains and of the
ratios are not filtered, and do not fit with the others. -/
theorem od_window_fails (w : OWriter S Fr D) (sol : OdSol S Fr m) (req : Option (List XPar)) (start stop step : Option Int)
    (e : Est Fr) (he : e ∈ sol.estimates) (hout : (∃ t, start = some t ∧ e.state.epoch < t) ∨ ∃ t, stop = some t ∧ t < e.state.epoch)
    (f : File OCol (Option (Meta D)) S Num) : odToFile w sol req start stop step ≠ .ok f := by
  unfold odToFile
  split
  · rename_i e0 eN h0 hN
    split
    · simp
    rename_i hr
    split
    · simp
    split
    · simp
    rename_i hq
    simp only
    split
    · simp
    split
    · simp
    split
    · simp
    split
    · simp
    rw [not_not] at hr hq
    have hlen : (odRetained sol e0 eN start stop step).1.length < sol.estimates.length := by
      have hc : (start.isSome || stop.isSome || step.isSome) = true := by
        rcases hout with ⟨t, rfl, _⟩ | ⟨t, rfl, _⟩ <;> simp
      unfold odRetained
      rw [if_pos hc, List.unzip_fst, List.length_map]
      refine zip_filter_length_lt sol.estimates sol.residuals hr
        (fun e => decide (start.getD e0.state.epoch ≤ e.state.epoch) && decide (e.state.epoch ≤ stop.getD eN.state.epoch)) e he ?_
      rcases hout with ⟨t, rfl, ht⟩ | ⟨t, rfl, ht⟩
      · simp [ht]
      · simp [ht]
    rw [tryNew_ragged _ _ (.str ((odRetained sol e0 eN start stop step).1.map fun e => some (w.fmt e.state.epoch)))
      (.num (sol.ratios.map fun q => q.map fun v => some (v 0)))]
    · simp [Mc.orErr]
    · simp [odRecords]
    · simp only [odRecords, List.mem_append, List.mem_map]
      exact .inr ⟨0, by simp, rfl⟩
    · simp only [Cells.length, List.length_map]
      omega
  · simp

/-- **C191 refuted.** An estimate which lacks a parameter that the first estimate has (say the thrust direction) makes the
whole export fail. -/
theorem od_later_missing_fails (w : OWriter S Fr D) (sol : OdSol S Fr m) (e0 : Est Fr) (h0 : sol.estimates.head? = some e0)
    (req : Option (List XPar)) (p : XPar) (hp : p ∈ req.getD exportParams) (hm : p ≠ .core .mode)
    (hv : (w.toWriter.value e0.state p).isSome) (e : Est Fr) (he : e ∈ sol.estimates) (hmiss : w.toWriter.value e.state p = none) :
    odToFile w sol req none none none = .err := by
  unfold odToFile
  split
  · rename_i e0' eN h0' hN
    rw [h0] at h0'
    cases h0'
    split
    · rfl
    split
    · rfl
    split
    · rfl
    simp only
    rw [if_pos]
    simp only [odRetained, Option.isSome_none, Bool.or_self, Bool.false_eq_true, if_false, List.any_eq_true]
    refine ⟨e, he, p, ?_, by simp [hmiss]⟩
    simp [odFields, hp, hm, hv]
  · rfl

/-! ### The file -/

/-- What the code needs for the export: see the errors and panics of `odToFile`. -/
structure Exportable (w : OWriter S Fr D) (sol : OdSol S Fr m) (e0 : Est Fr) : Prop where
  first : sol.estimates.head? = some e0
  resid : sol.estimates.length = sol.residuals.length
  gain : sol.estimates.length = sol.gains.length
  ratio : sol.estimates.length = sol.ratios.length
  value : ∀ p ∈ exportParams, (w.toWriter.value e0.state p).isSome → ∀ e ∈ sol.estimates, (w.toWriter.value e.state p).isSome
  sigma : ∀ p ∈ exportParams, ∀ e ∈ sol.estimates, (w.sigmaFor p e).isSome
  ric : ∀ e ∈ sol.estimates, (w.ric e.state).isSome
  typed : ∀ r, some r ∈ sol.residuals → r.types.length ≤ m
  nodup : sol.types.Nodup

/-- The gain columns: their names and contents. -/
noncomputable def gainSeg (sol : OdSol S Fr m) : File OCol (Option (Meta D)) S Num :=
  if sol.types.length = m then
    ((List.finRange 9).flatMap fun i => (sol.types.zip (List.finRange m)).map fun q => (i, q.1, q.2)).map fun x =>
      (⟨.gainT x.1 x.2.1, .float64, true, none⟩, .num (sol.gains.map fun g => g.map fun k => some (k x.1 x.2.2)))
  else
    ((List.finRange 9).flatMap fun i => (List.finRange m).map fun j => (i, j)).map fun x =>
      (⟨.gainJ x.1 x.2.val, .float64, true, none⟩, .num (sol.gains.map fun g => g.map fun k => some (k x.1 x.2)))

/-- The file which is written. -/
noncomputable def odFile (w : OWriter S Fr D) (sol : OdSol S Fr m) (info : Meta D) (fields : List XPar) :
    File OCol (Option (Meta D)) S Num :=
  [(⟨.epoch, .utf8, false, none⟩, .str (sol.estimates.map fun e => some (w.fmt e.state.epoch)))]
  ++ fields.map (fun p => (⟨.par p, .float64, false, some info⟩, .num (sol.estimates.map fun e => some (w.toWriter.value e.state p))))
  ++ (fields.filter (isElement w.elemNo)).map (fun p =>
      (⟨.sigmaOf p, .float64, false, some info⟩, .num (sol.estimates.map fun e => some (w.sigmaFor p e))))
  ++ upperPairs.map (fun q => (⟨.cov q.1 q.2, .float64, false, none⟩, .num (sol.estimates.map fun e => some (some (e.covar q.1 q.2)))))
  ++ (List.finRange 9).map (fun i => (⟨.sig i, .float64, false, none⟩, .num (sol.estimates.map fun e => some (sqrtN (e.covar i i)))))
  ++ (List.finRange 6).map (fun i => (⟨.ric i, .float64, false, none⟩,
      .num (sol.estimates.map fun e => some ((w.ric e.state).bind fun d => sqrtN (ricCovar d e.covar i i)))))
  ++ sol.types.map (fun t => (⟨.prefit t, .float64, true, none⟩, .num (sol.residuals.map fun r => r.bind fun r => at_ r.types r.prefit t)))
  ++ (List.finRange m).map (fun j : Fin m => (⟨.whitened j.val, .float64, true, none⟩, .num (sol.residuals.map fun r => r.map fun r => r.whitened j)))
  ++ sol.types.map (fun t => (⟨.postfit t, .float64, true, none⟩, .num (sol.residuals.map fun r => r.bind fun r => at_ r.types r.postfit t)))
  ++ sol.types.map (fun t => (⟨.noise t, .float64, true, none⟩, .num (sol.residuals.map fun r => r.bind fun r => at_ r.types r.noise t)))
  ++ sol.types.map (fun t => (⟨.real t, .float64, true, none⟩, .num (sol.residuals.map fun r => r.bind fun r => at_ r.types r.real t)))
  ++ sol.types.map (fun t => (⟨.computed t, .float64, true, none⟩, .num (sol.residuals.map fun r => r.bind fun r => at_ r.types r.computed t)))
  ++ [(⟨.ratio, .float64, true, none⟩, .num (sol.residuals.map fun r => r.map fun r => r.ratio)),
      (⟨.rejected, .boolean, true, none⟩, .flag (sol.residuals.map fun r => r.map fun r => r.rejected)),
      (⟨.tracker, .utf8, true, none⟩, .str (sol.residuals.map fun r => r.map fun r => r.tracker.getD w.undefined))]
  ++ gainSeg sol
  ++ (List.finRange 9).map (fun i => (⟨.fsr i, .float64, true, none⟩, .num (sol.ratios.map fun q => q.map fun v => some (v i))))

theorem zip_flatMap {A B C : Type} (l : List A) (f : A → List B) (g : A → List C) (h : ∀ a, (f a).length = (g a).length) :
    (l.flatMap f).zip (l.flatMap g) = l.flatMap fun a => (f a).zip (g a) := by
  induction l with
  | nil => rfl
  | cons a l ih => rw [List.flatMap_cons, List.flatMap_cons, List.flatMap_cons, List.zip_append (h a), ih]

theorem od_zip (w : OWriter S Fr D) (sol : OdSol S Fr m) (info : Meta D) (fields : List XPar) :
    (odHeaders w sol info fields).zip (odRecords w sol fields sol.estimates sol.residuals) = odFile w sol info fields := by
  have hg : (if sol.types.length = m then
        (List.finRange 9).flatMap fun i => sol.types.map fun t => (⟨.gainT i t, .float64, true, none⟩ : Fld OCol (Option (Meta D)))
      else (List.finRange 9).flatMap fun i => (List.finRange m).map fun j : Fin m => ⟨.gainJ i j.val, .float64, true, none⟩).zip
      ((List.finRange 9).flatMap fun i => (List.finRange m).map fun j =>
        (.num (sol.gains.map fun g => g.map fun k => some (k i j)) : Cells S Num)) = gainSeg sol := by
    unfold gainSeg
    split
    · rename_i hm
      rw [zip_flatMap _ _ _ (by intro a; simp [hm]), List.map_flatMap]
      congr 1
      funext i
      rw [List.zip_map, List.map_map]
      rfl
    · rw [zip_flatMap _ _ _ (by intro a; simp), List.map_flatMap]
      congr 1
      funext i
      rw [List.zip_map', List.map_map]
      rfl
  unfold odHeaders odRecords odFile
  have hl : ∀ i : Fin 9, (List.map (fun t => (⟨.gainT i t, .float64, true, none⟩ : Fld OCol (Option (Meta D)))) sol.types).length = sol.types.length := by
    simp
  rw [List.zip_append, List.zip_append, hg]
  · repeat rw [List.zip_append (by simp)]
    simp only [List.zip_map']
    rfl
  · simp
  · split <;> simp [*]

theorem od_fits (w : OWriter S Fr D) (sol : OdSol S Fr m) (info : Meta D) (fields : List XPar)
    (h1 : sol.estimates.length = sol.residuals.length) (h2 : sol.estimates.length = sol.gains.length)
    (h3 : sol.estimates.length = sol.ratios.length) :
    ∀ p ∈ odFile w sol info fields, fits sol.estimates.length p.1 p.2 = true := by
  have hg : ∀ p ∈ (gainSeg sol : File OCol (Option (Meta D)) S Num), fits sol.estimates.length p.1 p.2 = true := by
    unfold gainSeg
    split <;> simp only [List.forall_mem_map, fits, Cells.kind, Cells.length, List.length_map, h2, decide_true,
      Bool.true_or, Bool.and_self, implies_true]
  simp only [odFile, List.forall_mem_append, List.forall_mem_map, List.forall_mem_cons, List.forall_mem_nil]
  refine ⟨⟨⟨⟨⟨⟨⟨⟨⟨⟨⟨⟨⟨⟨?_, ?_⟩, ?_⟩, ?_⟩, ?_⟩, ?_⟩, ?_⟩, ?_⟩, ?_⟩, ?_⟩, ?_⟩, ?_⟩, ?_⟩, hg⟩, ?_⟩
  all_goals first
    | (simp [fits, Cells.kind, Cells.length, Cells.hasNull, h1]; done)
    | (simp [fits, Cells.kind, Cells.length, Cells.hasNull, h3]; done)

/-- **C191, in part.** The export without bounds of a solution whose parts are aligned and whose estimates have the
same parameters succeeds, and the file has all its estimates (see `od_estimates_partial` for what is read from it). Missing:
the windows (`od_window_fails`) and the parameters missing in later estimates (`od_later_missing_fails`). -/
theorem od_written_partial (w : OWriter S Fr D) (sol : OdSol S Fr m) (e0 : Est Fr) (h : Exportable w sol e0) :
    odToFile w sol none none none none =
      .ok (odFile w sol ⟨w.ser e0.state.frame, e0.nominal.srpArea, e0.nominal.dragArea⟩ (odFields w e0 exportParams)) := by
  have hne : sol.estimates ≠ [] := by
    intro he
    have := h.first
    rw [he] at this
    simp at this
  unfold odToFile
  rw [h.first, List.getLast?_eq_some_getLast hne]
  simp only
  rw [if_neg (not_not.mpr h.resid), if_neg (not_not.mpr h.gain), if_neg (not_not.mpr h.ratio)]
  simp only [odRetained, Option.isSome_none, Bool.or_self, Bool.false_eq_true, if_false, Option.getD_none]
  have hf : ∀ p ∈ odFields w e0 exportParams, p ∈ exportParams ∧ (w.toWriter.value e0.state p).isSome := by
    intro p hp
    simp only [odFields, List.mem_filter, Bool.and_eq_true] at hp
    exact ⟨hp.1, hp.2.1⟩
  rw [if_neg, if_neg, if_neg, if_neg, ← od_zip, tryNew_ok _ _ sol.estimates.length]
  · rfl
  · have := od_zip w sol ⟨w.ser e0.state.frame, e0.nominal.srpArea, e0.nominal.dragArea⟩ (odFields w e0 exportParams)
    simp only [odHeaders, odRecords, List.length_append, List.length_map, List.length_cons, List.length_nil, List.length_flatMap]
    split <;> simp [*]
  · simp [odRecords]
  · rw [od_zip]
    exact od_fits w sol _ _ h.resid h.gain h.ratio
  · simp only [List.any_eq_true, Option.any_eq_true, not_exists, not_and]
    rintro o ho r rfl
    simp only [ORes.misTyped, List.any_eq_true, Bool.and_eq_true, decide_eq_true_eq, not_exists, not_and, not_le]
    intro t _ ht
    exact (List.idxOf_lt_length_of_mem ht).trans_le (h.typed r ho)
  · simp only [List.any_eq_true, not_exists, not_and]
    intro e he
    rw [Option.isNone_iff_eq_none]
    exact Option.isSome_iff_ne_none.mp (h.ric e he)
  · simp only [List.any_eq_true, not_exists, not_and]
    intro e he p hp
    have := h.sigma p (hf p (List.mem_filter.mp hp).1).1 e he
    rw [Option.isNone_iff_eq_none]
    exact Option.isSome_iff_ne_none.mp this
  · simp only [List.any_eq_true, not_exists, not_and]
    intro e he p hp
    have := h.value p (hf p hp).1 (hf p hp).2 e he
    rw [Option.isNone_iff_eq_none]
    exact Option.isSome_iff_ne_none.mp this

/-! ### Its columns -/

theorem column_append {N M A B : Type} [DecidableEq N] (f g : File N M A B) (n : N) :
    column (f ++ g) n = (column f n).or (column g n) := by
  induction f with
  | nil => simp [column]
  | cons q f ih =>
    obtain ⟨qf, qc⟩ := q
    simp only [List.cons_append, column]
    split
    · rfl
    · exact ih

theorem column_map {N M A B X : Type} [DecidableEq N] (l : List X) (fld : X → Fld N M) (c : X → Cells A B) (n : N) :
    column (l.map fun x => (fld x, c x)) n = (l.find? fun x => decide ((fld x).name = n)).map c := by
  induction l with
  | nil => rfl
  | cons x l ih =>
    rw [List.map_cons, column, List.find?_cons]
    by_cases h : (fld x).name = n
    · simp [h]
    · simp only [if_neg h, ih, decide_eq_false h]

theorem find_self {X : Type} [DecidableEq X] (l : List X) (t : X) (h : t ∈ l) : l.find? (fun x => decide (x = t)) = some t := by
  induction l with
  | nil => simp at h
  | cons x l ih =>
    rw [List.find?_cons]
    by_cases hx : x = t
    · simp [hx]
    · simp only [decide_eq_false hx]
      exact ih ((List.mem_cons.mp h).resolve_left fun e => hx e.symm)

theorem find_none {X : Type} (l : List X) : l.find? (fun _ => false) = none := by
  induction l with
  | nil => rfl
  | cons x l ih => simpa using ih

theorem gainSeg_none (sol : OdSol S Fr m) (n : OCol) (h1 : ∀ i t, n ≠ .gainT i t) (h2 : ∀ i j, n ≠ .gainJ i j) :
    column (gainSeg sol : File OCol (Option (Meta D)) S Num) n = none := by
  unfold gainSeg
  split
  · rw [column_map]
    simp only [fun i t => decide_eq_false (fun e => h1 i t (Eq.symm e)), find_none, Option.map_none]
  · rw [column_map]
    simp only [fun i t => decide_eq_false (fun e => h2 i t (Eq.symm e)), find_none, Option.map_none]

section Columns
variable (w : OWriter S Fr D) (sol : OdSol S Fr m) (info : Meta D) (fields : List XPar)

theorem od_epoch : column (odFile w sol info fields) .epoch = some (.str (sol.estimates.map fun e => some (w.fmt e.state.epoch))) := by
  simp [odFile, column]

theorem od_par (p : XPar) (hp : p ∈ fields) : column (odFile w sol info fields) (.par p) =
    some (.num (sol.estimates.map fun e => some (w.toWriter.value e.state p))) := by
  simp only [odFile, column_append, column_map, column, reduceCtorEq, if_false, decide_false, find_none, Option.map_none, Option.or_none,
    Option.none_or, OCol.par.injEq, find_self _ _ hp, Option.map_some, Option.some_or]

theorem od_cov (i j : Fin 9) (h : i ≤ j) : column (odFile w sol info fields) (.cov i j) =
    some (.num (sol.estimates.map fun e => some (some (e.covar i j)))) := by
  have hfind : upperPairs.find? (fun q => decide (q.1 = i ∧ q.2 = j)) = some (i, j) := by
    have hm : (i, j) ∈ upperPairs := by simp [upperPairs, h]
    have := find_self upperPairs (i, j) hm
    simpa only [Prod.mk.injEq, Prod.ext_iff] using this
  have hg : column (gainSeg sol : File OCol (Option (Meta D)) S Num) (.cov i j) = none := gainSeg_none sol _ (by simp) (by simp)
  simp only [odFile, column_append, column_map, column, reduceCtorEq, if_false, if_true, decide_false, find_none, Option.map_none, Option.or_none,
    Option.none_or, hg, OCol.cov.injEq, hfind, Option.map_some, Option.some_or]

theorem od_prefit (t : MsrType) (ht : t ∈ sol.types) : column (odFile w sol info fields) (.prefit t) =
    some (.num (sol.residuals.map fun r => r.bind fun r => at_ r.types r.prefit t)) := by
  have hg : column (gainSeg sol : File OCol (Option (Meta D)) S Num) (.prefit t) = none := gainSeg_none sol _ (by simp) (by simp)
  simp only [odFile, column_append, column_map, column, reduceCtorEq, if_false, if_true, decide_false, find_none, Option.map_none, Option.or_none,
    Option.none_or, hg, OCol.prefit.injEq, find_self _ _ ht, Option.map_some, Option.some_or]

theorem od_postfit (t : MsrType) (ht : t ∈ sol.types) : column (odFile w sol info fields) (.postfit t) =
    some (.num (sol.residuals.map fun r => r.bind fun r => at_ r.types r.postfit t)) := by
  have hg : column (gainSeg sol : File OCol (Option (Meta D)) S Num) (.postfit t) = none := gainSeg_none sol _ (by simp) (by simp)
  simp only [odFile, column_append, column_map, column, reduceCtorEq, if_false, if_true, decide_false, find_none, Option.map_none, Option.or_none,
    Option.none_or, hg, OCol.postfit.injEq, find_self _ _ ht, Option.map_some, Option.some_or]

theorem od_noise (t : MsrType) (ht : t ∈ sol.types) : column (odFile w sol info fields) (.noise t) =
    some (.num (sol.residuals.map fun r => r.bind fun r => at_ r.types r.noise t)) := by
  have hg : column (gainSeg sol : File OCol (Option (Meta D)) S Num) (.noise t) = none := gainSeg_none sol _ (by simp) (by simp)
  simp only [odFile, column_append, column_map, column, reduceCtorEq, if_false, if_true, decide_false, find_none, Option.map_none, Option.or_none,
    Option.none_or, hg, OCol.noise.injEq, find_self _ _ ht, Option.map_some, Option.some_or]

theorem od_real (t : MsrType) (ht : t ∈ sol.types) : column (odFile w sol info fields) (.real t) =
    some (.num (sol.residuals.map fun r => r.bind fun r => at_ r.types r.real t)) := by
  have hg : column (gainSeg sol : File OCol (Option (Meta D)) S Num) (.real t) = none := gainSeg_none sol _ (by simp) (by simp)
  simp only [odFile, column_append, column_map, column, reduceCtorEq, if_false, if_true, decide_false, find_none, Option.map_none, Option.or_none,
    Option.none_or, hg, OCol.real.injEq, find_self _ _ ht, Option.map_some, Option.some_or]

theorem od_computed (t : MsrType) (ht : t ∈ sol.types) : column (odFile w sol info fields) (.computed t) =
    some (.num (sol.residuals.map fun r => r.bind fun r => at_ r.types r.computed t)) := by
  have hg : column (gainSeg sol : File OCol (Option (Meta D)) S Num) (.computed t) = none := gainSeg_none sol _ (by simp) (by simp)
  simp only [odFile, column_append, column_map, column, reduceCtorEq, if_false, if_true, decide_false, find_none, Option.map_none, Option.or_none,
    Option.none_or, hg, OCol.computed.injEq, find_self _ _ ht, Option.map_some, Option.some_or]

theorem od_whitenedT (t : MsrType) : column (odFile w sol info fields) (.whitenedT t) = none := by
  have hg : column (gainSeg sol : File OCol (Option (Meta D)) S Num) (.whitenedT t) = none := gainSeg_none sol _ (by simp) (by simp)
  simp only [odFile, column_append, column_map, column, reduceCtorEq, if_false, if_true, decide_false, find_none, Option.map_none, Option.or_none,
    Option.none_or, hg,  Option.map_some, Option.some_or]

theorem od_ratio : column (odFile w sol info fields) .ratio = some (.num (sol.residuals.map fun r => r.map fun r => r.ratio)) := by
  have hg : column (gainSeg sol : File OCol (Option (Meta D)) S Num) (.ratio) = none := gainSeg_none sol _ (by simp) (by simp)
  simp only [odFile, column_append, column_map, column, reduceCtorEq, if_false, if_true, decide_false, find_none, Option.map_none, Option.or_none,
    Option.none_or, hg,  Option.map_some, Option.some_or]

theorem od_rejected : column (odFile w sol info fields) .rejected = some (.flag (sol.residuals.map fun r => r.map fun r => r.rejected)) := by
  have hg : column (gainSeg sol : File OCol (Option (Meta D)) S Num) (.rejected) = none := gainSeg_none sol _ (by simp) (by simp)
  simp only [odFile, column_append, column_map, column, reduceCtorEq, if_false, if_true, decide_false, find_none, Option.map_none, Option.or_none,
    Option.none_or, hg,  Option.map_some, Option.some_or]

theorem od_tracker : column (odFile w sol info fields) .tracker = some (.str (sol.residuals.map fun r => r.map fun r => r.tracker.getD w.undefined)) := by
  have hg : column (gainSeg sol : File OCol (Option (Meta D)) S Num) (.tracker) = none := gainSeg_none sol _ (by simp) (by simp)
  simp only [odFile, column_append, column_map, column, reduceCtorEq, if_false, if_true, decide_false, find_none, Option.map_none, Option.or_none,
    Option.none_or, hg,  Option.map_some, Option.some_or]

theorem od_fsr (i : Fin 9) : column (odFile w sol info fields) (.fsr i) =
    some (.num (sol.ratios.map fun q => q.map fun v => some (v i))) := by
  have hg : column (gainSeg sol : File OCol (Option (Meta D)) S Num) (.fsr i) = none := gainSeg_none sol _ (by simp) (by simp)
  simp only [odFile, column_append, column_map, column, reduceCtorEq, if_false, if_true, decide_false, find_none, Option.map_none, Option.or_none,
    Option.none_or, hg, OCol.fsr.injEq, find_self _ _ (List.mem_finRange i), Option.map_some, Option.some_or]

theorem od_gainT_none (hm : sol.types.length ≠ m) (i : Fin 9) (t : MsrType) :
    column (odFile w sol info fields) (.gainT i t) = none := by
  simp only [odFile, gainSeg, if_neg hm, column_append, column_map, column, reduceCtorEq, if_false, decide_false, find_none,
    Option.map_none, Option.or_none]

theorem od_gainT (hm : sol.types.length = m) (hn : sol.types.Nodup) (i : Fin 9) (t : MsrType) (j : Fin m)
    (ht : sol.types[j.val]? = some t) : column (odFile w sol info fields) (.gainT i t) =
      some (.num (sol.gains.map fun g => g.map fun k => some (k i j))) := by
  have hmem : (i, t, j) ∈ (List.finRange 9).flatMap fun i => (sol.types.zip (List.finRange m)).map fun q => (i, q.1, q.2) := by
    simp only [List.mem_flatMap, List.mem_finRange, List.mem_map, true_and, Prod.mk.injEq]
    refine ⟨i, (t, j), ?_, rfl, rfl, rfl⟩
    rw [List.mem_iff_getElem?]
    refine ⟨j, ?_⟩
    rw [List.getElem?_zip_eq_some]
    exact ⟨ht, by simp⟩
  have hfind : ((List.finRange 9).flatMap fun i => (sol.types.zip (List.finRange m)).map fun q => (i, q.1, q.2)).find?
      (fun x => decide (x.1 = i ∧ x.2.1 = t)) = some (i, t, j) := by
    cases hf : ((List.finRange 9).flatMap fun i => (sol.types.zip (List.finRange m)).map fun q => (i, q.1, q.2)).find?
      (fun x => decide (x.1 = i ∧ x.2.1 = t)) with
    | none =>
      rw [List.find?_eq_none] at hf
      exact absurd (hf _ hmem) (by simp)
    | some x =>
      have h1 := List.find?_some hf
      have h2 := List.mem_of_find?_eq_some hf
      simp only [decide_eq_true_eq] at h1
      obtain ⟨a, b, c⟩ := x
      simp only at h1
      obtain ⟨rfl, rfl⟩ := h1
      simp only [List.mem_flatMap, List.mem_finRange, List.mem_map, true_and, Prod.mk.injEq] at h2
      obtain ⟨i', ⟨t', j'⟩, h3, rfl, rfl, rfl⟩ := h2
      rw [List.mem_iff_getElem?] at h3
      obtain ⟨k, h3⟩ := h3
      rw [List.getElem?_zip_eq_some] at h3
      obtain ⟨h4, h5⟩ := h3
      have hk : k = j.val := by
        have hk1 := (List.getElem?_eq_some_iff.mp h4).1
        have hk2 := (List.getElem?_eq_some_iff.mp ht).1
        exact (List.getElem?_inj hk1 hn).mp (h4.trans ht.symm)
      subst hk
      have h6 : (List.finRange m)[j.val]? = some j := by simp
      rw [h6, Option.some.injEq] at h5
      rw [h5]
  simp only [odFile, gainSeg, if_pos hm, column_append, column_map, column, reduceCtorEq, if_false, decide_false, find_none,
    Option.map_none, Option.or_none, Option.none_or, OCol.gainT.injEq, hfind, Option.map_some, Option.some_or]

end Columns

/-! ### Reading it -/

/-- The type found in a field. -/
def typeIn (f : Fld OCol (Option (Meta D))) : Option MsrType :=
  match f.name with
  | .prefit t => if fromStr t then some t else none
  | _ => none

theorem typesFound_eq (l : List (Fld OCol (Option (Meta D)))) : typesFound l = l.filterMap typeIn := by
  induction l with
  | nil => rfl
  | cons f l ih =>
    obtain ⟨name, k, n, i⟩ := f
    cases name <;> simp only [typesFound, List.filterMap_cons, typeIn, ih]
    split <;> rfl

theorem od_types (w : OWriter S Fr D) (sol : OdSol S Fr m) (info : Meta D) (fields : List XPar) :
    typesFound ((odFile w sol info fields).map (·.1)) = sol.types.filter fromStr := by
  have hg : ((gainSeg sol : File OCol (Option (Meta D)) S Num).map (·.1)).filterMap typeIn = [] := by
    unfold gainSeg
    split <;> simp [List.filterMap_map, Function.comp_def, typeIn]
  rw [typesFound_eq]
  simp only [odFile, List.map_append, List.filterMap_append, List.map_map, List.filterMap_map, hg]
  have hfm : ∀ l : List MsrType, l.filterMap (fun t => if fromStr t = true then some t else none) = l.filter fromStr := by
    intro l
    induction l with
    | nil => rfl
    | cons t l ih =>
      rw [List.filterMap_cons, List.filter_cons]
      by_cases h : fromStr t = true
      · simp only [if_pos h, ih]
      · simp only [if_neg h, ih]
  simpa [Function.comp_def, typeIn] using hfm sol.types

open Classical in
theorem scanMeta_same (de : D → Option Fr) (i0 : Meta D) (fr : Fr) (hd : de i0.frame = some fr)
    (fs : List (Fld OCol (Option (Meta D)))) (hall : ∀ f ∈ fs, f.info = none ∨ f.info = some i0) (acc : Option (Fr × ℝ × ℝ)) :
    scanMeta de fs acc = .ok (if (∃ f ∈ fs, f.info = some i0 ∧ f.name ≠ .epoch) then some (fr, i0.srpArea, i0.dragArea) else acc) := by
  induction fs generalizing acc with
  | nil => simp [scanMeta]
  | cons f fs ih =>
    have ih' := ih fun g hg => hall g (List.mem_cons_of_mem _ hg)
    obtain ⟨name, kind, nullable, info⟩ := f
    have hi := hall _ List.mem_cons_self
    simp only at hi
    by_cases hname : name = .epoch
    · subst hname
      simp only [scanMeta, ih', List.mem_cons, exists_eq_or_imp, ne_eq, not_true_eq_false, and_false, false_or]
    · rcases hi with rfl | rfl
      · have : scanMeta de (⟨name, kind, nullable, none⟩ :: fs) acc = scanMeta de fs acc := by
          cases name <;> simp [scanMeta]
        simp only [this, ih', List.mem_cons, exists_eq_or_imp, reduceCtorEq, false_and, false_or]
      · have : scanMeta de (⟨name, kind, nullable, some i0⟩ :: fs) acc = scanMeta de fs (some (fr, i0.srpArea, i0.dragArea)) := by
          cases name <;> simp [scanMeta, hd, Mc.orErr, Mc.Out.bind] at hname ⊢
        rw [this, ih', ite_self, if_pos ⟨_, List.mem_cons_self, rfl, hname⟩]

/-- The six vectors of a residual. -/
inductive Vec where
  | prefit | whitened | postfit | noise | real | computed

/-- A vector of a residual. -/
def ORes.vec (r : ORes S m) : Vec → Fin m → Num
  | .prefit => r.prefit
  | .whitened => r.whitened
  | .postfit => r.postfit
  | .noise => r.noise
  | .real => r.real
  | .computed => r.computed

/-- The column which the reader looks for. -/
def Vec.key : Vec → MsrType → OCol
  | .prefit => .prefit
  | .whitened => .whitenedT
  | .postfit => .postfit
  | .noise => .noise
  | .real => .real
  | .computed => .computed

theorem fill_spec (f : File OCol (Option (Meta D)) S Num) (i : Nat) (inRow : MsrType → Bool) (ts : List MsrType)
    (hin : ∀ t ∈ ts, (((optCell f (.prefit t) i).isSome || (optCell f (.whitenedT t) i).isSome || (optCell f (.postfit t) i).isSome ||
      (optCell f (.noise t) i).isSome || (optCell f (.real t) i).isSome || (optCell f (.computed t) i).isSome)) = inRow t)
    (k : Nat) (r : ORes S m) (hk : (ts.filter inRow).length + k ≤ m) :
    (fillTypes f i ts k r).types = r.types ++ ts.filter inRow ∧
    (fillTypes f i ts k r).epoch = r.epoch ∧ (fillTypes f i ts k r).ratio = r.ratio ∧
    (fillTypes f i ts k r).rejected = r.rejected ∧ (fillTypes f i ts k r).tracker = r.tracker ∧
    (∀ (j : Fin m) κ, j.val < k → (fillTypes f i ts k r).vec κ j = r.vec κ j) ∧
    ∀ (n : Nat) t, (ts.filter inRow)[n]? = some t → ∀ (j : Fin m) κ, j.val = k + n →
      (fillTypes f i ts k r).vec κ j = (optCell f (κ.key t) i).getD none := by
  induction ts generalizing k r with
  | nil => simp [fillTypes]
  | cons t ts ih =>
    have hin' := fun t' ht' => hin t' (List.mem_cons_of_mem _ ht')
    have ht := hin t List.mem_cons_self
    by_cases hkm : k < m
    · by_cases hrow : inRow t = true
      · rw [hrow] at ht
        have hlen : (ts.filter inRow).length + (k + 1) ≤ m := by
          simp only [List.filter_cons, hrow, if_true, List.length_cons] at hk
          omega
        unfold fillTypes
        rw [dif_pos hkm]
        simp only [ht, if_true]
        obtain ⟨g1, g2, g3, g4, g5, g6, g7⟩ := ih hin' (k + 1)
          { r with
            prefit := Function.update r.prefit ⟨k, hkm⟩ ((optCell f (.prefit t) i).getD none)
            whitened := Function.update r.whitened ⟨k, hkm⟩ ((optCell f (.whitenedT t) i).getD none)
            postfit := Function.update r.postfit ⟨k, hkm⟩ ((optCell f (.postfit t) i).getD none)
            noise := Function.update r.noise ⟨k, hkm⟩ ((optCell f (.noise t) i).getD none)
            real := Function.update r.real ⟨k, hkm⟩ ((optCell f (.real t) i).getD none)
            computed := Function.update r.computed ⟨k, hkm⟩ ((optCell f (.computed t) i).getD none)
            types := r.types ++ [t] } hlen
        refine ⟨?_, g2, g3, g4, g5, ?_, ?_⟩
        · rw [g1, List.filter_cons, if_pos hrow, List.append_assoc]
          rfl
        · intro j κ hj
          rw [g6 j κ (by omega)]
          have hne : j ≠ ⟨k, hkm⟩ := by rintro rfl; simp at hj
          cases κ <;> simp [ORes.vec, Function.update_of_ne hne]
        · intro n t' hn j κ hj
          rw [List.filter_cons, if_pos hrow] at hn
          cases n with
          | zero =>
            simp only [List.getElem?_cons_zero, Option.some.injEq] at hn
            subst hn
            rw [g6 j κ (by omega)]
            have hje : j = ⟨k, hkm⟩ := Fin.ext (by simpa using hj)
            subst hje
            cases κ <;> simp [ORes.vec, Vec.key]
          | succ n =>
            simp only [List.getElem?_cons_succ] at hn
            exact g7 n t' hn j κ (by omega)
      · have hrow' : inRow t = false := by simpa using hrow
        rw [hrow'] at ht
        have hlen : (ts.filter inRow).length + k ≤ m := by
          simpa only [List.filter_cons, hrow', Bool.false_eq_true, if_false] using hk
        unfold fillTypes
        rw [dif_pos hkm]
        simp only [ht, Bool.false_eq_true, if_false]
        rw [List.filter_cons, if_neg hrow]
        exact ih hin' k r hlen
    · unfold fillTypes
      rw [dif_neg hkm]
      have hnil : (t :: ts).filter inRow = [] := by
        rw [← List.length_eq_zero_iff]
        omega
      rw [hnil]
      simp

end Verif.Pq
