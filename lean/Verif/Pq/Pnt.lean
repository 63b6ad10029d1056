import Verif.Pq.OdTheorems
import Verif.Ground.Model
/-!
Solutions for ground assets in parquet files: nyx-core/src/od/groundpnt/solution.rs.
-/
namespace Verif.Pq
open Verif.Mc (Out)
open Verif.Device (MsrType)
open Verif.Ground (Asset)

/-- `KfEstimate<GroundAsset>`, without what is not exported. -/
structure GEst (Fr : Type) where
  nominal : Asset ℝ Fr
  deviation : Fin 6 → ℝ
  covar : Matrix (Fin 6) (Fin 6) ℝ

variable {S Fr D : Type}

/-- `state()`. od/estimate/mod.rs:54-56. -/
noncomputable def GEst.state (e : GEst Fr) : Asset ℝ Fr := e.nominal.add e.deviation

/-- `ODSolution<GroundAsset, …, U2, …>`. -/
structure PntSol (S Fr : Type) where
  estimates : List (GEst Fr)
  residuals : List (Option (ORes S 2))
  gains : List (Option (Matrix (Fin 6) (Fin 2) ℝ))
  ratios : List (Option (Fin 6 → ℝ))
  types : List MsrType

/-- The names of the columns. od/groundpnt/solution.rs:118-265. -/
inductive PCol where
  | epoch | par (p : Ground.Param) | sigmaOf (p : Ground.Param) | cov (i j : Fin 3)
  | prefit (t : MsrType) | postfit (t : MsrType) | noise (t : MsrType) | real (t : MsrType) | computed (t : MsrType)
  | ratio | rejected | tracker | gain (i : Fin 3) (t : MsrType) | fsr (i : Fin 3)
deriving DecidableEq

/-- The pairs of the upper triangle for latitude, longitude and height. od/groundpnt/solution.rs:170-182. -/
def pairs3 : List (Fin 3 × Fin 3) := [(0, 0), (0, 1), (0, 2), (1, 1), (1, 2), (2, 2)]

/-- The fields: those of the three parameters which the first estimate has. All of them are orbital elements. od/groundpnt/solution.rs:133-147. -/
noncomputable def pntFields (e0 : GEst Fr) : List Ground.Param := Ground.exportParams.filter fun p => (e0.state.value p).isSome

/-- The headers. od/groundpnt/solution.rs:118-265. -/
noncomputable def pntHeaders (info : D) (sol : PntSol S Fr) (fields : List Ground.Param) : List (Fld PCol (Option D)) :=
  [⟨.epoch, .utf8, false, none⟩]
  ++ fields.map (fun p => ⟨.par p, .float64, false, some info⟩)
  ++ fields.map (fun p => ⟨.sigmaOf p, .float64, false, some info⟩)
  ++ pairs3.map (fun q => ⟨.cov q.1 q.2, .float64, false, none⟩)
  ++ sol.types.map (fun t => ⟨.prefit t, .float64, true, none⟩)
  ++ sol.types.map (fun t => ⟨.postfit t, .float64, true, none⟩)
  ++ sol.types.map (fun t => ⟨.noise t, .float64, true, none⟩)
  ++ sol.types.map (fun t => ⟨.real t, .float64, true, none⟩)
  ++ sol.types.map (fun t => ⟨.computed t, .float64, true, none⟩)
  ++ [⟨.ratio, .float64, true, none⟩, ⟨.rejected, .boolean, true, none⟩, ⟨.tracker, .utf8, true, none⟩]
  ++ ((List.finRange 3).flatMap fun i => sol.types.map fun t => ⟨.gain i t, .float64, true, none⟩)
  ++ (List.finRange 3).map (fun i => ⟨.fsr i, .float64, true, none⟩)

/-- The records. The gains have two columns for each component, whatever the types; the gains and the ratios are
those of the whole solution. od/groundpnt/solution.rs:301-477. -/
noncomputable def pntRecords (fmt : Int → S) (undefined : S) (sol : PntSol S Fr) (fields : List Ground.Param) (es : List (GEst Fr))
    (rs : List (Option (ORes S 2))) : List (Cells S Num) :=
  [.str (es.map fun e => some (fmt e.state.epoch))]
  ++ fields.map (fun p => .num (es.map fun e => some (e.state.value p)))
  ++ (List.finRange 3).map (fun i => .num (es.map fun e => some (sqrtN (e.covar (i.castLE (by omega)) (i.castLE (by omega))))))
  ++ pairs3.map (fun q => .num (es.map fun e => some (some (e.covar (q.1.castLE (by omega)) (q.2.castLE (by omega))))))
  ++ sol.types.map (fun t => .num (rs.map fun r => r.bind fun r => at_ r.types r.prefit t))
  ++ sol.types.map (fun t => .num (rs.map fun r => r.bind fun r => at_ r.types r.postfit t))
  ++ sol.types.map (fun t => .num (rs.map fun r => r.bind fun r => at_ r.types r.noise t))
  ++ sol.types.map (fun t => .num (rs.map fun r => r.bind fun r => at_ r.types r.real t))
  ++ sol.types.map (fun t => .num (rs.map fun r => r.bind fun r => at_ r.types r.computed t))
  ++ [.num (rs.map fun r => r.map fun r => r.ratio), .flag (rs.map fun r => r.map fun r => r.rejected),
      .str (rs.map fun r => r.map fun r => r.tracker.getD undefined)]
  ++ (List.finRange 3).flatMap (fun i => (List.finRange 2).map fun j =>
      .num (sol.gains.map fun g => g.map fun k => some (k (i.castLE (by omega)) j)))
  ++ (List.finRange 3).map (fun i => .num (sol.ratios.map fun q => q.map fun v => some (v (i.castLE (by omega)))))

/-- The estimates with their residuals which are retained. od/groundpnt/solution.rs:271-297. -/
noncomputable def pntRetained (sol : PntSol S Fr) (first last : GEst Fr) (start stop step : Option Int) :
    List (GEst Fr) × List (Option (ORes S 2)) :=
  if start.isSome || stop.isSome || step.isSome then
    ((sol.estimates.zip sol.residuals).filter fun p =>
      decide (start.getD first.state.epoch ≤ p.1.state.epoch) && decide (p.1.state.epoch ≤ stop.getD last.state.epoch)).unzip
  else (sol.estimates, sol.residuals)

/-- `to_parquet` of the solution for a ground asset. od/groundpnt/solution.rs:59-525. -/
noncomputable def pntToFile (fmt : Int → S) (undefined : S) (ser : Fr → D) (sol : PntSol S Fr) (start stop step : Option Int) :
    Out (File PCol (Option D) S Num) :=
  match sol.estimates.head?, sol.estimates.getLast? with
  | some e0, some eN =>
    if sol.estimates.length ≠ sol.residuals.length then .err
    else if sol.estimates.length ≠ sol.gains.length then .err
    else if sol.estimates.length ≠ sol.ratios.length then .err
    else
      let fields := pntFields e0
      let r := pntRetained sol e0 eN start stop step
      if r.1.any (fun e => fields.any fun p => (e.state.value p).isNone) then .err
      else if r.2.any (fun o => o.any fun r => r.misTyped sol.types) then .panic
      else Mc.orErr (tryNew (pntHeaders (ser e0.state.frame) sol fields) (pntRecords fmt undefined sol fields r.1 r.2))
  | _, _ => .err

/-! ### Theorems -/

theorem pntFields_eq (e0 : GEst Fr) : pntFields e0 = [.latitude, .longitude, .height] := rfl

/-- The number of columns differs unless there are two types. -/
theorem pnt_columns (fmt : Int → S) (undefined : S) (info : D) (sol : PntSol S Fr) (e0 : GEst Fr) (es : List (GEst Fr))
    (rs : List (Option (ORes S 2))) :
    (pntHeaders info sol (pntFields e0)).length = (pntRecords fmt undefined sol (pntFields e0) es rs).length ↔ sol.types.length = 2 := by
  rw [pntFields_eq]
  have h1 : ((List.finRange 3).flatMap fun i => sol.types.map fun t => (⟨.gain i t, .float64, true, none⟩ : Fld PCol (Option D))).length =
      3 * sol.types.length := by
    simp [List.finRange_succ]
    omega
  have h2 : ((List.finRange 3).flatMap fun i : Fin 3 => (List.finRange 2).map fun j =>
      (.num (sol.gains.map fun g => g.map fun k => some (k (i.castLE (by omega)) j)) : Cells S Num)).length = 6 := by
    simp [List.finRange_succ]
  simp only [pntHeaders, pntRecords, List.length_append, h1, h2, List.length_map, List.length_cons, List.length_nil, List.length_finRange]
  omega

/-- **C196 refuted.** A solution whose measurements are not of exactly two types (say of range only) is never exported. -/
theorem pnt_two_types (fmt : Int → S) (undefined : S) (ser : Fr → D) (sol : PntSol S Fr) (start stop step : Option Int)
    (h : sol.types.length ≠ 2) (f : File PCol (Option D) S Num) : pntToFile fmt undefined ser sol start stop step ≠ .ok f := by
  unfold pntToFile
  split
  · rename_i e0 eN h0 hN
    split
    · simp
    split
    · simp
    split
    · simp
    simp only
    split
    · simp
    split
    · simp
    unfold tryNew
    rw [if_neg fun hc => h ((pnt_columns fmt undefined (ser e0.state.frame) sol e0 _ _).mp hc.1)]
    simp [Mc.orErr]
  · simp

/-- **C196 refuted.** Bounds which leave out an estimate make the export fail. -/
theorem pnt_window_fails (fmt : Int → S) (undefined : S) (ser : Fr → D) (sol : PntSol S Fr) (start stop step : Option Int)
    (e : GEst Fr) (he : e ∈ sol.estimates)
    (hout : (∃ t, start = some t ∧ e.state.epoch < t) ∨ ∃ t, stop = some t ∧ t < e.state.epoch)
    (f : File PCol (Option D) S Num) : pntToFile fmt undefined ser sol start stop step ≠ .ok f := by
  unfold pntToFile
  split
  · rename_i e0 eN h0 hN
    split
    · simp
    rename_i hr
    split
    · simp
    split
    · simp
    rename_i hq
    simp only
    split
    · simp
    split
    · simp
    rw [not_not] at hr hq
    have hlen : (pntRetained sol e0 eN start stop step).1.length < sol.estimates.length := by
      have hc : (start.isSome || stop.isSome || step.isSome) = true := by
        rcases hout with ⟨t, rfl, _⟩ | ⟨t, rfl, _⟩ <;> simp
      unfold pntRetained
      rw [if_pos hc, List.unzip_fst, List.length_map]
      refine zip_filter_length_lt sol.estimates sol.residuals hr
        (fun e => decide (start.getD e0.state.epoch ≤ e.state.epoch) && decide (e.state.epoch ≤ stop.getD eN.state.epoch)) e he ?_
      rcases hout with ⟨t, rfl, ht⟩ | ⟨t, rfl, ht⟩
      · simp [ht]
      · simp [ht]
    rw [tryNew_ragged _ _ (.str ((pntRetained sol e0 eN start stop step).1.map fun e => some (fmt e.state.epoch)))
      (.num (sol.ratios.map fun q => q.map fun v => some (v 0)))]
    · simp [Mc.orErr]
    · simp [pntRecords]
    · simp only [pntRecords, List.mem_append, List.mem_map]
      exact .inr ⟨0, by simp, rfl⟩
    · simp only [Cells.length, List.length_map]
      omega
  · simp

/-- **C196 (partial).** A solution with two types is exported: each column has the value of its name for each estimate. -/
theorem pnt_export_partial (fmt : Int → S) (undefined : S) (ser : Fr → D) (sol : PntSol S Fr) (t u : MsrType) (htu : t ≠ u)
    (ht : sol.types = [t, u]) (hne : sol.estimates ≠ []) (h1 : sol.estimates.length = sol.residuals.length)
    (h2 : sol.estimates.length = sol.gains.length) (h3 : sol.estimates.length = sol.ratios.length)
    (hr : ∀ r, some r ∈ sol.residuals → r.types.length ≤ 2) :
    ∃ f, pntToFile fmt undefined ser sol none none none = .ok f ∧
      column f .epoch = some (.str (sol.estimates.map fun e => some (fmt e.state.epoch))) ∧
      column f (.par .latitude) = some (.num (sol.estimates.map fun e => some (some e.state.lat))) ∧
      column f (.par .longitude) = some (.num (sol.estimates.map fun e => some (some e.state.lon))) ∧
      column f (.par .height) = some (.num (sol.estimates.map fun e => some (some e.state.height))) ∧
      column f (.sigmaOf .latitude) = some (.num (sol.estimates.map fun e => some (sqrtN (e.covar 0 0)))) ∧
      column f (.sigmaOf .longitude) = some (.num (sol.estimates.map fun e => some (sqrtN (e.covar 1 1)))) ∧
      column f (.sigmaOf .height) = some (.num (sol.estimates.map fun e => some (sqrtN (e.covar 2 2)))) ∧
      (∀ i j : Fin 3, i ≤ j → column f (.cov i j) =
        some (.num (sol.estimates.map fun e => some (some (e.covar (i.castLE (by omega)) (j.castLE (by omega))))))) ∧
      (∀ i : Fin 3, column f (.gain i t) = some (.num (sol.gains.map fun g => g.map fun k => some (k (i.castLE (by omega)) 0))) ∧
        column f (.gain i u) = some (.num (sol.gains.map fun g => g.map fun k => some (k (i.castLE (by omega)) 1)))) ∧
      (∀ i : Fin 3, column f (.fsr i) = some (.num (sol.ratios.map fun q => q.map fun v => some (v (i.castLE (by omega)))))) ∧
      column f .rejected = some (.flag (sol.residuals.map fun r => r.map fun r => r.rejected)) ∧
      ∀ v ∈ sol.types, column f (.prefit v) = some (.num (sol.residuals.map fun r => r.bind fun r => at_ r.types r.prefit v)) ∧
        column f (.postfit v) = some (.num (sol.residuals.map fun r => r.bind fun r => at_ r.types r.postfit v)) := by
  obtain ⟨e0, es, hes⟩ := List.exists_cons_of_ne_nil hne
  have hl : sol.estimates.getLast? = some (sol.estimates.getLast hne) := List.getLast?_eq_some_getLast hne
  have hz : tryNew (pntHeaders (ser e0.state.frame) sol (pntFields e0)) (pntRecords fmt undefined sol (pntFields e0) sol.estimates sol.residuals) =
      some ((pntHeaders (ser e0.state.frame) sol (pntFields e0)).zip (pntRecords fmt undefined sol (pntFields e0) sol.estimates sol.residuals)) := by
    refine tryNew_ok _ _ sol.estimates.length ((pnt_columns _ _ _ _ _ _ _).mpr (by rw [ht]; rfl)) (by simp [pntRecords]) ?_
    simp only [pntHeaders, pntRecords, pntFields_eq, ht, pairs3, List.finRange_succ, List.finRange_zero, List.flatMap_cons, List.flatMap_nil, List.map_cons, List.map_nil,
      List.cons_append, List.nil_append, List.zip_cons_cons, List.zip_nil_left, List.forall_mem_cons]
    simp [fits, Cells.kind, Cells.length, Cells.hasNull, h1, h2, h3]
    omega
  refine ⟨(pntHeaders (ser e0.state.frame) sol (pntFields e0)).zip (pntRecords fmt undefined sol (pntFields e0) sol.estimates sol.residuals), ?_, ?_⟩
  · have hh : sol.estimates.head? = some e0 := by rw [hes]; rfl
    unfold pntToFile
    rw [hl, hh]
    simp only
    rw [if_neg (not_not.mpr h1), if_neg (not_not.mpr h2), if_neg (not_not.mpr h3)]
    simp only [pntRetained, Option.isSome_none, Bool.or_self, Bool.false_eq_true, if_false]
    rw [if_neg, if_neg, hz]
    · rfl
    · simp only [List.any_eq_true, Option.any_eq_true, not_exists, not_and]
      rintro o ho r rfl
      simp only [ORes.misTyped, List.any_eq_true, Bool.and_eq_true, decide_eq_true_eq, not_exists, not_and, not_le]
      intro v _ hv
      exact (List.idxOf_lt_length_of_mem hv).trans_le (hr r ho)
    · simp [pntFields_eq, Asset.value]
  · simp only [pntHeaders, pntRecords, pntFields_eq, ht, pairs3, List.finRange_succ, List.finRange_zero, List.flatMap_cons, List.flatMap_nil, List.map_cons, List.map_nil,
      List.cons_append, List.nil_append, List.zip_cons_cons, List.zip_nil_left]
    refine ⟨?_, ?_, ?_, ?_, ?_, ?_, ?_, ?_, ?_, ?_, ?_, ?_⟩
    all_goals simp [column, Asset.value]
    · intro i j hij
      fin_cases i <;> fin_cases j <;> simp [column] at hij ⊢
    · intro i
      fin_cases i <;> simp [column, htu, htu.symm]
    · intro i
      fin_cases i <;> simp [column]
    · simp [htu, htu.symm]

/-! ### Examples -/

/-- An asset at 10, 20 degrees. -/
noncomputable def gest0 : GEst Unit := ⟨⟨10, 20, 1, 0, 0, 0, 5, (), none⟩, fun _ => 1 / 100, 1⟩

/-- A residual of two types. -/
noncomputable def res2 : ORes Int 2 := ⟨5, fun _ => some 1, fun _ => some 2, fun _ => some 3, fun _ => some 4, fun _ => some 5,
  fun _ => some 6, some 1, false, some 7, [.range, .doppler]⟩

/-- A solution of that estimate. -/
noncomputable def pnt0 (types : List MsrType) : PntSol Int Unit := ⟨[gest0], [some res2], [some 0], [none], types⟩

noncomputable example := pnt_two_types (fun t => t) (0 : Int) (fun (_ : Unit) => ()) (pnt0 [.range]) none none none (by simp [pnt0])

noncomputable example := pnt_window_fails (fun t => t) (0 : Int) (fun (_ : Unit) => ()) (pnt0 [.range, .doppler]) (some 6) none none
  gest0 (by simp [pnt0]) (.inl ⟨6, rfl, by simp [gest0, GEst.state, Asset.add]⟩)

noncomputable example := pnt_export_partial (fun t => t) (0 : Int) (fun (_ : Unit) => ()) (pnt0 [.range, .doppler]) .range .doppler
  (by decide) rfl (by simp [pnt0]) rfl rfl rfl (by simp [pnt0, res2])

end Verif.Pq
