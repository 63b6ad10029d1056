import Verif.Pq.OdTheorems
/-!
What is read from the file of an orbit determination solution.
-/
namespace Verif.Pq
open Verif.Mc (Out)
open Verif.Spacecraft (Craft Param Mode V3)
open Verif.Device (MsrType)

variable {S Fr D : Type} {m : Nat}

/-! ### The cells of the file -/

theorem cellAt_map {A B : Type} (l : List A) (f : A → Option B) (i : Nat) (a : A) (h : l[i]? = some a) :
    cellAt (l.map f) i = f a := by
  simp [cellAt, List.getElem?_map, h]

theorem valueAt_some_map {A B : Type} (junk : Nat → B) (l : List A) (f : A → B) (i : Nat) (a : A) (h : l[i]? = some a) :
    valueAt junk (l.map fun a => some (f a)) i = f a := by
  simp [valueAt, List.getElem?_map, h]

/-- The parameters which are needed are written. -/
theorem needed_written (w : OWriter S Fr D) (e0 : Est Fr) (p : Param) (hp : p ∈ odNeeded) :
    .core p ∈ odFields w e0 exportParams := by
  simp only [odFields, List.mem_filter, Bool.and_eq_true, Bool.not_eq_true', decide_eq_false_iff_not]
  simp only [odNeeded, List.mem_cons, List.not_mem_nil, or_false] at hp
  rcases hp with rfl | rfl | rfl | rfl | rfl | rfl | rfl | rfl | rfl | rfl <;>
    exact ⟨by decide, rfl, by decide⟩

theorem od_scan (w : OWriter S Fr D) (sol : OdSol S Fr m) (info : Meta D) (fields : List XPar) (de : D → Option Fr) (fr : Fr)
    (hd : de info.frame = some fr) (p : XPar) (hp : p ∈ fields) :
    scanMeta de ((odFile w sol info fields).map (·.1)) none = .ok (some (fr, info.srpArea, info.dragArea)) := by
  rw [scanMeta_same de info fr hd, if_pos]
  · refine ⟨⟨.par p, .float64, false, some info⟩, ?_, rfl, by simp⟩
    simp only [odFile, List.map_append, List.map_map, List.mem_append, List.mem_map]
    simp only [Function.comp_apply]
    iterate 13 left
    right
    exact ⟨p, hp, rfl⟩
  · have hg : ∀ p ∈ (gainSeg sol : File OCol (Option (Meta D)) S Num), p.1.info = none ∨ p.1.info = some info := by
      unfold gainSeg
      split <;> simp only [List.forall_mem_map, true_or, implies_true]
    rw [List.forall_mem_map]
    simp only [odFile, List.forall_mem_append, List.forall_mem_map, List.forall_mem_cons, List.forall_mem_nil]
    refine ⟨⟨⟨⟨⟨⟨⟨⟨⟨⟨⟨⟨⟨⟨?_, ?_⟩, ?_⟩, ?_⟩, ?_⟩, ?_⟩, ?_⟩, ?_⟩, ?_⟩, ?_⟩, ?_⟩, ?_⟩, ?_⟩, hg⟩, ?_⟩ <;> simp

theorem od_rows (w : OWriter S Fr D) (sol : OdSol S Fr m) (info : Meta D) (fields : List XPar) :
    numRows (odFile w sol info fields) = sol.estimates.length := by
  simp [odFile, numRows, Cells.length]

theorem od_hasEpoch (w : OWriter S Fr D) (sol : OdSol S Fr m) (info : Meta D) (fields : List XPar) :
    hasField (odFile w sol info fields) .epoch = true := by
  simp [odFile, hasField]

/-- What is read, given the gains of each row. -/
theorem od_read (w : OWriter S Fr D) (sol : OdSol S Fr m) (e0 : Est Fr) (h : Exportable w sol e0) (parse : S → Option Int)
    (hp : ∀ t, parse (w.fmt t) = some t) (de : D → Option Fr) (hd : ∀ fr, de (w.ser fr) = some fr)
    (order : List MsrType → List MsrType) (junkS : Nat → S) (junk : OCol → Nat → Num) (f : File OCol (Option (Meta D)) S Num)
    (hf : f = odFile w sol ⟨w.ser e0.state.frame, e0.nominal.srpArea, e0.nominal.dragArea⟩ (odFields w e0 exportParams)) :
    odFromFile m parse de order junkS junk f =
      (rows (fun i => (readGainRow m (gainCols f (sol.types.filter fromStr)) i).bind fun g => .ok
        { epoch := ((sol.estimates[i]?).elim 0 fun e => e.state.epoch)
          frame := e0.state.frame
          srpArea := e0.nominal.srpArea
          dragArea := e0.nominal.dragArea
          state := fun p => if p ∈ odNeeded then (sol.estimates[i]?).elim none (fun e => e.state.value p) else
            ((column f (.par (.core p))).bind Cells.asNum).elim none fun l => valueAt (junk (.par (.core p))) l i
          covar := fun a b => (sol.estimates[i]?).elim none fun e => some (e.covar (min a b) (max a b))
          resid := readResid f (order (sol.types.filter fromStr)) ((sol.estimates[i]?).elim 0 fun e => e.state.epoch) i
          gain := g
          ratio := readRatio f i }) (List.range sol.estimates.length)).bind fun l => .ok (l, sol.types.filter fromStr) := by
  have hpos : 0 < sol.estimates.length := by
    rcases hl : sol.estimates with _ | ⟨a, l⟩
    · have := h.first; rw [hl] at this; simp at this
    · simp
  have hcov : ∀ a b : Fin 9, column f (.cov (min a b) (max a b)) =
      some (.num (sol.estimates.map fun e => some (some (e.covar (min a b) (max a b))))) := by
    intro a b
    rw [hf, od_cov]
    exact min_le_max
  have hpar : ∀ p ∈ odNeeded, column f (.par (.core p)) = some (.num (sol.estimates.map fun e => some (e.state.value p))) := by
    intro p hp
    rw [hf, od_par _ _ _ _ _ (needed_written w e0 p hp)]
    rfl
  have hrow : ∀ i ∈ List.range sol.estimates.length, odRow parse f (order (sol.types.filter fromStr))
      (gainCols f (sol.types.filter fromStr)) e0.state.frame (e0.nominal.srpArea, e0.nominal.dragArea) junkS junk
      (sol.estimates.map fun e => some (w.fmt e.state.epoch)) i =
      ((readGainRow m (gainCols f (sol.types.filter fromStr)) i).bind fun g => .ok
        ({ epoch := ((sol.estimates[i]?).elim 0 fun e => e.state.epoch)
           frame := e0.state.frame
           srpArea := e0.nominal.srpArea
           dragArea := e0.nominal.dragArea
           state := fun p => if p ∈ odNeeded then (sol.estimates[i]?).elim none (fun e => e.state.value p) else
             ((column f (.par (.core p))).bind Cells.asNum).elim none fun l => valueAt (junk (.par (.core p))) l i
           covar := fun a b => (sol.estimates[i]?).elim none fun e => some (e.covar (min a b) (max a b))
           resid := readResid f (order (sol.types.filter fromStr)) ((sol.estimates[i]?).elim 0 fun e => e.state.epoch) i
           gain := g
           ratio := readRatio f i } : ORow S Fr m)) := by
    intro i hi
    rw [List.mem_range] at hi
    have he : sol.estimates[i]? = some sol.estimates[i] := List.getElem?_eq_getElem hi
    unfold odRow
    rw [valueAt_some_map junkS sol.estimates _ i _ he, hp]
    simp only [Mc.orErr, Mc.Out.bind, he, Option.elim_some]
    have h1 : (fun p => ((column f (.par (.core p))).bind Cells.asNum).elim none fun l => valueAt (junk (.par (.core p))) l i) =
        fun p => if p ∈ odNeeded then (sol.estimates[i]).state.value p else
          ((column f (.par (.core p))).bind Cells.asNum).elim none fun l => valueAt (junk (.par (.core p))) l i := by
      funext p
      split
      · rename_i hp'
        rw [hpar p hp']
        simp only [Option.bind_some, Cells.asNum, Option.elim_some]
        rw [valueAt_some_map _ sol.estimates _ i _ he]
      · rfl
    have h2 : (fun a b : Fin 9 => ((column f (.cov (min a b) (max a b))).bind Cells.asNum).elim none fun l =>
          valueAt (junk (.cov (min a b) (max a b))) l i) =
        fun a b => some ((sol.estimates[i]).covar (min a b) (max a b)) := by
      funext a b
      rw [hcov]
      simp only [Option.bind_some, Cells.asNum, Option.elim_some]
      rw [valueAt_some_map _ sol.estimates _ i _ he]
    rw [h1]
    simp only [h2]
  have hrows : ∀ (F G : Nat → Out (ORow S Fr m)) (l : List Nat), (∀ i ∈ l, F i = G i) → rows F l = rows G l := by
    intro F G l hl
    induction l with
    | nil => rfl
    | cons a l ih => simp only [rows, hl a List.mem_cons_self, ih fun i hi => hl i (List.mem_cons_of_mem _ hi)]
  have hscan : scanMeta de (f.map (·.1)) none = .ok (some (e0.state.frame, e0.nominal.srpArea, e0.nominal.dragArea)) := by
    rw [hf]
    exact od_scan w sol _ _ de _ (hd _) (.core (.pos 0)) (needed_written w e0 _ (by simp [odNeeded]))
  have htypes : typesFound (f.map (·.1)) = sol.types.filter fromStr := by rw [hf, od_types]
  have hn : numRows f = sol.estimates.length := by rw [hf, od_rows]
  have hep : column f .epoch = some (.str (sol.estimates.map fun e => some (w.fmt e.state.epoch))) := by rw [hf, od_epoch]
  have hhas : hasField f .epoch = true := by rw [hf, od_hasEpoch]
  unfold odFromFile
  rw [hscan]
  simp only [Mc.Out.bind, hhas, Bool.not_true, Bool.false_eq_true, if_false, Mc.orErr, htypes, hn, hpos.ne', hep, Option.bind_some,
    Cells.asStr]
  rw [if_neg, if_neg]
  · simp only [Mc.orErr, Mc.Out.bind] at hrow
    rw [hrows _ _ _ hrow]
  · simp only [List.any_eq_true, not_exists, not_and]
    rintro ⟨a, b⟩ hq
    have hab : a ≤ b := by simpa [upperPairs] using hq
    have := hcov a b
    rw [min_eq_left hab, max_eq_right hab] at this
    simp [this, Cells.asNum]
  · simp only [List.any_eq_true, not_exists, not_and]
    intro p hp
    simp [hpar p hp, Cells.asNum]

/-! ### Residuals -/

theorem at_isSome (types : List MsrType) (v : Fin m → Num) (t : MsrType) (hl : types.length ≤ m) :
    (at_ types v t).isSome = decide (t ∈ types) := by
  unfold at_
  by_cases h : t ∈ types
  · have : types.idxOf t < m := (List.idxOf_lt_length_of_mem h).trans_le hl
    simp [h, this]
  · simp [h]

theorem at_eq (types : List MsrType) (hn : types.Nodup) (v : Fin m → Num) (t : MsrType) (j : Fin m)
    (hj : types[j.val]? = some t) : at_ types v t = some (v j) := by
  have hmem : t ∈ types := List.mem_of_getElem? hj
  have hidx : types.idxOf t = j.val := by
    obtain ⟨hlt, heq⟩ := List.getElem?_eq_some_iff.mp hj
    rw [← heq]
    exact hn.idxOf_getElem j.val hlt
  unfold at_
  rw [dif_pos ⟨hmem, by rw [hidx]; exact j.isLt⟩]
  congr 2
  exact Fin.ext hidx

theorem optCell_vec (w : OWriter S Fr D) (sol : OdSol S Fr m) (info : Meta D) (fields : List XPar) (i : Nat) (r : ORes S m)
    (hr : sol.residuals[i]? = some (some r)) (t : MsrType) (ht : t ∈ sol.types) (κ : Vec) (hκ : κ ≠ .whitened) :
    optCell (odFile w sol info fields) (κ.key t) i = at_ r.types (r.vec κ) t := by
  unfold optCell
  cases κ with
  | whitened => exact absurd rfl hκ
  | prefit | postfit | noise | real | computed =>
    simp only [Vec.key]
    first
      | rw [od_prefit w sol info fields t ht]
      | rw [od_postfit w sol info fields t ht]
      | rw [od_noise w sol info fields t ht]
      | rw [od_real w sol info fields t ht]
      | rw [od_computed w sol info fields t ht]
    simp only [Option.bind_some, Cells.asNum]
    rw [cellAt_map _ _ i _ hr]
    rfl

theorem optCell_whitened (w : OWriter S Fr D) (sol : OdSol S Fr m) (info : Meta D) (fields : List XPar) (i : Nat) (t : MsrType) :
    optCell (odFile w sol info fields) (.whitenedT t) i = none := by
  simp [optCell, od_whitenedT]

theorem resid_none (w : OWriter S Fr D) (sol : OdSol S Fr m) (info : Meta D) (fields : List XPar) (i : Nat)
    (hr : sol.residuals[i]? = some none) (order : List MsrType) (e : Int) :
    (readResid (odFile w sol info fields) order e i : Option (ORes S m)) = none := by
  unfold readResid
  rw [od_rejected]
  simp only [Option.bind_some, Cells.asFlag]
  rw [cellAt_map _ _ i _ hr]
  rfl

/-- A residual which is read is the same as that written: `q` read, `r` written, of the types `known`. -/
structure SameResid (known : List MsrType) (undefined : S) (epoch : Int) (r q : ORes S m) : Prop where
  epoch : q.epoch = epoch
  ratio : q.ratio = r.ratio
  rejected : q.rejected = r.rejected
  tracker : q.tracker = some (r.tracker.getD undefined)
  nodup : q.types.Nodup
  room : q.types.length ≤ m
  types : ∀ t, t ∈ q.types ↔ t ∈ r.types ∧ t ∈ known
  values : ∀ t (j j' : Fin m), r.types[j.val]? = some t → q.types[j'.val]? = some t →
    q.prefit j' = r.prefit j ∧ q.postfit j' = r.postfit j ∧ q.noise j' = r.noise j ∧ q.real j' = r.real j ∧
    q.computed j' = r.computed j
  lost : ∀ (j' : Fin m), j'.val < q.types.length → q.whitened j' = none

theorem resid_some (w : OWriter S Fr D) (sol : OdSol S Fr m) (hn : sol.types.Nodup) (info : Meta D) (fields : List XPar) (i : Nat)
    (r : ORes S m) (hr : sol.residuals[i]? = some (some r)) (hrn : r.types.Nodup) (hrl : r.types.length ≤ m) (order : List MsrType)
    (ho : order.Perm (sol.types.filter fromStr)) (e : Int) :
    ∃ q : ORes S m, readResid (odFile w sol info fields) order e i = some q ∧
      SameResid (sol.types.filter fromStr) w.undefined e r q := by
  have hin : ∀ t ∈ order, t ∈ sol.types := fun t ht => (List.mem_filter.mp (ho.mem_iff.mp ht)).1
  have hcell : ∀ t ∈ order, ∀ κ, κ ≠ Vec.whitened → optCell (odFile w sol info fields) (κ.key t) i = at_ r.types (r.vec κ) t :=
    fun t ht κ hκ => optCell_vec w sol info fields i r hr t (hin t ht) κ hκ
  have hsome : ∀ t ∈ order, ((optCell (odFile w sol info fields) (.prefit t) i).isSome ||
      (optCell (odFile w sol info fields) (.whitenedT t) i).isSome || (optCell (odFile w sol info fields) (.postfit t) i).isSome ||
      (optCell (odFile w sol info fields) (.noise t) i).isSome || (optCell (odFile w sol info fields) (.real t) i).isSome ||
      (optCell (odFile w sol info fields) (.computed t) i).isSome) = decide (t ∈ r.types) := by
    intro t ht
    have h1 := hcell t ht .prefit (by simp)
    have h2 := hcell t ht .postfit (by simp)
    have h3 := hcell t ht .noise (by simp)
    have h4 := hcell t ht .real (by simp)
    have h5 := hcell t ht .computed (by simp)
    simp only [Vec.key] at h1 h2 h3 h4 h5
    rw [h1, h2, h3, h4, h5, optCell_whitened]
    simp only [at_isSome _ _ _ hrl, Option.isSome_none, Bool.or_false, Bool.or_self]
  have hon : order.Nodup := ho.nodup_iff.mpr (hn.filter _)
  have hsub : (order.filter fun t => decide (t ∈ r.types)).length ≤ r.types.length :=
    ((hon.filter _).subperm fun t ht => by simpa using (List.mem_filter.mp ht).2).length_le
  obtain ⟨g1, g2, g3, g4, g5, _, g7⟩ := fill_spec (m := m) (odFile w sol info fields) i (fun t => decide (t ∈ r.types)) order hsome 0
    ⟨e, fun _ => some 0, fun _ => some 0, fun _ => some 0, fun _ => some 0, fun _ => some 0, fun _ => some 0, r.ratio, r.rejected,
        some (r.tracker.getD w.undefined), []⟩ (by omega)
  simp only [List.nil_append] at g1
  refine ⟨fillTypes (odFile w sol info fields) i order 0
    ⟨e, fun _ => some 0, fun _ => some 0, fun _ => some 0, fun _ => some 0, fun _ => some 0, fun _ => some 0, r.ratio, r.rejected,
        some (r.tracker.getD w.undefined), []⟩, ?_, ?_⟩
  rotate_left
  · refine ⟨g2, g3, g4, g5, ?_, ?_, ?_, ?_, ?_⟩
    · rw [g1]; exact hon.filter _
    · rw [g1]; omega
    · intro t
      rw [g1, List.mem_filter, ho.mem_iff, decide_eq_true_eq]
      exact and_comm
    · intro t j j' hj hj'
      rw [g1] at hj'
      have hto : t ∈ order := (List.mem_filter.mp (List.mem_of_getElem? hj')).1
      have key : ∀ κ, κ ≠ Vec.whitened → (fillTypes (odFile w sol info fields) i order 0
          ⟨e, fun _ => some 0, fun _ => some 0, fun _ => some 0, fun _ => some 0, fun _ => some 0, fun _ => some 0, r.ratio, r.rejected,
            some (r.tracker.getD w.undefined), []⟩ : ORes S m).vec κ j' = r.vec κ j := by
        intro κ hκ
        rw [g7 j'.val t hj' j' κ (by omega), hcell t hto κ hκ, at_eq _ hrn _ _ j hj]
        rfl
      exact ⟨key .prefit (by simp), key .postfit (by simp), key .noise (by simp), key .real (by simp), key .computed (by simp)⟩
    · intro j' hj'
      rw [g1] at hj'
      have := g7 j'.val _ (List.getElem?_eq_getElem hj') j' .whitened (by omega)
      simp only [Vec.key, optCell_whitened] at this
      exact this
  · unfold readResid
    rw [od_rejected, od_tracker]
    unfold optCell
    rw [od_ratio]
    simp only [Option.bind_some, Cells.asFlag, Cells.asStr, Cells.asNum]
    rw [cellAt_map _ _ i _ hr, cellAt_map _ _ i _ hr, cellAt_map _ _ i _ hr]
    rfl

/-! ### Ratios and gains -/

theorem ratio_read (w : OWriter S Fr D) (sol : OdSol S Fr m) (info : Meta D) (fields : List XPar) (i : Nat)
    (q : Option (Fin 9 → ℝ)) (hq : sol.ratios[i]? = some q) :
    readRatio (odFile w sol info fields) i = q.map fun v => (List.finRange 9).map fun k => some (v k) := by
  have hc : ∀ k, optCell (odFile w sol info fields) (.fsr k) i = q.map fun v => some (v k) := by
    intro k
    unfold optCell
    rw [od_fsr]
    simp only [Option.bind_some, Cells.asNum]
    rw [cellAt_map _ _ i _ hq]
  unfold readRatio
  simp only [hc]
  cases q with
  | none => rfl
  | some v => rfl

theorem gains_lost (w : OWriter S Fr D) (sol : OdSol S Fr m) (info : Meta D) (fields : List XPar) (hm : sol.types.length ≠ m)
    (found : List MsrType) : gainCols (odFile w sol info fields) found = [] := by
  unfold gainCols
  simp only
  split
  · rename_i hall
    rw [List.all_eq_true] at hall
    rw [List.filterMap_eq_nil_iff]
    intro n hn
    have := hall n hn
    simp only [List.mem_flatMap, List.mem_finRange, List.mem_map, true_and] at hn
    obtain ⟨i, t, _, rfl⟩ := hn
    simp [od_gainT_none w sol info fields hm]
  · rfl

theorem gains_none_found (f : File OCol (Option (Meta D)) S Num) : gainCols f [] = [] := by
  simp [gainCols]

theorem filterMap_all {A B : Type} (l : List A) (f : A → Option B) (g : A → B) (h : ∀ a ∈ l, f a = some (g a)) :
    l.filterMap f = l.map g := by
  induction l with
  | nil => rfl
  | cons a l ih => rw [List.filterMap_cons_some (h a List.mem_cons_self), List.map_cons, ih fun b hb => h b (List.mem_cons_of_mem _ hb)]

/-- The gain columns when there are as many types as the size of a measurement. -/
theorem gains_found (w : OWriter S Fr D) (sol : OdSol S Fr m) (hn : sol.types.Nodup) (info : Meta D) (fields : List XPar)
    (hm : sol.types.length = m) (found : List MsrType) (pos : MsrType → Fin m)
    (hpos : ∀ t ∈ found, sol.types[(pos t).val]? = some t) :
    gainCols (odFile w sol info fields) found = (List.finRange 9).flatMap fun i => found.map fun t =>
      sol.gains.map fun g => g.map fun k => some (k i (pos t)) := by
  have hc : ∀ i, ∀ t ∈ found, (column (odFile w sol info fields) (.gainT i t)).bind Cells.asNum =
      some (sol.gains.map fun g => g.map fun k => some (k i (pos t))) := by
    intro i t ht
    rw [od_gainT w sol info fields hm hn i t (pos t) (hpos t ht)]
    rfl
  generalize odFile w sol info fields = f at hc
  unfold gainCols
  simp only
  rw [if_pos]
  · rw [List.filterMap_flatMap]
    refine List.flatMap_congr fun i _ => ?_
    rw [List.filterMap_map]
    exact filterMap_all found _ _ fun t ht => hc i t ht
  · rw [List.all_eq_true]
    intro n hn
    simp only [List.mem_flatMap, List.mem_finRange, List.mem_map, true_and] at hn
    obtain ⟨i, t, ht, rfl⟩ := hn
    simp [hc i t ht]

theorem readGain_all (cols : List (List (Option Num))) (i : Nat) (ks : List Nat) (xs : List Num)
    (h : ks.map (fun k => (cols[k]?).map fun c => cellAt c i) = xs.map fun x => some (some x)) :
    readGain cols i ks = .ok (some xs) := by
  induction ks generalizing xs with
  | nil =>
    cases xs with
    | nil => rfl
    | cons x xs => simp at h
  | cons k ks ih =>
    cases xs with
    | nil => simp at h
    | cons x xs =>
      simp only [List.map_cons, List.cons.injEq] at h
      obtain ⟨h1, h2⟩ := h
      rw [Option.map_eq_some_iff] at h1
      obtain ⟨c, hc, hx⟩ := h1
      simp only [readGain, hc, hx, ih xs h2, Mc.Out.bind, Option.map_some]

theorem readGain_panics (cols : List (List (Option Num))) (i : Nat) (hc : ∀ c ∈ cols, (cellAt c i).isSome) (ks : List Nat)
    (k : Nat) (hk : k ∈ ks) (hout : cols.length ≤ k) : readGain cols i ks = .panic := by
  induction ks with
  | nil => simp at hk
  | cons a ks ih =>
    unfold readGain
    cases hca : cols[a]? with
    | none => rfl
    | some c =>
      have hne : k ≠ a := by
        rintro rfl
        rw [List.getElem?_eq_none hout] at hca
        simp at hca
      obtain ⟨x, hx⟩ := Option.isSome_iff_exists.mp (hc c (List.mem_of_getElem? hca))
      simp only [hx, ih ((List.mem_cons.mp hk).resolve_left hne), Mc.Out.bind]

theorem readGain_null (cols : List (List (Option Num))) (i : Nat) (c : List (Option Num)) (hc : cols[0]? = some c)
    (hx : cellAt c i = none) (n : Nat) (hn : 0 < n) : readGain cols i (List.range n) = .ok none := by
  obtain ⟨n, rfl⟩ : ∃ k, n = k + 1 := ⟨n - 1, by omega⟩
  rw [List.range_succ_eq_map]
  simp only [readGain, hc, hx]

theorem flatMap_length {A B : Type} (l : List A) (f : A → List B) (n : Nat) (h : ∀ a, (f a).length = n) :
    (l.flatMap f).length = l.length * n := by
  induction l with
  | nil => simp
  | cons a l ih => rw [List.flatMap_cons, List.length_append, h, ih, List.length_cons, Nat.succ_mul, Nat.add_comm]

/-- The gain of a row, when all the types can be read. -/
theorem gain_read (w : OWriter S Fr D) (sol : OdSol S Fr m) (hn : sol.types.Nodup) (info : Meta D) (fields : List XPar)
    (hm : sol.types.length = m) (i : Nat) (g : Option (Matrix (Fin 9) (Fin m) ℝ)) (hg : sol.gains[i]? = some g) (h0 : 0 < m) :
    readGainRow m (gainCols (odFile w sol info fields) sol.types) i =
      .ok (g.map fun k => (List.finRange 9).flatMap fun a => (List.finRange m).map fun b => some (k a b)) := by
  have hlt : ∀ t ∈ sol.types, sol.types.idxOf t < m := fun t ht => (List.idxOf_lt_length_of_mem ht).trans_le hm.le
  rw [gains_found w sol hn info fields hm sol.types
    (fun t => if h : sol.types.idxOf t < m then ⟨sol.types.idxOf t, h⟩ else ⟨0, h0⟩)
    (by
      intro t ht
      rw [dif_pos (hlt t ht)]
      simp only
      rw [List.getElem?_eq_getElem (List.idxOf_lt_length_of_mem ht), List.getElem_idxOf])]
  have hmap : ∀ a : Fin 9, (sol.types.map fun t => sol.gains.map fun g => g.map fun k =>
      (some (k a (if h : sol.types.idxOf t < m then ⟨sol.types.idxOf t, h⟩ else ⟨0, h0⟩)) : Num)) =
      (List.finRange m).map fun b => sol.gains.map fun g => g.map fun k => some (k a b) := by
    intro a
    apply List.ext_getElem
    · simp [hm]
    · intro n h1 h2
      simp only [List.length_map] at h1
      simp only [List.getElem_map, List.getElem_finRange]
      have hidx : sol.types.idxOf sol.types[n] = n := hn.idxOf_getElem n h1
      simp only [hidx, hm ▸ h1, dif_pos, Fin.cast_mk]
  simp only [hmap]
  generalize hcols : ((List.finRange 9).flatMap fun a => (List.finRange m).map fun b =>
    sol.gains.map fun g => g.map fun k => (some (k a b) : Num)) = cols
  have hlen : cols.length = 9 * m := by
    rw [← hcols, flatMap_length _ _ m (by simp), List.length_finRange]
  have hne : cols ≠ [] := by
    intro h
    rw [h] at hlen
    simp at hlen
    omega
  unfold readGainRow
  rw [if_neg (by simpa using hne)]
  cases g with
  | none =>
    have hall : ∀ c ∈ cols, cellAt c i = none := by
      rw [← hcols]
      intro c hc
      simp only [List.mem_flatMap, List.mem_map] at hc
      obtain ⟨a, _, b, _, rfl⟩ := hc
      rw [cellAt_map _ _ i _ hg]
      rfl
    obtain ⟨c, l, rfl⟩ := List.exists_cons_of_ne_nil hne
    exact readGain_null _ i c rfl (hall c List.mem_cons_self) _ (by omega)
  | some k =>
    refine readGain_all cols i _ _ ?_
    have h1 : (List.range (9 * m)).map (fun k => (cols[k]?).map fun c => cellAt c i) = cols.map fun c => some (cellAt c i) := by
      rw [← hlen]
      apply List.ext_getElem
      · simp
      · intro n h1 h2
        simp only [List.length_map, List.length_range] at h1
        simp [List.getElem?_eq_getElem h1]
    rw [h1, ← hcols, List.map_flatMap, List.map_flatMap]
    refine List.flatMap_congr fun a _ => ?_
    rw [List.map_map, List.map_map]
    refine List.map_congr_left fun b _ => ?_
    simp only [Function.comp_apply]
    rw [cellAt_map _ _ i _ hg]
    rfl

theorem rows_spec {A : Type} (f : Nat → Out A) (g : Nat → A) (n : Nat) (h : ∀ i, i < n → f i = .ok (g i)) :
    rows f (List.range n) = .ok ((List.range n).map g) :=
  rows_ok f g _ fun i hi => h i (List.mem_range.mp hi)

theorem rows_panics {A : Type} (f : Nat → Out A) (l : List Nat) (h : ∀ i ∈ l, f i = .panic ∨ ∃ a, f i = .ok a) (i : Nat)
    (hi : i ∈ l) (hp : f i = .panic) : rows f l = .panic := by
  induction l with
  | nil => simp at hi
  | cons a l ih =>
    rcases h a List.mem_cons_self with h1 | ⟨x, h1⟩
    · simp only [rows, h1, Mc.Out.bind]
    · have hia : i ≠ a := by rintro rfl; rw [hp] at h1; cases h1
      simp only [rows, h1, ih (fun j hj => h j (List.mem_cons_of_mem _ hj)) ((List.mem_cons.mp hi).resolve_left hia), Mc.Out.bind]

/-! ### The theorems -/

/-- What is asked of the codecs: times and frames are read as they were written; `order` is a permutation. -/
structure Codec (w : OWriter S Fr D) (parse : S → Option Int) (de : D → Option Fr) (order : List MsrType → List MsrType) : Prop where
  time : ∀ t, parse (w.fmt t) = some t
  frame : ∀ fr, de (w.ser fr) = some fr
  perm : ∀ l, (order l).Perm l

/-- The matrix row by row. -/
def flat (k : Matrix (Fin 9) (Fin m) ℝ) : List Num :=
  (List.finRange 9).flatMap fun a => (List.finRange m).map fun b => some (k a b)

theorem od_read_rows (w : OWriter S Fr D) (sol : OdSol S Fr m) (e0 : Est Fr) (h : Exportable w sol e0)
    (hr : ∀ r, some r ∈ sol.residuals → r.types.Nodup) (parse : S → Option Int) (de : D → Option Fr)
    (order : List MsrType → List MsrType) (hc : Codec w parse de order) (junkS : Nat → S) (junk : OCol → Nat → Num)
    (gainOf : Option (Matrix (Fin 9) (Fin m) ℝ) → Option (List Num))
    (hg : ∀ (i : Nat) g, sol.gains[i]? = some g → readGainRow m (gainCols
      (odFile w sol ⟨w.ser e0.state.frame, e0.nominal.srpArea, e0.nominal.dragArea⟩ (odFields w e0 exportParams))
      (sol.types.filter fromStr)) i = .ok (gainOf g)) :
    ∃ f rs, odToFile w sol none none none none = .ok f ∧
      odFromFile m parse de order junkS junk f = .ok (rs, sol.types.filter fromStr) ∧ rs.length = sol.estimates.length ∧
      ∀ (i : Nat) e r g q, sol.estimates[i]? = some e → sol.residuals[i]? = some r → sol.gains[i]? = some g → sol.ratios[i]? = some q →
        ∃ row, rs[i]? = some row ∧ row.epoch = e.state.epoch ∧ row.frame = e0.state.frame ∧ row.srpArea = e0.nominal.srpArea ∧
          row.dragArea = e0.nominal.dragArea ∧
          (∀ j, row.state (.pos j) = some (e.state.pos j) ∧ row.state (.vel j) = some (e.state.vel j)) ∧
          row.state .cr = some e.state.cr ∧ row.state .cd = some e.state.cd ∧ row.state .dryMass = some e.state.dry ∧
          row.state .propMass = some e.state.prop ∧
          (∀ a b, row.covar a b = some (e.covar (min a b) (max a b))) ∧
          row.ratio = q.map (fun v => (List.finRange 9).map fun k => some (v k)) ∧ row.gain = gainOf g ∧
          (r = none → row.resid = none) ∧
          ∀ r', r = some r' → ∃ x, row.resid = some x ∧ SameResid (sol.types.filter fromStr) w.undefined e.state.epoch r' x := by
  generalize hf : odFile w sol ⟨w.ser e0.state.frame, e0.nominal.srpArea, e0.nominal.dragArea⟩ (odFields w e0 exportParams) = f at hg
  have hread := od_read w sol e0 h parse hc.time de hc.frame order junkS junk f hf.symm
  have hlen2 : ∀ i, i < sol.estimates.length → i < sol.gains.length := fun i hi => h.gain ▸ hi
  rw [rows_spec _ (fun i =>
        { epoch := ((sol.estimates[i]?).elim 0 fun e => e.state.epoch)
          frame := e0.state.frame
          srpArea := e0.nominal.srpArea
          dragArea := e0.nominal.dragArea
          state := fun p => if p ∈ odNeeded then (sol.estimates[i]?).elim none (fun e => e.state.value p) else
            ((column f (.par (.core p))).bind Cells.asNum).elim none fun l => valueAt (junk (.par (.core p))) l i
          covar := fun a b => (sol.estimates[i]?).elim none fun e => some (e.covar (min a b) (max a b))
          resid := readResid f (order (sol.types.filter fromStr)) ((sol.estimates[i]?).elim 0 fun e => e.state.epoch) i
          gain := (sol.gains[i]?).elim none gainOf
          ratio := readRatio f i }) sol.estimates.length
      (by
        intro i hi
        have hgi : sol.gains[i]? = some (sol.gains[i]'(hlen2 i hi)) := List.getElem?_eq_getElem (hlen2 i hi)
        rw [hg i _ hgi, hgi]
        rfl)] at hread
  refine ⟨f, _, hf ▸ od_written_partial w sol e0 h, hread, by simp, ?_⟩
  intro i e r g q he hri hgi hqi
  have hi : i < sol.estimates.length := (List.getElem?_eq_some_iff.mp he).1
  refine ⟨_, by rw [List.getElem?_map, List.getElem?_range hi]; rfl, ?_⟩
  simp only [he, hgi, Option.elim_some]
  refine ⟨trivial, trivial, trivial, trivial, ?_, ?_, ?_, ?_, ?_, ?_, ?_, trivial, ?_, ?_⟩
  · intro j
    constructor
    · rw [if_pos (by fin_cases j <;> simp [odNeeded])]; rfl
    · rw [if_pos (by fin_cases j <;> simp [odNeeded])]; rfl
  · rw [if_pos (by simp [odNeeded])]; rfl
  · rw [if_pos (by simp [odNeeded])]; rfl
  · rw [if_pos (by simp [odNeeded])]; rfl
  · rw [if_pos (by simp [odNeeded])]; rfl
  · intro a b; trivial
  · rw [← hf]
    exact ratio_read w sol _ _ i q hqi
  · rintro rfl
    rw [← hf]
    exact resid_none w sol _ _ i hri _ _
  · rintro r' rfl
    rw [← hf]
    exact resid_some w sol h.nodup _ _ i r' hri (hr r' (List.mem_of_getElem? hri)) (h.typed r' (List.mem_of_getElem? hri)) _
      (hc.perm _) _

end Verif.Pq
