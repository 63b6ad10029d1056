import Verif.Device.Measure
import Mathlib.Analysis.SpecialFunctions.Sqrt
/-!
C125: the position device. C126: the link between two spacecraft.
-/
namespace Verif.Device
open Verif.Noise Verif.Spacecraft
open Verif.Mc (Out)

variable {S Fr : Type}

/-! ### C125: the position device -/

/-- Specification: the devices which can be built. -/
inductive PosBuilt : PosDevice → Prop
  | new (name : String) : PosBuilt ⟨name, [], none⟩
  | withNoise (p : PosDevice) (k : MsrType) (n : Stoch) : PosBuilt p → PosBuilt (p.withNoise k n)

theorem pos_built {p : PosDevice} (h : PosBuilt p) :
    p.types.Nodup ∧ ((p.noises.getD []).map Prod.fst).Nodup ∧
    ∀ k, k ∈ p.types ↔ k ∈ (p.noises.getD []).map Prod.fst := by
  induction h with
  | new name => exact ⟨List.nodup_nil, List.nodup_nil, fun _ => Iff.rfl⟩
  | withNoise p k n _ ih =>
    refine ⟨nodup_insertSet ih.1, ?_, fun j => ?_⟩
    · show ((upsert k n (p.noises.getD [])).map Prod.fst).Nodup
      rw [keys_upsert]
      exact nodup_insertSet ih.2.1
    · show j ∈ insertSet k p.types ↔ j ∈ (upsert k n (p.noises.getD [])).map Prod.fst
      rw [keys_upsert, mem_insertSet, mem_insertSet, ih.2.2]

theorem pos_fill {p : PosDevice} {rx : Craft ℝ Fr} : ∀ {ks : List MsrType} {o : Nat} {ns : List ℝ}
    {d d' : List (MsrType × ℝ)}, ks.Nodup → (∀ k ∈ ks, k ∉ d.map Prod.fst) → p.fill rx o ks ns d = .ok d' →
    ∃ vs : List ℝ, vs.length = ks.length ∧ d' = d ++ ks.zip vs ∧
      ∀ (i : Nat) k, ks[i]? = some k → ∃ c b, coordAt rx (o + i) = .ok c ∧ p.biasOf k = .ok b ∧
        vs[i]? = some (c + (ns[i]?).getD 0 + b)
  | [], _, _, d, d', _, _, h => by
    cases h
    exact ⟨[], rfl, by simp, by simp⟩
  | k :: ks, o, ns, d, d', hn, hd, h => by
    rw [List.nodup_cons] at hn
    rw [PosDevice.fill] at h
    obtain ⟨c, hc, h⟩ := bind_ok.1 h
    obtain ⟨b, hb, h⟩ := bind_ok.1 h
    rw [upsert_new (hd k List.mem_cons_self)] at h
    obtain ⟨vs, h1, h2, h3⟩ := pos_fill hn.2 (by
      intro j hj hcon
      simp only [List.map_append, List.map_cons, List.map_nil, List.mem_append, List.mem_singleton] at hcon
      rcases hcon with hcon | hcon
      · exact hd j (List.mem_cons_of_mem _ hj) hcon
      · subst hcon
        exact hn.1 hj) h
    refine ⟨(c + ns.headD 0 + b) :: vs, by simp [h1], by rw [h2]; simp, ?_⟩
    intro i j hj
    cases i with
    | zero =>
      cases hj
      refine ⟨c, b, hc, hb, ?_⟩
      cases ns <;> rfl
    | succ i =>
      obtain ⟨c', b', e1, e2, e3⟩ := h3 i j hj
      refine ⟨c', b', by rw [← e1]; congr 1; omega, e2, ?_⟩
      rw [List.getElem?_cons_succ, e3]
      cases ns <;> rfl

/-- C125, what the device does. The measurement has the epoch of the state and the types of the device, in
order; the value of the type of index `i` is the coordinate of index `i` of the position, plus the noise, plus
the constant bias of its noise. -/
theorem position_values (g : Rng S) (p p' : PosDevice) (hp : PosBuilt p) (rx : Craft ℝ Fr) (rng rng' : Option S)
    (msr : Option Msr) (h : p.instant g rx rng = .ok (msr, p', rng')) :
    ∃ ns vs : List ℝ, msr = some ⟨p.name, rx.epoch, p.types.zip vs, false⟩ ∧ vs.length = p.types.length ∧
      (rng = none → ns = []) ∧
      (∀ s, rng = some s → ∃ m, p.noises = some m ∧ ∀ (i : Nat) k, p.types[i]? = some k → ∃ n, find k m = some n ∧
        ns[i]? = some (n.sample g rx.epoch (stateBefore g rx.epoch m p.types i s)).1) ∧
      ∀ (i : Nat) k, p.types[i]? = some k → ∃ (hi : i < 3) (n : Stoch),
        (∃ m, p.noises = some m ∧ (k, n) ∈ m) ∧
        vs[i]? = some (rx.pos ⟨i, hi⟩ + (ns[i]?).getD 0 + (n.bias.bind Gm.const).getD 0) := by
  obtain ⟨hnd, hkeys, hsame⟩ := pos_built hp
  have coord : ∀ {i c}, coordAt rx i = .ok c → ∃ hi : i < 3, c = rx.pos ⟨i, hi⟩ := by
    intro i c hc
    unfold coordAt at hc
    split at hc
    · rename_i hi
      cases hc
      exact ⟨hi, rfl⟩
    · cases hc
  have gm : ∀ b : Option Gm, (b.elim 0 fun b => b.const.getD 0) = (b.bind Gm.const).getD 0 := by
    intro b; cases b <;> rfl
  unfold PosDevice.instant at h
  cases rng with
  | none =>
    rw [Option.elim_none] at h
    obtain ⟨d, hd, h⟩ := bind_ok.1 h
    cases h
    obtain ⟨vs, h1, h2, h3⟩ := pos_fill hnd (by simp) hd
    refine ⟨[], vs, by rw [h2]; rfl, h1, fun _ => rfl, by simp, ?_⟩
    intro i k hk
    obtain ⟨c, b, e1, e2, e3⟩ := h3 i k hk
    rw [Nat.zero_add] at e1
    obtain ⟨hi, rfl⟩ := coord e1
    have hkm := (hsame k).1 (List.mem_of_getElem? hk)
    cases hm : p.noises with
    | none => rw [hm] at hkm; simp at hkm
    | some m =>
      rw [hm] at hkeys hkm
      obtain ⟨n, hn⟩ := Option.isSome_iff_exists.1 (find_isSome.2 hkm)
      rw [PosDevice.biasOf, hm, Option.elim_some] at e2
      change find k m = some n at hn
      rw [hn, Option.elim_some, gm] at e2
      cases e2
      exact ⟨hi, n, ⟨m, rfl, find_some_mem hn⟩, e3⟩
  | some s =>
    rw [Option.elim_some] at h
    obtain ⟨m, hm, h⟩ := elim_err.1 h
    obtain ⟨q, hq, h⟩ := elim_err.1 h
    obtain ⟨d, hd, h⟩ := bind_ok.1 h
    cases h
    obtain ⟨vs, h1, h2, h3⟩ := pos_fill hnd (by simp) hd
    obtain ⟨-, -, -, hs⟩ := sampleAll_spec hnd hq
    refine ⟨q.1, vs, by rw [h2]; rfl, h1, by simp, ?_, ?_⟩
    · intro s' hs'
      cases hs'
      refine ⟨m, hm, fun i k hk => ?_⟩
      obtain ⟨n, e1, e2, -⟩ := hs i k hk
      exact ⟨n, e1, e2⟩
    · intro i k hk
      obtain ⟨c, b, e1, e2, e3⟩ := h3 i k hk
      rw [Nat.zero_add] at e1
      obtain ⟨hi, rfl⟩ := coord e1
      obtain ⟨n, f1, -, f3⟩ := hs i k hk
      rw [PosDevice.biasOf, Option.elim_some, f3, Option.elim_some, gm] at e2
      cases e2
      refine ⟨hi, n, ⟨m, hm, find_some_mem f1⟩, ?_⟩
      rw [e3]
      cases hb : n.bias with
      | none => simp [Stoch.sample, Stoch.biasPart, hb]
      | some b => simp [Stoch.sample, Stoch.biasPart, hb, Gm.sample]

/-- Specification: the coordinate named by a type. -/
def axisOf (rx : Craft ℝ Fr) : MsrType → Option ℝ
  | .x => some (rx.pos 0)
  | .y => some (rx.pos 1)
  | .z => some (rx.pos 2)
  | _ => none

/-- C125 (partial). With the types X, Y, Z added in this order (all or the first ones) and no constant bias,
each value is the coordinate named by its type plus its noise, and without generator it is exact.
What is missing: the other lists of types and the constant biases, see `position_wrong_axis` and
`position_bias_twice`. -/
theorem position_partial (g : Rng S) (p p' : PosDevice) (hp : PosBuilt p) (rx : Craft ℝ Fr) (rng rng' : Option S)
    (msr : Option Msr) (h : p.instant g rx rng = .ok (msr, p', rng')) (ht : p.types <+: [.x, .y, .z])
    (hb : ∀ m, p.noises = some m → ∀ q ∈ m, ∀ b, q.2.bias = some b → b.const = none) :
    ∃ ns vs : List ℝ, msr = some ⟨p.name, rx.epoch, p.types.zip vs, false⟩ ∧
      (rng = none → ns = []) ∧
      (∀ s, rng = some s → ∃ m, p.noises = some m ∧ ∀ (i : Nat) k, p.types[i]? = some k → ∃ n, find k m = some n ∧
        ns[i]? = some (n.sample g rx.epoch (stateBefore g rx.epoch m p.types i s)).1) ∧
      ∀ (i : Nat) k, p.types[i]? = some k → ∃ v, axisOf rx k = some v ∧ vs[i]? = some (v + (ns[i]?).getD 0) := by
  obtain ⟨ns, vs, h1, h2, h3, h4, h5⟩ := position_values g p p' hp rx rng rng' msr h
  refine ⟨ns, vs, h1, h3, h4, fun i k hk => ?_⟩
  obtain ⟨hi, n, ⟨m, hm, hmem⟩, hv⟩ := h5 i k hk
  have hbias : (n.bias.bind Gm.const).getD 0 = 0 := by
    cases hnb : n.bias with
    | none => rfl
    | some b => simp [hb m hm _ hmem b hnb]
  rw [hbias, add_zero] at hv
  have hk2 : [MsrType.x, .y, .z][i]? = some k := by
    obtain ⟨l, hl⟩ := ht
    rw [← hl, List.getElem?_append_left (List.getElem?_eq_some_iff.1 hk).1]
    exact hk
  refine ⟨rx.pos ⟨i, hi⟩, ?_, hv⟩
  interval_cases i <;> cases hk2 <;> rfl

/-- C125, refuted. A device with the only type Y reports the first coordinate, and one with the types Z, Y, X
reports them in reverse, whatever the position; without noise both values are exact coordinates of another
axis. -/
theorem position_wrong_axis (g : Rng S) (name : String) (rx : Craft ℝ Fr) :
    (∃ p', PosDevice.instant g (PosDevice.withNoise ⟨name, [], none⟩ .y Stoch.zero) rx none =
      .ok (some ⟨name, rx.epoch, [(.y, rx.pos 0)], false⟩, p', none)) ∧
    ∃ p', PosDevice.instant g (((PosDevice.withNoise ⟨name, [], none⟩ .z Stoch.zero).withNoise .y Stoch.zero).withNoise
        .x Stoch.zero) rx none =
      .ok (some ⟨name, rx.epoch, [(.z, rx.pos 0), (.y, rx.pos 1), (.x, rx.pos 2)], false⟩, p', none) := by
  constructor
  · simp [PosDevice.instant, PosDevice.withNoise, insertSet, PosDevice.fill, coordAt, PosDevice.biasOf, upsert, find,
      Stoch.zero, Out.bind]
  · simp [PosDevice.instant, PosDevice.withNoise, insertSet, PosDevice.fill, coordAt, PosDevice.biasOf, upsert, find,
      Stoch.zero, Out.bind]

/-- C125, refuted for constant biases. A device whose only noise along X is the constant bias `c` reports the
coordinate plus `2 c`. -/
theorem position_bias_twice (g : Rng S) (name : String) (tau : Int) (c : ℝ) (rx : Craft ℝ Fr) (s : S) :
    ∃ p' s', PosDevice.instant g (PosDevice.withNoise ⟨name, [], none⟩ .x (constantBias tau c)) rx (some s) =
      .ok (some ⟨name, rx.epoch, [(.x, rx.pos 0 + 2 * c)], false⟩, p', s') := by
  simp [PosDevice.instant, PosDevice.withNoise, insertSet, PosDevice.fill, coordAt, PosDevice.biasOf, upsert, find,
      constantBias, Out.bind, sampleAll, Stoch.sample, Stoch.whitePart, Stoch.biasPart, Gm.sample, Gm.start, Gm.steady]
  ring

/-- C125, refuted. A device with more than three types always panics without generator. -/
theorem position_panics (g : Rng S) (p : PosDevice) (hp : PosBuilt p) (rx : Craft ℝ Fr) (h3 : 3 < p.types.length) :
    p.instant g rx none = .panic := by
  obtain ⟨-, -, hsame⟩ := pos_built hp
  have key : ∀ (ks : List MsrType) (o : Nat) (d : List (MsrType × ℝ)), (∀ k ∈ ks, k ∈ p.types) → o ≤ 3 → 3 < o + ks.length →
      p.fill rx o ks [] d = .panic := by
    intro ks
    induction ks with
    | nil => intro o d _ h1 h2; simp at h2; omega
    | cons k ks ih =>
      intro o d hk ho h2
      rw [PosDevice.fill, coordAt]
      split
      · have hkm := (hsame k).1 (hk k List.mem_cons_self)
        have hb : ∃ b, p.biasOf k = .ok b := by
          unfold PosDevice.biasOf
          cases hm : p.noises with
          | none => exact ⟨_, rfl⟩
          | some m =>
            rw [hm] at hkm
            obtain ⟨n, hn⟩ := Option.isSome_iff_exists.1 (find_isSome.2 hkm)
            change find k m = some n at hn
            rw [Option.elim_some, hn]
            exact ⟨_, rfl⟩
        obtain ⟨b, hb⟩ := hb
        rw [hb]
        exact ih _ _ (fun j hj => hk j (List.mem_cons_of_mem _ hj)) (by omega) (by simp at h2; omega)
      · rfl
  unfold PosDevice.instant
  rw [Option.elim_none, key p.types 0 [] (fun _ h => h) (by omega) (by omega)]
  rfl

/-! ### C126: the link -/

/-- Specification: the distance between two points. -/
noncomputable def distance (a b : Fin 3 → ℝ) : ℝ :=
  Real.sqrt ((a 0 - b 0) ^ 2 + (a 1 - b 1) ^ 2 + (a 2 - b 2) ^ 2)

theorem norm3_sub (a b : Fin 3 → ℝ) : norm3 (a - b) = distance a b := by
  unfold norm3 distance dot3
  congr 1
  simp only [Pi.sub_apply]
  ring

/-- The derivative of the distance of two moving points. -/
theorem distance_deriv (r s : ℝ → Fin 3 → ℝ) (v w : Fin 3 → ℝ) (t : ℝ)
    (hr : ∀ i, HasDerivAt (fun u => r u i) (v i) t) (hs : ∀ i, HasDerivAt (fun u => s u i) (w i) t)
    (hne : distance (r t) (s t) ≠ 0) :
    HasDerivAt (fun u => distance (r u) (s u)) (dot3 (r t - s t) (v - w) / distance (r t) (s t)) t := by
  have hd := fun i => ((hr i).sub (hs i)).fun_pow 2
  have h := (((hd 0).fun_add (hd 1)).fun_add (hd 2)).sqrt (by
    intro h0
    apply hne
    unfold distance
    simp only [Pi.sub_apply] at h0
    rw [h0, Real.sqrt_zero])
  refine h.congr_deriv ?_
  unfold distance dot3
  simp only [Pi.sub_apply]
  rw [div_eq_div_iff]
  · push_cast
    ring
  · unfold distance at hne
    simpa using hne
  · exact hne

/-- C126 (partial). What a link measures. When the receiver is hidden there is no measurement and nothing
changes; otherwise the measurement has the types of the link in order, the range is the distance of both
spacecraft plus its noise; the other values are those of `link_doppler_wrong`.
What is missing: the Doppler, which is not the rate of the distance. -/
theorem link_partial (g : Rng S) (durOf : ℝ → Int) (l : Link Fr) (hn : l.st.types.Nodup) (st' : Station)
    (rx : Craft ℝ Fr) (rng rng' : Option S) (msr : Option Msr)
    (h : l.instant g durOf rx rng = .ok (msr, st', rng')) :
    ∃ tx hidden, l.at' rx.epoch = some tx ∧ l.los tx rx = some hidden ∧
      (hidden = true → msr = none ∧ st' = l.st ∧ rng' = rng) ∧
      (hidden = false → ∃ r, l.toTx rx tx.frame = some r ∧ ∃ stamp ns vs,
        NoisesDrawn g l.st tx.epoch rng stamp ns st' rng' ∧
        msr = some ⟨l.st.name, rx.epoch + durOf stamp, l.st.types.zip vs, false⟩ ∧ vs.length = l.st.types.length ∧
        ∀ (i : Nat) k, l.st.types[i]? = some k → ∃ n, ns[i]? = some n ∧
          (k = .range ∧ vs[i]? = some (distance r.pos tx.pos + n) ∨
           k = .doppler ∧ vs[i]? = some (dot3 (r.pos - tx.pos) r.vel / distance r.pos tx.pos + n))) := by
  obtain ⟨tx, ht, h⟩ := elim_err.1 h
  obtain ⟨hidden, hl, h⟩ := elim_err.1 h
  refine ⟨tx, hidden, ht, hl, ?_, ?_⟩
  · rintro rfl
    rw [if_pos rfl] at h
    cases h; exact ⟨rfl, rfl, rfl⟩
  · rintro rfl
    rw [if_neg (by simp)] at h
    obtain ⟨r, hr, h⟩ := elim_err.1 h
    obtain ⟨q, hq, h⟩ := bind_ok.1 h
    obtain ⟨d, hd, h⟩ := bind_ok.1 h
    cases h
    obtain ⟨vs, e1, e2, e3⟩ := fill_ok hn (by simp) hd
    refine ⟨r, hr, q.1.1, q.1.2, vs, noisesAt_spec hn hq, by rw [e2]; rfl, e1, ?_⟩
    intro i k hk
    obtain ⟨n, v, f1, f2, f3⟩ := e3 i k hk
    refine ⟨n, f1, ?_⟩
    cases k <;> simp only [linkValue, reduceCtorEq, Out.ok.injEq] at f3
    · left; refine ⟨rfl, ?_⟩; rw [f2, ← f3, norm3_sub]
    · right; refine ⟨rfl, ?_⟩; rw [f2, ← f3, norm3_sub]

/-- C126, refuted for the Doppler. Along motions with the positions and velocities given, the Doppler of
the link is not the derivative of the distance: it differs by the velocity of the transmitter along the line
of sight, and is the derivative exactly when that is zero. -/
theorem link_doppler_wrong (tx rx : Craft ℝ Fr) (r s : ℝ → Fin 3 → ℝ) (t : ℝ) (hr0 : r t = rx.pos) (hs0 : s t = tx.pos)
    (hr : ∀ i, HasDerivAt (fun u => r u i) (rx.vel i) t) (hs : ∀ i, HasDerivAt (fun u => s u i) (tx.vel i) t)
    (hne : distance rx.pos tx.pos ≠ 0) :
    ∃ v, linkValue tx rx .doppler 0 = .ok v ∧
      HasDerivAt (fun u => distance (r u) (s u)) (v - dot3 (rx.pos - tx.pos) tx.vel / distance rx.pos tx.pos) t ∧
      (HasDerivAt (fun u => distance (r u) (s u)) v t ↔ dot3 (rx.pos - tx.pos) tx.vel = 0) := by
  have hd := distance_deriv r s rx.vel tx.vel t hr hs (by rw [hr0, hs0]; exact hne)
  rw [hr0, hs0] at hd
  have e : dot3 (rx.pos - tx.pos) (rx.vel - tx.vel) / distance rx.pos tx.pos =
      dot3 (rx.pos - tx.pos) rx.vel / distance rx.pos tx.pos + 0 -
        dot3 (rx.pos - tx.pos) tx.vel / distance rx.pos tx.pos := by
    rw [add_zero, ← sub_div]
    congr 1
    simp only [dot3, Pi.sub_apply]
    ring
  rw [e] at hd
  refine ⟨_, rfl, ?_, ?_⟩
  · rw [norm3_sub]; exact hd
  · rw [norm3_sub]
    constructor
    · intro h
      have := h.unique hd
      have h2 : dot3 (rx.pos - tx.pos) tx.vel / distance rx.pos tx.pos = 0 := by linarith
      rwa [div_eq_zero_iff, or_iff_left hne] at h2
    · intro h
      rw [h, zero_div, sub_zero] at hd
      exact hd

/-- C126, refuted. A link with a type which is neither range nor Doppler panics as soon as the receiver is
visible. -/
theorem link_panics (g : Rng S) (durOf : ℝ → Int) (l : Link Fr) (rx tx r : Craft ℝ Fr) (k : MsrType) (ks : List MsrType)
    (ht : l.st.types = k :: ks) (hk : k ≠ .range ∧ k ≠ .doppler) (h1 : l.at' rx.epoch = some tx)
    (h2 : l.los tx rx = some false) (h3 : l.toTx rx tx.frame = some r) :
    l.instant g durOf rx none = .panic := by
  unfold Link.instant
  rw [h1, Option.elim_some, h2, Option.elim_some, if_neg (by simp), h3, Option.elim_some, Station.noisesAt,
    Option.elim_none, ht]
  have : linkValue tx r k 0 = .panic := by cases k <;> simp_all [linkValue]
  simp [Out.bind, fill, List.replicate_succ, this]

/-! ### The hypotheses can be met -/

example (g : Rng ℕ) : ∃ msr p' rng', PosDevice.instant g (((PosDevice.withNoise ⟨"A", [], none⟩ .x Stoch.zero).withNoise .y
      Stoch.zero).withNoise .z Stoch.zero) craft0 none = .ok (msr, p', rng') ∧
    ∃ vs, msr = some ⟨"A", 0, [MsrType.x, .y, .z].zip vs, false⟩ := by
  have hp : PosBuilt (((PosDevice.withNoise ⟨"A", [], none⟩ .x Stoch.zero).withNoise .y Stoch.zero).withNoise .z Stoch.zero) :=
    .withNoise _ _ _ (.withNoise _ _ _ (.withNoise _ _ _ (.new "A")))
  have ht : (((PosDevice.withNoise ⟨"A", [], none⟩ .x Stoch.zero).withNoise .y Stoch.zero).withNoise .z Stoch.zero).types =
      [.x, .y, .z] := by simp [PosDevice.withNoise, insertSet]
  obtain ⟨r, hr⟩ : ∃ r, PosDevice.instant g (((PosDevice.withNoise ⟨"A", [], none⟩ .x Stoch.zero).withNoise .y
      Stoch.zero).withNoise .z Stoch.zero) craft0 none = .ok r := by
    simp [PosDevice.instant, PosDevice.withNoise, insertSet, PosDevice.fill, coordAt, PosDevice.biasOf, upsert, find,
      Stoch.zero, Out.bind]
  obtain ⟨msr, p', rng'⟩ := r
  obtain ⟨ns, vs, h1, -⟩ := position_partial g _ _ hp _ _ _ _ hr (by rw [ht]) (by
    intro m hm q hq b hb
    simp only [PosDevice.withNoise, upsert, Option.getD_none, Option.getD_some, Option.some.injEq, reduceCtorEq,
      if_false] at hm
    subst hm
    simp only [List.mem_cons, List.not_mem_nil, or_false] at hq
    rcases hq with rfl | rfl | rfl <;> cases hb)
  rw [ht] at h1
  exact ⟨_, _, _, hr, vs, h1⟩

example (g : Rng ℕ) (p : PosDevice) (hp : PosBuilt p) (rx : Craft ℝ Fr) :
    ((((p.withNoise .x .zero).withNoise .y .zero).withNoise .z .zero).withNoise .range .zero).instant g rx none = .panic := by
  have hb := PosBuilt.withNoise _ .range Stoch.zero (.withNoise _ .z Stoch.zero (.withNoise _ .y Stoch.zero
    (.withNoise _ .x Stoch.zero hp)))
  refine position_panics g _ hb rx ?_
  have hsub : [MsrType.x, .y, .z, .range] ⊆
      ((((p.withNoise .x .zero).withNoise .y .zero).withNoise .z .zero).withNoise .range .zero).types := by
    intro k hk
    simp only [List.mem_cons, List.not_mem_nil, or_false] at hk
    simp only [PosDevice.withNoise, mem_insertSet]
    tauto
  have := (List.Nodup.subperm (by decide) hsub).length_le
  simp only [List.length_cons, List.length_nil] at this
  omega

/-- A link between a spacecraft at rest and one which moves along the line of sight. -/
noncomputable def craft1 : Craft ℝ Unit :=
  ⟨(), 0, ![6000, 0, 0], ![1, 0, 0], 100, 50, 0, 1, 1, 1, 2, none, .coast, none, none⟩

noncomputable def link0 : Link Unit := ⟨station0, fun _ => some craft1, fun _ _ => some false, fun x _ => some x⟩

example : ∃ v, linkValue craft1 craft0 .doppler 0 = .ok v ∧
    ¬ HasDerivAt (fun u => distance (fun i => craft0.pos i + u * craft0.vel i) (fun i => craft1.pos i + u * craft1.vel i)) v 0 := by
  have hlin : ∀ a b : ℝ, HasDerivAt (fun u : ℝ => a + u * b) b 0 := fun a b =>
    ((hasDerivAt_id (0 : ℝ)).mul_const b).const_add a |>.congr_deriv (one_mul b)
  obtain ⟨v, h1, -, h2⟩ := link_doppler_wrong craft1 craft0 (fun u i => craft0.pos i + u * craft0.vel i)
    (fun u i => craft1.pos i + u * craft1.vel i) 0 (by funext i; simp) (by funext i; simp) (fun i => hlin _ _) (fun i => hlin _ _)
    (by
      unfold distance craft0 craft1
      simp only [Matrix.cons_val]
      rw [Real.sqrt_ne_zero']
      norm_num)
  refine ⟨v, h1, fun h => ?_⟩
  have := h2.1 h
  unfold dot3 craft0 craft1 at this
  simp only [Pi.sub_apply, Matrix.cons_val] at this
  norm_num at this

example (g : Rng ℕ) : ∃ msr st' rng', link0.instant g (fun _ => 0) craft0 none = .ok (msr, st', rng') ∧
    ∃ vs, msr = some ⟨"A", 0, station0.types.zip vs, false⟩ := by
  have ht : station0.types = [.range, .doppler] := by
    simp [station0, Station.withType, Station.fromPoint, insertSet]
  obtain ⟨r, hr⟩ : ∃ r, link0.instant g (fun _ => 0) craft0 none = .ok r := by
    unfold Link.instant
    simp only [link0, Option.elim_some, Bool.false_eq_true, if_false, Station.noisesAt, Option.elim_none, ht]
    exact ⟨_, rfl⟩
  obtain ⟨msr, st', rng'⟩ := r
  obtain ⟨tx, hidden, h1, h2, -, h3⟩ := link_partial g _ link0 (built_consistent station0_built).types _ _ _ _ _ hr
  cases h2
  obtain ⟨r, -, stamp, ns, vs, -, h4, -⟩ := h3 rfl
  exact ⟨_, _, _, hr, vs, h4⟩

example (g : Rng ℕ) : (Link.mk ((Station.fromPoint "A").withType .azimuth .zero) (fun _ => some craft1)
    (fun _ _ => some false) (fun x _ => some x)).instant g (fun _ => 0) craft0 none = .panic :=
  link_panics g _ _ craft0 craft1 craft0 .azimuth [] rfl (by simp) rfl rfl rfl

end Verif.Device
