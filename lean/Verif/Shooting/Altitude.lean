import Verif.Shooting.Model
/-!
Model of nyx-core/src/md/opti/multipleshooting/altitude_heuristic.rs: the nodes of a multiple shooting problem near
the altitudes of the free trajectory.
-/
namespace Verif.Shooting
open Verif.Spacecraft (Craft)
open Verif.MathU (V3)
open Verif.Target (Orb)

variable {Fr : Type}

/-- What the heuristic asks of the almanac, of the orbits and of the propagated trajectory; `none` is an error. -/
structure Geo (Fr : Type) where
  /-- `almanac.transform_to(_, body_frame, None)` -/
  toBody : Orb Fr → Option (Orb Fr)
  /-- `almanac.transform_to(_, inertial_frame, None)` -/
  toInertial : Orb Fr → Option (Orb Fr)
  height : Orb Fr → Option ℝ
  latitude : Orb Fr → Option ℝ
  longitude : Orb Fr → ℝ
  /-- `Orbit::try_latlongalt` -/
  latlongalt : ℝ → ℝ → ℝ → Int → Option (Orb Fr)
  /-- the trajectory of `for_duration_with_traj`, and `traj.at` -/
  trajAt : Int → Option (Orb Fr)

/-- One node, altitude_heuristic.rs:73-114: `k` is `node_count - i`. -/
noncomputable def altitudeNode (G : Geo Fr) (frame : Fr) (xfBf : Orb Fr) (k : Nat) (e : Int) : Option (Node Fr) :=
  (G.trajAt e).bind fun p =>
  (G.toBody p).bind fun q =>
  (G.height xfBf).bind fun hf =>
  (G.height q).bind fun h =>
  (G.latitude q).bind fun la =>
  (G.latlongalt la (G.longitude q) (h + (hf - h) / Real.sqrt k) e).bind fun o =>
  (G.toInertial o).bind fun o' => some ⟨o'.pos, 0, e, frame⟩

/-- The loop, altitude_heuristic.rs:71-115. -/
noncomputable def altitudeLoop (G : Geo Fr) (frame : Fr) (xfBf : Orb Fr) (dt : Int) : Nat → Int → Option (List (Node Fr))
  | 0, _ => some []
  | k + 1, e => (altitudeNode G frame xfBf (k + 1) (e + dt)).bind fun n =>
      (altitudeLoop G frame xfBf dt k (e + dt)).bind fun l => some (n :: l)

/-- The nodes of `linear_altitude_heuristic`, altitude_heuristic.rs:37-131. `propagated` says whether the propagation
to the epoch of `xf` succeeds; `divide` is the division of a duration by a number, in hifitime. -/
noncomputable def altitudeNodes (G : Geo Fr) (propagated : Bool) (divide : Int → ℝ → Int) (x0 : Craft ℝ Fr) (xf : Orb Fr)
    (n : Nat) : Option (List (Node Fr)) :=
  if n < 3 then none
  else (G.toBody xf).bind fun xfBf =>
    if propagated then altitudeLoop G x0.frame xfBf (divide (xf.epoch - x0.epoch) n) n x0.epoch else none

/-- `alt` is the altitude of an inertial position at an epoch: that of the orbit in the body frame, and that with which
an orbit is built from its latitude, longitude and altitude (specification of the almanac and of the orbits). -/
structure Altitude (G : Geo Fr) (alt : V3 → Int → ℝ) : Prop where
  body : ∀ p q h, G.toBody p = some q → G.height q = some h → h = alt p.pos p.epoch
  build : ∀ la lo h e o o', G.latlongalt la lo h e = some o → G.toInertial o = some o' → alt o'.pos e = h

theorem altitudeLoop_spec {G : Geo Fr} {frame : Fr} {xfBf : Orb Fr} {dt : Int} : ∀ (k : Nat) (e : Int) (l : List (Node Fr)),
    altitudeLoop G frame xfBf dt k e = some l →
    l.length = k ∧ ∀ (i : Nat) (hi : i < l.length), altitudeNode G frame xfBf (k - i) (e + (i + 1) * dt) = some l[i] := by
  intro k
  induction k with
  | zero =>
    intro e l h
    cases h
    exact ⟨rfl, fun i hi => absurd hi (Nat.not_lt_zero _)⟩
  | succ k ih =>
    intro e l h
    rw [altitudeLoop, Option.bind_eq_some_iff] at h
    obtain ⟨n, hn, h⟩ := h
    rw [Option.bind_eq_some_iff] at h
    obtain ⟨l', hl, h⟩ := h
    cases h
    obtain ⟨h1, h2⟩ := ih _ _ hl
    refine ⟨by rw [List.length_cons, h1], fun i hi => ?_⟩
    cases i with
    | zero => simpa using hn
    | succ i =>
      have := h2 i (by simpa using hi)
      rw [List.getElem_cons_succ, ← this]
      congr 1
      · omega
      · push_cast; ring

/-- **The altitudes of the nodes.** The nodes are as many as asked for, equally spaced in time from the epoch of the
start, and the altitude of each is that of the free trajectory at its epoch plus the remaining difference to the final
altitude over the square root of the number of nodes that are left, this one included; so the last one is at the final
altitude.
Missing from C199: the altitudes do not change linearly (`altitude_linear_false`). -/
theorem altitude_nodes_partial {G : Geo Fr} {alt : V3 → Int → ℝ} (hA : Altitude G alt)
    {pr : Bool} {divide : Int → ℝ → Int} {x0 : Craft ℝ Fr} {xf : Orb Fr} {n : Nat} {l : List (Node Fr)}
    (h : altitudeNodes G pr divide x0 xf n = some l) :
    3 ≤ n ∧ l.length = n ∧ ∀ (i : Nat) (hi : i < l.length),
      (l[i]).epoch = x0.epoch + (i + 1) * divide (xf.epoch - x0.epoch) n ∧ (l[i]).frame = x0.frame ∧ (l[i]).vmag = 0 ∧
      ∃ p, G.trajAt (l[i]).epoch = some p ∧
        alt (l[i]).pos (l[i]).epoch = alt p.pos p.epoch +
          (alt xf.pos xf.epoch - alt p.pos p.epoch) / Real.sqrt ((n : ℝ) - i) ∧
        (i + 1 = n → alt (l[i]).pos (l[i]).epoch = alt xf.pos xf.epoch) := by
  rw [altitudeNodes] at h
  split_ifs at h with hn
  swap
  · rw [Option.bind_eq_some_iff] at h
    obtain ⟨xb, hxb, h⟩ := h
    cases h
  · rw [Option.bind_eq_some_iff] at h
    obtain ⟨xb, hxb, h⟩ := h
    obtain ⟨h1, h2⟩ := altitudeLoop_spec _ _ _ h
    refine ⟨not_lt.1 hn, h1, fun i hi => ?_⟩
    have h3 := h2 i hi
    simp only [altitudeNode, Option.bind_eq_some_iff] at h3
    obtain ⟨p, hp, q, hq, hf, hhf, hh, hhh, la, hla, o, ho, o', ho', he⟩ := h3
    have e1 := hA.body _ _ _ hq hhh
    have e2 := hA.body _ _ _ hxb hhf
    have e3 := hA.build _ _ _ _ _ _ ho ho'
    rw [Option.some.injEq] at he
    rw [← he]
    dsimp only
    have hcast : ((n - i : Nat) : ℝ) = (n : ℝ) - i := Nat.cast_sub (by omega)
    rw [hcast] at e3
    refine ⟨rfl, rfl, rfl, p, hp, ?_, fun hlast => ?_⟩
    · rw [e3, e1, e2]
    · have : (n : ℝ) - i = 1 := by rw [← hlast]; push_cast; ring
      rw [e3, this, Real.sqrt_one, div_one, e2]
      ring

/-- An almanac in which the altitude is the first component of the position and the trajectory stays at 100 km. -/
noncomputable def flatGeo : Geo Unit :=
  ⟨some, some, fun o => some (o.pos 0), fun o => some (o.pos 1), fun o => o.pos 2,
    fun la lo h e => some ⟨(), e, ![h, la, lo], 0⟩, fun e => some ⟨(), e, ![100, 0, 0], 0⟩⟩

theorem flat_altitude : Altitude flatGeo fun p _ => p 0 where
  body p q h h1 h2 := by
    simp only [flatGeo, Option.some.injEq] at h1 h2
    rw [← h2, h1]
  build la lo h e o o' h1 h2 := by
    simp only [flatGeo, Option.some.injEq] at h1 h2
    rw [← h2, ← h1]
    rfl

/-- The start of the documented example. -/
noncomputable def flatStart : Craft ℝ Unit where
  frame := ()
  epoch := 0
  pos := ![100, 0, 0]
  vel := 0
  dry := 0
  prop := 0
  extra := 0
  srpArea := 0
  cr := 0
  dragArea := 0
  cd := 0
  thruster := none
  mode := .coast
  dir := none
  stm := none

theorem flat_nodes (divide : Int → ℝ → Int) (n : Nat) (hn : 3 ≤ n) :
    ∃ l, altitudeNodes flatGeo true divide flatStart ⟨(), 600, ![200, 0, 0], 0⟩ n = some l := by
  have : ∀ dt k e, ∃ l, altitudeLoop flatGeo () ⟨(), 600, ![200, 0, 0], 0⟩ dt k e = some l := by
    intro dt k
    induction k with
    | zero => exact fun e => ⟨[], rfl⟩
    | succ k ih =>
      intro e
      obtain ⟨l, hl⟩ := ih (e + dt)
      obtain ⟨nd, hnd⟩ : ∃ nd, altitudeNode flatGeo () ⟨(), 600, ![200, 0, 0], 0⟩ (k + 1) (e + dt) = some nd := ⟨_, rfl⟩
      exact ⟨nd :: l, by rw [altitudeLoop, hl, hnd]; rfl⟩
  rw [altitudeNodes, if_neg (by omega)]
  exact this _ _ _

/-- **Not linear in altitude.** The documented example: from 100 km to 200 km in ten nodes, the first node is not at
110 km. -/
theorem altitude_linear_false (divide : Int → ℝ → Int) : ∃ (l : List (Node Unit)) (hl : 0 < l.length),
    altitudeNodes flatGeo true divide flatStart ⟨(), 600, ![200, 0, 0], 0⟩ 10 = some l ∧ (l[0]).pos 0 ≠ 110 ∧ 130 < (l[0]).pos 0 := by
  obtain ⟨l, h⟩ := flat_nodes divide 10 (by norm_num)
  obtain ⟨-, h1, h2⟩ := altitude_nodes_partial flat_altitude h
  have hl : 0 < l.length := by omega
  obtain ⟨-, -, -, p, hp, h3, -⟩ := h2 0 hl
  cases hp
  have hs : Real.sqrt 10 < 10 / 3 := by
    rw [Real.sqrt_lt' (by norm_num)]; norm_num
  have hs0 : 0 < Real.sqrt 10 := Real.sqrt_pos.2 (by norm_num)
  have h4 : (30 : ℝ) < 100 / Real.sqrt 10 := by
    rw [lt_div_iff₀ hs0]; linarith
  have h5 : (l[0]).pos 0 = 100 + 100 / Real.sqrt 10 := by
    rw [h3]; norm_num
  exact ⟨l, hl, h, by rw [h5]; intro h6; linarith, by rw [h5]; linarith⟩

noncomputable example (divide : Int → ℝ → Int) :=
  altitude_nodes_partial flat_altitude (flat_nodes divide 10 (by norm_num)).choose_spec
end Verif.Shooting
