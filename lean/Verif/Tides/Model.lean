import Verif.Gravity.Model

/-!
Model of the solid tides: nyx-core/src/dynamics/solid_tides.rs.

Floating point numbers are reals; errors, accesses out of bounds and numbers that are not finite are `none`. The matrices and loops
are those of `Verif.Gravity.Model`. As there, the computation is written for any type of numbers `K` with a function `lift` from the
reals, and used with the reals in `eom` and with hyperdual numbers in `gradient`.
-/
namespace Verif.Tides
open Verif.MathU Matrix
open Verif.Force (Alm Orb AModel Dual M3)
open Verif.Gravity (Mat loop cdiv csqrt half powers def3 Four)

/-- `TidalPerturber`. dynamics/solid_tides.rs:57-65. -/
structure Perturber (Fr : Type) where
  frame : Fr
  degree3 : Bool

/-- `SolidTides`. dynamics/solid_tides.rs:44-55. -/
structure SolidTides (Fr : Type) where
  frame : Fr
  k2 : ℝ
  k3 : ℝ
  perturbers : List (Perturber Fr)

variable {Fr : Type}

/-- `m[n][k] += x`. -/
def addTo (M : Mat ℝ) (n k : ℕ) (x : ℝ) : Option (Mat ℝ) := (M.get n k).bind fun v => M.set n k (v + x)

/-- The normalized functions of Legendre of the sine and the cosine of the latitude. dynamics/solid_tides.rs:101-107, 142-151. -/
noncomputable def pnm (sn cs : ℝ) : ℕ → ℕ → ℝ
  | 2, 0 => 1 / 2 * (3 * sn ^ 2 - 1) * Real.sqrt 5
  | 2, 1 => 3 * sn * cs * Real.sqrt (5 / 3)
  | 2, 2 => 3 * cs ^ 2 * Real.sqrt (5 / 12)
  | 3, 0 => 1 / 2 * (5 * sn ^ 3 - 3 * sn) * Real.sqrt 7
  | 3, 1 => 3 / 2 * (5 * sn ^ 2 - 1) * cs * Real.sqrt (7 / 6)
  | 3, 2 => 15 * sn * cs ^ 2 * Real.sqrt (7 / 60)
  | 3, 3 => 15 * cs ^ 3 * Real.sqrt (7 / 360)
  | _, _ => 0

/-- The cosine and the sine of the multiples of the longitude, from those of the longitude. dynamics/solid_tides.rs:154-165. -/
noncomputable def multiple (c s : ℝ) : ℕ → ℝ × ℝ
  | 0 => (1, 0)
  | 1 => (c, s)
  | 2 => (c ^ 2 - s ^ 2, 2 * s * c)
  | 3 => (c * (c ^ 2 - 3 * s ^ 2), s * (3 * c ^ 2 - s ^ 2))
  | _ => (0, 0)

/-- `cos_phi`, from the sine. dynamics/solid_tides.rs:87. -/
noncomputable def cosPhi (sn : ℝ) : ℝ := Real.sqrt (max (1 - sn ^ 2) 0)

/-- `cos_lambda` and `sin_lambda`. dynamics/solid_tides.rs:88-97. -/
noncomputable def lambda (s t cp : ℝ) : ℝ × ℝ :=
  (if cp > 1 / 10 ^ 12 then s / cp else 1, if cp > 1 / 10 ^ 12 then t / cp else 0)

/-- `compute_pert`. The transformation has no correction. dynamics/solid_tides.rs:68-174. -/
noncomputable def Perturber.compute (alm : Alm Fr) (epoch : Int) (t : SolidTides Fr) (p : Perturber Fr) (d : Mat ℝ × Mat ℝ) :
    Option (Mat ℝ × Mat ℝ) :=
  (alm.transform p.frame t.frame epoch).bind fun st =>
    let r := nrm st.pos
    (cdiv 1 r).bind fun _ =>
      let sn := st.pos 2 / r
      let cp := cosPhi sn
      let l := lambda (st.pos 0 / r) (st.pos 1 / r) cp
      (alm.mu t.frame).bind fun mu1 =>
        (alm.radius t.frame).bind fun radius =>
          (alm.mu p.frame).bind fun mu2 =>
            (cdiv mu2 mu1).bind fun gm =>
              loop 2 ((if p.degree3 then 3 else 2) + 1) (fun n d =>
                let common := (if n = 2 then t.k2 else t.k3) / (2 * n + 1) * gm * (radius / r) ^ (n + 1)
                loop 0 (n + 1) (fun m d =>
                  let h := multiple l.1 l.2 m
                  (addTo d.1 n m (common * pnm sn cp n m * h.1)).bind fun c =>
                    (addTo d.2 n m (common * pnm sn cp n m * h.2)).map fun s => (c, s)) d) d

/-- The loop of `accumulate_deltas`. dynamics/solid_tides.rs:240-242. -/
noncomputable def accumulateLoop (alm : Alm Fr) (epoch : Int) (t : SolidTides Fr) : List (Perturber Fr) → Mat ℝ × Mat ℝ →
    Option (Mat ℝ × Mat ℝ)
  | [], d => some d
  | p :: ps, d => (p.compute alm epoch t d).bind fun d => accumulateLoop alm epoch t ps d

/-- `accumulate_deltas`. dynamics/solid_tides.rs:232-245. -/
noncomputable def accumulate (alm : Alm Fr) (epoch : Int) (t : SolidTides Fr) : Option (Mat ℝ × Mat ℝ) :=
  accumulateLoop alm epoch t t.perturbers (Mat.const 4 0, Mat.const 4 0)

/-- `b_nm`. dynamics/solid_tides.rs:277-281, 425-429. -/
noncomputable def bNm (n m : ℕ) : Option ℝ :=
  (cdiv ((2 * n + 1) * (2 * n - 1)) ((n + m) * (n - m))).bind csqrt

/-- `c_nm`. dynamics/solid_tides.rs:282-286, 430-434. -/
noncomputable def cNm (n m : ℕ) : Option ℝ :=
  (cdiv ((2 * n + 1) * (n + m - 1) * (n - m - 1)) ((n - m) * (n + m) * (2 * n - 3))).bind csqrt

/-- `vr01`. dynamics/solid_tides.rs:320-326, 473-479. -/
noncomputable def vr01 (n m : ℕ) : Option ℝ := (csqrt ((n - m) * (n + m + 1))).map (half m)

/-- `vr11`. dynamics/solid_tides.rs:327-337, 480-490. -/
noncomputable def vr11 (n m : ℕ) : Option ℝ :=
  ((cdiv ((2 * n + 1) * (n + m + 2) * (n + m + 1)) (2 * n + 3)).bind csqrt).map (half m)

section
variable {K : Type} [Add K] [Sub K] [Mul K] [Div K] (lift : ℝ → K)

/-- The diagonal of `a_nm`. dynamics/solid_tides.rs:267-271, 414-419. -/
noncomputable def diagonal : Option (Mat K) :=
  ((Mat.const 6 (lift 0)).set 0 0 (lift 1)).bind <|
    loop 1 5 fun n a => (a.get (n - 1) (n - 1)).bind fun x => a.set n n (lift (Real.sqrt (1 + 1 / (2 * (n : ℝ)))) * x)

/-- `a_nm`. dynamics/solid_tides.rs:267-292, 414-441. -/
noncomputable def table (u : K) : Option (Mat K) :=
  (diagonal lift).bind fun a =>
    (a.set 1 0 (u * lift (Real.sqrt 3))).bind fun a =>
      (loop 1 5 (fun n a => (a.get n n).bind fun x => a.set (n + 1) n (lift (Real.sqrt (2 * n + 3)) * u * x)) a).bind fun a =>
        loop 0 4 (fun m a =>
          loop (m + 2) 5 (fun n a =>
            (bNm n m).bind fun b => (a.get (n - 1) m).bind fun a1 =>
              (cNm n m).bind fun c => (a.get (n - 2) m).bind fun a2 =>
                a.set n m (u * lift b * a1 - lift c * a2)) a) a

/-- The inner loop of `gradient`, for a degree. dynamics/solid_tides.rs:499-524. -/
noncomputable def gradSum (d : Mat ℝ × Mat ℝ) (a : Mat K) (p : List K × List K) (n : ℕ) : Option (Four K) :=
  loop 0 (n + 1) (fun m sum =>
    (d.1.get n m).bind fun c => (d.2.get n m).bind fun s => (def3 lift p m (lift c) (lift s)).bind fun e =>
      (a.get n m).bind fun anm => (vr01 n m).bind fun v0 => (a.get n (m + 1)).bind fun a1 =>
        (vr11 n m).bind fun v1 => (a.get (n + 1) (m + 1)).map fun a2 =>
          ⟨sum.x + lift m * anm * e.2.1, sum.y + lift m * anm * e.2.2, sum.z + lift v0 * a1 * e.1, sum.w + lift v1 * a2 * e.1⟩)
    ⟨lift 0, lift 0, lift 0, lift 0⟩

/-- The acceleration with its partials in the frame of the tides, where `x` is the position and `r` its norm. The arrays `r_m` and `i_m`
are filled by the loop of the gravity field (`powers`), and `d_`, `e_` and `f_` are its own (`def3`).
dynamics/solid_tides.rs:405-532. -/
noncomputable def accelD (d : Mat ℝ × Mat ℝ) (mu radius : ℝ) (x : Fin 3 → K) (r : K) : Option (Fin 3 → K) :=
  let s := x 0 / r
  let t := x 1 / r
  let u := x 2 / r
  (table lift u).bind fun a =>
    (powers lift 3 s t).bind fun p =>
      let rho := lift radius / r
      (cdiv 1 radius).bind fun _ =>
      (loop 1 4 (fun n st =>
        let rhoN := st.1 * rho
        if n < 2 then some (rhoN, st.2)
        else (gradSum lift d a p n).map fun sum =>
          let rr := rhoN / lift radius
          (rhoN, (⟨st.2.x + rr * sum.x, st.2.y + rr * sum.y, st.2.z + rr * sum.z, st.2.w - rr * sum.w⟩ : Four K)))
        (lift mu / r * rho, ⟨lift 0, lift 0, lift 0, lift 0⟩)).map fun st =>
          ![st.2.x + st.2.w * s, st.2.y + st.2.w * t, st.2.z + st.2.w * u]

end

/-- The inner loop of `eom`, for a degree. dynamics/solid_tides.rs:347-368. -/
noncomputable def eomSum (d : Mat ℝ × Mat ℝ) (a : Mat ℝ) (p : List ℝ × List ℝ) (n : ℕ) : Option (Four ℝ) :=
  loop 0 (n + 1) (fun m sum =>
    (d.1.get n m).bind fun c => (d.2.get n m).bind fun s => (def3 id p m c s).bind fun e =>
      (a.get n m).bind fun anm => (vr01 n m).bind fun v0 => (a.get n (m + 1)).bind fun a1 =>
        (vr11 n m).bind fun v1 => (a.get (n + 1) (m + 1)).map fun a2 =>
          ⟨sum.x + m * anm * e.2.1, sum.y + m * anm * e.2.2, sum.z + v0 * a1 * e.1, sum.w - v1 * a2 * e.1⟩)
    ⟨0, 0, 0, 0⟩

/-- The acceleration in the frame of the tides, for a position which is not the center. dynamics/solid_tides.rs:261-376. -/
noncomputable def accel (d : Mat ℝ × Mat ℝ) (mu radius : ℝ) (q : V3) : Option V3 :=
  let r := nrm q
  if r = 0 then none
  else
    let s := q 0 / r
    let t := q 1 / r
    let u := q 2 / r
    (table id u).bind fun a =>
      (powers id 3 s t).bind fun p =>
        let rho := radius / r
        (cdiv 1 radius).bind fun _ =>
        (loop 1 4 (fun n st =>
          let rhoN := st.1 * rho
          if n < 2 then some (rhoN, st.2)
          else (eomSum d a p n).map fun sum =>
            let rr := rhoN / radius
            (rhoN, (⟨st.2.x + rr * sum.x, st.2.y + rr * sum.y, st.2.z + rr * sum.z, st.2.w + rr * sum.w⟩ : Four ℝ)))
          (mu / r * rho, ⟨0, 0, 0, 0⟩)).map fun st =>
            ![st.2.x + st.2.w * s, st.2.y + st.2.w * t, st.2.z + st.2.w * u]

/-- `SolidTides::eom`. dynamics/solid_tides.rs:250-389. -/
noncomputable def eom (alm : Alm Fr) (t : SolidTides Fr) (o : Orb Fr) : Option V3 :=
  (accumulate alm o.epoch t).bind fun d =>
    (alm.transformTo o t.frame).bind fun st =>
      (alm.radius t.frame).bind fun radius =>
        (alm.mu t.frame).bind fun mu =>
          (accel d mu radius st.pos).bind fun a =>
            (alm.rotate t.frame o.frame o.epoch).map fun dcm => dcm *ᵥ a

/-- `SolidTides::gradient`. The hyperdual numbers of the code have three more derivatives, which are never set.
dynamics/solid_tides.rs:391-559. -/
noncomputable def gradient (alm : Alm Fr) (t : SolidTides Fr) (o : Orb Fr) : Option (V3 × M3) :=
  (accumulate alm o.epoch t).bind fun d =>
    (alm.transformTo o t.frame).bind fun st =>
      if nrm st.pos = 0 then none
      else
        (alm.radius t.frame).bind fun radius =>
          (alm.mu t.frame).bind fun mu =>
            (accelD Dual.ofReal d mu radius (Dual.vars st.pos) (Dual.norm3 (Dual.vars st.pos))).bind fun a =>
              (alm.rotate t.frame o.frame o.epoch).map fun dcm =>
                (dcm *ᵥ (fun i => (a i).re), dcm * (of fun i j => (a i).eps j) * dcmᵀ)

/-- `SolidTides` as an acceleration model. dynamics/solid_tides.rs:249-560. -/
noncomputable def model (alm : Alm Fr) (t : SolidTides Fr) : AModel Fr := ⟨eom alm t, gradient alm t⟩

/-- The checks of one frame: fetched if it has no gravitational parameter, then both constants are required.
dynamics/solid_tides.rs:195-213. -/
def checked (alm : Alm Fr) (f : Fr) : Option Fr :=
  let f? := if (alm.mu f).isNone then alm.info f else some f
  f?.bind fun f => (alm.mu f).bind fun _ => (alm.radius f).map fun _ => f

/-- `earth_moon_system`; `sun` is `SUN_J2000`. dynamics/solid_tides.rs:180-229. -/
noncomputable def earthMoon (alm : Alm Fr) (sun earth moon : Fr) : Option (SolidTides Fr) :=
  (alm.info sun).bind fun sun =>
    (checked alm earth).bind fun earth => (checked alm moon).bind fun moon => (checked alm sun).map fun sun =>
      ⟨earth, 0.3019, 0.093, [⟨moon, true⟩, ⟨sun, false⟩]⟩

end Verif.Tides
