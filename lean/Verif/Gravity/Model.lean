import Verif.Force.Model

/-!
Model of the gravity field: nyx-core/src/dynamics/gravity_field.rs and the storage of
nyx-core/src/io/gravity.rs.

Floating point numbers are reals. A matrix access outside of the bounds, which panics or, with
`get_unchecked`, is undefined behaviour, and the use of a number that is not finite both give `none`, so that
`some` means that neither happened. The computation is written for any type of numbers `K` with a function
`lift` from the reals, and used with the reals in `eom` and with hyperdual numbers in `gradient`.
-/
namespace Verif.Gravity
open Verif.MathU Matrix
open Verif.Force (Alm Orb AModel Dual M3)

/-- `DMatrix`, square; an entry that is `none` is not a finite number. -/
structure Mat (K : Type) where
  size : ℕ
  val : ℕ → ℕ → Option K

variable {K : Type}

/-- `m[(i, j)]` and `m.get_unchecked((i, j))`, with the check of the bounds. -/
def Mat.get (M : Mat K) (i j : ℕ) : Option K := if i < M.size ∧ j < M.size then M.val i j else none

/-- `m[(i, j)] = x`. -/
def Mat.set (M : Mat K) (i j : ℕ) (x : K) : Option (Mat K) :=
  if i < M.size ∧ j < M.size then some ⟨M.size, fun a b => if a = i ∧ b = j then some x else M.val a b⟩ else none

/-- `DMatrix::from_element`. -/
def Mat.const (n : ℕ) (x : K) : Mat K := ⟨n, fun _ _ => some x⟩

/-- The same matrix with other numbers. -/
def Mat.map {L : Type} (f : K → L) (M : Mat K) : Mat L := ⟨M.size, fun i j => (M.val i j).map f⟩

/-- `for i in lo..hi`. -/
def loop {σ : Type} (lo hi : ℕ) (f : ℕ → σ → Option σ) (s : σ) : Option σ :=
  (List.range' lo (hi - lo)).foldlM (fun s i => f i s) s

/-- `f64::sqrt`; NaN for negative numbers. -/
noncomputable def csqrt (x : ℝ) : Option ℝ := if x < 0 then none else some (Real.sqrt x)

/-- A division; infinite or NaN for a zero divisor. -/
noncomputable def cdiv (a b : ℝ) : Option ℝ := if b = 0 then none else some (a / b)

/-- `GravityFieldData`. io/gravity.rs:90-96. -/
structure Data (Fr : Type) where
  degree : ℕ
  order : ℕ
  c : Mat ℝ
  s : Mat ℝ
  frame : Fr

variable {Fr : Type}

/-- `GravityFieldData::cs_nm`. io/gravity.rs:513-515. -/
def Data.cs (d : Data Fr) (n m : ℕ) : Option (ℝ × ℝ) := (d.c.get n m).bind fun c => (d.s.get n m).map fun s => (c, s)

/-- `GravityField`; the hyperdual matrices are those of the reals, lifted. dynamics/gravity_field.rs:35-48, 94-117. -/
structure Field (Fr : Type) where
  data : Data Fr
  a : Mat ℝ
  b : Mat ℝ
  c : Mat ℝ
  vr01 : Mat ℝ
  vr11 : Mat ℝ

/-- The diagonal of `a_nm`. dynamics/gravity_field.rs:60-66. -/
noncomputable def diagonal (size : ℕ) : Option (Mat ℝ) :=
  ((Mat.const (size + 1) (0 : ℝ)).set 0 0 1).bind <|
    loop 1 (size + 1) fun n a =>
      (a.get (n - 1) (n - 1)).bind fun x =>
        a.set n n (Real.sqrt (1 + 1 / (2 * (n : ℝ))) * x)

/-- An entry of `c_nm`. dynamics/gravity_field.rs:73-76. -/
noncomputable def cEntry (n m : ℕ) : Option ℝ :=
  (cdiv ((2 * n + 1) * (n + m - 1) * (n - m - 1)) ((n - m) * (n + m) * (2 * n - 3))).bind csqrt

/-- An entry of `b_nm`. dynamics/gravity_field.rs:78-80. -/
noncomputable def bEntry (n m : ℕ) : Option ℝ :=
  (cdiv ((2 * n + 1) * (2 * n - 1)) ((n + m) * (n - m))).bind csqrt

/-- Division by the root of two when the order is zero. dynamics/gravity_field.rs:87-90. -/
noncomputable def half (m : ℕ) (x : ℝ) : ℝ := if m = 0 then x / Real.sqrt 2 else x

/-- An entry of `vr01`. dynamics/gravity_field.rs:82, 87-90. -/
noncomputable def vr01Entry (n m : ℕ) : Option ℝ := (csqrt ((n - m) * (n + m + 1))).map (half m)

/-- An entry of `vr11`. dynamics/gravity_field.rs:83-90. -/
noncomputable def vr11Entry (n m : ℕ) : Option ℝ :=
  ((cdiv ((2 * n + 1) * (n + m + 2) * (n + m + 1)) (2 * n + 3)).bind csqrt).map (half m)

/-- `GravityField::new`. The loops over `n` and `m` set each entry of the four matrices once, from `n` and `m` alone.
dynamics/gravity_field.rs:52-132. -/
noncomputable def Field.new (d : Data Fr) : Option (Field Fr) :=
  (diagonal (d.degree + 2)).map fun a =>
    ⟨d, a, ⟨d.degree + 2, bEntry⟩, ⟨d.degree + 2, cEntry⟩, ⟨d.degree + 2, vr01Entry⟩, ⟨d.degree + 2, vr11Entry⟩⟩

section
variable [Add K] [Sub K] [Mul K] [Div K] (lift : ℝ → K)

/-- The normalized Legendre functions of `u`, from the diagonal `a`. dynamics/gravity_field.rs:167-181, 302-316. -/
noncomputable def table (N M : ℕ) (b c : Mat ℝ) (u : K) (a : Mat K) : Option (Mat K) :=
  (a.set 1 0 (u * lift (Real.sqrt 3))).bind fun a =>
    (loop 1 (N + 1 + 1) (fun n a => (a.get n n).bind fun x =>
      a.set (n + 1) n (lift (Real.sqrt (2 * n + 3)) * u * x)) a).bind fun a =>
        loop 0 (M + 1 + 1) (fun m a =>
          loop (m + 2) (N + 1 + 1) (fun n a =>
            ((b.map lift).get n m).bind fun bv => (a.get (n - 1) m).bind fun a1 =>
              ((c.map lift).get n m).bind fun cv => (a.get (n - 2) m).bind fun a2 =>
                a.set n m (u * bv * a1 - cv * a2)) a) a

/-- `r_m` and `i_m`. dynamics/gravity_field.rs:183-193, 318-328. -/
noncomputable def powers (k : ℕ) (s t : K) : Option (List K × List K) :=
  loop 1 (k + 1) (fun m p =>
    (p.1[m - 1]?).bind fun r => (p.2[m - 1]?).map fun i =>
      (p.1 ++ [s * r - t * i], p.2 ++ [s * i + t * r])) ([lift 1], [lift 0])

/-- `d_`, `e_` and `f_`. dynamics/gravity_field.rs:218-237, 362-384. -/
noncomputable def def3 (p : List K × List K) (m : ℕ) (c s : K) : Option (K × K × K) :=
  (p.1[m]?).bind fun r => (p.2[m]?).bind fun i =>
    if m = 0 then some ((c * r + s * i) * lift (Real.sqrt 2), lift 0, lift 0)
    else (p.1[m - 1]?).bind fun r1 => (p.2[m - 1]?).map fun i1 =>
      ((c * r + s * i) * lift (Real.sqrt 2), (c * r1 + s * i1) * lift (Real.sqrt 2), (s * r1 - c * i1) * lift (Real.sqrt 2))

end

/-- Four accumulators (`sum`, `accel4`; `sum0`..`sum3`, `a0`..`a3`). -/
structure Four (K : Type) where
  x : K
  y : K
  z : K
  w : K

/-- The inner loop of `eom`, for a degree. dynamics/gravity_field.rs:214-246. -/
noncomputable def eomSum (f : Field Fr) (a : Mat ℝ) (p : List ℝ × List ℝ) (n : ℕ) : Option (Four ℝ) :=
  loop 0 (min n f.data.order + 1) (fun m sum =>
    (f.data.cs n m).bind fun cs => (def3 id p m cs.1 cs.2).bind fun d =>
      (a.get n m).bind fun anm => (f.vr01.get n m).bind fun v0 => (a.get n (m + 1)).bind fun a1 =>
        (f.vr11.get n m).bind fun v1 => (a.get (n + 1) (m + 1)).map fun a2 =>
          ⟨sum.x + m * anm * d.2.1, sum.y + m * anm * d.2.2, sum.z + v0 * a1 * d.1, sum.w - v1 * a2 * d.1⟩)
    ⟨0, 0, 0, 0⟩

/-- The acceleration in the frame of the field, for a position which is not the center.
dynamics/gravity_field.rs:156-254. -/
noncomputable def accel (f : Field Fr) (mu radius : ℝ) (q : V3) : Option V3 :=
  let N := f.data.degree
  let M := f.data.order
  let r := nrm q
  if r = 0 then none
  else
    let s := q 0 / r
    let t := q 1 / r
    let u := q 2 / r
    (table id N M f.b f.c u f.a).bind fun a =>
      (powers id (min N M) s t).bind fun p =>
        let rho := radius / r
        (cdiv 1 radius).bind fun _ =>
        (loop 1 (N + 1) (fun n st =>
          (eomSum f a p n).map fun sum =>
            let rhoN := st.1 * rho
            let rr := rhoN / radius
            (rhoN, (⟨st.2.x + rr * sum.x, st.2.y + rr * sum.y, st.2.z + rr * sum.z, st.2.w + rr * sum.w⟩ : Four ℝ)))
          (mu / r * rho, ⟨0, 0, 0, 0⟩)).map fun st =>
            ![st.2.x + st.2.w * s, st.2.y + st.2.w * t, st.2.z + st.2.w * u]

/-- `GravityField::eom`. dynamics/gravity_field.rs:148-268. -/
noncomputable def eom (alm : Alm Fr) (f : Field Fr) (o : Orb Fr) : Option V3 :=
  (alm.transformTo o f.data.frame).bind fun st =>
    (alm.radius f.data.frame).bind fun radius =>
      (alm.mu f.data.frame).bind fun mu =>
        (accel f mu radius st.pos).bind fun a =>
          (alm.rotate f.data.frame o.frame o.epoch).map fun dcm => dcm *ᵥ a

section
variable [Add K] [Sub K] [Mul K] [Div K] (lift : ℝ → K)

/-- The matrix of the gradient before the recursions: the diagonal is copied. dynamics/gravity_field.rs:296-300. -/
noncomputable def gradStart (f : Field Fr) (N : ℕ) : Option (Mat K) :=
  loop 0 (N + 1 + 1) (fun i a => ((f.a.map lift).get i i).bind fun x => a.set i i x) (Mat.const (N + 3) (lift 0))

/-- The inner loop of `gradient`, for a degree. dynamics/gravity_field.rs:355-395. -/
noncomputable def gradSum (f : Field Fr) (a : Mat K) (p : List K × List K) (n : ℕ) : Option (Four K) :=
  loop 0 (min n f.data.order + 1) (fun m sum =>
    (f.data.cs n m).bind fun cs => (def3 lift p m (lift cs.1) (lift cs.2)).bind fun d =>
      (a.get n m).bind fun anm => ((f.vr01.map lift).get n m).bind fun v0 => (a.get n (m + 1)).bind fun a1 =>
        ((f.vr11.map lift).get n m).bind fun v1 => (a.get (n + 1) (m + 1)).map fun a2 =>
          ⟨sum.x + lift m * anm * d.2.1, sum.y + lift m * anm * d.2.2, sum.z + v0 * a1 * d.1, sum.w + v1 * a2 * d.1⟩)
    ⟨lift 0, lift 0, lift 0, lift 0⟩

/-- The acceleration with its partials in the frame of the field, where `x` is the position and `r` its norm.
dynamics/gravity_field.rs:285-401, 413. -/
noncomputable def accelD (f : Field Fr) (mu radius : ℝ) (x : Fin 3 → K) (r : K) : Option (Fin 3 → K) :=
  let N := f.data.degree
  let M := f.data.order
  let s := x 0 / r
  let t := x 1 / r
  let u := x 2 / r
  (gradStart lift f N).bind fun a =>
  (table lift N M f.b f.c u a).bind fun a =>
    (powers lift (min N M) s t).bind fun p =>
      let rho := lift radius / r
      (cdiv 1 radius).bind fun _ =>
      (loop 1 (N + 1) (fun n st =>
        (gradSum lift f a p n).map fun sum =>
          let rhoN := st.1 * rho
          let rr := rhoN / lift radius
          (rhoN, (⟨st.2.x + rr * sum.x, st.2.y + rr * sum.y, st.2.z + rr * sum.z, st.2.w - rr * sum.w⟩ : Four K)))
        (lift mu / r * rho, ⟨lift 0, lift 0, lift 0, lift 0⟩)).map fun st =>
          ![st.2.x + st.2.w * s, st.2.y + st.2.w * t, st.2.z + st.2.w * u]

end

/-- `GravityField::gradient`. The hyperdual numbers of the code have three more derivatives, which are never set.
dynamics/gravity_field.rs:273-431. -/
noncomputable def gradient (alm : Alm Fr) (f : Field Fr) (o : Orb Fr) : Option (V3 × M3) :=
  (alm.transformTo o f.data.frame).bind fun st =>
    if nrm st.pos = 0 then none
    else
      (alm.radius f.data.frame).bind fun radius =>
        (alm.mu f.data.frame).bind fun mu =>
          (accelD Dual.ofReal f mu radius (Dual.vars st.pos) (Dual.norm3 (Dual.vars st.pos))).bind fun a =>
            (alm.rotate f.data.frame o.frame o.epoch).map fun dcm =>
              (dcm *ᵥ (fun i => (a i).re), dcm * (of fun i j => (a i).eps j) * dcmᵀ)

/-- `GravityField` as an acceleration model. dynamics/gravity_field.rs:147-432. -/
noncomputable def model (alm : Alm Fr) (f : Field Fr) : AModel Fr := ⟨eom alm f, gradient alm f⟩

/-- `GravityFieldData::from_j2`. io/gravity.rs:117-128. -/
noncomputable def Data.fromJ2 (j2 : ℝ) (frame : Fr) : Option (Data Fr) :=
  ((Mat.const 3 (0 : ℝ)).set 2 0 j2).map fun c => ⟨2, 0, c, Mat.const 3 0, frame⟩

end Verif.Gravity
