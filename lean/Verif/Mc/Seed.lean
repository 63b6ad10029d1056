import Verif.Mc.Runs
/-!
The seeds of the Monte Carlo runs (nyx-core/src/mc/montecarlo.rs), of the simulated tracking arcs
(nyx-core/src/od/simulator/arc.rs) and of the samples in Python (nyx-core/src/mc/python.rs).
-/
namespace Verif.Seed
open Verif.Mc (generateStates rngAfter nth takeN takeN_eq generateStates_eq)

variable {R D X S : Type}

/-- `Pcg64Mcg::new` of `rand_pcg` 0.10 (external): the state is the seed with its lowest bit set. -/
def pcgNew (s : BitVec 128) : BitVec 128 := s ||| 1#128

/-- The multiplier of `Pcg64Mcg` (external). -/
def pcgMult : BitVec 128 := 0x2360ED051FC65DA44385DF649FCCF645#128

/-- The next word of `Pcg64Mcg` (external): the state is multiplied, its halves are combined and rotated by its six first bits. -/
def pcgNext (s : BitVec 128) : BitVec 64 × BitVec 128 :=
  let t := s * pcgMult
  (((t >>> 64).setWidth 64 ^^^ t.setWidth 64).rotateRight (t >>> 122).toNat, t)

/-- The generator of a Monte Carlo run with a seed. montecarlo.rs:284-287. -/
def mcSeed (s : BitVec 128) : BitVec 128 := pcgNew s

/-- The generator of `TrackingArcSim::with_seed`. arc.rs:138-147. -/
def arcSeed (s : BitVec 64) : BitVec 128 := pcgNew (s.setWidth 128)

/-- `MvnSpacecraft.sample` in Python with a seed: `rng` is the generator of `seed_from_u64` (external). mc/python.rs:80-93. -/
def pySample (sample : R → D × R) (state : D → S) : Nat → R → List S
  | 0, _ => []
  | n + 1, rng => state (sample rng).1 :: pySample sample state n (sample rng).2

/-! ### Two seeds -/

theorem bit_zero_succ (w : Nat) (s : BitVec (w + 1)) (h : s.getLsbD 0 = false) (i : Nat) :
    (s + 1#(w + 1)).getLsbD i = (s ||| 1#(w + 1)).getLsbD i := by
  have : s + 1#(w + 1) = s ||| 1#(w + 1) := by
    apply BitVec.add_eq_or_of_and_eq_zero
    ext j hj
    simp only [BitVec.getElem_and, BitVec.getElem_zero, BitVec.getElem_one]
    by_cases h0 : j = 0
    · subst h0
      rw [← BitVec.getLsbD_eq_getElem, h]
      rfl
    · simp [h0]
  rw [this]

theorem even_succ (w : Nat) (s : BitVec (w + 1)) (h : s.getLsbD 0 = false) : s + 1#(w + 1) = s ||| 1#(w + 1) :=
  BitVec.eq_of_getLsbD_eq fun i _ => bit_zero_succ w s h i

theorem even_iff (w : Nat) (s : BitVec (w + 1)) : s.getLsbD 0 = false ↔ s.toNat % 2 = 0 := by
  rw [BitVec.getLsbD, Nat.testBit_zero]
  simp

/-- **C258.** The claim is false: a Monte Carlo run with an even seed and that with the next seed are the same run, whatever is
sampled; so are the measurements (any result `X` of the generator) simulated with an even seed and with the next. -/
theorem next_seed_same :
    (∀ s : BitVec 128, s.toNat % 2 = 0 → s ≠ s + 1 ∧ ∀ (D : Type) (sample : BitVec 128 → D × BitVec 128) skip n,
      generateStates sample (mcSeed s) skip n = generateStates sample (mcSeed (s + 1)) skip n) ∧
    ∀ s : BitVec 64, s.toNat % 2 = 0 → s ≠ s + 1 ∧ ∀ (X : Type) (simulate : BitVec 128 → X),
      simulate (arcSeed s) = simulate (arcSeed (s + 1)) := by
  have hne : ∀ w (s : BitVec (w + 1)), s.toNat % 2 = 0 → s ≠ s + 1#(w + 1) := by
    intro w s h e
    have h2 := even_succ w s ((even_iff w s).2 h)
    rw [← e] at h2
    have := congrArg (fun b => b.getLsbD 0) h2
    simp only [BitVec.getLsbD_or] at this
    rw [(even_iff w s).2 h] at this
    simp at this
  refine ⟨fun s h => ⟨hne 127 s h, fun D sample skip n => ?_⟩, fun s h => ⟨hne 63 s h, fun X simulate => ?_⟩⟩
  · have : mcSeed s = mcSeed (s + 1#128) := by
      unfold mcSeed pcgNew
      rw [even_succ 127 s ((even_iff 127 s).2 h), BitVec.or_assoc, BitVec.or_self]
    exact congrArg (fun r => generateStates sample r skip n) this
  · have : arcSeed s = arcSeed (s + 1#64) := by
      unfold arcSeed pcgNew
      rw [even_succ 63 s ((even_iff 63 s).2 h)]
      ext i hi
      simp only [BitVec.getElem_or, BitVec.getElem_setWidth, BitVec.getLsbD_or, BitVec.getElem_one, BitVec.getLsbD_one]
      by_cases h0 : i = 0 <;> simp [h0]
    exact congrArg simulate this

theorem mult_injective : Function.Injective fun s : BitVec 128 => s * pcgMult := by
  have hi : pcgMult * 0x7dda22b9397986098abc8b0716eac8d#128 = 1#128 := by decide +kernel
  intro s t h
  have := congrArg (· * 0x7dda22b9397986098abc8b0716eac8d#128) h
  simpa only [BitVec.mul_assoc, hi, BitVec.mul_one] using this

/-- **C258, in part.** Two seeds which differ in another bit than the lowest: the generators, after the same number of words, are
never in the same state. Missing: the seeds which differ in the lowest bit, see `next_seed_same`; that different states give
different words. -/
theorem seeds_apart_partial (s t : BitVec 128) (h : s.toNat / 2 ≠ t.toNat / 2) (k : Nat) :
    rngAfter pcgNext (mcSeed s) k ≠ rngAfter pcgNext (mcSeed t) k := by
  induction k with
  | zero =>
    intro e
    apply h
    have e' : s ||| 1#128 = t ||| 1#128 := e
    have h1 : ∀ a : BitVec 128, a.toNat / 2 = (a ||| 1#128).toNat / 2 := by
      intro a
      rw [BitVec.toNat_or]
      apply Nat.eq_of_testBit_eq
      intro i
      rw [Nat.testBit_div_two, Nat.testBit_div_two, Nat.testBit_or]
      simp [Nat.testBit_succ]
    rw [h1 s, h1 t, e']
  | succ k ih => exact fun e => ih (mult_injective e)

/-! ### More samples -/

theorem pySample_eq (sample : R → D × R) (state : D → S) (n : Nat) (rng : R) :
    pySample sample state n rng = (takeN sample n rng).map state := by
  induction n generalizing rng with
  | zero => rfl
  | succ n ih => rw [pySample, takeN, ih, List.map_cons]

/-- **C259.** The samples in Python with a seed: as many as asked for; with a larger number the first ones are the same; and they are the
states which a Monte Carlo run with this generator starts from. -/
theorem py_samples (sample : R → D × R) (state : D → S) (rng : R) (n : Nat) :
    (pySample sample state n rng).length = n ∧
    (∀ m, pySample sample state n rng <+: pySample sample state (n + m) rng) ∧
    pySample sample state n rng = (generateStates sample rng 0 n).map fun p => state p.2 := by
  refine ⟨by rw [pySample_eq, takeN_eq]; simp, fun m => ?_, ?_⟩
  · rw [pySample_eq, pySample_eq, takeN_eq, takeN_eq, List.range_add, List.map_append, List.map_append]
    exact List.prefix_append _ _
  · rw [pySample_eq, takeN_eq, generateStates_eq]
    simp [Function.comp_def]

/-- **C259.** The first runs of a Monte Carlo study do not depend on how many runs are asked for. -/
theorem more_runs (sample : R → D × R) (rng : R) (skip n m : Nat) :
    generateStates sample rng skip n <+: generateStates sample rng skip (n + m) := by
  rw [generateStates_eq, generateStates_eq, List.range_add, List.map_append]
  exact List.prefix_append _ _

/-! ### The hypotheses can be met -/

example : generateStates pcgNext (mcSeed 42) 3 5 = generateStates pcgNext (mcSeed 43) 3 5 :=
  (next_seed_same.1 42 (by decide)).2 _ pcgNext 3 5
example := seeds_apart_partial 42 44 (by decide) 1000

end Verif.Seed
