import Verif.Fixing.Model
import Verif.Rep.Props
import Verif.Solver.Vec
import Verif.Base.Outcome
import Mathlib.Analysis.SpecialFunctions.Trigonometric.Basic
import Mathlib.Analysis.SpecialFunctions.Sqrt

/-!
# The propagators in the Landau gauge

Model of `/repo/source/gauge_fixing/LandauGluonPropagator.cpp` and `LandauGhostPropagator.cpp` on one process, with exact arithmetic.  The
sums over the threads are sums over the sites (C08).  Printed lines are left out, except the records that go to the output files.
-/

set_option autoImplicit false

namespace Leonard

open Matrix

noncomputable section

variable {S : Type} {N : ℕ}

/-- The number of the generators, `lieGenerators.numberGenerators()`, as an index type. -/
abbrev Gen (N : ℕ) := Fin (lieGenerators N).length

/-! ### The momenta -/

/-- `momentum[mu] = n[mu]*2.*PI/glob_mu`, `LandauGluonPropagator.cpp:33-37`, `LandauGhostPropagator.cpp:434-438`. -/
def waveVector (L : Fin 4 → ℕ) (n : Fin 4 → ℕ) (μ : Fin 4) : ℝ := n μ * 2 * Real.pi / L μ

/-- `mean`, `LandauGluonPropagator.cpp:39`. -/
def meanMomentum (k : Fin 4 → ℝ) : ℝ := (k 0 + k 1 + k 2 + k 3) / 4

/-- `deviation`, `LandauGluonPropagator.cpp:40`. -/
def momentumDeviation (k : Fin 4 → ℝ) : ℝ :=
  |k 0 - meanMomentum k| + |k 1 - meanMomentum k| + |k 2 - meanMomentum k| + |k 3 - meanMomentum k|

/-- The values of the loop `for (int i = 0; i < m; ++i)` with a floating point bound `m`. -/
def belowReal (m : ℝ) : List ℕ := List.range ⌈m⌉₊

/-- The four loops and the cut, `LandauGluonPropagator.cpp:23-48`, `LandauGhostPropagator.cpp:424-449`: the list `pn` (`momenta` is its
image under `waveVector`). -/
def momentumList (L : Fin 4 → ℕ) (m : Fin 4 → ℝ) (cut : ℝ) : List (Fin 4 → ℕ) :=
  (((belowReal (m 0)).flatMap fun i => (belowReal (m 1)).flatMap fun j => (belowReal (m 2)).flatMap fun k =>
    (belowReal (m 3)).map fun l => (![i, j, k, l] : Fin 4 → ℕ)).filter
      fun n => decide (momentumDeviation (waveVector L n) < cut))

/-- The physical momentum `p`, `LandauGluonPropagator.cpp:138-142`. -/
def latticeMomentum (k : Fin 4 → ℝ) (μ : Fin 4) : ℝ := 2 * Real.sin (k μ / 2)

/-- `modulus`, `LandauGluonPropagator.cpp:144`. -/
def momentumModulus (k : Fin 4 → ℝ) : ℝ :=
  Real.sqrt (latticeMomentum k 0 * latticeMomentum k 0 + latticeMomentum k 1 * latticeMomentum k 1
    + latticeMomentum k 2 * latticeMomentum k 2 + latticeMomentum k 3 * latticeMomentum k 3)

/-! ### The gluon propagator -/

/-- `delta[mu][nu]`, `LandauGluonPropagator.cpp:50-62`. -/
def midpoint (μ ν : Fin 4) : ℝ := if μ = ν then 1 / 2 else 0

/-- `phase`, `LandauGluonPropagator.cpp:106-110`. -/
def gluonPhase (T : Torus S) (k : Fin 4 → ℝ) (μ : Fin 4) (s : S) : ℝ :=
  (T.coord s 0 + midpoint μ 0) * k 0 + (T.coord s 1 + midpoint μ 1) * k 1 + (T.coord s 2 + midpoint μ 2) * k 2
    + (T.coord s 3 + midpoint μ 3) * k 3

/-- `resultAk[mu][c]`, `LandauGluonPropagator.cpp:113, 117, 128`. -/
def gluonPlus [Fintype S] (T : Torus S) (U : GField S N) (k : Fin 4 → ℝ) (μ : Fin 4) (c : Gen N) : ℂ :=
  ∑ s, (⟨Real.cos (gluonPhase T k μ s), Real.sin (gluonPhase T k μ s)⟩ : ℂ) * trace (lieField (U s μ) * gens N c)

/-- `resultAmk[mu][c]`, `LandauGluonPropagator.cpp:114, 118, 129`. -/
def gluonMinus [Fintype S] (T : Torus S) (U : GField S N) (k : Fin 4 → ℝ) (μ : Fin 4) (c : Gen N) : ℂ :=
  ∑ s, (⟨Real.cos (gluonPhase T k μ s), -Real.sin (gluonPhase T k μ s)⟩ : ℂ) * trace (lieField (U s μ) * gens N c)

/-- The two-point function with its normalisation, `LandauGluonPropagator.cpp:149-165`. -/
def gluonTwoPoint [Fintype S] (T : Torus S) (U : GField S N) (k : Fin 4 → ℝ) : ℝ :=
  (∑ μ, ∑ c, (gluonPlus T U k μ c * gluonMinus T U k μ c).re)
    / if momentumModulus k < 0.0000000000000001 then 4 else 3

/-- `three_point_function`, `LandauGluonPropagator.cpp:179-190`; `A0` is `Azero`. -/
def gluonThreePoint [Fintype S] (T : Torus S) (U : GField S N) (A0 : Fin 4 → Gen N → ℂ) (k : Fin 4 → ℝ) : ℂ :=
  ∑ c1, ∑ c2, ∑ c3, ∑ μ1, ∑ μ2, (⟨0, -2⟩ : ℂ) * trace ((gens N c1 * gens N c2 - gens N c2 * gens N c1) * gens N c3)
    * gluonPlus T U k μ1 c1 * A0 μ2 c2 * gluonMinus T U k μ1 c3 * (latticeMomentum k μ2 : ℂ)
    / (6 * (momentumModulus k : ℂ) * (momentumModulus k : ℂ))

/-- A division by `modulus` zero is a NaN, as are all sums with it. -/
def gluonVertex [Fintype S] (T : Torus S) (U : GField S N) (A0 : Fin 4 → Gen N → ℂ) (k : Fin 4 → ℝ) : Option ℝ :=
  if momentumModulus k = 0 then none else some (gluonThreePoint T U A0 k).im

/-- What is written for one momentum: the numbers of the record of `gluon_propagator`, and those of `three_gluon_vertex`. -/
structure GluonRecord where
  propagator : List ℝ
  vertex : List (Option ℝ)

/-- One pass of the loop over the momenta and the lines that are written for it, `LandauGluonPropagator.cpp:80-223`. -/
def gluonRecord [Fintype S] (T : Torus S) (U : GField S N) (first : Fin 4 → ℕ) (i : ℕ) (n : Fin 4 → ℕ) : GluonRecord :=
  let k := waveVector T.ext n
  { propagator := [momentumModulus k, gluonTwoPoint T U k, n 0, n 1, n 2, n 2]
    vertex := [some (momentumModulus k), if i = 0 then some 0 else gluonVertex T U (gluonPlus T U (waveVector T.ext first)) k,
      some (n 0), some (n 1), some (n 2), some (n 3)] }

/-- `LandauGluonPropagator::execute`, `LandauGluonPropagator.cpp:14-232`: the records in their order. A list of fewer than four maximal
momenta is read past its end. -/
def gluonExecute [Fintype S] (T : Torus S) (U : GField S N) (maximal : List ℝ) (cut : ℝ) : Outcome (List GluonRecord) :=
  match maximal with
  | m0 :: m1 :: m2 :: m3 :: _ =>
    let pn := momentumList T.ext ![m0, m1, m2, m3] cut
    .ok (pn.zipIdx.map fun x => gluonRecord T U (pn.headD 0) x.2 x.1)
  | _ => .ub

/-! ### The ghost propagator -/

/-- A field of adjoint vectors, `extended_adjoint_complex_color_vector_t`. -/
abbrev GhostField (S : Type) (N : ℕ) := S × Gen N → ℂ

/-- `A[site][mu].at(a,b)`, `LandauGhostPropagator.cpp:40, 193`. -/
def ghostA (T : Torus S) (U : GField S N) (s : S) (μ : Fin 4) (a b : Gen N) : ℝ :=
  (trace ((gens N a * gens N b + gens N b * gens N a) * (U s μ + U (T.sdn μ s) μ))).re

/-- `B[site][mu].at(a,b)`, `LandauGhostPropagator.cpp:41, 194`. -/
def ghostB (U : GField S N) (s : S) (μ : Fin 4) (a b : Gen N) : ℝ := 2 * (trace (gens N b * gens N a * U s μ)).re

/-- `C[site][mu].at(a,b)`, `LandauGhostPropagator.cpp:42, 195`. -/
def ghostC (T : Torus S) (U : GField S N) (s : S) (μ : Fin 4) (a b : Gen N) : ℝ :=
  2 * (trace (gens N a * gens N b * U (T.sdn μ s) μ)).re

/-- `LandauGhostPropagator::ghostMatrix`, `LandauGhostPropagator.cpp:14-26`. -/
def ghostMatrix (T : Torus S) (U : GField S N) (v : GhostField S N) : GhostField S N := fun x =>
  ∑ μ, (∑ b, (ghostA T U x.1 μ x.2 b : ℂ) * v (x.1, b) - ∑ b, (ghostB U x.1 μ x.2 b : ℂ) * v (T.sup μ x.1, b)
    - ∑ b, (ghostC T U x.1 μ x.2 b : ℂ) * v (T.sdn μ x.1, b))

/-- `phase`, `LandauGhostPropagator.cpp:55-58, 208-211`. -/
def ghostPhase (T : Torus S) (k : Fin 4 → ℝ) (s : S) : ℝ :=
  T.coord s 0 * k 0 + T.coord s 1 * k 1 + T.coord s 2 * k 2 + T.coord s 3 * k 3

/-- `source`, `LandauGhostPropagator.cpp:207-214`. -/
def ghostSource (T : Torus S) (k : Fin 4 → ℝ) (c : Gen N) : GhostField S N := fun x =>
  if x.2 = c then ⟨Real.cos (ghostPhase T k x.1), Real.sin (ghostPhase T k x.1)⟩ else 0

/-- `result`, `LandauGhostPropagator.cpp:347-360, 380-393`. -/
def ghostResult [Fintype S] (T : Torus S) (k : Fin 4 → ℝ) (c : Gen N) (ghost : GhostField S N) : ℂ :=
  ∑ s, (⟨Real.cos (ghostPhase T k s), -Real.sin (ghostPhase T k s)⟩ : ℂ) * ghost (s, c)

open Vec in
/-- The loop of `LandauGhostPropagator::ghostPropagatorBiCGStab`, `LandauGhostPropagator.cpp:242-402`; the first argument counts the steps
still allowed, `result` is what the caller's variable holds.  After a division by zero all vectors are NaN, no comparison is true and the
variable keeps its value.  If `t` vanishes, four components of every colour vector are overwritten (lines 318-323), which for two colours is past
its end; nothing is stored in `result`. -/
def ghostLoop [Fintype S] (T : Torus S) (A : GhostField S N → GhostField S N) (k : Fin 4 → ℝ) (c : Gen N) (ε : ℝ) (rhat : GhostField S N) :
    ℕ → GhostField S N → GhostField S N → GhostField S N → GhostField S N → ℂ → ℂ → ℂ → ℝ → ℂ → Outcome (Bool × ℂ)
  | 0, _, _, _, _, _, _, _, _, result => .ok (false, result)
  | n + 1, x, r, p, nu, alpha, omega, rho, minimal, result =>
    let rhoNext := dot rhat r
    if rhoNext = 0 then .ok (false, result)
    else if omega = 0 then .ok (false, result)
    else
      let beta := (rhoNext / rho) * (alpha / omega)
      let p := r + beta • (p - omega • nu)
      let nu := A p
      let alphatmp := dot rhat nu
      if alphatmp = 0 then .ok (false, result)
      else
        let alpha := rhoNext / alphatmp
        let s := r - alpha • nu
        let t := A s
        if (dot t t).re = 0 then (if (lieGenerators N).length < 4 then .ub else .ok (true, result))
        else
          let omega := dot t s / dot t t
          let x := x + (alpha • p + omega • s)
          let r := s - omega • t
          if norm2 r < ε then .ok (true, ghostResult T k c x)
          else if norm2 r < minimal then ghostLoop T A k c ε rhat n x r p nu alpha omega rhoNext (norm2 r) (ghostResult T k c x)
          else ghostLoop T A k c ε rhat n x r p nu alpha omega rhoNext minimal result

/-- `LandauGhostPropagator::ghostPropagatorBiCGStab`, `LandauGhostPropagator.cpp:181-410`; the caller's variable starts at zero (line 484). -/
def ghostBicg [Fintype S] (T : Torus S) (U : GField S N) (k : Fin 4 → ℝ) (c : Gen N) (ε : ℝ) (maxSteps : ℕ) : Outcome (Bool × ℂ) :=
  let source := ghostSource T k c
  let q := ghostMatrix T U source
  ghostLoop T (ghostMatrix T U) k c ε (source + q) maxSteps source (source - q) 0 0 1 1 1 10000 0

/-- One record, `LandauGhostPropagator.cpp:480-518`: the propagator is left at zero for the first momentum. -/
def ghostRecord [Fintype S] (T : Torus S) (U : GField S N) (c : Gen N) (ε : ℝ) (maxSteps : ℕ) (i : ℕ) (n : Fin 4 → ℕ) : Outcome (List ℝ) :=
  let k := waveVector T.ext n
  if i = 0 then .ok [momentumModulus k, 0, n 0, n 1, n 2, n 3]
  else (ghostBicg T U k c ε maxSteps).bind fun x => .ok [momentumModulus k, x.2.re, n 0, n 1, n 2, n 3]

/-- `LandauGhostPropagator::execute`, `LandauGhostPropagator.cpp:412-524`; `c` is the first generator. -/
def ghostExecute [Fintype S] (T : Torus S) (U : GField S N) (c : Gen N) (maximal : List ℝ) (cut ε : ℝ) (maxSteps : ℕ) :
    Outcome (List (List ℝ)) :=
  match maximal with
  | m0 :: m1 :: m2 :: m3 :: _ => (momentumList T.ext ![m0, m1, m2, m3] cut).zipIdx.mapM fun x => ghostRecord T U c ε maxSteps x.2 x.1
  | _ => .ub

end

end Leonard
