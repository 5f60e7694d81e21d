/-
The even-odd reduced clover operator and the solver built on it.

Modelled source: `/repo/source/dirac_operators/EvenOddImprovedDiracWilsonOperator.cpp`,
`SquareEvenOddImprovedDiracWilsonOperator.cpp` and `/repo/source/inverters/PreconditionedBiCGStab.cpp`.

Simplifications as in `Verif/Dirac/Model.lean`.  Loops that write each site from data of the other parity
or of the same site are modelled as acting on all sites at once, except the in-place call
`multiplyEvenOdd(output, output, ODD)`, which is modelled site after site in an arbitrary order.
The inverse of a singular matrix (a division by zero) is `none`; an index outside a matrix is `ub`.
-/
import Verif.Dirac.Model
import Mathlib.LinearAlgebra.Matrix.NonsingularInverse

set_option autoImplicit false

namespace Leonard

open Matrix

variable {S : Type} {N : ℕ}

/-- `(globalIndexX(site) + globalIndexY(site) + globalIndexZ(site) + globalIndexT(site)) % 2`,
`EvenOddImprovedDiracWilsonOperator.cpp:39`; `EVEN = 0` and `ODD = 1`. -/
def siteParity (T : Torus S) (x : S) : ℕ := (T.coord x 0 + T.coord x 1 + T.coord x 2 + T.coord x 3) % 2

/-- The assignments to `output[site]`, `EvenOddImprovedDiracWilsonOperator.cpp:267-272`. -/
noncomputable def eoOut (κ : ℝ) (i : Fin N) (tp tm : Fin 4 → Fin 2 → Fin N → ℂ) : Fin 4 → ℂ :=
  ![(⟨-κ * ((tp 0 0 i).re + (tp 1 0 i).re + (tp 2 0 i).re + (tp 3 0 i).re), -κ * ((tp 0 0 i).im + (tp 1 0 i).im + (tp 2 0 i).im + (tp 3 0 i).im)⟩ : ℂ),
    ⟨-κ * ((tp 0 1 i).re + (tp 1 1 i).re + (tp 2 1 i).re + (tp 3 1 i).re), -κ * ((tp 0 1 i).im + (tp 1 1 i).im + (tp 2 1 i).im + (tp 3 1 i).im)⟩,
    ⟨κ * ((tm 1 1 i).re + (tm 3 0 i).re - (tm 0 1 i).im - (tm 2 0 i).im), κ * ((tm 0 1 i).re + (tm 2 0 i).re + (tm 1 1 i).im + (tm 3 0 i).im)⟩,
    ⟨κ * ((tm 2 1 i).im - (tm 0 0 i).im - (tm 1 0 i).re + (tm 3 1 i).re), κ * ((tm 0 0 i).re - (tm 2 1 i).re - (tm 1 0 i).im + (tm 3 1 i).im)⟩]

/-- The body of the loop of `multiplyEvenOdd` at one site, `EvenOddImprovedDiracWilsonOperator.cpp:210-279`.
The projections (220-236, 245-254) are those of `BasicDiracWilsonOperator.cpp:32-41,55-64`. -/
noncomputable def eoSite (T : Torus S) (U : GField S N) (κ : ℝ) (part : ℕ) (v : SField S N) (x : S) :
    Matrix (Fin 4) (Fin N) ℂ :=
  if siteParity T x = part then
    Matrix.of fun c i =>
      let fwd := fun mu nu n => (U x mu *ᵥ projUp T v x mu nu) n
      let bwd := fun mu nu n => ((U (T.sdn mu x) mu)ᴴ *ᵥ projDn T v x mu nu) n
      eoOut κ i (fun mu nu n => fwd mu nu n + bwd mu nu n) (fun mu nu n => fwd mu nu n - bwd mu nu n) c
  else v x

/-- `multiplyEvenOdd(output, input, part)` for two different vectors,
`EvenOddImprovedDiracWilsonOperator.cpp:204-281`. -/
noncomputable def eoHop (T : Torus S) (U : GField S N) (κ : ℝ) (part : ℕ) (v : SField S N) : SField S N :=
  eoSite T U κ part v

/-- `multiplyEvenOdd(output, output, part)`: the same loop reading and writing the same vector, the
sites visited in the given order. -/
noncomputable def eoHopInPlace [DecidableEq S] (T : Torus S) (U : GField S N) (κ : ℝ) (part : ℕ) (order : List S)
    (v : SField S N) : SField S N :=
  order.foldl (fun o x => Function.update o x (eoSite T U κ part o x)) v

/-- What the loop over `i`, `j` adds to the block of rows `α` and columns `β` of the clover matrix,
`EvenOddImprovedDiracWilsonOperator.cpp:295-312`. -/
noncomputable def cloverCoef (κ csw : ℝ) (F : Fin 6 → Mat N) (α β : Fin 4) (i j : Fin N) : ℂ :=
  ![![(κ * csw : ℂ) * Complex.I * (-F 0 i j + F 5 i j), (κ * csw : ℂ) * (F 1 i j + F 4 i j + mulI (F 2 i j - F 3 i j)), 0, 0],
    ![(κ * csw : ℂ) * (-F 1 i j - F 4 i j + mulI (F 2 i j - F 3 i j)), (κ * csw : ℂ) * Complex.I * (F 0 i j - F 5 i j), 0, 0],
    ![0, 0, -((κ * csw : ℂ) * Complex.I * (F 0 i j + F 5 i j)), -((κ * csw : ℂ) * (-F 1 i j + F 4 i j + mulI (F 2 i j + F 3 i j)))],
    ![0, 0, -((κ * csw : ℂ) * (F 1 i j - F 4 i j + mulI (F 2 i j + F 3 i j))), -((κ * csw : ℂ) * Complex.I * (-F 0 i j - F 5 i j))]] α β

/-- The matrix that `calculateInverseEvenEven` inverts at one site,
`EvenOddImprovedDiracWilsonOperator.cpp:291-313`: the identity with `4*diracVectorLength` rows plus the
terms above at row `3*α+i` and column `3*β+j`.  The factor 3 is written out in the source. -/
noncomputable def cloverMatrix (κ csw : ℝ) (F : Fin 6 → Mat N) : Matrix (Fin (4 * N)) (Fin (4 * N)) ℂ :=
  Matrix.of fun p q => (1 : Matrix (Fin (4 * N)) (Fin (4 * N)) ℂ) p q +
    ∑ α : Fin 4, ∑ i : Fin N, ∑ β : Fin 4, ∑ j : Fin N,
      if 3 * α.val + i.val = p.val ∧ 3 * β.val + j.val = q.val then cloverCoef κ csw F α β i j else 0

/-- One element of `multiplyEvenEvenInverse` with the stored inverse `M`,
`EvenOddImprovedDiracWilsonOperator.cpp:76-86`. -/
noncomputable def applyClover (M : Matrix (Fin (4 * N)) (Fin (4 * N)) ℂ) (v : Matrix (Fin 4) (Fin N) ℂ) :
    Matrix (Fin 4) (Fin N) ℂ :=
  Matrix.of fun α c => ∑ β : Fin 4, ∑ b : Fin N,
    (if h : 3 * α.val + c.val < 4 * N ∧ 3 * β.val + b.val < 4 * N then
      M ⟨3 * α.val + c.val, h.1⟩ ⟨3 * β.val + b.val, h.2⟩ else 0) * v β b

open Classical in
/-- `multiplyEvenEvenInverse`, `EvenOddImprovedDiracWilsonOperator.cpp:61-89`, with the matrices of
`calculateInverseEvenEven` (285-317) for the same parameters and links.  When `3*3 + N` exceeds `4*N`
rows outside the matrix are used (`ub`); a singular matrix at an even site gives infinities (`none`). -/
noncomputable def eeInverse (T : Torus S) (U : GField S N) (κ csw : ℝ) (v : SField S N) :
    Outcome (Option (SField S N)) :=
  if 4 * N < 3 * 3 + N then .ub
  else if ∀ x, siteParity T x = 0 → IsUnit (cloverMatrix κ csw (fieldStrength T U x)).det then
    .ok (some fun x => if siteParity T x = 0 then applyClover (cloverMatrix κ csw (fieldStrength T U x))⁻¹ (v x) else v x)
  else .ok none

/-- `multiplyOddOddMinusIdentity(output, input, ODD)`, `EvenOddImprovedDiracWilsonOperator.cpp:148-201`,
where `clover` (155-188) has the text of `ImprovedDiracWilsonOperator.cpp:200-236`. -/
noncomputable def ooMinus (T : Torus S) (U : GField S N) (κ csw : ℝ) (out v : SField S N) : SField S N := fun x =>
  if siteParity T x = 1 then
    Matrix.of fun c n =>
      let cl := fun c => cloverTerm (fieldStrength T U x) (v x) c n
      ![v x 0 n + (κ * csw : ℂ) * cl 0 - out x 0 n, v x 1 n + (κ * csw : ℂ) * cl 1 - out x 1 n,
        v x 2 n - (κ * csw : ℂ) * cl 2 - out x 2 n, v x 3 n - (κ * csw : ℂ) * cl 3 - out x 3 n] c
  else out x

/-- The last loop of `multiply`, `EvenOddImprovedDiracWilsonOperator.cpp:37-45`. -/
noncomputable def eoFinish (T : Torus S) (g5 : Bool) (out v : SField S N) : SField S N := fun x =>
  if siteParity T x = 0 then v x
  else if g5 then Matrix.of fun c n => ![out x 0 n, out x 1 n, -out x 2 n, -out x 3 n] c
  else out x

/-- `EvenOddImprovedDiracWilsonOperator::multiply`, `EvenOddImprovedDiracWilsonOperator.cpp:26-47`. -/
noncomputable def evenOddMul [DecidableEq S] (T : Torus S) (U : GField S N) (κ csw : ℝ) (g5 : Bool) (order : List S)
    (v : SField S N) : Outcome (Option (SField S N)) :=
  (eeInverse T U κ csw (eoHop T U κ 0 v)).bind fun o => .ok (o.map fun w =>
    eoFinish T g5 (ooMinus T U κ csw (eoHopInPlace T U κ 1 order w) v) v)

/-- Running a second step on a result that may be infinite. -/
def thenRun {α β : Type} (a : Outcome (Option α)) (f : α → Outcome (Option β)) : Outcome (Option β) :=
  a.bind fun o => match o with
    | none => .ok none
    | some w => f w

/-- `SquareEvenOddImprovedDiracWilsonOperator::multiply`,
`SquareEvenOddImprovedDiracWilsonOperator.cpp:13-17`; gamma5 is the default `true`
(`DiracOperator.cpp:14`). -/
noncomputable def evenOddSquare [DecidableEq S] (T : Torus S) (U : GField S N) (κ csw : ℝ) (order : List S)
    (v : SField S N) : Outcome (Option (SField S N)) :=
  thenRun (evenOddMul T U κ csw true order v) (evenOddMul T U κ csw true order)

/-- The construction of the source of the reduced system, `PreconditionedBiCGStab.cpp:57-69`. -/
noncomputable def oddSource [DecidableEq S] (T : Torus S) (U : GField S N) (κ csw : ℝ) (order : List S) (s : SField S N) :
    Outcome (Option (SField S N)) :=
  (eeInverse T U κ csw s).bind fun o => .ok (o.map fun w =>
    let h := eoHopInPlace T U κ 1 order w
    fun x => Matrix.of fun c n =>
      let r := if siteParity T x = 1 then s x c n - h x c n else s x c n
      if 2 ≤ c.val then -r else r)

/-- The reconstruction of the even sites, `PreconditionedBiCGStab.cpp:76-88`. -/
noncomputable def reconstruct (T : Torus S) (U : GField S N) (κ csw : ℝ) (s y : SField S N) :
    Outcome (Option (SField S N)) :=
  eeInverse T U κ csw (fun x => if siteParity T x = 0 then s x - eoHop T U κ 0 y x else y x)

/-- The branch of `PreconditionedBiCGStab::solve` with preconditioning, `PreconditionedBiCGStab.cpp:46-91`.
`inner op b` is what `BiConjugateGradient::solve` leaves for the operator `op` and source `b`: its return
value and the solution. -/
noncomputable def precondSolve [DecidableEq S] (T : Torus S) (U : GField S N) (κ csw : ℝ) (order : List S)
    (inner : (SField S N → Outcome (Option (SField S N))) → SField S N → Bool × SField S N) (s : SField S N) :
    Outcome (Option (Bool × SField S N)) :=
  thenRun (oddSource T U κ csw order s) fun b =>
  thenRun (evenOddMul T U κ csw true order b) fun b' =>
  let r := inner (evenOddSquare T U κ csw order) b'
  thenRun (reconstruct T U κ csw s r.2) fun x => .ok (some (r.1, x))

/-- The condition under which that branch is taken for a clover operator, `PreconditionedBiCGStab.cpp:43`.
The `gamma5` flag of the operator is not looked at. -/
def usesEvenOdd (T : Torus S) (flag : Bool) : Bool :=
  decide (T.ext 0 % 2 = 0) && decide (T.ext 1 % 2 = 0) && decide (T.ext 2 % 2 = 0) && decide (T.ext 3 % 2 = 0) && flag

end Leonard
