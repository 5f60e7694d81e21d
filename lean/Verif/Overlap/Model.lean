import Verif.Force.Model
import Verif.Poly.Model
import Verif.Dirac.HermModel

/-!
# The overlap operator and its force

`OverlapOperator.cpp`, `ExactOverlapOperator.cpp` and `OverlapFermionForce.cpp`.

Simplifications: exact complex numbers; the single-process view of the lattice; the eigenvectors of `ExactOverlapOperator` are an
argument, the function that computes them (`DiracEigenSolver`) is not modelled.
-/

set_option autoImplicit false

namespace Leonard

open Matrix

variable {S : Type} {M : ℕ}

/-- `squareRootApproximation.evaluate(&squareDiracWilsonOperator, tmp1, input)`, `OverlapOperator.cpp` 15: the operator is the square of the
Wilson operator with gamma5 (13, 14), its `multiplyAdd` is `SquareDiracWilsonOperator.cpp` 21-24.  `old` is what the vectors kept by the
polynomial hold before. -/
noncomputable def overlapPoly (T : Torus S) (κ : ℝ) (scaling : ℂ) (roots : List ℂ) (old : SField S M) (L : GField S M) (v : SField S M) :
    Outcome (SField S M) :=
  polyOp (fun v w z => optMulAdd T L κ true (optMul T L κ true v) w z) scaling old roots v

/-- `OverlapOperator::multiply`, `OverlapOperator.cpp` 12-38. -/
noncomputable def overlapMul (T : Torus S) (κ mass : ℝ) (scaling : ℂ) (roots : List ℂ) (old : SField S M) (g5 : Bool) (L : GField S M)
    (v : SField S M) : Outcome (SField S M) :=
  overlapPoly T κ scaling roots old L v >>= fun tmp1 => .ok (overlapOut mass g5 v (optMul T L κ true tmp1))

/-- The loop over the computed eigenvectors, `ExactOverlapOperator.cpp` 27-39, on the pair `output`, `tmp1`. -/
noncomputable def exactLoop [Fintype S] (eigs : List (ℝ × SField S M)) (input : SField S M) (output tmp1 : SField S M) :
    SField S M × SField S M :=
  match eigs with
  | [] => (output, tmp1)
  | (lam, u) :: rest =>
    let proj := latticeDot u input
    let signProj := if lam < 0 then -proj else proj
    exactLoop rest input (output + signProj • u) (tmp1 - proj • u)

/-- `ExactOverlapOperator::multiply`, `ExactOverlapOperator.cpp` 18-64, for computed eigenvalues and eigenvectors `eigs`. -/
noncomputable def exactOverlapMul [Fintype S] (T : Torus S) (κ mass : ℝ) (scaling : ℂ) (roots : List ℂ) (old : SField S M)
    (eigs : List (ℝ × SField S M)) (g5 : Bool) (L : GField S M) (v : SField S M) : Outcome (SField S M) :=
  let r := exactLoop eigs v 0 v
  overlapPoly T κ scaling roots old L r.2 >>= fun tmp2 => .ok (overlapOut mass g5 v (optMul T L κ true tmp2 + r.1))

/-- One step of the loops that fill the vectors, `OverlapFermionForce.cpp` 34-41 and 46-53. -/
noncomputable def overlapStep (T : Torus S) (κ scaling : ℝ) (L : GField S M) (v : SField S M) (r : ℂ) : SField S M :=
  (scaling : ℂ) • optMulAdd T L κ true (optMul T L κ true v) v (-r)

/-- `OverlapFermionForce::derivative`, `OverlapFermionForce.cpp` 19-82, without the weight and the sign of `-=`.  `right` and `left` are the
two arrays of vectors, both with one entry more than there are roots (8, 9); the matrices are those of the Wilson operator. -/
noncomputable def overlapDerivative (T : Torus S) (κ mass : ℝ) (scaling : ℂ) (roots : List ℂ) (L : GField S M) (X Y : SField S M)
    (s : S) (μ : Fin 4) : Mat M :=
  let factor : ℂ := 0.5 - (mass : ℂ) / 2
  let n := roots.length
  let right := roots.scanl (overlapStep T κ scaling.re L) Y
  let left := (roots.reverse.map (starRingEnd ℂ)).scanl (overlapStep T κ scaling.re L) (optMul T L κ true X)
  (∑ i ∈ Finset.range n,
    (((scaling.re : ℂ) * factor) • wilsonDerivative T κ L (optMul T L κ true ((left[n - i - 1]?).getD 0)) ((right[i]?).getD 0) s μ
      + ((scaling.re : ℂ) * factor) • wilsonDerivative T κ L ((left[n - i - 1]?).getD 0) (optMul T L κ true ((right[i]?).getD 0)) s μ))
    + factor • wilsonDerivative T κ L X ((right[n]?).getD 0) s μ

end Leonard
