import Verif.Dirac.HermModel
import Verif.Poly.Model
import Mathlib.LinearAlgebra.Matrix.Charpoly.Basic
import Mathlib.Data.List.Sort
import Mathlib.LinearAlgebra.Matrix.ConjTranspose

/-!
# Eigenvalues of the Dirac operator: the Arnoldi process with implicit restarts

Model of `/repo/source/fermion_measurements/DiracEigenSolver.cpp`, in exact arithmetic and on one process.  Vectors and matrix entries are
indexed by natural numbers as in the program; what lies beyond the allocated size is never read.  `none` stands for a division by zero.
The dense eigenvalue solver of the Eigen library is a parameter; its Householder decomposition is written out as in Eigen's
`HouseholderQR.h` and `Householder.h` (not part of /repo).  The threshold `10e-17` of line 386, below which a coefficient is skipped, is
taken as zero.
-/

set_option autoImplicit false

namespace Leonard

open Matrix

noncomputable section

/-! ## Householder decomposition -/

/-- The squared norm of the part of column `k` below the diagonal. -/
def hhTail {n : ℕ} (A : Matrix (Fin n) (Fin n) ℂ) (k : Fin n) : ℝ := ∑ i, if k < i then ‖A i k‖ ^ 2 else 0

/-- `beta` of Eigen's `makeHouseholder`. -/
def hhBeta {n : ℕ} (A : Matrix (Fin n) (Fin n) ℂ) (k : Fin n) : ℝ :=
  if 0 ≤ (A k k).re then -√(‖A k k‖ ^ 2 + hhTail A k) else √(‖A k k‖ ^ 2 + hhTail A k)

/-- The vector of the reflection, one on the diagonal. -/
def hhVec {n : ℕ} (A : Matrix (Fin n) (Fin n) ℂ) (k : Fin n) (i : Fin n) : ℂ :=
  if i = k then 1 else if k < i then A i k / (A k k - (hhBeta A k : ℂ)) else 0

/-- `tau` of Eigen's `makeHouseholder`; zero if the column needs no reflection. -/
def hhTau {n : ℕ} (A : Matrix (Fin n) (Fin n) ℂ) (k : Fin n) : ℂ :=
  if hhTail A k = 0 ∧ (A k k).im = 0 then 0 else starRingEnd ℂ (((hhBeta A k : ℂ) - A k k) / (hhBeta A k : ℂ))

/-- The reflection. -/
def hhMat {n : ℕ} (A : Matrix (Fin n) (Fin n) ℂ) (k : Fin n) : Matrix (Fin n) (Fin n) ℂ :=
  1 - hhTau A k • vecMulVec (hhVec A k) (star (hhVec A k))

/-- The loop over columns on the pair of the unitary matrix and the reduced matrix. -/
def hhLoop {n : ℕ} : List (Fin n) → Matrix (Fin n) (Fin n) ℂ × Matrix (Fin n) (Fin n) ℂ → Matrix (Fin n) (Fin n) ℂ × Matrix (Fin n) (Fin n) ℂ
  | [], p => p
  | k :: ks, p => hhLoop ks (p.1 * (hhMat p.2 k)ᴴ, hhMat p.2 k * p.2)

/-- `householderQ()` and `matrixQR().triangularView<Upper>()`, `DiracEigenSolver.cpp:377-379`. -/
def householderQR {n : ℕ} (A : Matrix (Fin n) (Fin n) ℂ) : Matrix (Fin n) (Fin n) ℂ × Matrix (Fin n) (Fin n) ℂ :=
  let p := hhLoop (List.finRange n) (1, A)
  (p.1, Matrix.of fun i j => if i ≤ j then p.2 i j else 0)

/-! ## The dense eigenvalue solver -/

/-- `Eigen::ComplexEigenSolver`: eigenvalues and, as columns, eigenvectors. -/
abbrev DenseSolver := (n : ℕ) → Matrix (Fin n) (Fin n) ℂ → (Fin n → ℂ) × Matrix (Fin n) (Fin n) ℂ

/-- What the program relies on: all eigenvalues with their multiplicity, eigenvectors of norm one. -/
structure DenseSolver.Correct (eig : DenseSolver) : Prop where
  vector : ∀ n A i, A *ᵥ (fun r => (eig n A).2 r i) = (eig n A).1 i • fun r => (eig n A).2 r i
  norm : ∀ n A i, ∑ r, ‖(eig n A).2 r i‖ ^ 2 = 1
  all : ∀ n A, ∏ i, (Polynomial.X - Polynomial.C ((eig n A).1 i)) = A.charpoly

/-- The order in which Eigen's implementation (not its documentation) returns the eigenvalues: by growing modulus. -/
def DenseSolver.Ordered (eig : DenseSolver) : Prop := ∀ n A, Monotone fun i => ‖(eig n A).1 i‖

/-! ## The Arnoldi process -/

variable {S : Type} {M : ℕ}

/-- `EigenvaluesMap`, `DiracEigenSolver.cpp:14`, with the four modes of `DiracEigenSolver.h:10`. -/
inductive EigenMode | largestReal | smallestReal | largestImaginary | smallestImaginary

/-- `EigenvaluesMap`, `DiracEigenSolver.cpp:14`. -/
def EigenMode.factor : EigenMode → ℂ
  | .largestReal => 1
  | .smallestReal => -1
  | .largestImaginary => Complex.I
  | .smallestImaginary => -Complex.I

/-- The operator of the process, `DiracEigenSolver.cpp:92-94` and `:142-144`: `rotateVector` (lines 19-26) and `multiplyAdd`, which is what C33
says. -/
def modeApply (D : SField S M → SField S M) (mode : EigenMode) (v : SField S M) : SField S M := D (mode.factor • v) + (7 : ℂ) • v

/-- Assignment to an entry of the matrix. -/
def setEntry (H : ℕ → ℕ → ℂ) (i j : ℕ) (z : ℂ) : ℕ → ℕ → ℂ := fun a b => if a = i ∧ b = j then z else H a b

/-- The vectors, the residual vector and the Hessenberg matrix. -/
structure ArnoldiState (S : Type) (M : ℕ) where
  V : ℕ → SField S M
  f : SField S M
  H : ℕ → ℕ → ℂ

variable [Fintype S]

/-- The first Gram-Schmidt pass, `DiracEigenSolver.cpp:105-115`. -/
def gramFirst (V : ℕ → SField S M) (w : SField S M) (c : ℕ) : List ℕ → SField S M × (ℕ → ℕ → ℂ) → SField S M × (ℕ → ℕ → ℂ)
  | [], p => p
  | i :: is, p => gramFirst V w c is (p.1 - latticeDot (V i) w • V i, setEntry p.2 i c (latticeDot (V i) w))

/-- The second pass, `DiracEigenSolver.cpp:117-127`. -/
def gramSecond (V : ℕ → SField S M) (c : ℕ) : List ℕ → SField S M × (ℕ → ℕ → ℂ) → SField S M × (ℕ → ℕ → ℂ)
  | [], p => p
  | i :: is, p => gramSecond V c is (p.1 - latticeDot (V i) p.1 • V i, setEntry p.2 i c (p.2 i c + latticeDot (V i) p.1))

/-- One pass of the loop of `extendArnoldi`, `DiracEigenSolver.cpp:76-128`. -/
def extendStep (apply : SField S M → SField S M) (j : ℕ) (s : ArnoldiState S M) : Option (ArnoldiState S M) :=
  let beta := √(latticeNorm2 s.f)
  if beta = 0 then none
  else
    let V := Function.update s.V (j + 1) ((beta : ℂ)⁻¹ • s.f)
    let H := setEntry s.H (j + 1) j beta
    let w := apply (V (j + 1))
    let p := gramFirst V w (j + 1) (List.range (j + 2)) (w, H)
    let q := gramSecond V (j + 1) (List.range (j + 2)) p
    some ⟨V, q.1, q.2⟩

/-- `extendArnoldi`, `DiracEigenSolver.cpp:73-129`, for `k` at least one. -/
def extendArnoldi (apply : SField S M → SField S M) (m k : ℕ) (s : ArnoldiState S M) : Option (ArnoldiState S M) :=
  (List.range' m (k - 1 - m)).foldlM (fun s j => extendStep apply j s) s

/-- `startArnoldi`, `DiracEigenSolver.cpp:131-159`, from the vector before normalisation; `old` is what the memory of the vectors held. -/
def startArnoldi (apply : SField S M → SField S M) (start : SField S M) (old : ℕ → SField S M) : Option (ArnoldiState S M) :=
  let norm := latticeNorm2 start
  if √norm = 0 then none
  else
    let V := Function.update old 0 ((√norm : ℂ)⁻¹ • start)
    let w := apply (V 0)
    let alpha := latticeDot (V 0) w
    some ⟨V, w - alpha • V 0, setEntry (fun _ _ => 0) 0 0 alpha⟩

/-- The entries of the Hessenberg matrix as a matrix. -/
def hMatrix (steps : ℕ) (H : ℕ → ℕ → ℂ) : Matrix (Fin steps) (Fin steps) ℂ := Matrix.of fun i j => H i j

/-- Entries of a matrix by natural numbers. -/
def entry {steps : ℕ} (A : Matrix (Fin steps) (Fin steps) ℂ) (i j : ℕ) : ℂ := if h : i < steps ∧ j < steps then A ⟨i, h.1⟩ ⟨j, h.2⟩ else 0

/-- The pass of the loop of `restartArnoldi` with shift `mu` and column `j`, `DiracEigenSolver.cpp:372-412`. -/
def restartStep (steps : ℕ) (mu : ℂ) (j : ℕ) (s : ArnoldiState S M) : ArnoldiState S M :=
  let qr := householderQR (hMatrix steps s.H - mu • (1 : Matrix (Fin steps) (Fin steps) ℂ))
  let H := entry (qr.2 * qr.1 + mu • (1 : Matrix (Fin steps) (Fin steps) ℂ))
  let V := fun k => if k < steps then ∑ l : Fin steps, entry qr.1 l k • s.V l else s.V k
  { V := V
    f := H j (j - 1) • V j + starRingEnd ℂ (entry qr.1 j (j - 1)) • s.f
    H := fun a b => if a = j ∨ b = j then 0 else H a b }

/-- The eigenvalues of the Hessenberg matrix sorted by falling real part, `DiracEigenSolver.cpp:343-360`. -/
def sortedRitz (eig : DenseSolver) (steps : ℕ) (H : ℕ → ℕ → ℂ) : List ℂ :=
  (List.ofFn (eig steps (hMatrix steps H)).1).insertionSort fun x y => y.re ≤ x.re

/-- `restartArnoldi`, `DiracEigenSolver.cpp:334-413`: the loop runs over `j = steps - 1, …, steps - extra`. -/
def restartArnoldi (eig : DenseSolver) (steps extra : ℕ) (s : ArnoldiState S M) : ArnoldiState S M :=
  let shifts := sortedRitz eig steps s.H
  ((List.range extra).map fun i => steps - 1 - i).foldl (fun s j => restartStep steps (shifts.getD j 0) j s) s

/-- The vector made from column `i` of the eigenvectors, `DiracEigenSolver.cpp:182-195`. -/
def ritzVector (eig : DenseSolver) (steps : ℕ) (s : ArnoldiState S M) (i : Fin steps) : SField S M :=
  ∑ j : Fin steps, (eig steps (hMatrix steps s.H)).2 j i • s.V j

/-- The sum of the moduli of the components, `DiracEigenSolver.cpp:207-219`. -/
def l1Norm (v : SField S M) : ℝ := ∑ x, ∑ mu, ∑ c, ‖v x mu c‖

/-- Eigenvalue and eigenvector number `i`, `DiracEigenSolver.cpp:202-203`. -/
def finishPair (D : SField S M → SField S M) (eig : DenseSolver) (steps : ℕ) (s : ArnoldiState S M) (i : Fin steps) : ℂ × SField S M :=
  let v := ritzVector eig steps s i
  (latticeDot v (D v) / (latticeNorm2 v : ℂ), v)

/-- The deviation of a pair, `DiracEigenSolver.cpp:207-219`. -/
def pairDeviation (D : SField S M → SField S M) (p : ℂ × SField S M) : ℝ := l1Norm (D p.2 - p.1 • p.2)

/-- `finishArnoldi`, `DiracEigenSolver.cpp:161-237`: the pairs that are kept, in the order in which they are returned, and the largest deviation. -/
def finishArnoldi (D : SField S M → SField S M) (eig : DenseSolver) (steps extra : ℕ) (s : ArnoldiState S M) : List (ℂ × SField S M) × ℝ :=
  let pairs := (List.finRange steps).map (finishPair D eig steps s)
  let deviation := (List.finRange steps).foldl (fun m i => if extra ≤ i.val then
    (if m < pairDeviation D (finishPair D eig steps s i) then pairDeviation D (finishPair D eig steps s i) else m) else m) 0
  (pairs.reverse.take (steps - extra), deviation)

/-- The loop over restarts, `DiracEigenSolver.cpp:431-440`. -/
def eigenLoop (apply D : SField S M → SField S M) (eig : DenseSolver) (n extra : ℕ) (epsilon : ℝ) :
    ℕ → ArnoldiState S M → Option (List (ℂ × SField S M) × ℝ)
  | 0, s => some (finishArnoldi D eig (extra + n) extra s)
  | m + 1, s =>
    (extendArnoldi apply (n - 1) (extra + n) (restartArnoldi eig (extra + n) extra s)).bind fun s1 =>
    (extendArnoldi apply (n - 1) (extra + n) (restartArnoldi eig (extra + n) extra s1)).bind fun s2 =>
    let r := finishArnoldi D eig (extra + n) extra s2
    if r.2 < epsilon then some r else eigenLoop apply D eig n extra epsilon m s2

/-- `maximumEigenvalues`, `DiracEigenSolver.cpp:417-441`, for at least one eigenvalue: the pairs and the deviation of the last `finishArnoldi`. `apply` is
`modeApply` of the operator or its Chebyshev polynomial. -/
def maximumEigenvalues (apply D : SField S M → SField S M) (eig : DenseSolver) (n extra restarts : ℕ) (epsilon : ℝ) (start : SField S M)
    (old : ℕ → SField S M) : Option (List (ℂ × SField S M) × ℝ) :=
  (startArnoldi apply start old).bind fun s =>
  (extendArnoldi apply 0 (extra + n) s).bind fun s => eigenLoop apply D eig n extra epsilon restarts s

/-- `minimumEigenvalues`, `DiracEigenSolver.cpp:660-845`: the same process with the solver in place of the operator and without restarts, which is
written out there once more; the eigenvalues are the inverses of those of the Hessenberg matrix. -/
def minimumEigenvalues (solve : SField S M → SField S M) (eig : DenseSolver) (n extra : ℕ) (start : SField S M) (old : ℕ → SField S M) :
    Option (List (ℂ × SField S M)) :=
  (startArnoldi solve start old).bind fun s =>
  (extendArnoldi solve 0 (extra + n) s).bind fun s =>
  some (((List.finRange (extra + n)).map fun i => (1 / (eig (extra + n) (hMatrix (extra + n) s.H)).1 i, ritzVector eig (extra + n) s i)).reverse.take n)

/-- The operator of `minimumNonHermitianEigenvalues`, `DiracEigenSolver.cpp:862-865` and `:892-894`: `Q` is the operator with gamma5, `solveSquare` the solver for its
square. -/
def nonHermitianApply (Q solveSquare : SField S M → SField S M) (v : SField S M) : SField S M := gamma5Field (Q (solveSquare v))

end

end Leonard
