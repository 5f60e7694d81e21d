/-
The solver objects as state machines: settings, kept workspace and the effect of `solve` on them.
`/repo/source/inverters/{Solver.h,PreconditionedBiCGStab.cpp,GMRESR.cpp}`,
`/repo/source/multigrid/{MultiGridSolver,BlockBasis}.cpp`.
-/
import Verif.Solver.Model

set_option autoImplicit false

namespace Leonard

open Vec

variable {V : Type} [AddCommGroup V] [Module ℂ V] [Vec V]

/-- The linear system given to `solve`: operator, source, initial guess and, for the solver that takes one, the preconditioner;
`rnd` is the random vector that is used for a source of small norm. -/
structure Problem (V : Type) where
  A : V → V
  P : ℕ → V → V
  source : V
  rnd : V
  guess : Option V

/-- The calls a user can make. -/
inductive SolverCall (V : Type)
  | setPrecision (ε : ℝ)
  | setMaximumSteps (n : ℕ)
  | setDimension (d : ℕ)
  | setEvenOdd (b : Bool)
  | solve (q : Problem V)

/-! ### PreconditionedBiCGStab -/

/-- The members of `PreconditionedBiCGStab`: its own settings and those of the inner solver, if it exists already. -/
structure PrecState where
  precision : ℝ
  maxSteps : ℕ
  evenOdd : Bool
  inner : Option (ℝ × ℕ)

/-- `PreconditionedBiCGStab::PreconditionedBiCGStab`, `PreconditionedBiCGStab.cpp:9` with the defaults of `Solver.h:10`. -/
noncomputable def PrecState.new : PrecState := ⟨1 / 10 ^ 10, 1000, true, none⟩

/-- One call.  `core` is what the inner solver does with given precision and steps for the system it gets (the even-odd
reduced one or the full one, according to the flag and the type of operator), `PreconditionedBiCGStab.cpp:43-94`; the
creation of the inner solver is lines 37-41. -/
noncomputable def PrecState.call {R : Type} (core : ℝ → ℕ → Bool → Problem V → R) (st : PrecState) :
    SolverCall V → PrecState × Option R
  | .setPrecision ε => ({ st with precision := ε }, none)
  | .setMaximumSteps n => ({ st with maxSteps := n }, none)
  | .setDimension _ => (st, none)
  | .setEvenOdd b => ({ st with evenOdd := b }, none)
  | .solve q =>
    let inner := st.inner.getD (st.precision, st.maxSteps)
    ({ st with inner := some inner }, some (core inner.1 inner.2 st.evenOdd q))

/-- The results of a sequence of calls. -/
noncomputable def precRun {R : Type} (core : ℝ → ℕ → Bool → Problem V → R) : PrecState → List (SolverCall V) → List R
  | _, [] => []
  | st, c :: cs =>
    let r := st.call core c
    r.2.toList ++ precRun core r.1 cs

/-! ### GMRESR -/

/-- The members of `GMRESR`: the settings and the number of vectors in the arrays `c` and `u`. -/
structure GmresObj where
  precision : ℝ
  maxSteps : ℕ
  dim : ℕ
  allocated : ℕ

/-- `GMRESR::GMRESR`, `GMRESR.cpp:6-9`. -/
noncomputable def GmresObj.new : GmresObj := ⟨1 / 10 ^ 10, 1000, 13, 13⟩

/-- `GMRESR::GMRESR(const GMRESR&)`, `GMRESR.cpp:11-14`: the new arrays have the dimension that is set. -/
def GmresObj.copy (o : GmresObj) : GmresObj := { o with allocated := o.dim }

/-- The results of a sequence of calls; `ws i` is what the arrays `c` and `u` hold at the `i`-th call: the
vectors of the previous call, or fresh memory. -/
noncomputable def gmresRun (ws : ℕ → (ℕ → V) × (ℕ → V)) : ℕ → GmresObj → List (SolverCall V) → List (Outcome (SolveResult V))
  | _, _, [] => []
  | i, o, .setPrecision ε :: cs => gmresRun ws (i + 1) { o with precision := ε } cs
  | i, o, .setMaximumSteps n :: cs => gmresRun ws (i + 1) { o with maxSteps := n } cs
  | i, o, .setDimension d :: cs => gmresRun ws (i + 1) { o with dim := d } cs
  | i, o, .setEvenOdd _ :: cs => gmresRun ws (i + 1) o cs
  | i, o, .solve q :: cs =>
    gmresSolve q.A q.P o.allocated o.dim o.precision o.maxSteps q.source q.rnd q.guess (ws i).1 (ws i).2 ::
      gmresRun ws (i + 1) o cs

/-! ### MultiGridSolver -/

/-- The results of a sequence of calls of `MultiGridSolver`: `solve` overwrites the member `maxSteps`
(`MultiGridSolver.cpp:128`). -/
noncomputable def mgRun (ws : ℕ → (ℕ → V) × (ℕ → V)) : ℕ → ℝ × ℕ → List (SolverCall V) → List (SolveResult V)
  | _, _, [] => []
  | i, o, .setPrecision ε :: cs => mgRun ws (i + 1) (ε, o.2) cs
  | i, o, .setMaximumSteps n :: cs => mgRun ws (i + 1) (o.1, n) cs
  | i, o, .setDimension _ :: cs => mgRun ws (i + 1) o cs
  | i, o, .setEvenOdd _ :: cs => mgRun ws (i + 1) o cs
  | i, o, .solve q :: cs =>
    let r := mgSolve q.A q.P o.1 o.2 q.source q.guess (ws i).1 (ws i).2
    r.1 :: mgRun ws (i + 1) (o.1, r.2) cs

/-! ### The block basis -/

/-- The dimension kept in the (global) layout of the coarse vectors and the number of vectors of the basis. -/
structure BasisState where
  layoutDim : ℤ
  basisDim : ℤ
  deriving DecidableEq

/-- `BlockBasis::BlockBasis`, `BlockBasis.cpp:7-13`. -/
def BasisState.new (n : ℤ) : BasisState := ⟨n, n⟩

/-- `BlockBasis::setBasisDimension`, `BlockBasis.cpp:23-31`: line 25 writes the old dimension to the layout. -/
def BasisState.setDimension (st : BasisState) (n : ℤ) : BasisState :=
  ⟨if n ≠ st.layoutDim then st.basisDim else st.layoutDim, n⟩

/-- `BlockBasis::orthogonalize`, `BlockBasis.cpp:122-140`: the first loop goes to `basisDimension`, the second one to the dimension
of the layout; a larger index is outside the array of `basisDimension` vectors.  The result is the number of vectors
that are orthonormalised in blocks. -/
def BasisState.orthogonalize (st : BasisState) : Outcome ℤ :=
  if st.basisDim < st.layoutDim then .ub else .ok st.layoutDim

end Leonard
