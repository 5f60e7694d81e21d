/-
The multishift solver on top of the multigrid solver, `inverters/MultiGridMEMultishiftSolver.cpp`.

Simplified: vectors are those of an abstract space with the inner product of the program, arithmetic is exact,
and `none` stands for a vector of NaN.  The multigrid cycle is an arbitrary function of the twist and the step.
-/
import Verif.Solver.Model

set_option autoImplicit false

namespace Leonard

open Vec

variable {V : Type} [AddCommGroup V] [Module ℂ V] [Vec V]

/-- What one shift leaves behind: the vector in `square_root_solutions`, the vector in `solutions`, and whether the
loops for this shift ended because the residual was small.  The last is not kept by the program. -/
structure ShiftEntry (V : Type) where
  y : Option V
  x : Option V
  reached : Bool

/-- A call of `MultiGridSolver::solve` with the present step limit (`MultiGridMEMultishiftSolver.cpp:102, 109, 133,
140`); a source or guess of NaN gives NaN, except that a limit of zero copies the guess.  The second component is the
step limit afterwards. -/
noncomputable def limitedSolve (A : V → V) (P : ℕ → V → V) (prec : ℝ) (limit : ℕ) (c u : ℕ → V) :
    Option V → Option (Option V) → Option V × ℕ
  | some b, none => let r := mgSolve A P prec limit b none c u; (r.1.x, r.2)
  | some b, some (some g) => let r := mgSolve A P prec limit b (some g) c u; (r.1.x, r.2)
  | some _, some none => (none, limit)
  | none, guess => (if limit = 0 then guess.getD (some 0) else none, limit)

/-- The two solves of one small shift, `MultiGridMEMultishiftSolver.cpp:99-112, 130-143`: first with twist `-√s`,
then, after gamma5, with twist `√s`.  The square root of a negative shift is NaN; the blocks of the smoother then
give NaN in the first step. -/
noncomputable def twistPair (A : ℝ → V → V) (P : ℝ → ℕ → V → V) (G : V → V) (prec : ℝ) (c u : ℕ → V) (limit : ℕ)
    (source5 : V) (guessY guessX : Option (Option V)) (s : ℝ) : ShiftEntry V × ℕ :=
  if s < 0 ∧ limit ≠ 0 then (⟨none, none, false⟩, limit)
  else
    let r1 := limitedSolve (A (-Real.sqrt s)) (P (-Real.sqrt s)) prec limit c u (some source5) guessY
    let r2 := limitedSolve (A (Real.sqrt s)) (P (Real.sqrt s)) prec r1.2 c u (r1.1.map G) guessX
    (⟨r1.1, r2.1, decide (r1.2 ≠ limit ∧ r2.2 ≠ r1.2)⟩, r2.2)

/-- The loop over the remaining shifts, `MultiGridMEMultishiftSolver.cpp:128-144`.  The iterator of
`square_root_solutions` is not advanced by the loop, that of the previous vector is: from the third pass on the
first guess is a vector that was never written, `junk`. -/
noncomputable def shiftRest (A : ℝ → V → V) (P : ℝ → ℕ → V → V) (G : V → V) (prec : ℝ) (c u : ℕ → V)
    (junk : ℕ → Option V) (source5 : V) : ℕ → ℕ → Option V → Option V → List ℝ → List (ShiftEntry V)
  | _, _, _, _, [] => []
  | limit, pass, prevY, prevX, s :: rest =>
    let e := twistPair A P G prec c u limit source5 (some (if pass < 2 then prevY else junk pass)) (some prevX) s
    e.1 :: shiftRest A P G prec c u junk source5 e.2 (pass + 1) e.1.y e.1.x rest

/-- All shifts, `MultiGridMEMultishiftSolver.cpp:33-144`: negative and large ones at the front are solved with
conjugate gradients on the squared operator, with `B σ` for `multiplyAdd`; the first of the others is solved without
a guess. -/
noncomputable def shiftTrace (B : ℂ → V → V) (A : ℝ → V → V) (P : ℝ → ℕ → V → V) (G : V → V) (eps prec : ℝ) (c u : ℕ → V)
    (junk : ℕ → Option V) (maxSteps limit : ℕ) (source : V) : List ℝ → List (ShiftEntry V)
  | [] => []
  | s :: rest =>
    if s < 0 ∨ s > 0.001 then
      let r := shiftCgLoop (B s) eps maxSteps 0 source (some source) (norm2 source)
      ⟨none, r.2, decide (maxSteps ≠ 0) && r.1⟩ :: shiftTrace B A P G eps prec c u junk maxSteps limit source rest
    else
      let e := twistPair A P G prec c u limit (G source) none none s
      e.1 :: shiftRest A P G prec c u junk (G source) e.2 0 e.1.y e.1.x rest

/-- `MultiGridMEMultishiftSolver::solve`, `MultiGridMEMultishiftSolver.cpp:14-157`.  `room` is the number of vectors
the caller passed.  `eps` and `maxSteps` are the members of `MultishiftSolver`, `prec` and `limit` those of
`MultiGridSolver`; the constructor sets only the former.  The result is `true` on both ways out. -/
noncomputable def mgShiftSolve (B : ℂ → V → V) (A : ℝ → V → V) (P : ℝ → ℕ → V → V) (G : V → V) (eps prec : ℝ)
    (c u : ℕ → V) (junk : ℕ → Option V) (maxSteps limit : ℕ) (source : V) (room : ℕ) (shifts : List ℝ) :
    Outcome (Bool × List (Option V)) :=
  if room < shifts.length then .ub
  else .ok (true, (shiftTrace B A P G eps prec c u junk maxSteps limit source shifts).map (·.x))

end Leonard
