/-
The iterative solvers.

Modelled source: `/repo/source/inverters/{ConjugateGradient,BiConjugateGradient,GMRESR,
MEMultishiftSolver,MMMRMultishiftSolver,ChronologicalMultishiftSolver}.cpp` and
`/repo/source/multigrid/{MultiGridConjugateGradient,MultiGridBiConjugateGradient,MultiGridSolver}.cpp`.

The arithmetic is that of the complex numbers.  A division by zero gives infinities or NaN in the
program; these spread to every component of the vectors and every comparison `norm < precision` is
then false, so the loop runs to its end and reports failure with a vector of NaN.  The model writes
`x := none` for such a vector.  A vector that is read before it was written (the last directions of an
earlier call, uninitialised memory) is an arbitrary argument of the model.
The parallel loops over the sites and the sums over all processes are modelled by vector operations
(C06, C08).  `operator->multiply(out, in)` is a function `A : V → V`,
`multiplyAdd(out, in, in, σ)` a function `B : ℂ → V → V` (for the operators of the code
`B σ v = A v + σ v`, C33).
-/
import Verif.Solver.Vec
import Verif.Base.Outcome
import Mathlib.Data.Real.Sqrt

set_option autoImplicit false

namespace Leonard

open Vec

variable {V : Type} [AddCommGroup V] [Module ℂ V] [Vec V]

/-- What `solve` leaves behind: the returned flag, the solution vector (`none`: NaN) and the value
written to `lastSteps` (`none`: not written). -/
structure SolveResult (V : Type) where
  ok : Bool
  x : Option V
  steps : Option ℕ

/-! ### Conjugate gradient -/

/-- The loop `ConjugateGradient.cpp:33-69`; the first argument counts the steps still allowed, `p = none`
after `beta` was `0/0`. -/
noncomputable def cgLoop (A : V → V) (eps : ℝ) : ℕ → ℕ → V → V → Option V → ℝ → SolveResult V
  | 0, step, x, _, _, _ => ⟨false, some x, some step⟩
  | n + 1, step, _, _, none, _ => ⟨false, none, some (step + (n + 1))⟩
  | n + 1, step, x, r, some p, norm =>
    let tmp := A p
    if dot p tmp = 0 then ⟨false, none, some (step + (n + 1))⟩
    else
      let alpha : ℂ := norm / dot p tmp
      let x := x + alpha • p
      let r := r - alpha • tmp
      let next := norm2 r
      if next < eps then ⟨true, some x, some step⟩
      else cgLoop A eps n (step + 1) x r (if norm = 0 then none else some (r + ((next / norm : ℝ) : ℂ) • p)) next

/-- `ConjugateGradient::solve`, `ConjugateGradient.cpp:10-74`. -/
noncomputable def cgSolve (A : V → V) (eps : ℝ) (maxSteps : ℕ) (source : V) (guess : Option V) : SolveResult V :=
  let x := guess.getD source
  let r := source - A x
  cgLoop A eps maxSteps 0 x r (some r) (norm2 r)

/-! ### Stabilised biconjugate gradient -/

/-- The initial vector, `BiConjugateGradient.cpp:13-23, 322-333, 512-523` and `GMRESR.cpp:41-51`: the
given guess, or the source, or a random vector when the source is shorter than the precision. -/
noncomputable def startVector (precision : ℝ) (source rnd : V) : Option V → V
  | some g => g
  | none => if norm2 source > precision then source else rnd

/-- The loop `BiConjugateGradient.cpp:363-500` (and `:557-683` for a shifted operator). -/
noncomputable def bicgLoop (A : V → V) (precision : ℝ) (source rhat : V) :
    ℕ → ℕ → V → V → V → V → ℂ → ℂ → ℂ → SolveResult V
  | 0, step, x, _, _, _, _, _, _ => ⟨false, some x, some step⟩
  | n + 1, step, x, r, p, nu, alpha, omega, rho =>
    let rhoNext := dot rhat r
    if rhoNext = 0 then ⟨false, some x, none⟩
    else if omega = 0 then ⟨false, none, some (step + (n + 1))⟩
    else
      let beta := (rhoNext / rho) * (alpha / omega)
      let p := r + beta • (p - omega • nu)
      let nu := A p
      let alphatmp := dot rhat nu
      if alphatmp = 0 then ⟨false, none, some (step + (n + 1))⟩
      else
        let alpha := rhoNext / alphatmp
        let s := r - alpha • nu
        let t := A s
        if (dot t t).re = 0 then ⟨true, some source, none⟩
        else
          let omega := dot t s / dot t t
          let x := x + (alpha • p + omega • s)
          let r := s - omega • t
          if norm2 r < precision then ⟨true, some x, some step⟩
          else bicgLoop A precision source rhat n (step + 1) x r p nu alpha omega rhoNext

/-- `BiConjugateGradient::solve(dirac, source, solution, initial_guess)`,
`BiConjugateGradient.cpp:321-507`. -/
noncomputable def bicgSolve (A : V → V) (precision : ℝ) (maxSteps : ℕ) (source rnd : V) (guess : Option V) :
    SolveResult V :=
  let x := startVector precision source rnd guess
  bicgLoop A precision source (source + A x) maxSteps 0 x (source - A x) 0 0 1 1 1

/-- `BiConjugateGradient::solve(dirac, source, solution, shift, initial_guess)`,
`BiConjugateGradient.cpp:510-690`: the same with `multiplyAdd(·, v, v, shift)`. -/
noncomputable def bicgShiftSolve (B : ℂ → V → V) (shift : ℂ) (precision : ℝ) (maxSteps : ℕ) (source rnd : V)
    (guess : Option V) : SolveResult V :=
  bicgSolve (B shift) precision maxSteps source rnd guess

/-- The loop of the preconditioned version, `BiConjugateGradient.cpp:44-121`.  `t` is the operator
applied to `s`, not to the preconditioned vector (line 84). -/
noncomputable def bicgPrecLoop (A P : V → V) (precision : ℝ) (rhat : V) :
    ℕ → ℕ → V → V → V → V → ℂ → ℂ → ℂ → SolveResult V
  | 0, step, x, _, _, _, _, _, _ => ⟨false, some x, some step⟩
  | n + 1, step, x, r, p, nu, alpha, omega, rhoPrev =>
    let rho := dot rhat r
    if rho.re * rho.re + rho.im * rho.im = 0 then ⟨false, some x, none⟩
    else if step ≠ 0 ∧ omega = 0 then ⟨false, none, some (step + (n + 1))⟩
    else
      let p := if step = 0 then r else r + ((rho / rhoPrev) * (alpha / omega)) • (p - omega • nu)
      let ptilde := P p
      let nu := A ptilde
      if dot rhat nu = 0 then ⟨false, none, some (step + (n + 1))⟩
      else
        let alpha := rho / dot rhat nu
        let s := r - alpha • nu
        let stilde := P s
        let t := A s
        if norm2 t = 0 then ⟨false, none, some (step + (n + 1))⟩
        else
          let omega := dot t s / (norm2 t : ℂ)
          let x := x + alpha • ptilde + omega • stilde
          let r := s - omega • t
          if norm2 r < precision ∧ 5 < step then ⟨true, some x, some step⟩
          else bicgPrecLoop A P precision rhat n (step + 1) x r p nu alpha omega rho

/-- `BiConjugateGradient::solve(dirac, source, solution, preconditioner, initial_guess)`,
`BiConjugateGradient.cpp:11-128`. -/
noncomputable def bicgPrecSolve (A P : V → V) (precision : ℝ) (maxSteps : ℕ) (source rnd : V) (guess : Option V) :
    SolveResult V :=
  let x := startVector precision source rnd guess
  bicgPrecLoop A P precision (source + A x) maxSteps 0 x (source - A x) 0 0 0 0 0

/-! ### GMRESR -/

/-- The vectors of `GMRESR`: solution, residual and the arrays `c`, `u`. -/
structure GmresState (V : Type) where
  x : V
  r : V
  c : ℕ → V
  u : ℕ → V

/-- The orthogonalisation loop `GMRESR.cpp:70-79`. -/
noncomputable def gmresOrtho (c u : ℕ → V) (cj uj : V) : ℕ → V × V
  | 0 => (cj, uj)
  | i + 1 =>
    let cu := gmresOrtho c u cj uj i
    let alpha := dot (c i) cu.1
    (cu.1 - alpha • c i, cu.2 - alpha • u i)

/-- One iteration, `GMRESR.cpp:65-98` (and `MultiGridSolver.cpp:93-123`), with the new direction
`w = P r` given; `none` when the new direction has norm zero. -/
noncomputable def gmresStep (A : V → V) (j : ℕ) (w : V) (st : GmresState V) : Option (GmresState V) :=
  let cu := gmresOrtho st.c st.u (A w) w j
  if norm2 cu.1 = 0 then none
  else
    let inv : ℂ := ((Real.sqrt (norm2 cu.1))⁻¹ : ℝ)
    let cj := inv • cu.1
    let uj := inv • cu.2
    let alpha := dot cj st.r
    some ⟨st.x + alpha • uj, st.r - alpha • cj, Function.update st.c j cj, Function.update st.u j uj⟩

/-- The loop `GMRESR.cpp:64-107`.  The preconditioner may be any function, also a different one in every
step; without a preconditioner it is the identity. -/
noncomputable def gmresLoop (A : V → V) (P : ℕ → V → V) (dim : ℕ) (precision : ℝ) :
    ℕ → ℕ → GmresState V → SolveResult V
  | 0, k, st => ⟨false, some st.x, some k⟩
  | n + 1, k, st =>
    match gmresStep A (k % dim) (P k st.r) st with
    | none => ⟨false, none, some (k + (n + 1))⟩
    | some st' => if norm2 st'.r < precision then ⟨true, some st'.x, some k⟩ else gmresLoop A P dim precision n (k + 1) st'

/-- `GMRESR::solve`, `GMRESR.cpp:39-115`.  `allocated` is the size of the arrays `c` and `u`, fixed by
the constructor (`GMRESR.cpp:6-14`); `dim` is `conjugateSpaceDimension`.  The remainder by zero and an
index outside the arrays are undefined. -/
noncomputable def gmresSolve (A : V → V) (P : ℕ → V → V) (allocated dim : ℕ) (precision : ℝ) (maxSteps : ℕ)
    (source rnd : V) (guess : Option V) (c u : ℕ → V) : Outcome (SolveResult V) :=
  if maxSteps ≠ 0 ∧ dim = 0 then .ub
  else if allocated < min dim maxSteps then .ub
  else
    let x := startVector precision source rnd guess
    .ok (gmresLoop A P dim precision maxSteps 0 ⟨x, source - A x, c, u⟩)

/-! ### Multigrid -/

/-- `MultiGridConjugateGradientSolver::solve`, the loop `MultiGridConjugateGradient.cpp:25-68`.  The
convergence test uses `localNorm2`, the sum over the components of this process: the sum over the
processes is missing after line 51. -/
noncomputable def mgCgLoop (A : V → V) (localNorm2 : V → ℝ) (precision : ℝ) :
    ℕ → ℕ → V → V → Option V → ℝ → SolveResult V
  | 0, _, x, _, _, _ => ⟨true, some x, none⟩
  | _ + 1, _, _, _, none, _ => ⟨false, none, none⟩
  | n + 1, step, x, r, some p, norm =>
    let tmp := A p
    if dot p tmp = 0 then ⟨false, none, none⟩
    else
      let alpha : ℂ := norm / dot p tmp
      let x := x + alpha • p
      let r := r - alpha • tmp
      let next := localNorm2 r
      if next < precision ∧ 5 < step then ⟨true, some x, none⟩
      else if n = 0 then ⟨false, some x, none⟩
      else mgCgLoop A localNorm2 precision n (step + 1) x r
        (if norm = 0 then none else some (r + ((next / norm : ℝ) : ℂ) • p)) next

/-- `MultiGridConjugateGradientSolver::solve`, `MultiGridConjugateGradient.cpp:7-72`; `maxSteps` is an
`int`, a negative value gives no steps. -/
noncomputable def mgCgSolve (A : V → V) (localNorm2 : V → ℝ) (precision : ℝ) (maxSteps : ℤ) (source : V) :
    SolveResult V :=
  let r := source - A source
  mgCgLoop A localNorm2 precision maxSteps.toNat 0 source r (some r) (norm2 r)

/-- The loop `MultiGridBiConjugateGradient.cpp:28-143`: as in `BiConjugateGradient` with at least six
steps before convergence is accepted. -/
noncomputable def mgBicgLoop (A : V → V) (precision : ℝ) (source rhat : V) :
    ℕ → ℕ → V → V → V → V → ℂ → ℂ → ℂ → SolveResult V
  | 0, _, x, _, _, _, _, _, _ => ⟨false, some x, none⟩
  | n + 1, step, x, r, p, nu, alpha, omega, rho =>
    let rhoNext := dot rhat r
    if rhoNext = 0 then ⟨false, some x, none⟩
    else if omega = 0 then ⟨false, none, none⟩
    else
      let beta := (rhoNext / rho) * (alpha / omega)
      let p := r + beta • (p - omega • nu)
      let nu := A p
      let alphatmp := dot rhat nu
      if alphatmp = 0 then ⟨false, none, none⟩
      else
        let alpha := rhoNext / alphatmp
        let s := r - alpha • nu
        let t := A s
        if (dot t t).re = 0 then ⟨true, some source, none⟩
        else
          let omega := dot t s / dot t t
          let x := x + (alpha • p + omega • s)
          let r := s - omega • t
          if norm2 r < precision ∧ 4 < step then ⟨true, some x, none⟩
          else mgBicgLoop A precision source rhat n (step + 1) x r p nu alpha omega rhoNext

/-- `MultiGridBiConjugateGradientSolver::solve`, `MultiGridBiConjugateGradient.cpp:7-150`. -/
noncomputable def mgBicgSolve (A : V → V) (precision : ℝ) (maxSteps : ℕ) (source : V) : SolveResult V :=
  mgBicgLoop A precision source (source + A source) maxSteps 0 source (source - A source) 0 0 1 1 1

/-- The loop of `MultiGridSolver::solve`, `MultiGridSolver.cpp:67-135`: it ends when the residual is
small, and the caller does not learn whether it was.  The result holds the solution (`none`: NaN) and
the value left in the member `maxSteps`, which line 128 overwrites with the step of convergence. -/
noncomputable def mgLoop (A : V → V) (P : ℕ → V → V) (precision : ℝ) (maxSteps : ℕ) :
    ℕ → ℕ → GmresState V → Option V × ℕ
  | 0, _, st => (some st.x, maxSteps)
  | n + 1, k, st =>
    match gmresStep A (k % 15) (P k st.r) st with
    | none => (none, maxSteps)
    | some st' => if norm2 st'.r < precision then (some st'.x, k) else mgLoop A P precision maxSteps n (k + 1) st'

/-- `MultiGridSolver::solve`, `MultiGridSolver.cpp:10-150`.  `P` stands for the multigrid cycle of lines
68-90 (coarse correction followed by the SAP smoother), of which nothing is assumed.  The result is
always `true` (line 148); the second component is the new value of the member `maxSteps`. -/
noncomputable def mgSolve (A : V → V) (P : ℕ → V → V) (precision : ℝ) (maxSteps : ℕ) (source : V)
    (guess : Option V) (c u : ℕ → V) : SolveResult V × ℕ :=
  let x := startVector precision source 0 guess
  let res := mgLoop A P precision maxSteps maxSteps 0 ⟨x, source - A x, c, u⟩
  (⟨true, res.1, none⟩, res.2)

/-! ### Solvers for several shifts -/

/-- The inner conjugate gradient loop of the multishift solvers, `MEMultishiftSolver.cpp:34-70, 93-132`,
`MMMRMultishiftSolver.cpp:81-117` and `ChronologicalMultishiftSolver.cpp:36-74, 145-181`: the flag is
cleared in the last step of a loop that does not reach the precision. -/
noncomputable def shiftCgLoop (M : V → V) (eps : ℝ) : ℕ → V → V → Option V → ℝ → Bool × Option V
  | 0, x, _, _, _ => (true, some x)
  | _ + 1, _, _, none, _ => (false, none)
  | n + 1, x, r, some p, norm =>
    let tmp := M p
    if (dot p tmp).re = 0 then (false, none)
    else
      let alpha : ℂ := ((norm / (dot p tmp).re : ℝ) : ℂ)
      let x := x + alpha • p
      let r := r - alpha • tmp
      let error := norm2 r
      if error < eps then (true, some x)
      else if n = 0 then (false, some x)
      else shiftCgLoop M eps n x r (if norm = 0 then none else some (r + ((error / norm : ℝ) : ℂ) • p)) error

/-- The system of one shift from a given start vector, `MEMultishiftSolver.cpp:78-132`. -/
noncomputable def shiftCg (M : V → V) (eps : ℝ) (maxSteps : ℕ) (source x : V) : Bool × Option V :=
  shiftCgLoop M eps maxSteps x (source - M x) (some (source - M x)) (norm2 (source - M x))

/-- The loop over the further shifts, `MEMultishiftSolver.cpp:74-134`: every system starts from the
previous solution.  A vector of NaN as start gives NaN, and the flag is cleared if there is at least one
step. -/
noncomputable def meLoop (B : ℂ → V → V) (eps : ℝ) (maxSteps : ℕ) (source : V) :
    Option V → List ℝ → Bool × List (Option V)
  | _, [] => (true, [])
  | none, _ :: rest =>
    let rs := meLoop B eps maxSteps source none rest
    (decide (maxSteps = 0) && rs.1, none :: rs.2)
  | some prev, σ :: rest =>
    let r := shiftCg (B σ) eps maxSteps source prev
    let rs := meLoop B eps maxSteps source r.2 rest
    (r.1 && rs.1, r.2 :: rs.2)

/-- `MEMultishiftSolver::solve`, `MEMultishiftSolver.cpp:10-143`.  `room` is the number of vectors the
caller passed; the first shift is read in any case (lines 24, 35). -/
noncomputable def meSolve (B : ℂ → V → V) (eps : ℝ) (maxSteps : ℕ) (source : V) (room : ℕ) (shifts : List ℝ) :
    Outcome (Bool × List (Option V)) :=
  match shifts with
  | [] => .ub
  | σ :: rest =>
    if room < rest.length + 1 then .ub
    else
      let r := shiftCgLoop (B σ) eps maxSteps 0 source (some source) (norm2 source)
      let rs := meLoop B eps maxSteps source r.2 rest
      .ok (r.1 && rs.1, r.2 :: rs.2)

/-- The start vector of the chronological solver, `ChronologicalMultishiftSolver.cpp:84-105`: the
combination of the previous solution and of the vector found in memory. -/
noncomputable def chronoGuess (M : V → V) (source prev old : V) : Option V :=
  let p := M prev
  let tmp := M old
  let pApA : ℂ := (norm2 p : ℂ)
  let hAhA : ℂ := (norm2 tmp : ℂ)
  let pAb := dot p source
  let hAb := dot tmp source
  let hApA := dot tmp p
  let conj := starRingEnd ℂ
  let det := -(hAhA * pApA) + hApA * conj hApA
  if det = 0 then none
  else
    let c1R := ((-(hAhA * pAb) + hApA * conj hAb + hAb * conj hApA - hAhA * conj pAb) / (2 * det)).re
    let c1I := ((⟨0, -1 / 2⟩ * (-(hAhA * pAb) - hApA * conj hAb + hAb * conj hApA + hAhA * conj pAb)) / det : ℂ).re
    let c2R := ((hApA * pAb - hAb * pApA - pApA * conj hAb + conj hApA * conj pAb) / (2 * det)).re
    let c2I := ((⟨0, -1 / 2⟩ * (hApA * pAb - hAb * pApA + pApA * conj hAb - conj hApA * conj pAb)) / det : ℂ).re
    some ((⟨c1R, c1I⟩ : ℂ) • prev + (⟨c2R, c2I⟩ : ℂ) • old)

/-- The system of one further shift, `ChronologicalMultishiftSolver.cpp:84-181`. -/
noncomputable def chronoStep (M : V → V) (eps : ℝ) (maxSteps : ℕ) (source old : V) (prev : Option V) : Bool × Option V :=
  match prev.bind fun v => chronoGuess M source v old with
  | none => (decide (maxSteps = 0), none)
  | some g => shiftCg M eps maxSteps source g

/-- The loop over the further shifts, `ChronologicalMultishiftSolver.cpp:79-183`.  `old i` are the
contents of the freshly constructed vectors (line 14): the vectors of the caller are not used. -/
noncomputable def chronoLoop (B : ℂ → V → V) (eps : ℝ) (maxSteps : ℕ) (source : V) (old : ℕ → V) :
    ℕ → Option V → List ℝ → Bool × List (Option V)
  | _, _, [] => (true, [])
  | i, prev, σ :: rest =>
    let r := chronoStep (B σ) eps maxSteps source (old i) prev
    let rs := chronoLoop B eps maxSteps source old (i + 1) r.2 rest
    (r.1 && rs.1, r.2 :: rs.2)

/-- `ChronologicalMultishiftSolver::solve`, `ChronologicalMultishiftSolver.cpp:11-192`. -/
noncomputable def chronoSolve (B : ℂ → V → V) (eps : ℝ) (maxSteps : ℕ) (source : V) (room : ℕ)
    (old : ℕ → V) (shifts : List ℝ) : Outcome (Bool × List (Option V)) :=
  match shifts with
  | [] => .ub
  | σ :: rest =>
    if room < rest.length + 1 then .ub
    else
      let r := shiftCgLoop (B σ) eps maxSteps 0 source (some source) (norm2 source)
      let rs := chronoLoop B eps maxSteps source old 1 r.2 rest
      .ok (r.1 && rs.1, r.2 :: rs.2)

/-- One further shift in a step of the minimal residual solver, `MMMRMultishiftSolver.cpp:153-162`: `σ` is
the shift, `e` its factor and solution (`none`: NaN). -/
noncomputable def mmmrShift (σl : ℝ) (alpha : ℂ) (r : V) (σ : ℝ) (e : Option (ℂ × V)) : Option (ℂ × V) :=
  e.bind fun fx =>
    let d : ℂ := 1 + ((σ - σl : ℝ) : ℂ) * alpha
    if d = 0 then none
    else some (fx.1 / d, fx.2 + ((fx.1 / d) * alpha) • r)

/-- The common iteration of the minimal residual solver, `MMMRMultishiftSolver.cpp:140-187`: `xl` is the
solution of the last shift `σl`, `xs` holds the other shifts that were not treated before. -/
noncomputable def mmmrLoop (B : ℂ → V → V) (omega eps : ℝ) (σl : ℝ) :
    ℕ → V → V → List (ℝ × Option (ℂ × V)) → Bool × List (Option V)
  | 0, _, xl, xs => (false, (xs.map fun e => e.2.map Prod.snd) ++ [some xl])
  | n + 1, r, xl, xs =>
    let p := B σl r
    if dot p p = 0 then (false, (xs.map fun _ => none) ++ [none])
    else
      let alpha : ℂ := (omega : ℂ) * (dot p r / dot p p)
      let xl := xl + alpha • r
      let xs := xs.map fun e => (e.1, mmmrShift σl alpha r e.1 e.2)
      let r := r - alpha • p
      if norm2 r < eps then (true, (xs.map fun e => e.2.map Prod.snd) ++ [some xl])
      else mmmrLoop B omega eps σl n r xl xs

/-- The loop over the negative shifts at the front, `MMMRMultishiftSolver.cpp:63-121`, followed by the
common iteration.  The loop has no test for the end of the list of shifts. -/
noncomputable def mmmrFront (B : ℂ → V → V) (omega eps : ℝ) (maxSteps : ℕ) (source : V) :
    List ℝ → Outcome (Bool × List (Option V))
  | [] => .ub
  | σ :: rest =>
    if σ < 0 then
      let r := shiftCgLoop (B σ) eps maxSteps 0 source (some source) (norm2 source)
      mmmrFront B omega eps maxSteps source rest >>= fun rs => .ok (r.1 && rs.1, r.2 :: rs.2)
    else
      .ok (mmmrLoop B omega eps ((σ :: rest).getLast (by simp)) maxSteps source 0
        ((σ :: rest).dropLast.map fun s => (s, some (1, 0))))

/-- `MMMRMultishiftSolver::solve`, `MMMRMultishiftSolver.cpp:42-198`; the overrelaxation parameter is 0.95
(line 37).  `room` is the number of vectors the caller passed. -/
noncomputable def mmmrSolve (B : ℂ → V → V) (eps : ℝ) (maxSteps : ℕ) (source : V) (room : ℕ) (shifts : List ℝ) :
    Outcome (Bool × List (Option V)) :=
  if room < shifts.length then .ub else mmmrFront B 0.95 eps maxSteps source shifts

end Leonard
