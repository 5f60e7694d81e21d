/-
The functions of Dirac operators: Chebyshev recursion, polynomials given by their roots, partial fractions.
`/repo/source/dirac_functions/{ChebyshevRecursion,Polynomial,RationalApproximation}.cpp`.

`diracOperator->multiply(out, in)` is a function `A : V → V`, `multiplyAdd(out, in1, in2, α)` is `A in1 + α in2`,
written as a function `B : V → V → ℂ → V` (the law is C33).
-/
import Verif.Solver.Model

set_option autoImplicit false

namespace Leonard

variable {V : Type} [AddCommGroup V] [Module ℂ V]

/-! ### Chebyshev recursion -/

/-- The loop `ChebyshevRecursion.cpp:26-43` with the three vectors `previous`, `actual`, `next` and their exchange. -/
noncomputable def chebLoop (A : V → V) (a b : ℝ) : ℕ → V → V → V
  | 0, _, actual => actual
  | m + 1, previous, actual =>
    let next := A actual
    let next := (2 : ℂ) • (((2 / (b - a) : ℝ) : ℂ) • next - (((a + b) / (b - a) : ℝ) : ℂ) • actual) - previous
    chebLoop A a b m actual next

/-- `ChebyshevRecursion::evaluate` for an operator, `ChebyshevRecursion.cpp:13-49`; `none` for an empty interval (division by zero). -/
noncomputable def chebOp (A : V → V) (a b : ℝ) (n : ℕ) (input : V) : Option V :=
  if b - a = 0 then none
  else
    let actual := A input
    let actual := ((2 / (b - a) : ℝ) : ℂ) • actual - (((a + b) / (b - a) : ℝ) : ℂ) • input
    some (chebLoop A a b n input actual)

/-- The loop `ChebyshevRecursion.cpp:96-103`. -/
noncomputable def chebScalarLoop (a b : ℝ) (x : ℂ) : ℕ → ℂ → ℂ → ℂ
  | 0, _, actual => actual
  | m + 1, previous, actual =>
    let next := 2 * (2 * x / ((b - a : ℝ) : ℂ) - (((a + b) / (b - a) : ℝ) : ℂ)) * actual - previous
    chebScalarLoop a b x m actual next

/-- `ChebyshevRecursion::evaluate` for a number, `ChebyshevRecursion.cpp:88-111`. -/
noncomputable def chebScalar (a b : ℝ) (n : ℕ) (x : ℂ) : Option ℂ :=
  if b - a = 0 then none
  else some (chebScalarLoop a b x n 1 (2 * x / ((b - a : ℝ) : ℂ) - (((a + b) / (b - a) : ℝ) : ℂ)))

/-! ### Polynomials given by their roots -/

/-- The loop over the further roots, `Polynomial.cpp:36-53` (and `:76-93`): the vectors `tmp1`, `tmp2` are written in turn. -/
noncomputable def polyLoop (B : V → V → ℂ → V) (s : ℝ) : V → V → List ℂ → V × V
  | tmp1, tmp2, [] => (tmp1, tmp2)
  | tmp1, _, [r] => (tmp1, (s : ℂ) • B tmp1 tmp1 (-r))
  | tmp1, _, r :: r' :: rest =>
    let tmp2 := (s : ℂ) • B tmp1 tmp1 (-r)
    let tmp1 := (s : ℂ) • B tmp2 tmp2 (-r')
    polyLoop B s tmp1 tmp2 rest

/-- `Polynomial::evaluate` for an operator, `Polynomial.cpp:23-107`.  `old` is what `tmp2` holds before; without roots the
first root is read outside the list. -/
noncomputable def polyOp (B : V → V → ℂ → V) (scaling : ℂ) (old : V) (roots : List ℂ) (input : V) : Outcome V :=
  match roots with
  | [] => .ub
  | r :: rest =>
    let tmp1 := ((|scaling.re| : ℝ) : ℂ) • B input input (-r)
    let t := polyLoop B |scaling.re| tmp1 old rest
    let tmp := if roots.length % 2 = 0 then t.2 else t.1
    .ok (if scaling.re < 0 then -tmp else tmp)

/-- The loop over the further roots with a preconditioner, `Polynomial.cpp:168-187` (and `:211-230`). -/
noncomputable def polyPrecLoop (A : V → V) (B : V → V → ℂ → V) (s : ℝ) : V → V → List ℂ → V × V
  | tmp1, tmp2, [] => (tmp1, tmp2)
  | tmp1, _, [r] => (tmp1, (s : ℂ) • B (A tmp1) tmp1 (-r))
  | tmp1, _, r :: r' :: rest =>
    let tmp2 := (s : ℂ) • B (A tmp1) tmp1 (-r)
    let tmp1 := (s : ℂ) • B (A tmp2) tmp2 (-r')
    polyPrecLoop A B s tmp1 tmp2 rest

/-- `Polynomial::evaluate` with a preconditioner, `Polynomial.cpp:150-245`: `A` is the operator, `P` and `B` are `multiply` and
`multiplyAdd` of the preconditioner. -/
noncomputable def polyPrecOp (A P : V → V) (B : V → V → ℂ → V) (scaling : ℂ) (roots : List ℂ) (input : V) : Outcome V :=
  match roots with
  | [] => .ub
  | r :: rest =>
    let tmp2 := A input
    let tmp1 := ((|scaling.re| : ℝ) : ℂ) • B tmp2 input (-r)
    let t := polyPrecLoop A B |scaling.re| tmp1 tmp2 rest
    let tmp := if roots.length % 2 = 0 then t.2 else t.1
    .ok (if scaling.re < 0 then -(P tmp) else P tmp)

/-- The loop of the scalar version, `Polynomial.cpp:253-260` (and `:267-274`). -/
noncomputable def polyScalarLoop (s : ℝ) (x : ℂ) : ℂ → List ℂ → ℂ
  | result, [] => result
  | result, r :: rest => polyScalarLoop s x ((s : ℂ) * result * (x - r)) rest

/-- `Polynomial::evaluate` for a number, `Polynomial.cpp:247-278`. -/
noncomputable def polyScalar (scaling : ℂ) (roots : List ℂ) (x : ℂ) : Outcome ℂ :=
  match roots with
  | [] => .ub
  | r :: rest =>
    let result := polyScalarLoop |scaling.re| x (((|scaling.re| : ℝ) : ℂ) * (x - r)) rest
    .ok (if scaling.re < 0 then -result else result)

/-! ### Partial fractions -/

/-- The sum `RationalApproximation.cpp:28-41` over the vectors found; `none`: NaN; the iterator of `alphas` leaves the list
when there are fewer coefficients than vectors. -/
noncomputable def rationalSum : List ℝ → List (Option V) → Outcome (Option V)
  | _, [] => .ok (some 0)
  | [], _ :: _ => .ub
  | α :: as, x :: xs => rationalSum as xs >>= fun s => .ok (x.bind fun x => s.map fun s => ((α : ℝ) : ℂ) • x + s)

/-- `RationalApproximation::evaluate` for an operator, `RationalApproximation.cpp:18-43`; `solve` is the multishift solver with the
settings of the approximation, called with as many vectors as shifts (line 20); its flag is not looked at. -/
noncomputable def rationalOp (solve : V → ℕ → List ℝ → Outcome (Bool × List (Option V))) (alphas betas : List ℝ) (input : V) :
    Outcome (Option V) :=
  solve input betas.length betas >>= fun r => rationalSum alphas r.2

/-- `RationalApproximation::evaluate` for a number, `RationalApproximation.cpp:45-53`; `none` at a pole. -/
noncomputable def rationalScalar (x : ℂ) : List ℝ → List ℝ → Outcome (Option ℂ)
  | [], _ => .ok (some 0)
  | _ :: _, [] => .ub
  | α :: as, β :: bs => rationalScalar x as bs >>= fun s =>
      .ok (if x + (β : ℂ) = 0 then none else s.map fun s => (α : ℂ) / (x + (β : ℂ)) + s)

end Leonard
