import Verif.Gauge.Model
import Mathlib.Analysis.SpecialFunctions.Trigonometric.Inverse
import Mathlib.Analysis.SpecialFunctions.Trigonometric.Basic
import Mathlib.LinearAlgebra.Matrix.Determinant.Basic

/-!
# The exponential map

Model of `utils/ExpMap.h`, over the real numbers. Divisions by zero, square roots of negative numbers and arc cosines outside
their domain give not-a-numbers in the program, here `none`. The eigenvalue decompositions of the linear algebra library are
arguments.
-/

set_option autoImplicit false

namespace Leonard

open Matrix ComplexConjugate

noncomputable section

/-- `ExpMap.h` 119-120: `sin(w)/w`, or its series close to zero. -/
def ksi (w : ℝ) : ℝ :=
  if |w| < 0.05 then 1 - (1 / 6) * w * w * (1 - (1 / 20) * w * w * (1 - (1 / 42) * w * w)) else Real.sin w / w

/-- `ExpMap.h` 122. -/
def h0 (u w : ℝ) : ℂ :=
  (u * u - w * w) * ⟨Real.cos (2 * u), Real.sin (2 * u)⟩
    + ⟨Real.cos u, -Real.sin u⟩ * (8 * u * u * Real.cos w + 2 * u * Complex.I * (3 * u * u + w * w) * ksi w)

/-- `ExpMap.h` 123. -/
def h1 (u w : ℝ) : ℂ :=
  2 * u * ⟨Real.cos (2 * u), Real.sin (2 * u)⟩
    - ⟨Real.cos u, -Real.sin u⟩ * (2 * u * Real.cos w + -Complex.I * (3 * u * u - w * w) * ksi w)

/-- `ExpMap.h` 124. -/
def h2 (u w : ℝ) : ℂ :=
  ⟨Real.cos (2 * u), Real.sin (2 * u)⟩ - ⟨Real.cos u, -Real.sin u⟩ * (Real.cos w + 3 * u * Complex.I * ksi w)

/-- `ExpMap.h` 105: the determinant of `-i` times the matrix. -/
def su3c0 (A : Mat 3) : ℝ := ((-Complex.I) • A).det.re

/-- `ExpMap.h` 110. -/
def su3c1 (A : Mat 3) : ℝ := -0.5 * (trace (A * A)).re

/-- `ExpMap.h` 111. -/
def su3c0max (A : Mat 3) : ℝ := 2 * su3c1 A / 3 * Real.sqrt (su3c1 A / 3)

/-- `ExpMap.h` 106-109, 112. -/
def su3theta (A : Mat 3) : ℝ := Real.arccos ((if su3c0 A < 0 then -su3c0 A else su3c0 A) / su3c0max A)

/-- `ExpMap.h` 113. -/
def su3u (A : Mat 3) : ℝ := Real.sqrt (su3c1 A / 3) * Real.cos (su3theta A / 3)

/-- `ExpMap.h` 114. -/
def su3w (A : Mat 3) : ℝ := Real.sqrt (su3c1 A) * Real.sin (su3theta A / 3)

/-- `ExponentialMap::exp` for three colours, `ExpMap.h` 100-140. -/
def expSu3 (A : Mat 3) : Option (Mat 3) :=
  let c0 := if su3c0 A < 0 then -su3c0 A else su3c0 A
  let u := su3u A
  let w := su3w A
  let den := 9 * u * u - w * w
  if su3c1 A < 0 ∨ su3c0max A = 0 ∨ 1 < |c0 / su3c0max A| ∨ den = 0 then none
  else
    let f0 := h0 u w / den
    let f1 := h1 u w / den
    let f2 := h2 u w / den
    if su3c0 A < 0 then some (-(conj f2) • (A * A) + (-(conj f1) * -Complex.I) • A + conj f0 • 1)
    else some (-f2 • (A * A) + (f1 * -Complex.I) • A + f0 • 1)

/-- `ExponentialMap::exp` for two colours, `ExpMap.h` 141-153. -/
def expSu2 (A : Mat 2) : Option (Mat 2) :=
  let a := (A 0 0).im
  let b := (A 0 1).re
  let c := (A 0 1).im
  let rho := Real.sqrt (a * a + b * b + c * c)
  let phi : ℂ := ⟨Real.cos rho, Real.sin rho⟩
  if rho = 0 then none
  else
    let r00 := (-(a - rho) * conj phi + (a + rho) * phi) / (2 * rho)
    let r01 := (⟨-c, b⟩ * conj phi + ⟨c, -b⟩ * phi) / (2 * rho)
    some !![r00, r01; -(conj r01), conj r00]

/-- `ExponentialMap::exp` for the other numbers of colours with Eigen, `ExpMap.h` 155-168, given the eigenvalues and the matrix of
eigenvectors. -/
def expSuN {N : ℕ} (eigenvalues : Fin N → ℂ) (m A : Mat N) : Mat N :=
  let eigvsSum := ∑ i, |(conj (eigenvalues i) * eigenvalues i).re|
  if eigvsSum < 0.0000000000000001 then 1 + A + (0.5 : ℂ) • (A * A)
  else m * Matrix.diagonal (fun i => Complex.exp (eigenvalues i)) * mᴴ

/-- The same with Armadillo, `ExpMap.h` 169-179. -/
def expSuNArma {N : ℕ} (eigenvalues : Fin N → ℂ) (m : Mat N) : Mat N :=
  m * Matrix.diagonal (fun i => Complex.exp (eigenvalues i)) * mᴴ

end

end Leonard
