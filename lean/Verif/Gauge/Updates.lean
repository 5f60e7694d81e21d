import Verif.Gauge.Model
import Mathlib.LinearAlgebra.UnitaryGroup
import Mathlib.LinearAlgebra.Matrix.Notation
import Mathlib.Analysis.SpecialFunctions.Trigonometric.Inverse
import Mathlib.Analysis.SpecialFunctions.Log.Basic
import Mathlib.Analysis.SpecialFunctions.Pow.Real
import Mathlib.Analysis.SpecialFunctions.Complex.Arg

/-!
# Link updates

Exact arithmetic: `real_t` is `ℝ`, `std::complex<real_t>` is `ℂ`. A division by zero, which in the program makes the link not a
number, is the outcome `none`. Random numbers are arguments.
-/

set_option autoImplicit false

namespace Leonard

open Matrix ComplexConjugate

/-! ### Heat bath -/

/-- The four uniform numbers of one attempt of `generate_radius`, in the order they are drawn. -/
structure RadiusDraw where
  ξ1 : ℝ
  ξ2 : ℝ
  ξ3 : ℝ
  r : ℝ

/-- `PureGaugeUpdater::generate_radius`, `PureGaugeUpdater.cpp` 118-130 and 133-145; `none` when the loop has not ended with
the given attempts. -/
noncomputable def generateRadius (b : ℝ) : List RadiusDraw → Option ℝ
  | [] => none
  | d :: ds =>
    let x1 := Real.log d.ξ1
    let x2 := Real.log d.ξ2
    let x3 := (Real.cos (2 * Real.pi * d.ξ3)) ^ 2
    let s := 1 + b * (x1 + x2 * x3)
    if 1 + s - 2 * d.r * d.r < 0 then generateRadius b ds else some s

/-- `PureGaugeUpdater::generate_vector`, `PureGaugeUpdater.cpp` 149-165. -/
noncomputable def generateVector (radius ξ1 ξ2 : ℝ) : ℝ × ℝ × ℝ :=
  let phi := 2 * Real.pi * ξ1
  let theta := Real.arccos (2 * ξ2 - 1)
  (radius * Real.sin theta * Real.cos phi, radius * Real.sin theta * Real.sin phi, radius * Real.cos theta)

/-- The matrix of `PureGaugeUpdater.cpp` 187-191 and 221-224. -/
def su2Matrix (u0 u1 u2 u3 : ℝ) : Mat 2 := !![⟨u0, u3⟩, ⟨u2, u1⟩; ⟨-u2, u1⟩, ⟨u0, -u3⟩]

/-- The random numbers of one heat bath step. -/
structure HeatBathDraw where
  radius : List RadiusDraw
  ξ1 : ℝ
  ξ2 : ℝ

/-- The random SU(2) matrix of one heat bath step. -/
noncomputable def randomSu2 (b : ℝ) (d : HeatBathDraw) : Option (Mat 2) :=
  (generateRadius b d.radius).map fun u0 =>
    let u := generateVector (Real.sqrt (1 - u0 * u0)) d.ξ1 d.ξ2
    su2Matrix u0 u.1 u.2.1 u.2.2

/-- `updateLink` of the heat bath for two colours, `PureGaugeUpdater.cpp` 213-228. -/
noncomputable def heatBath2 (β : ℝ) (staple : Mat 2) (d : HeatBathDraw) : Option (Mat 2) :=
  let detStaple := ‖staple.det‖
  if detStaple = 0 then none
  else
    (randomSu2 (1 / (β * Real.sqrt detStaple)) d).map fun R =>
      let L := ((1 / Real.sqrt detStaple : ℝ) : ℂ) • (R * stapleᴴ)
      ((1 / detStaple : ℝ) : ℂ) • (stapleᴴ * Lᴴ * stapleᴴ)

section
variable {N : ℕ}

/-- The loop over `i` of `PureGaugeUpdater.cpp` 200-209 on one matrix: rows `k` and `l` are replaced by combinations. -/
def rowUpdate (s : Mat 2) (k l : Fin N) (M : Mat N) : Mat N := fun i j =>
  if i = k then s 0 0 * M k j + s 0 1 * M l j
  else if i = l then s 1 0 * M k j + s 1 1 * M l j
  else M i j

/-- The effective SU(2) staple, `PureGaugeUpdater.cpp` 176-179 and 192-196. -/
noncomputable def subStaple (P : Mat N) (k l : Fin N) : Mat 2 :=
  let aeff := ((P k k).im - (P l l).im) / 2
  let beff := ((P k l).im + (P l k).im) / 2
  let ceff := ((P k l).re - (P l k).re) / 2
  let deff := ((P k k).re + (P l l).re) / 2
  !![⟨deff, aeff⟩, ⟨ceff, beff⟩; ⟨-ceff, beff⟩, ⟨deff, -aeff⟩]

/-- `detStaple`, `PureGaugeUpdater.cpp` 180. -/
noncomputable def subDet (P : Mat N) (k l : Fin N) : ℝ :=
  let aeff := ((P k k).im - (P l l).im) / 2
  let beff := ((P k l).im + (P l k).im) / 2
  let ceff := ((P k l).re - (P l k).re) / 2
  let deff := ((P k k).re + (P l l).re) / 2
  aeff * aeff + beff * beff + ceff * ceff + deff * deff

/-- The update matrix of one subgroup, `PureGaugeUpdater.cpp` 181-198. -/
noncomputable def subUpdate (β : ℝ) (P : Mat N) (k l : Fin N) (d : HeatBathDraw) : Option (Mat 2) :=
  let detStaple := subDet P k l
  if detStaple = 0 then none
  else
    (randomSu2 (N / (2 * β * Real.sqrt detStaple)) d).map fun R =>
      let W := subStaple P k l
      ((1 / detStaple ^ (3 / 2 : ℝ) : ℝ) : ℂ) • (Wᴴ * (R * Wᴴ)ᴴ * Wᴴ)

/-- One pass of the loops over `k` and `l`: the link and the plaquette. -/
noncomputable def heatBathStep (β : ℝ) (rnd : Fin N × Fin N → HeatBathDraw) (st : Mat N × Mat N) (kl : Fin N × Fin N) :
    Option (Mat N × Mat N) :=
  (subUpdate β st.2 kl.1 kl.2 (rnd kl)).map fun s => (rowUpdate s kl.1 kl.2 st.1, rowUpdate s kl.1 kl.2 st.2)

/-- The pairs of the loops `for k < numberColors-1, for l = k+1 …`, in order. -/
def subgroupPairs (N : ℕ) : List (Fin N × Fin N) :=
  (List.finRange N).flatMap fun k => ((List.finRange N).filter fun l => k < l).map fun l => (k, l)

/-- `updateLink` of the heat bath for more than two colours, `PureGaugeUpdater.cpp` 169-211. -/
noncomputable def heatBathN (β : ℝ) (U staple : Mat N) (rnd : Fin N × Fin N → HeatBathDraw) : Option (Mat N) :=
  ((subgroupPairs N).foldlM (heatBathStep β rnd) (U, U * staple)).map Prod.fst

/-! ### Overrelaxation -/

/-- `updateLink` of the overrelaxation for two colours, `PureGaugeOverrelaxation.cpp` 162-174. -/
noncomputable def overrelax2 (U staple : Mat 2) : Mat 2 :=
  let detStaple := ‖staple.det‖
  if |detStaple| > 0.0001 then ((1 / detStaple : ℝ) : ℂ) • (stapleᴴ * Uᴴ * stapleᴴ) else U

/-- A matrix with its first row multiplied by `c`. -/
def scaleFirstRow (c : ℂ) (Q : Mat N) : Mat N := fun i j => if i.val = 0 then Q i j * c else Q i j

/-- The proposal of the overrelaxation for more than two colours, `PureGaugeOverrelaxation.cpp` 136-143, given the factor `Q` of
the QR decomposition of the staple, which the linear algebra library computes. -/
noncomputable def overrelaxTrial (Q U : Mat N) : Mat N :=
  let Q' := scaleFirstRow (conj Q.det) Q
  Q'ᴴ * Uᴴ * Q'ᴴ

/-- `updateLink` of the overrelaxation for more than two colours, `PureGaugeOverrelaxation.cpp` 133-159; `delta` is
`deltaAction` and `ξ` the uniform number. -/
noncomputable def overrelaxN (Q U : Mat N) (delta ξ : ℝ) : Mat N :=
  if delta < 0 then overrelaxTrial Q U else if ξ < Real.exp (-delta) then overrelaxTrial Q U else U

/-! ### Starting configurations -/

/-- `ColdStartGaugeConfiguration.cpp` 14-21. -/
def coldLink (N : ℕ) : Mat N := fun i j => if i = j then 1 else 0

/-- `HotStartGaugeConfiguration.cpp` 50-56. -/
noncomputable def hotLink2 (ξ1 ξ2 ξ3 : ℝ) : Mat 2 :=
  let chi12 := 2 * Real.pi * ξ1
  let psi12 := 2 * Real.pi * ξ2
  let phi12 := Real.arcsin (ξ3 ^ (1 / 2 : ℝ))
  !![(Real.cos phi12 : ℂ) * ⟨Real.cos psi12, Real.sin psi12⟩, ⟨Real.cos chi12, Real.sin chi12⟩ * (Real.sin phi12 : ℂ);
     -(⟨Real.cos chi12, -Real.sin chi12⟩ * (Real.sin phi12 : ℂ)), (Real.cos phi12 : ℂ) * ⟨Real.cos psi12, -Real.sin psi12⟩]

/-- `HotStartGaugeConfiguration.cpp` 23-37 (Eigen): `Q` is the unitary factor the library computes. -/
noncomputable def hotLinkN (Q : Mat N) : Mat N := scaleFirstRow (conj Q.det) Q

/-! ### Reunitarisation -/

/-- `ReUnit.cpp` 31-43 for one link; `none` when the norm is zero. -/
noncomputable def reunit2 (U : Mat 2) : Option (Mat 2) :=
  let a := (U 0 0).im
  let b := (U 0 1).im
  let c := (U 0 1).re
  let d := (U 0 0).re
  let norm := Real.sqrt (a * a + b * b + c * c + d * d)
  if norm = 0 then none
  else some !![⟨d / norm, a / norm⟩, ⟨c / norm, b / norm⟩; ⟨-(c / norm), b / norm⟩, ⟨d / norm, -(a / norm)⟩]

/-- `ReUnit.cpp` 19-21: row `i` minus its projection on row `j`. -/
noncomputable def projectOut (i : Fin N) (U : Mat N) (j : Fin N) : Mat N :=
  let proj := ∑ k, conj (U j k) * U i k
  fun r k => if r = i then U i k - proj * U j k else U r k

/-- `ReUnit.cpp` 23-25: row `i` divided by `abs(normvec)`, which is the square of its norm. -/
noncomputable def scaleRow (i : Fin N) (U : Mat N) : Option (Mat N) :=
  let normvec := ∑ k, conj (U i k) * U i k
  if ‖normvec‖ = 0 then none else some fun r k => if r = i then U i k / (‖normvec‖ : ℂ) else U r k

/-- `ReUnit.cpp` 17-26 for one `i`. -/
noncomputable def reunitRow (U : Mat N) (i : Fin N) : Option (Mat N) :=
  scaleRow i (((List.finRange N).filter fun j => j < i).foldl (projectOut i) U)

/-- `ReUnit.cpp` 27-28: the last row is multiplied by the conjugate of the phase of the determinant. -/
noncomputable def fixPhase (U : Mat N) : Mat N :=
  let deter := U.det
  fun r k => if r.val + 1 = N then U r k * ⟨Real.cos deter.arg, -Real.sin deter.arg⟩ else U r k

/-- `ReUnit.cpp` 17-28 for one link, more than two colours. -/
noncomputable def reunitN (U : Mat N) : Option (Mat N) :=
  ((List.finRange N).foldlM reunitRow U).map fixPhase

/-! ### Molecular dynamics step for the links -/

/-- `Integrate::updateLinkConfiguration`, `Integrate.cpp` 24-47, for one link. The eigenvalues and the matrix of eigenvectors
of the momentum come from the linear algebra library. -/
noncomputable def mdLinkUpdate (ε : ℝ) (eigenvalues : Fin N → ℂ) (m U : Mat N) : Mat N :=
  m * Matrix.diagonal (fun i => Complex.exp (ε * eigenvalues i)) * mᴴ * U

end

end Leonard
