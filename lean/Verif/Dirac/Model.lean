/-
The Wilson Dirac operator and the operators built from it.

Modelled source: `/repo/source/dirac_operators/DiracWilsonOperator.cpp`,
`BasicDiracWilsonOperator.cpp`, `ImprovedDiracWilsonOperator.cpp`, `BlockDiracWilsonOperator.cpp`,
`TwistedDiracOperator.cpp`, `SquareTwistedDiracOperator.cpp`, the other `Square*` classes,
`OverlapOperator.cpp`, `ExactOverlapOperator.cpp`, `SAPPreconditioner.cpp` and
`ComplementBlockDiracOperator.cpp`.

Simplifications: exact complex numbers instead of `std::complex<real_t>`; the single-process view of
the lattice (`Torus`, see C02 and C06); `diracVectorLength` is `N`, and the links of the fermion
representation are complex matrices (for the adjoint representation they are real matrices, which
are complex matrices with zero imaginary part).
-/
import Verif.Dirac.Gamma
import Verif.Gauge.Model
import Verif.Base.Outcome
import Mathlib.Data.Fin.VecNotation

set_option autoImplicit false

namespace Leonard

open Matrix

variable {S : Type} {N : ℕ}

/-- `reduced_dirac_vector_t`: at every site four spinor components with `diracVectorLength`
colours, `Environment.h`. -/
abbrev SField (S : Type) (N : ℕ) := S → Matrix (Fin 4) (Fin N) ℂ

/-! ### The optimised kernel, `DiracWilsonOperator.cpp` -/

/-- The loop `tmp += projection_spinor_minus[n] * conj(U(n,i))`, `DiracWilsonOperator.cpp:38-40`. -/
noncomputable def rowDag (U : Mat N) (p : Fin N → ℂ) (i : Fin N) : ℂ := ∑ n, p n * starRingEnd ℂ (U n i)

/-- The loop `tmm += projection_spinor_plus[n] * U(i,n)`, `DiracWilsonOperator.cpp:41-43`. -/
noncomputable def rowMul (U : Mat N) (p : Fin N → ℂ) (i : Fin N) : ℂ := ∑ n, p n * U i n

/-- The body of the loop over sites for colour `i`, `DiracWilsonOperator.cpp:25-192` in `multiply`
and `:213-380` in `multiplyAdd`, which differ only in the first assignment of each component
(lines 44-45, 63-64): `s` is what stands there besides the hopping term.  `tmpMH` and `tmmMH` are
the local variables `tmp` and `tmm` in direction `M` and half `H`. -/
noncomputable def optSite (T : Torus S) (U : GField S N) (κ : ℝ) (v : SField S N) (x : S) (i : Fin N)
    (s : Fin 4 → ℂ) : Fin 4 → ℂ :=
  let tmp00 : ℂ := rowDag (U (T.sdn 0 x) 0) (fun n => ⟨(v (T.sdn 0 x) 0 n).re + (v (T.sdn 0 x) 3 n).im, (v (T.sdn 0 x) 0 n).im - (v (T.sdn 0 x) 3 n).re⟩) i
  let tmm00 : ℂ := rowMul (U x 0) (fun n => ⟨(v (T.sup 0 x) 0 n).re - (v (T.sup 0 x) 3 n).im, (v (T.sup 0 x) 0 n).im + (v (T.sup 0 x) 3 n).re⟩) i
  let o0 : ℂ := s 0 - κ * (tmp00 + tmm00)
  let o3 : ℂ := s 3 + κ * ⟨(tmm00).im - (tmp00).im, (tmp00).re - (tmm00).re⟩
  let tmp01 : ℂ := rowDag (U (T.sdn 0 x) 0) (fun n => ⟨(v (T.sdn 0 x) 1 n).re + (v (T.sdn 0 x) 2 n).im, (v (T.sdn 0 x) 1 n).im - (v (T.sdn 0 x) 2 n).re⟩) i
  let tmm01 : ℂ := rowMul (U x 0) (fun n => ⟨(v (T.sup 0 x) 1 n).re - (v (T.sup 0 x) 2 n).im, (v (T.sup 0 x) 1 n).im + (v (T.sup 0 x) 2 n).re⟩) i
  let o1 : ℂ := s 1 - κ * (tmp01 + tmm01)
  let o2 : ℂ := s 2 + κ * ⟨(tmm01).im - (tmp01).im, (tmp01).re - (tmm01).re⟩
  let tmp10 : ℂ := rowDag (U (T.sdn 1 x) 1) (fun n => v (T.sdn 1 x) 0 n - v (T.sdn 1 x) 3 n) i
  let tmm10 : ℂ := rowMul (U x 1) (fun n => v (T.sup 1 x) 0 n + v (T.sup 1 x) 3 n) i
  let o0 : ℂ := o0 - κ * (tmp10 + tmm10)
  let o3 : ℂ := o3 + κ * (tmm10 - tmp10)
  let tmp11 : ℂ := rowDag (U (T.sdn 1 x) 1) (fun n => v (T.sdn 1 x) 1 n + v (T.sdn 1 x) 2 n) i
  let tmm11 : ℂ := rowMul (U x 1) (fun n => v (T.sup 1 x) 1 n - v (T.sup 1 x) 2 n) i
  let o1 : ℂ := o1 - κ * (tmp11 + tmm11)
  let o2 : ℂ := o2 + κ * (tmp11 - tmm11)
  let tmp20 : ℂ := rowDag (U (T.sdn 2 x) 2) (fun n => ⟨(v (T.sdn 2 x) 0 n).re + (v (T.sdn 2 x) 2 n).im, (v (T.sdn 2 x) 0 n).im - (v (T.sdn 2 x) 2 n).re⟩) i
  let tmm20 : ℂ := rowMul (U x 2) (fun n => ⟨(v (T.sup 2 x) 0 n).re - (v (T.sup 2 x) 2 n).im, (v (T.sup 2 x) 0 n).im + (v (T.sup 2 x) 2 n).re⟩) i
  let o0 : ℂ := o0 - κ * (tmp20 + tmm20)
  let o2 : ℂ := o2 + κ * ⟨(tmm20).im - (tmp20).im, (tmp20).re - (tmm20).re⟩
  let tmp21 : ℂ := rowDag (U (T.sdn 2 x) 2) (fun n => ⟨(v (T.sdn 2 x) 1 n).re - (v (T.sdn 2 x) 3 n).im, (v (T.sdn 2 x) 1 n).im + (v (T.sdn 2 x) 3 n).re⟩) i
  let tmm21 : ℂ := rowMul (U x 2) (fun n => ⟨(v (T.sup 2 x) 1 n).re + (v (T.sup 2 x) 3 n).im, (v (T.sup 2 x) 1 n).im - (v (T.sup 2 x) 3 n).re⟩) i
  let o1 : ℂ := o1 - κ * (tmp21 + tmm21)
  let o3 : ℂ := o3 + κ * ⟨(tmp21).im - (tmm21).im, (tmm21).re - (tmp21).re⟩
  let tmp30 : ℂ := rowDag (U (T.sdn 3 x) 3) (fun n => v (T.sdn 3 x) 0 n + v (T.sdn 3 x) 2 n) i
  let tmm30 : ℂ := rowMul (U x 3) (fun n => v (T.sup 3 x) 0 n - v (T.sup 3 x) 2 n) i
  let o0 : ℂ := o0 - κ * (tmp30 + tmm30)
  let o2 : ℂ := o2 + κ * (tmp30 - tmm30)
  let tmp31 : ℂ := rowDag (U (T.sdn 3 x) 3) (fun n => v (T.sdn 3 x) 1 n + v (T.sdn 3 x) 3 n) i
  let tmm31 : ℂ := rowMul (U x 3) (fun n => v (T.sup 3 x) 1 n - v (T.sup 3 x) 3 n) i
  let o1 : ℂ := o1 - κ * (tmp31 + tmm31)
  let o3 : ℂ := o3 + κ * (tmp31 - tmm31)
  ![o0, o1, o2, o3]

/-- `DiracWilsonOperator::multiply`, `DiracWilsonOperator.cpp:16-202`.  The components 2 and 3 are
negated at the end when `gamma5` is not set (193-198). -/
noncomputable def optMul (T : Torus S) (U : GField S N) (κ : ℝ) (g5 : Bool) (v : SField S N) : SField S N :=
  fun x => Matrix.of fun c i =>
    let o := optSite T U κ v x i ![v x 0 i, v x 1 i, -v x 2 i, -v x 3 i]
    if g5 then o c else ![o 0, o 1, -o 2, -o 3] c

/-- `DiracWilsonOperator::multiplyAdd`, `DiracWilsonOperator.cpp:204-391`. -/
noncomputable def optMulAdd (T : Torus S) (U : GField S N) (κ : ℝ) (g5 : Bool) (v w : SField S N) (α : ℂ) :
    SField S N :=
  fun x => Matrix.of fun c i =>
    let o := optSite T U κ v x i
      ![α * w x 0 i + v x 0 i, α * w x 1 i + v x 1 i, α * w x 2 i - v x 2 i, α * w x 3 i - v x 3 i]
    if g5 then o c else ![o 0, o 1, -o 2 + 2 * α * w x 2 i, -o 3 + 2 * α * w x 3 i] c

/-! ### The basic kernel, `BasicDiracWilsonOperator.cpp` -/

/-- `projection_spinor` of the forward neighbours, `BasicDiracWilsonOperator.cpp:32-41`. -/
noncomputable def projUp (T : Torus S) (v : SField S N) (x : S) (mu : Fin 4) (nu : Fin 2) (n : Fin N) : ℂ :=
  ![
    ![(⟨(v (T.sup 0 x) 0 n).re - (v (T.sup 0 x) 3 n).im, (v (T.sup 0 x) 0 n).im + (v (T.sup 0 x) 3 n).re⟩ : ℂ),
      ⟨(v (T.sup 0 x) 1 n).re - (v (T.sup 0 x) 2 n).im, (v (T.sup 0 x) 1 n).im + (v (T.sup 0 x) 2 n).re⟩],
    ![(⟨(v (T.sup 1 x) 0 n).re + (v (T.sup 1 x) 3 n).re, (v (T.sup 1 x) 0 n).im + (v (T.sup 1 x) 3 n).im⟩ : ℂ),
      ⟨(v (T.sup 1 x) 1 n).re - (v (T.sup 1 x) 2 n).re, (v (T.sup 1 x) 1 n).im - (v (T.sup 1 x) 2 n).im⟩],
    ![(⟨(v (T.sup 2 x) 0 n).re - (v (T.sup 2 x) 2 n).im, (v (T.sup 2 x) 0 n).im + (v (T.sup 2 x) 2 n).re⟩ : ℂ),
      ⟨(v (T.sup 2 x) 1 n).re + (v (T.sup 2 x) 3 n).im, (v (T.sup 2 x) 1 n).im - (v (T.sup 2 x) 3 n).re⟩],
    ![(⟨(v (T.sup 3 x) 0 n).re - (v (T.sup 3 x) 2 n).re, (v (T.sup 3 x) 0 n).im - (v (T.sup 3 x) 2 n).im⟩ : ℂ),
      ⟨(v (T.sup 3 x) 1 n).re - (v (T.sup 3 x) 3 n).re, (v (T.sup 3 x) 1 n).im - (v (T.sup 3 x) 3 n).im⟩]] mu nu

/-- `projection_spinor` of the backward neighbours, `BasicDiracWilsonOperator.cpp:55-64`. -/
noncomputable def projDn (T : Torus S) (v : SField S N) (x : S) (mu : Fin 4) (nu : Fin 2) (n : Fin N) : ℂ :=
  ![
    ![(⟨(v (T.sdn 0 x) 0 n).re + (v (T.sdn 0 x) 3 n).im, (v (T.sdn 0 x) 0 n).im - (v (T.sdn 0 x) 3 n).re⟩ : ℂ),
      ⟨(v (T.sdn 0 x) 1 n).re + (v (T.sdn 0 x) 2 n).im, (v (T.sdn 0 x) 1 n).im - (v (T.sdn 0 x) 2 n).re⟩],
    ![(⟨(v (T.sdn 1 x) 0 n).re - (v (T.sdn 1 x) 3 n).re, (v (T.sdn 1 x) 0 n).im - (v (T.sdn 1 x) 3 n).im⟩ : ℂ),
      ⟨(v (T.sdn 1 x) 1 n).re + (v (T.sdn 1 x) 2 n).re, (v (T.sdn 1 x) 1 n).im + (v (T.sdn 1 x) 2 n).im⟩],
    ![(⟨(v (T.sdn 2 x) 0 n).re + (v (T.sdn 2 x) 2 n).im, (v (T.sdn 2 x) 0 n).im - (v (T.sdn 2 x) 2 n).re⟩ : ℂ),
      ⟨(v (T.sdn 2 x) 1 n).re - (v (T.sdn 2 x) 3 n).im, (v (T.sdn 2 x) 1 n).im + (v (T.sdn 2 x) 3 n).re⟩],
    ![(⟨(v (T.sdn 3 x) 0 n).re + (v (T.sdn 3 x) 2 n).re, (v (T.sdn 3 x) 0 n).im + (v (T.sdn 3 x) 2 n).im⟩ : ℂ),
      ⟨(v (T.sdn 3 x) 1 n).re + (v (T.sdn 3 x) 3 n).re, (v (T.sdn 3 x) 1 n).im + (v (T.sdn 3 x) 3 n).im⟩]] mu nu

/-- The assignments to `output[site]` for colour `i` from `tmp_plus` (`tp`) and `tmp_minus` (`tm`),
`BasicDiracWilsonOperator.cpp:76-91`. -/
noncomputable def basicOut (κ : ℝ) (g5 : Bool) (v : SField S N) (x : S) (i : Fin N)
    (tp tm : Fin 4 → Fin 2 → Fin N → ℂ) : Fin 4 → ℂ :=
  if g5 then
    ![(⟨(v x 0 i).re - κ * ((tp 0 0 i).re + (tp 1 0 i).re + (tp 2 0 i).re + (tp 3 0 i).re), (v x 0 i).im - κ * ((tp 0 0 i).im + (tp 1 0 i).im + (tp 2 0 i).im + (tp 3 0 i).im)⟩ : ℂ),
      ⟨(v x 1 i).re - κ * ((tp 0 1 i).re + (tp 1 1 i).re + (tp 2 1 i).re + (tp 3 1 i).re), (v x 1 i).im - κ * ((tp 0 1 i).im + (tp 1 1 i).im + (tp 2 1 i).im + (tp 3 1 i).im)⟩,
      ⟨-((v x 2 i).re + κ * ((tm 1 1 i).re + (tm 3 0 i).re - (tm 0 1 i).im - (tm 2 0 i).im)), -((v x 2 i).im + κ * ((tm 0 1 i).re + (tm 2 0 i).re + (tm 1 1 i).im + (tm 3 0 i).im))⟩,
      ⟨-((v x 3 i).re + κ * ((tm 2 1 i).im - (tm 0 0 i).im - (tm 1 0 i).re + (tm 3 1 i).re)), -((v x 3 i).im + κ * ((tm 0 0 i).re - (tm 2 1 i).re - (tm 1 0 i).im + (tm 3 1 i).im))⟩]
  else
    ![(⟨(v x 0 i).re - κ * ((tp 0 0 i).re + (tp 1 0 i).re + (tp 2 0 i).re + (tp 3 0 i).re), (v x 0 i).im - κ * ((tp 0 0 i).im + (tp 1 0 i).im + (tp 2 0 i).im + (tp 3 0 i).im)⟩ : ℂ),
      ⟨(v x 1 i).re - κ * ((tp 0 1 i).re + (tp 1 1 i).re + (tp 2 1 i).re + (tp 3 1 i).re), (v x 1 i).im - κ * ((tp 0 1 i).im + (tp 1 1 i).im + (tp 2 1 i).im + (tp 3 1 i).im)⟩,
      ⟨(v x 2 i).re + κ * ((tm 1 1 i).re + (tm 3 0 i).re - (tm 0 1 i).im - (tm 2 0 i).im), (v x 2 i).im + κ * ((tm 0 1 i).re + (tm 2 0 i).re + (tm 1 1 i).im + (tm 3 0 i).im)⟩,
      ⟨(v x 3 i).re + κ * ((tm 2 1 i).im - (tm 0 0 i).im - (tm 1 0 i).re + (tm 3 1 i).re), (v x 3 i).im + κ * ((tm 0 0 i).re - (tm 2 1 i).re - (tm 1 0 i).im + (tm 3 1 i).im)⟩]

/-- `BasicDiracWilsonOperator::multiply`, `BasicDiracWilsonOperator.cpp:12-94`.  `tmp_plus` is first
the forward half (44-48), then `tmp_minus = tmp_plus - tmp` and `tmp_plus += tmp` (67-73). -/
noncomputable def basicMul (T : Torus S) (U : GField S N) (κ : ℝ) (g5 : Bool) (v : SField S N) : SField S N :=
  fun x => Matrix.of fun c i =>
    let fwd := fun mu nu n => (U x mu *ᵥ projUp T v x mu nu) n
    let bwd := fun mu nu n => ((U (T.sdn mu x) mu)ᴴ *ᵥ projDn T v x mu nu) n
    basicOut κ g5 v x i (fun mu nu n => fwd mu nu n + bwd mu nu n) (fun mu nu n => fwd mu nu n - bwd mu nu n) c

/-- `BasicDiracWilsonOperator::multiplyAdd`, `BasicDiracWilsonOperator.cpp:96-178`. -/
noncomputable def basicMulAdd (T : Torus S) (U : GField S N) (κ : ℝ) (g5 : Bool) (v w : SField S N) (α : ℂ) :
    SField S N :=
  fun x => Matrix.of fun c i =>
    let fwd := fun mu nu n => (U x mu *ᵥ projUp T v x mu nu) n
    let bwd := fun mu nu n => ((U (T.sdn mu x) mu)ᴴ *ᵥ projDn T v x mu nu) n
    α * w x c i +
      basicOut κ g5 v x i (fun mu nu n => fwd mu nu n + bwd mu nu n) (fun mu nu n => fwd mu nu n - bwd mu nu n) c

/-! ### The clover term, `ImprovedDiracWilsonOperator.cpp` -/

/-- The sum of the four leaves in the plane of `μ` and `ν`, one line of
`ImprovedDiracWilsonOperator.cpp:509-514` (the six lines have the same text up to the two
directions). -/
noncomputable def leafSum (T : Torus S) (U : GField S N) (μ ν : Fin 4) (x : S) : Mat N :=
  (U (T.sdn μ x) μ)ᴴ * (U (T.sdn ν (T.sdn μ x)) ν)ᴴ * U (T.sdn ν (T.sdn μ x)) μ * U (T.sdn ν x) ν
  + (U (T.sdn ν x) ν)ᴴ * U (T.sdn ν x) μ * U (T.sup μ (T.sdn ν x)) ν * (U x μ)ᴴ
  + U x μ * U (T.sup μ x) ν * (U (T.sup ν x) μ)ᴴ * (U x ν)ᴴ
  + U x ν * (U (T.sup ν (T.sdn μ x)) μ)ᴴ * (U (T.sdn μ x) ν)ᴴ * U (T.sdn μ x) μ

/-- The plane stored at index `k` of the field strength, `ImprovedDiracWilsonOperator.cpp:509-514`. -/
def planeOf : Fin 6 → Fin 4 × Fin 4 := ![(0, 1), (0, 2), (0, 3), (1, 2), (1, 3), (2, 3)]

/-- `ImprovedDiracWilsonOperator::updateFieldStrength`, `ImprovedDiracWilsonOperator.cpp:502-524`. -/
noncomputable def fieldStrength (T : Torus S) (U : GField S N) (x : S) (k : Fin 6) : Mat N :=
  (1 / 8 : ℂ) • (leafSum T U (planeOf k).1 (planeOf k).2 x - (leafSum T U (planeOf k).1 (planeOf k).2 x)ᴴ)

/-- `multiply_by_I`, `ImprovedDiracWilsonOperator.cpp:10-12`: `(re, im)` becomes `(-im, re)`. -/
noncomputable def mulI (z : ℂ) : ℂ := ⟨-z.im, z.re⟩

/-- `clover[c][i]`, `ImprovedDiracWilsonOperator.cpp:200-236`, for the field strength `F` at the
site and the spinor `v` there.  In the `ADJOINT` build (219-227) the entries of `F` are real numbers
and the coefficient is written as `complex(re, im)`, which is the same complex number. -/
noncomputable def cloverTerm (F : Fin 6 → Mat N) (v : Matrix (Fin 4) (Fin N) ℂ) (c : Fin 4) (i : Fin N) : ℂ :=
  ![(∑ j, mulI ((-F 0 i j + F 5 i j) * v 0 j)) + ∑ j, (F 1 i j + F 4 i j + mulI (F 2 i j - F 3 i j)) * v 1 j,
    (∑ j, mulI ((F 0 i j - F 5 i j) * v 1 j)) + ∑ j, (-F 1 i j - F 4 i j + mulI (F 2 i j - F 3 i j)) * v 0 j,
    (∑ j, mulI ((F 0 i j + F 5 i j) * v 2 j)) + ∑ j, (-F 1 i j + F 4 i j + mulI (F 2 i j + F 3 i j)) * v 3 j,
    (∑ j, mulI ((-F 0 i j - F 5 i j) * v 3 j)) + ∑ j, (F 1 i j - F 4 i j + mulI (F 2 i j + F 3 i j)) * v 2 j] c

/-- `ImprovedDiracWilsonOperator::multiply`, `ImprovedDiracWilsonOperator.cpp:16-252`: the
optimised kernel (the text of 22-197 is that of `DiracWilsonOperator.cpp:22-192`), the clover term
(238-243), and the sign when `gamma5` is not set (245-250). -/
noncomputable def improvedMul (T : Torus S) (U : GField S N) (κ csw : ℝ) (g5 : Bool) (v : SField S N) : SField S N :=
  fun x => Matrix.of fun c i =>
    let o := optSite T U κ v x i ![v x 0 i, v x 1 i, -v x 2 i, -v x 3 i]
    let o := fun c => o c + (κ * csw : ℂ) * cloverTerm (fieldStrength T U x) (v x) c i
    if g5 then o c else ![o 0, o 1, -o 2, -o 3] c

/-- `ImprovedDiracWilsonOperator::multiplyAdd`, `ImprovedDiracWilsonOperator.cpp:254-487`. -/
noncomputable def improvedMulAdd (T : Torus S) (U : GField S N) (κ csw : ℝ) (g5 : Bool) (v w : SField S N) (α : ℂ) :
    SField S N :=
  fun x => Matrix.of fun c i =>
    let o := optSite T U κ v x i
      ![α * w x 0 i + v x 0 i, α * w x 1 i + v x 1 i, α * w x 2 i - v x 2 i, α * w x 3 i - v x 3 i]
    let o := fun c => o c + (κ * csw : ℂ) * cloverTerm (fieldStrength T U x) (v x) c i
    if g5 then o c else ![o 0, o 1, -o 2 + 2 * α * w x 2 i, -o 3 + 2 * α * w x 3 i] c

/-! ### The operator restricted to blocks, `BlockDiracWilsonOperator.cpp` -/

/-- `BlockDiracOperator::initialize_index_lattice`, `BlockDiracOperator.cpp:78-91`: whether
`index_lattice[site]` is 1, for block sizes `bs` and `c = 0` for black, `c = 1` for red. -/
def blockIndex (T : Torus S) (bs : Fin 4 → ℕ) (c : ℕ) (x : S) : Bool :=
  (T.coord x 0 / bs 0 + T.coord x 1 / bs 1 + T.coord x 2 / bs 2 + T.coord x 3 / bs 3) % 2 == c

/-- `BlockDiracWilsonOperator::multiply`, `BlockDiracWilsonOperator.cpp:14-121`; `idx x` says that
`index_lattice[x] == 1`.  The hopping to sites with `idx` unset is left out (47-48, 71-78); the twist
is added with the sign of gamma5 (86-89, 95-98) and outside the blocks only the diagonal is kept
(102-119). -/
noncomputable def blockMul (T : Torus S) (idx : S → Bool) (U : GField S N) (κ τ : ℝ) (g5 : Bool) (v : SField S N) :
    SField S N :=
  fun x => Matrix.of fun c i =>
    if idx x then
      let fwd := fun mu nu n => if idx (T.sup mu x) then (U x mu *ᵥ projUp T v x mu nu) n else 0
      let bwd := fun mu nu n => ((U (T.sdn mu x) mu)ᴴ *ᵥ projDn T v x mu nu) n
      let tm := fun mu nu n => if idx (T.sdn mu x) then fwd mu nu n - bwd mu nu n else fwd mu nu n
      let tp := fun mu nu n => if idx (T.sdn mu x) then fwd mu nu n + bwd mu nu n else fwd mu nu n
      (if g5 then ![(⟨0, τ⟩ : ℂ), ⟨0, τ⟩, ⟨0, τ⟩, ⟨0, τ⟩] c else ![(⟨0, τ⟩ : ℂ), ⟨0, τ⟩, ⟨0, -τ⟩, ⟨0, -τ⟩] c) * v x c i
        + basicOut κ g5 v x i tp tm c
    else
      (if g5 then ![(⟨1, τ⟩ : ℂ), ⟨1, τ⟩, ⟨-1, τ⟩, ⟨-1, τ⟩] c else ![(⟨1, τ⟩ : ℂ), ⟨1, τ⟩, ⟨1, -τ⟩, ⟨1, -τ⟩] c) * v x c i

/-- `hopping[·][n]` of `BlockDiracWilsonOperator.cpp:134-163`, where `a mu nu` is
`lattice[site][mu]*vector1[sup(site,mu)][nu]` at colour `n` and `b mu nu` is
`htrans(lattice[sdn(site,mu)][mu])*vector1[sdn(site,mu)][nu]`.  `II` is the imaginary unit. -/
noncomputable def blockHopping (a b : Fin 4 → Fin 4 → ℂ) : Fin 4 → ℂ :=
  let II := Complex.I
  ![(a 0 0 + II * a 0 3 + a 1 0 + a 1 3 + a 2 0 + II * a 2 2 + a 3 0 - a 3 2)
      + (b 0 0 - II * b 0 3 + b 1 0 - b 1 3 + b 2 0 - II * b 2 2 + b 3 0 + b 3 2),
    (a 0 1 + II * a 0 2 + a 1 1 - a 1 2 + a 2 1 - II * a 2 3 + a 3 1 - a 3 3)
      + (b 0 1 - II * b 0 2 + b 1 1 + b 1 2 + b 2 1 + II * b 2 3 + b 3 1 + b 3 3),
    (II * a 0 1 - a 0 2 + a 1 1 - a 1 2 + II * a 2 0 - a 2 2 + a 3 0 - a 3 2)
      + (-II * b 0 1 - b 0 2 - b 1 1 - b 1 2 - II * b 2 0 - b 2 2 - b 3 0 - b 3 2),
    (II * a 0 0 - a 0 3 - a 1 0 - a 1 3 - II * a 2 1 - a 2 3 + a 3 1 - a 3 3)
      + (-II * b 0 0 - b 0 3 + b 1 0 - b 1 3 + II * b 2 1 - b 2 3 - b 3 1 - b 3 3)]

/-- `BlockDiracWilsonOperator::multiplyAdd`, `BlockDiracWilsonOperator.cpp:123-204`. -/
noncomputable def blockMulAdd (T : Torus S) (idx : S → Bool) (U : GField S N) (κ τ : ℝ) (g5 : Bool)
    (v w : SField S N) (α : ℂ) : SField S N :=
  fun x => Matrix.of fun c i =>
    if idx x then
      let h := blockHopping (fun mu nu => (U x mu *ᵥ v (T.sup mu x) nu) i)
        (fun mu nu => ((U (T.sdn mu x) mu)ᴴ *ᵥ v (T.sdn mu x) nu) i)
      if g5 then
        ![α * w x 0 i + ⟨1, τ⟩ * v x 0 i - κ * h 0, α * w x 1 i + ⟨1, τ⟩ * v x 1 i - κ * h 1,
          α * w x 2 i - (⟨1, -τ⟩ * v x 2 i + κ * h 2), α * w x 3 i - (⟨1, -τ⟩ * v x 3 i + κ * h 3)] c
      else
        ![α * w x 0 i + ⟨1, τ⟩ * v x 0 i - κ * h 0, α * w x 1 i + ⟨1, τ⟩ * v x 1 i - κ * h 1,
          α * w x 2 i + ⟨1, -τ⟩ * v x 2 i + κ * h 2, α * w x 3 i + ⟨1, -τ⟩ * v x 3 i + κ * h 3] c
    else
      α * w x c i +
      (if g5 then ![(⟨1, τ⟩ : ℂ), ⟨1, τ⟩, ⟨-1, τ⟩, ⟨-1, τ⟩] c else ![(⟨1, τ⟩ : ℂ), ⟨1, τ⟩, ⟨1, -τ⟩, ⟨1, -τ⟩] c) * v x c i

/-! ### Operator classes -/

/-- A Dirac operator object: what `multiply(output, input)` leaves in `output`, and what
`multiplyAdd(output, vector1, vector2, alpha)` leaves there, which may depend on the previous
contents of `output` (first argument) and may end the program.  `DiracOperator.h:40-60`. -/
structure DiracOp (S : Type) (N : ℕ) where
  mul : SField S N → SField S N
  mulAdd : SField S N → SField S N → SField S N → ℂ → Outcome (SField S N)

/-- The classes `DiracWilsonOperator`, `BasicDiracWilsonOperator`, `ImprovedDiracWilsonOperator`
and `BlockDiracWilsonOperator` as operator objects. -/
noncomputable def wilsonOp (T : Torus S) (U : GField S N) (κ : ℝ) (g5 : Bool) : DiracOp S N :=
  ⟨optMul T U κ g5, fun _ v w α => .ok (optMulAdd T U κ g5 v w α)⟩

@[inherit_doc wilsonOp]
noncomputable def basicOp (T : Torus S) (U : GField S N) (κ : ℝ) (g5 : Bool) : DiracOp S N :=
  ⟨basicMul T U κ g5, fun _ v w α => .ok (basicMulAdd T U κ g5 v w α)⟩

@[inherit_doc wilsonOp]
noncomputable def improvedOp (T : Torus S) (U : GField S N) (κ csw : ℝ) (g5 : Bool) : DiracOp S N :=
  ⟨improvedMul T U κ csw g5, fun _ v w α => .ok (improvedMulAdd T U κ csw g5 v w α)⟩

@[inherit_doc wilsonOp]
noncomputable def blockOp (T : Torus S) (idx : S → Bool) (U : GField S N) (κ τ : ℝ) (g5 : Bool) : DiracOp S N :=
  ⟨blockMul T idx U κ τ g5, fun _ v w α => .ok (blockMulAdd T idx U κ τ g5 v w α)⟩

/-- `SquareDiracWilsonOperator.cpp:12-22`, `SquareImprovedDiracWilsonOperator.cpp:13-23`,
`BasicSquareDiracWilsonOperator.cpp:13-23`, `SquareBlockDiracWilsonOperator.cpp:12-20` and
`SquareOverlapOperator.cpp:12-22`: the inner operator twice, and `multiplyAdd` is `multiply`
followed by the inner `multiplyAdd`. -/
def squareOp (D : DiracOp S N) : DiracOp S N :=
  ⟨fun v => D.mul (D.mul v), fun o v w α => D.mulAdd o (D.mul v) w α⟩

/-- `TwistedDiracOperator.cpp:11-47`: `+i·twist` on components 0, 1 and `-i·twist` on 2, 3, applied
to the result of the inner operator, unless `fabs(twist) <= 1e-17`. -/
noncomputable def addTwist (τ : ℝ) (v o : SField S N) : SField S N :=
  if |τ| > 0.00000000000000001 then
    fun x => Matrix.of fun c i =>
      if c.val < 2 then o x c i + ⟨0, τ⟩ * v x c i else o x c i - ⟨0, τ⟩ * v x c i
  else o

@[inherit_doc addTwist]
noncomputable def twistedOp (τ : ℝ) (D : DiracOp S N) : DiracOp S N :=
  ⟨fun v => addTwist τ v (D.mul v), fun o v w α => (D.mulAdd o v w α).bind fun r => .ok (addTwist τ v r)⟩

/-- `SquareTwistedDiracOperator.cpp:11-27`: `multiply` adds `twist*input`, `multiplyAdd` passes
`alpha + twist` to the inner operator. -/
noncomputable def squareTwistedOp (τ : ℝ) (D : DiracOp S N) : DiracOp S N :=
  ⟨fun v => D.mul v + (τ : ℂ) • v, fun o v w α => D.mulAdd o v w (α + τ)⟩

/-- The operators that add `alpha*vector2` to the result of their own `multiply`:
`SquareEvenOddImprovedDiracWilsonOperator.cpp:13-27`, `SquareComplementBlockDiracOperator.cpp:11-58`,
`SquareComplementBlockDiracWilsonOperator.cpp:13-44`.  `m` is the `multiply`. -/
noncomputable def explicitAddOp (m : SField S N → SField S N) : DiracOp S N :=
  ⟨m, fun _ v w α => .ok (fun x => m v x + α • w x)⟩

/-- The mixing of `input` and `sign` in `OverlapOperator.cpp:18-35`; `sg` is `tmp2`, the result of
the approximated sign function (with gamma5 included). -/
noncomputable def overlapOut (mass : ℝ) (g5 : Bool) (v sg : SField S N) : SField S N :=
  fun x => Matrix.of fun c i =>
    if g5 then
      ![(0.5 + mass / 2) * v x 0 i + (0.5 - mass / 2) * sg x 0 i, (0.5 + mass / 2) * v x 1 i + (0.5 - mass / 2) * sg x 1 i,
        -(0.5 + mass / 2) * v x 2 i + (0.5 - mass / 2) * sg x 2 i, -(0.5 + mass / 2) * v x 3 i + (0.5 - mass / 2) * sg x 3 i] c
    else
      ![(0.5 + mass / 2) * v x 0 i + (0.5 - mass / 2) * sg x 0 i, (0.5 + mass / 2) * v x 1 i + (0.5 - mass / 2) * sg x 1 i,
        (0.5 + mass / 2) * v x 2 i - (0.5 - mass / 2) * sg x 2 i, (0.5 + mass / 2) * v x 3 i - (0.5 - mass / 2) * sg x 3 i] c

/-- `OverlapOperator.cpp:12-66`.  `sgn` is the composition of `squareRootApproximation.evaluate` with
the Wilson operator (15-16, 43-44).  Without gamma5 `multiplyAdd` adds `alpha*vector2[site][0]` to
every component (58-61). -/
noncomputable def overlapOp (sgn : SField S N → SField S N) (mass : ℝ) (g5 : Bool) : DiracOp S N :=
  ⟨fun v => overlapOut mass g5 v (sgn v),
   fun _ v w α => .ok (fun x => Matrix.of fun c i =>
     overlapOut mass g5 v (sgn v) x c i + α * (if g5 then w x c i else w x 0 i))⟩

/-- `ExactOverlapOperator.cpp:18-112`; `sgn` is the sum of the exact part on the computed
eigenvectors and the approximated part on the rest (23-42), `output + tmp1` in the last loops. -/
noncomputable def exactOverlapOp (sgn : SField S N → SField S N) (mass : ℝ) (g5 : Bool) : DiracOp S N :=
  ⟨fun v => overlapOut mass g5 v (sgn v),
   fun _ v w α => .ok (fun x => Matrix.of fun c i => overlapOut mass g5 v (sgn v) x c i + α * w x c i)⟩

/-- `ComplementBlockDiracOperator.cpp:67-85` and `SAPPreconditioner.cpp:31-34`: the body of
`multiplyAdd` is empty.  `m` is the `multiply`. -/
def emptyAddOp (m : SField S N → SField S N) : DiracOp S N := ⟨m, fun o _ _ _ => .ok o⟩

/-- `EvenOddImprovedDiracWilsonOperator.cpp:49-52`: `multiplyAdd` prints a message and ends the
program with code 5.  `m` is the `multiply`. -/
def exitAddOp (m : SField S N → SField S N) : DiracOp S N := ⟨m, fun _ _ _ _ => .exit 5⟩

end Leonard
