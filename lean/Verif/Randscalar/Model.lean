/-
The random start of the scalar fields.

Modelled source: `/repo/source/scalar_updaters/RandomScalarUpdater.cpp` 49-67 (`execute`), 69-84 (`generateGaussianAdjointScalar`) and 86-104
(`generateGaussianFundamentalScalar`).

Simplifications: exact real numbers; the normal numbers are independent, with mean zero and standard deviation `sqrt(0.5)` (lines 9, 18, 25, 35), in whatever order
and by whatever thread they are drawn; the view of the lattice as a whole (the halos are updated in 83 and 103).
-/
import Verif.Scalar.Model
import Mathlib.Probability.Distributions.Gaussian.Real
import Mathlib.MeasureTheory.Constructions.Pi

set_option autoImplicit false

namespace Leonard

open MeasureTheory ProbabilityTheory

noncomputable section

variable {S : Type} {N : ℕ}

/-- The normal numbers for one adjoint field: site, component. -/
abbrev AdjointDraws (S : Type) (N : ℕ) := S → Fin (lieGenerators N).length → ℝ

/-- The normal numbers for one fundamental field: site, component and real (0) or imaginary (1) part. -/
abbrev FundamentalDraws (S : Type) (N : ℕ) := S → Fin N × Fin 2 → ℝ

/-- `generateGaussianAdjointScalar`, `RandomScalarUpdater.cpp` 69-84: what is written on every site, whatever was there. -/
def gaussianAdjointScalar (d : AdjointDraws S N) : S → AdjVec N := fun s i => d s i

/-- `generateGaussianFundamentalScalar`, `RandomScalarUpdater.cpp` 86-104. -/
def gaussianFundamentalScalar (d : FundamentalDraws S N) : S → FundVec N := fun s i => ⟨d s (i, 0), d s (i, 1)⟩

/-- `std::vector::resize`; new elements are `a` (in the program a field of zeros or of whatever the memory holds). -/
def resizeFields {A : Type} (l : List A) (n : ℕ) (a : A) : List A := l.take n ++ List.replicate (n - l.length) a

/-- One half of `execute`, `RandomScalarUpdater.cpp` 50-58 and 60-68: the number of fields is set to the option if it is different, then every field is
overwritten. -/
def fillFields {A : Type} (opt : ℕ) (fields : List A) (a : A) (generate : ℕ → A) : List A :=
  (List.range opt).foldl (fun l f => l.set f (generate f)) (if fields.length ≠ opt then resizeFields fields opt a else fields)

/-- `execute`, `RandomScalarUpdater.cpp` 49-67, with the fields before and the normal numbers of every field. -/
def randomScalarExecute (optA optF : ℕ) (fieldsA : List (S → AdjVec N)) (fieldsF : List (S → FundVec N)) (junkA : S → AdjVec N) (junkF : S → FundVec N)
    (dA : ℕ → AdjointDraws S N) (dF : ℕ → FundamentalDraws S N) : List (S → AdjVec N) × List (S → FundVec N) :=
  (fillFields optA fieldsA junkA fun f => gaussianAdjointScalar (dA f), fillFields optF fieldsF junkF fun f => gaussianFundamentalScalar (dF f))

/-- Independent normal numbers with standard deviation `sqrt(0.5)`. -/
def normalDraws (S : Type) [Fintype S] (ι : Type) [Fintype ι] : Measure (S → ι → ℝ) :=
  Measure.pi fun _ => Measure.pi fun _ => gaussianReal 0 (1 / 2)

/-- The law of the fields that `execute` leaves, as fields with the numbers of the options. -/
def randomScalarLaw (S : Type) [Fintype S] (N optA optF : ℕ) : Measure (Scalars S N optA optF) :=
  (Measure.pi fun _ => (normalDraws S (Fin (lieGenerators N).length)).map gaussianAdjointScalar).prod
    (Measure.pi fun _ => (normalDraws S (Fin N × Fin 2)).map gaussianFundamentalScalar)

end

end Leonard
