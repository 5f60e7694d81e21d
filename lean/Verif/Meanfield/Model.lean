import Verif.Scalar.Model

/-!
# The mean values of the scalar fields

Model of `scalar_measurements/MeanScalarField.cpp` with exact numbers. The sites are distributed over the processes by `rank`; process 0 writes. `reduceAllSum`
adds the numbers of all processes.
-/

set_option autoImplicit false

namespace Leonard

noncomputable section

variable {S : Type} {N nA nF : ℕ}

/-- What process `r` has after the loops over fields, its sites and the components, `MeanScalarField.cpp:17-28, 54-65`; the option says that there are `opt`
fields. -/
def localMean [Fintype S] {n : ℕ} {ι : Type} [Fintype ι] {A : Type} (opt : ℕ) (rank : S → ℕ) (f : A → ℝ) (φ : Fin n → S → ι → A) (r : ℕ) : ℝ :=
  ∑ i, ∑ s, if i.val < opt ∧ rank s = r then ∑ c, f (φ i s c) else 0

/-- The three numbers for adjoint fields, `MeanScalarField.cpp:30-43`. -/
def meanAdjoint [Fintype S] (optA processes : ℕ) (rank : S → ℕ) (Φ : Scalars S N nA nF) : List ℝ :=
  [fun x => x, fun x => x * x, fun x => |x|].map fun f =>
    (∑ r ∈ Finset.range processes, localMean optA rank f Φ.1 r) / ((optA * (N * N - 1) * Fintype.card S : ℕ) : ℝ)

/-- The three numbers for fundamental fields, `MeanScalarField.cpp:67-78`: those of the process which writes. -/
def meanFundamental [Fintype S] (optF : ℕ) (rank : S → ℕ) (Φ : Scalars S N nA nF) : List ℝ :=
  [fun z => z.re, fun z => (starRingEnd ℂ z * z).re, fun z => ‖z‖].map fun f =>
    localMean optF rank f Φ.2 0 / ((optF * N * Fintype.card S : ℕ) : ℝ)

/-- What is written under `adjoint_scalar_field` and `fundamental_scalar_field`, `MeanScalarField.cpp:11-82`: `none` if the options ask for fields that are not
there, then the code reads outside of the vector of fields. -/
def meanScalarField [Fintype S] (optA optF processes : ℕ) (rank : S → ℕ) (Φ : Scalars S N nA nF) : Option (Option (List ℝ) × Option (List ℝ)) :=
  if optA ≤ nA ∧ optF ≤ nF then
    some (if 0 < optA then some (meanAdjoint optA processes rank Φ) else none, if 0 < optF then some (meanFundamental optF rank Φ) else none)
  else none

end

end Leonard
