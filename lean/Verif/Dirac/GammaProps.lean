/-
C32: the tabulated gamma matrices.

Every statement is about the complex matrices the library returns.  The proofs check the finite
tables entry by entry over the Gaussian integers (the tables are the whole input, so this is a
complete check, not a sample) and carry the identities over to the complex numbers.
-/
import Verif.Dirac.Gamma
import Mathlib.LinearAlgebra.LinearIndependent.Lemmas
import Mathlib.LinearAlgebra.FiniteDimensional.Lemmas
import Mathlib.LinearAlgebra.Dimension.Constructions
import Mathlib.Data.Fintype.Pi
import Mathlib.Data.Nat.Bitwise
import Mathlib.Tactic.Ring
import Mathlib.Tactic.FinCases

set_option autoImplicit false

namespace Leonard

open Matrix

/-! ### Carrying identities from the Gaussian integers to the complex numbers -/

theorem toSpin_mul (A B) : toSpin (A * B) = toSpin A * toSpin B := map_mul _ _ _
theorem toSpin_add (A B) : toSpin (A + B) = toSpin A + toSpin B := map_add _ _ _
theorem toSpin_sub (A B) : toSpin (A - B) = toSpin A - toSpin B := map_sub _ _ _
theorem toSpin_neg (A) : toSpin (-A) = -toSpin A := map_neg _ _
theorem toSpin_one : toSpin 1 = 1 := map_one _
theorem toSpin_zero : toSpin 0 = 0 := map_zero _

theorem toSpin_smul (c : GaussianInt) (A) : toSpin (c • A) = (c.toComplex) • toSpin A := by
  ext i j
  simp [toSpin]

theorem toSpin_conjTranspose (A) : toSpin Aᴴ = (toSpin A)ᴴ := by
  ext i j
  simp [toSpin, GaussianInt.toComplex_star]

theorem toSpin_trace (A) : trace (toSpin A) = (trace A).toComplex := by
  simp [toSpin, trace, map_sum]

theorem toComplex_gI : GaussianInt.toComplex gI = Complex.I := by
  simp [GaussianInt.toComplex_def, gI]

/-! ### The tables -/

/-- C32: the four matrices anticommute to twice the (Euclidean) metric and are Hermitian. -/
theorem C32_clifford (mu nu : Fin 4) :
    tabGamma mu * tabGamma nu + tabGamma nu * tabGamma mu = (if mu = nu then 2 else 0) ∧
    (tabGamma mu)ᴴ = tabGamma mu := by
  have h1 : ∀ a b : Fin 4, tabGammaT a * tabGammaT b + tabGammaT b * tabGammaT a =
      if a = b then 1 + 1 else 0 := by decide +kernel
  have h2 : ∀ a : Fin 4, (tabGammaT a)ᴴ = tabGammaT a := by decide +kernel
  constructor
  · have := congrArg toSpin (h1 mu nu)
    rw [toSpin_add, toSpin_mul, toSpin_mul] at this
    unfold tabGamma
    rw [this]
    split_ifs
    · rw [toSpin_add, toSpin_one, one_add_one_eq_two]
    · exact toSpin_zero
  · unfold tabGamma
    rw [← toSpin_conjTranspose, h2]

/-- C32: gamma5 is the product of the four matrices; it is Hermitian, squares to one and
anticommutes with each of them.  The entry of the sixteen element table that `Gamma::gamma5()`
returns is the same matrix. -/
theorem C32_gamma5 :
    tabGamma5 = tabGamma 0 * tabGamma 1 * tabGamma 2 * tabGamma 3 ∧
    tabGamma5ᴴ = tabGamma5 ∧ tabGamma5 * tabGamma5 = 1 ∧
    (∀ mu, tabGamma5 * tabGamma mu = -(tabGamma mu * tabGamma5)) ∧
    tabChroma 15 = tabGamma5 := by
  have h1 : tabGamma5T = tabGammaT 0 * tabGammaT 1 * tabGammaT 2 * tabGammaT 3 := by
    decide +kernel
  have h2 : tabGamma5Tᴴ = tabGamma5T := by decide +kernel
  have h3 : tabGamma5T * tabGamma5T = 1 := by decide +kernel
  have h4 : ∀ mu, tabGamma5T * tabGammaT mu = -(tabGammaT mu * tabGamma5T) := by decide +kernel
  have h5 : tabChromaT 15 = tabGamma5T := by decide +kernel
  refine ⟨?_, ?_, ?_, fun mu => ?_, ?_⟩
  · simp only [tabGamma5, tabGamma, ← toSpin_mul, ← h1]
  · simp only [tabGamma5, ← toSpin_conjTranspose, h2]
  · simp only [tabGamma5, ← toSpin_mul, h3, toSpin_one]
  · simp only [tabGamma5, tabGamma, ← toSpin_mul, h4, toSpin_neg]
  · simp only [tabGamma5, tabChroma, h5]

/-- C32: the derived tables are what their names say. -/
theorem C32_derived (mu nu : Fin 4) :
    tabGamma5Plus mu = tabGamma5 * (1 + tabGamma mu) ∧
    tabGamma5Minus mu = tabGamma5 * (1 - tabGamma mu) ∧
    tabGamma5Gamma mu = tabGamma5 * tabGamma mu ∧
    (2 : ℂ) • tabSigma mu nu =
      Complex.I • (tabGamma mu * tabGamma nu - tabGamma nu * tabGamma mu) ∧
    tabGamma5Sigma mu nu = tabGamma5 * tabSigma mu nu := by
  have h1 : ∀ mu, tabGamma5PlusT mu = tabGamma5T * (1 + tabGammaT mu) := by decide +kernel
  have h2 : ∀ mu, tabGamma5MinusT mu = tabGamma5T * (1 - tabGammaT mu) := by decide +kernel
  have h3 : ∀ mu, tabGamma5GammaT mu = tabGamma5T * tabGammaT mu := by decide +kernel
  have h4 : ∀ mu nu, (1 + 1 : GaussianInt) • tabSigmaT mu nu =
      gI • (tabGammaT mu * tabGammaT nu - tabGammaT nu * tabGammaT mu) := by decide +kernel
  have h5 : ∀ mu nu, tabGamma5SigmaT mu nu = tabGamma5T * tabSigmaT mu nu := by decide +kernel
  refine ⟨?_, ?_, ?_, ?_, ?_⟩
  · simp only [tabGamma5Plus, tabGamma5, tabGamma, ← toSpin_one, ← toSpin_mul, ← toSpin_add, h1]
  · simp only [tabGamma5Minus, tabGamma5, tabGamma, ← toSpin_one, ← toSpin_mul, ← toSpin_sub, h2]
  · simp only [tabGamma5Gamma, tabGamma5, tabGamma, ← toSpin_mul, h3]
  · have := congrArg toSpin (h4 mu nu)
    rw [toSpin_smul, toSpin_smul, toComplex_gI, map_add, map_one, one_add_one_eq_two] at this
    simpa only [tabSigma, tabGamma, ← toSpin_mul, ← toSpin_sub] using this
  · simp only [tabGamma5Sigma, tabGamma5, tabSigma, ← toSpin_mul, h5]

/-- C32: entry `n` of the second sixteen element table is the product of the `gamma_k`, in
increasing order of `k`, over the bits `k` set in `n`. -/
theorem C32_chroma (n : Fin 16) :
    tabChroma n = (if n.val.testBit 0 then tabGamma 0 else 1) *
      (if n.val.testBit 1 then tabGamma 1 else 1) *
      (if n.val.testBit 2 then tabGamma 2 else 1) *
      (if n.val.testBit 3 then tabGamma 3 else 1) := by
  have h : ∀ n : Fin 16, tabChromaT n = (if n.val.testBit 0 then tabGammaT 0 else 1) *
      (if n.val.testBit 1 then tabGammaT 1 else 1) *
      (if n.val.testBit 2 then tabGammaT 2 else 1) *
      (if n.val.testBit 3 then tabGammaT 3 else 1) := by decide +kernel
  have e : ∀ (b : Bool) (A), toSpin (if b then A else 1) = if b then toSpin A else 1 := by
    intro b A; cases b <;> simp [toSpin_one]
  unfold tabChroma
  rw [h, toSpin_mul, toSpin_mul, toSpin_mul, e, e, e, e]
  rfl

/-- C32: what the entries of the first sixteen element table are: one, gamma5, the vectors, the
axial vectors `i gamma5 gamma_mu` and the tensors `sigma_{mu nu}`.  The last tensor carries the
opposite sign (`sigma_{32}` instead of `sigma_{23}`), which leaves the table a basis. -/
theorem C32_basis :
    tabBasis 0 = 1 ∧ tabBasis 1 = tabGamma5 ∧
    tabBasis 2 = tabGamma 0 ∧ tabBasis 3 = tabGamma 1 ∧ tabBasis 4 = tabGamma 2 ∧
    tabBasis 5 = tabGamma 3 ∧
    tabBasis 6 = Complex.I • (tabGamma5 * tabGamma 0) ∧
    tabBasis 7 = Complex.I • (tabGamma5 * tabGamma 1) ∧
    tabBasis 8 = Complex.I • (tabGamma5 * tabGamma 2) ∧
    tabBasis 9 = Complex.I • (tabGamma5 * tabGamma 3) ∧
    tabBasis 10 = tabSigma 0 1 ∧ tabBasis 11 = tabSigma 0 2 ∧ tabBasis 12 = tabSigma 0 3 ∧
    tabBasis 13 = tabSigma 1 2 ∧ tabBasis 14 = tabSigma 1 3 ∧ tabBasis 15 = tabSigma 3 2 := by
  simp only [tabBasis, tabGamma5, tabGamma, tabSigma, ← toComplex_gI, ← toSpin_smul, ← toSpin_mul,
    ← toSpin_one]
  refine ⟨?_, ?_, ?_, ?_, ?_, ?_, ?_, ?_, ?_, ?_, ?_, ?_, ?_, ?_, ?_, ?_⟩ <;>
    exact congrArg toSpin (by decide +kernel)

theorem orthogonal_independent (b : Fin 16 → SpinMat)
    (h : ∀ i j, trace ((b i)ᴴ * b j) = if i = j then 4 else 0) : LinearIndependent ℂ b := by
  rw [Fintype.linearIndependent_iff]
  intro g hg j
  have h2 : trace ((b j)ᴴ * ∑ i, g i • b i) = 0 := by rw [hg, mul_zero, trace_zero]
  rw [Finset.mul_sum, trace_sum] at h2
  have : ∑ i, trace ((b j)ᴴ * (g i • b i)) = ∑ i, g i * (if j = i then 4 else 0) := by
    refine Finset.sum_congr rfl fun i _ => ?_
    rw [Matrix.mul_smul, trace_smul, h, smul_eq_mul]
  rw [this] at h2
  simp only [mul_ite, mul_zero, Finset.sum_ite_eq, Finset.mem_univ, if_true] at h2
  simpa using h2

theorem tabBasis_orthogonal (i j : Fin 16) :
    trace ((tabBasis i)ᴴ * tabBasis j) = if i = j then 4 else 0 := by
  have h : ∀ i j : Fin 16, trace ((tabBasisT i)ᴴ * tabBasisT j) = if i = j then 4 else 0 := by
    decide +kernel
  unfold tabBasis
  rw [← toSpin_conjTranspose, ← toSpin_mul, toSpin_trace, h]
  split_ifs
  · exact map_ofNat GaussianInt.toComplex 4
  · exact map_zero _

theorem tabChroma_orthogonal (i j : Fin 16) :
    trace ((tabChroma i)ᴴ * tabChroma j) = if i = j then 4 else 0 := by
  have h : ∀ i j : Fin 16, trace ((tabChromaT i)ᴴ * tabChromaT j) = if i = j then 4 else 0 := by
    decide +kernel
  unfold tabChroma
  rw [← toSpin_conjTranspose, ← toSpin_mul, toSpin_trace, h]
  split_ifs
  · exact map_ofNat GaussianInt.toComplex 4
  · exact map_zero _

/-- C32: both sixteen element tables are bases of the 4x4 complex matrices: linearly independent
and spanning. -/
theorem C32_independent :
    (LinearIndependent ℂ tabBasis ∧ Submodule.span ℂ (Set.range tabBasis) = ⊤) ∧
    (LinearIndependent ℂ tabChroma ∧ Submodule.span ℂ (Set.range tabChroma) = ⊤) := by
  have hd : Fintype.card (Fin 16) = Module.finrank ℂ SpinMat := by
    rw [Module.finrank_matrix]; simp
  have h1 := orthogonal_independent _ tabBasis_orthogonal
  have h2 := orthogonal_independent _ tabChroma_orthogonal
  exact ⟨⟨h1, h1.span_eq_top_of_card_eq_finrank hd⟩, ⟨h2, h2.span_eq_top_of_card_eq_finrank hd⟩⟩

/-- The row `c*4+nu` of the enlarged matrices. -/
def colourRow {n : Nat} (c : Fin n) (nu : Fin 4) : Fin (n * 4) :=
  ⟨c.val * 4 + nu.val, by have := c.isLt; have := nu.isLt; omega⟩

/-- C32: for every number of colours the matrices returned by the library act on each colour
separately with the 4x4 matrix, and products of table entries are again of that form, so every
identity above holds for them too. -/
theorem C32_colours {n : Nat} (A B : SpinMat) :
    (∀ (c d : Fin n) (nu rho : Fin 4),
      colourBlocks n A (colourRow c nu) (colourRow d rho) = if c = d then A nu rho else 0) ∧
    colourBlocks n A * colourBlocks n B = colourBlocks n (A * B) ∧
    colourBlocks n (A + B) = colourBlocks n A + colourBlocks n B ∧
    colourBlocks n 1 = 1 := by
  have key : ∀ (M : SpinMat) (c d : Fin n) (nu rho : Fin 4),
      colourBlocks n M (colourRow c nu) (colourRow d rho) = if c = d then M nu rho else 0 := by
    intro M c d nu rho
    have e1 : (c.val * 4 + nu.val) / 4 = c.val := by have := nu.isLt; omega
    have e2 : (d.val * 4 + rho.val) / 4 = d.val := by have := rho.isLt; omega
    have e3 : (c.val * 4 + nu.val) % 4 = nu.val := by have := nu.isLt; omega
    have e4 : (d.val * 4 + rho.val) % 4 = rho.val := by have := rho.isLt; omega
    simp only [colourBlocks, colourRow, of_apply, e1, e2, e3, e4, Fin.ext_iff]
  have rows : ∀ i : Fin (n * 4), ∃ (c : Fin n) (nu : Fin 4), i = colourRow c nu := by
    intro i
    have hi := i.isLt
    refine ⟨⟨i.val / 4, by omega⟩, ⟨i.val % 4, by omega⟩, Fin.ext ?_⟩
    simp only [colourRow]
    omega
  have bij : Function.Bijective (fun p : Fin n × Fin 4 => colourRow p.1 p.2) := by
    constructor
    · rintro ⟨c, nu⟩ ⟨d, rho⟩ h
      have h' := congrArg Fin.val h
      simp only [colourRow] at h'
      have := nu.isLt
      have := rho.isLt
      exact Prod.ext (Fin.ext (by simp only; omega)) (Fin.ext (by simp only; omega))
    · intro i
      obtain ⟨c, nu, h⟩ := rows i
      exact ⟨(c, nu), h.symm⟩
  refine ⟨key A, ?_, ?_, ?_⟩
  · ext i j
    obtain ⟨c, nu, rfl⟩ := rows i
    obtain ⟨d, rho, rfl⟩ := rows j
    rw [mul_apply, key, ← bij.sum_comp, Fintype.sum_prod_type]
    simp only [key]
    rw [Finset.sum_eq_single c]
    · by_cases h : c = d
      · simp [h, mul_apply]
      · simp [h]
    · intro b _ hb
      exact Finset.sum_eq_zero fun k _ => by rw [if_neg (Ne.symm hb), zero_mul]
    · intro h; exact absurd (Finset.mem_univ _) h
  · ext i j
    obtain ⟨c, nu, rfl⟩ := rows i
    obtain ⟨d, rho, rfl⟩ := rows j
    rw [add_apply, key, key, key]
    split_ifs <;> simp
  · ext i j
    obtain ⟨c, nu, rfl⟩ := rows i
    obtain ⟨d, rho, rfl⟩ := rows j
    rw [key, one_apply, one_apply]
    have : colourRow c nu = colourRow d rho ↔ c = d ∧ nu = rho := by
      constructor
      · intro h
        have := @bij.1 (c, nu) (d, rho) h
        exact ⟨congrArg Prod.fst this, congrArg Prod.snd this⟩
      · rintro ⟨rfl, rfl⟩; rfl
    by_cases h1 : c = d
    · subst h1
      have : colourRow c nu = colourRow c rho ↔ nu = rho := by simpa using this
      simp only [this, if_true]
    · have h3 : ¬ colourRow c nu = colourRow d rho := fun h => h1 (this.1 h).1
      rw [if_neg h1, if_neg h3]

/-- The tables are not degenerate: gamma5 is not a multiple of the identity and the matrices for
three colours differ from their one colour block. -/
example : tabGamma5 0 0 = 1 ∧ tabGamma5 3 3 = -1 ∧ colourBlocks 3 tabGamma5 7 7 = -1 := by
  have h0 : tabGamma5 0 0 = 1 := by simp [tabGamma5, toSpin, tabGamma5T]
  have h3 : tabGamma5 3 3 = -1 := by simp [tabGamma5, toSpin, tabGamma5T]
  refine ⟨h0, h3, ?_⟩
  have := (C32_colours (n := 3) tabGamma5 1).1 1 1 3 3
  rw [if_pos rfl, h3] at this
  exact this

end Leonard
