/-
C34: hermiticity, gamma5-hermiticity and gauge covariance of the Dirac operators.
-/
import Verif.Dirac.HermLemmas

set_option autoImplicit false

namespace Leonard

open Matrix

variable {S : Type} {N : ℕ}

/-- **C34, inner product.** The squared norm of the program is the inner product of a field with itself,
it vanishes only for the zero field; the inner product is conjugate symmetric; `gamma5dot` is the inner
product with gamma5 in between, and the sign change of the lower components is multiplication with the
tabulated gamma5. -/
theorem C34_dot [Fintype S] (v w : SField S N) :
    latticeDot v v = (latticeNorm2 v : ℂ) ∧ 0 ≤ latticeNorm2 v ∧ (latticeNorm2 v = 0 ↔ v = 0) ∧
    starRingEnd ℂ (latticeDot v w) = latticeDot w v ∧
    latticeGamma5 v = gamma5Field v ∧ latticeGamma5Dot v w = latticeDot v (latticeGamma5 w) := by
  have hsq : ∀ z : ℂ, starRingEnd ℂ z * z = ((Complex.normSq z : ℝ) : ℂ) := fun z => by
    rw [mul_comm, Complex.mul_conj]
  have hn : latticeNorm2 v = ∑ x, ∑ mu, ∑ n, Complex.normSq (v x mu n) := by
    unfold latticeNorm2
    refine Finset.sum_congr rfl fun x _ => Finset.sum_congr rfl fun mu _ => ?_
    simp only [hsq]
    rw [← Complex.ofReal_sum, Complex.ofReal_re]
  have hnn : ∀ x mu, 0 ≤ ∑ n, Complex.normSq (v x mu n) := fun x mu =>
    Finset.sum_nonneg fun n _ => Complex.normSq_nonneg _
  refine ⟨?_, ?_, ?_, latticeDot_conj v w, ?_, ?_⟩
  · rw [hn]; simp only [latticeDot, hsq]; push_cast; rfl
  · rw [hn]; exact Finset.sum_nonneg fun x _ => Finset.sum_nonneg fun mu _ => hnn x mu
  · rw [hn, Finset.sum_eq_zero_iff_of_nonneg fun x _ => Finset.sum_nonneg fun mu _ => hnn x mu]
    constructor
    · intro h; funext x; ext mu n
      have h1 := (Finset.sum_eq_zero_iff_of_nonneg fun mu _ => hnn x mu).1 (h x (Finset.mem_univ x)) mu (Finset.mem_univ mu)
      have h2 := (Finset.sum_eq_zero_iff_of_nonneg fun n _ => Complex.normSq_nonneg _).1 h1 n (Finset.mem_univ n)
      simpa using h2
    · rintro rfl x _; simp
  · funext x; ext mu n
    simp only [latticeGamma5, gamma5Field, gamma5_apply, Matrix.of_apply]
    fin_cases mu <;> simp
  · simp only [latticeGamma5Dot, latticeDot, latticeGamma5, Matrix.of_apply]
    refine Finset.sum_congr rfl fun x _ => ?_
    rw [Fin.sum_univ_four]
    simp [Finset.sum_neg_distrib]
    ring

/-- **C34, hermiticity.** With gamma5 included the optimised and the basic Wilson operator and the clover
improved operator are Hermitian for the inner product of the program, for every lattice, all links and all
parameters. -/
theorem C34_hermitian [Fintype S] (T : Torus S) (U : GField S N) (κ csw : ℝ) (v w : SField S N) :
    latticeDot v (optMul T U κ true w) = latticeDot (optMul T U κ true v) w ∧
    latticeDot v (basicMul T U κ true w) = latticeDot (basicMul T U κ true v) w ∧
    latticeDot v (improvedMul T U κ csw true w) = latticeDot (improvedMul T U κ csw true v) w := by
  have h0 := improved_hermitian T U κ 0 v w
  rw [improvedSpec_zero, improvedSpec_zero] at h0
  simp only [(C33_wilson T U κ true _).1, (C33_wilson T U κ true _).2, C33_improved, withGamma5, if_true]
  exact ⟨h0, h0, improved_hermitian T U κ csw v w⟩

/-- **C34, gamma5-hermiticity.** Without gamma5, the operator with gamma5 on both sides is the adjoint. -/
theorem C34_adjoint [Fintype S] (T : Torus S) (U : GField S N) (κ csw : ℝ) (v w : SField S N) :
    latticeDot v (optMul T U κ false w) = latticeDot (latticeGamma5 (optMul T U κ false (latticeGamma5 v))) w ∧
    latticeDot v (basicMul T U κ false w) = latticeDot (latticeGamma5 (basicMul T U κ false (latticeGamma5 v))) w ∧
    latticeDot v (improvedMul T U κ csw false w) =
      latticeDot (latticeGamma5 (improvedMul T U κ csw false (latticeGamma5 v))) w := by
  have g : ∀ u : SField S N, latticeGamma5 u = gamma5Field u := fun u => (C34_dot u u).2.2.2.2.1
  have key : ∀ csw : ℝ, latticeDot v (improvedSpec T U κ csw w) =
      latticeDot (gamma5Field (improvedSpec T U κ csw (gamma5Field v))) w := fun csw => by
    rw [← improved_hermitian, gamma5Field_move, gamma5Field_gamma5Field]
  have h0 := key 0
  rw [improvedSpec_zero, improvedSpec_zero] at h0
  simp only [(C33_wilson T U κ false _).1, (C33_wilson T U κ false _).2, C33_improved, withGamma5, g, Bool.false_eq_true,
    if_false]
  exact ⟨h0, h0, key csw⟩

/-- **C34, squared operators.** For the squared operators with gamma5 the expectation value is the squared
norm of the operator applied once; so it is real and nonnegative. -/
theorem C34_square [Fintype S] (T : Torus S) (U : GField S N) (κ csw : ℝ) (v : SField S N) :
    latticeDot v ((squareOp (wilsonOp T U κ true)).mul v) = (latticeNorm2 (optMul T U κ true v) : ℂ) ∧
    latticeDot v ((squareOp (basicOp T U κ true)).mul v) = (latticeNorm2 (basicMul T U κ true v) : ℂ) ∧
    latticeDot v ((squareOp (improvedOp T U κ csw true)).mul v) = (latticeNorm2 (improvedMul T U κ csw true v) : ℂ) := by
  simp only [squareOp, wilsonOp, basicOp, improvedOp]
  refine ⟨?_, ?_, ?_⟩
  · rw [(C34_hermitian T U κ csw v _).1, (C34_dot _ _).1]
    exact optMul T U κ true v
  · rw [(C34_hermitian T U κ csw v _).2.1, (C34_dot _ _).1]
    exact optMul T U κ true v
  · rw [(C34_hermitian T U κ csw v _).2.2, (C34_dot _ _).1]
    exact optMul T U κ true v

theorem block_gauge (T : Torus S) (idx : S → Bool) (ω : S → Mat N) (U : GField S N) :
    blockLinks T idx (gaugeTransform T ω U) = gaugeTransform T ω (blockLinks T idx U) := by
  funext x μ
  simp only [blockLinks, gaugeTransform]
  split_ifs
  · rfl
  · simp

/-- **C34, block operator.** With gamma5 the adjoint of the operator restricted to blocks is the same with
the opposite twist; in particular it is Hermitian without twist. -/
theorem C34_block [Fintype S] (T : Torus S) (idx : S → Bool) (U : GField S N) (κ τ : ℝ) (v w : SField S N) :
    latticeDot v (blockMul T idx U κ τ true w) = latticeDot (blockMul T idx U κ (-τ) true v) w := by
  have h0 := improved_hermitian T (blockLinks T idx U) κ 0 v w
  rw [improvedSpec_zero, improvedSpec_zero] at h0
  simp only [C33_block, withGamma5, if_true, gamma5Field_add, gamma5Field_smul, gamma5Field_gamma5Field]
  rw [← latticeDot_conj w, latticeDot_add, latticeDot_add, map_add, h0, ← latticeDot_conj w]
  congr 1
  rw [latticeDot_smul, latticeDot_smul, map_mul, latticeDot_conj]
  simp

/-- **C34, twisted mass.** Without gamma5, the adjoint of the twisted operator is the operator with opposite
twist between two gamma5. -/
theorem C34_twisted [Fintype S] (T : Torus S) (U : GField S N) (κ csw τ : ℝ) (v w : SField S N) :
    latticeDot v ((twistedOp τ (improvedOp T U κ csw false)).mul w) =
      latticeDot (latticeGamma5 ((twistedOp (-τ) (improvedOp T U κ csw false)).mul (latticeGamma5 v))) w := by
  have g : ∀ u : SField S N, latticeGamma5 u = gamma5Field u := fun u => (C34_dot u u).2.2.2.2.1
  have h := (C34_adjoint T U κ csw v w).2.2
  rw [C33_twist, C33_twist]
  simp only [improvedOp] at h ⊢
  rw [abs_neg]
  split_ifs with ht
  · rw [latticeDot_add, h]
    simp only [g, gamma5Field_add, gamma5Field_smul, gamma5Field_gamma5Field]
    rw [← latticeDot_conj w, ← latticeDot_conj w, latticeDot_add, map_add]
    congr 1
    rw [latticeDot_smul, latticeDot_smul, map_mul, latticeDot_conj, gamma5Field_move]
    simp
  · simpa using h

/-- **C34, gauge covariance.** Transforming the links and the spinor field with the same unitary matrices
transforms the result, for the Wilson, clover and block operators, with and without gamma5. -/
theorem C34_covariant (T : Torus S) (U : GField S N) (ω : S → Mat N) (hω : ∀ s, ω s ∈ unitaryGroup (Fin N) ℂ)
    (idx : S → Bool) (κ csw τ : ℝ) (g5 : Bool) (v : SField S N) :
    optMul T (gaugeTransform T ω U) κ g5 (spinorTransform ω v) = spinorTransform ω (optMul T U κ g5 v) ∧
    basicMul T (gaugeTransform T ω U) κ g5 (spinorTransform ω v) = spinorTransform ω (basicMul T U κ g5 v) ∧
    improvedMul T (gaugeTransform T ω U) κ csw g5 (spinorTransform ω v) =
      spinorTransform ω (improvedMul T U κ csw g5 v) ∧
    blockMul T idx (gaugeTransform T ω U) κ τ g5 (spinorTransform ω v) =
      spinorTransform ω (blockMul T idx U κ τ g5 v) := by
  have h1 : ∀ s, (ω s)ᴴ * ω s = 1 := fun s => mem_unitaryGroup_iff'.1 (hω s)
  have h2 : ∀ s, ω s * (ω s)ᴴ = 1 := fun s => mem_unitaryGroup_iff.1 (hω s)
  have hw : ∀ U : GField S N, wilsonSpec T (gaugeTransform T ω U) κ (spinorTransform ω v)
      = spinorTransform ω (wilsonSpec T U κ v) := fun U => by
    have h0 := improved_gauge T U ω h1 h2 κ 0 v
    rwa [improvedSpec_zero, improvedSpec_zero] at h0
  have h5 : gamma5Field (spinorTransform ω v) = spinorTransform ω (gamma5Field v) := withGamma5_transform ω true v
  refine ⟨?_, ?_, ?_, ?_⟩
  · rw [(C33_wilson _ _ _ _ _).1, (C33_wilson _ _ _ _ _).1, hw, withGamma5_transform]
  · rw [(C33_wilson _ _ _ _ _).2, (C33_wilson _ _ _ _ _).2, hw, withGamma5_transform]
  · rw [C33_improved, C33_improved, improved_gauge T U ω h1 h2, withGamma5_transform]
  · rw [C33_block, C33_block, block_gauge, hw, h5, ← withGamma5_transform]
    congr 1
    funext x
    simp only [spinorTransform, Pi.add_apply, Pi.smul_apply, Matrix.add_mul, Matrix.smul_mul]

/-- **C34, gauge invariance of the inner product**, so that expectation values of the operators are gauge
invariant. -/
theorem C34_dot_invariant [Fintype S] (ω : S → Mat N) (hω : ∀ s, ω s ∈ unitaryGroup (Fin N) ℂ) (v w : SField S N) :
    latticeDot (spinorTransform ω v) (spinorTransform ω w) = latticeDot v w := by
  rw [latticeDot_trace, latticeDot_trace]
  refine Finset.sum_congr rfl fun x _ => ?_
  have h1 : (ω x)ᴴ * ω x = 1 := mem_unitaryGroup_iff'.1 (hω x)
  have e : (ω x)ᵀ * ((ω x)ᵀ)ᴴ = 1 := by
    rw [show ((ω x)ᵀ)ᴴ = ((ω x)ᴴ)ᵀ by ext i j; simp [conjTranspose_apply], ← transpose_mul, h1, transpose_one]
  simp only [spinorTransform, conjTranspose_mul, Matrix.mul_assoc]
  rw [trace_mul_comm]
  simp only [Matrix.mul_assoc, e, Matrix.mul_one]

/-- A transformation that is not the identity, on a lattice with two sites in each direction. -/
example : (∀ s, exOmega exExt 3 s ∈ unitaryGroup (Fin 3) ℂ) ∧
    spinorTransform (exOmega exExt 3) (fun _ => Matrix.of fun _ _ => 1) ⟨⟨1, 0, 0, 0⟩, by decide⟩ 0 0 = -1 := by
  refine ⟨exOmega_unitary _ _, ?_⟩
  simp [spinorTransform, exOmega, Matrix.mul_neg]

end Leonard
