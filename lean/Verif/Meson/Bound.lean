import Verif.Meson.Green
import Verif.Gauge.Loops
import Mathlib.Analysis.InnerProductSpace.PiL2

/-!
# Bounds of the Wilson operators
-/

set_option autoImplicit false

namespace Leonard

open Matrix

variable {S : Type} {N : ℕ}

/-- A spinor field as an element of the Euclidean space of its components. -/
noncomputable def toE (v : SField S N) : EuclideanSpace ℂ (S × Fin 4 × Fin N) := WithLp.toLp 2 fun p => v p.1 p.2.1 p.2.2

theorem toE_add (v w : SField S N) : toE (v + w) = toE v + toE w := rfl

theorem toE_smul (a : ℂ) (v : SField S N) : toE (a • v) = a • toE v := rfl

theorem toE_zero : toE (0 : SField S N) = 0 := rfl

theorem toE_sum {ι : Type} (s : Finset ι) (f : ι → SField S N) : toE (∑ k ∈ s, f k) = ∑ k ∈ s, toE (f k) :=
  map_sum (AddMonoidHom.mk' (toE (S := S) (N := N)) toE_add) f s

theorem inner_toE [Fintype S] (v w : SField S N) : inner ℂ (toE v) (toE w) = latticeDot v w := by
  rw [PiLp.inner_apply]
  simp only [toE, latticeDot, Fintype.sum_prod_type]
  refine Finset.sum_congr rfl fun x _ => Finset.sum_congr rfl fun mu _ => Finset.sum_congr rfl fun i _ => ?_
  rw [RCLike.inner_apply, mul_comm]

/-- **Specification.** The norm of a spinor field. -/
noncomputable def fieldNorm [Fintype S] (v : SField S N) : ℝ := √(∑ x, ∑ mu, ∑ i, ‖v x mu i‖ ^ 2)

theorem norm_toE [Fintype S] (v : SField S N) : ‖toE v‖ = fieldNorm v := by
  rw [EuclideanSpace.norm_eq, fieldNorm]
  simp only [toE, Fintype.sum_prod_type]

theorem norm_toE_sq [Fintype S] (v : SField S N) : ‖toE v‖ ^ 2 = (∑ x, trace ((v x)ᴴ * v x)).re := by
  rw [← latticeDot_trace, ← inner_toE, inner_self_eq_norm_sq_to_K]
  norm_cast

theorem fieldNorm_sq [Fintype S] (v : SField S N) : fieldNorm v ^ 2 = latticeNorm2 v := by
  have h := (C34_dot v v).1
  rw [← inner_toE, inner_self_eq_norm_sq_to_K, norm_toE] at h
  have h' : ((fieldNorm v ^ 2 : ℝ) : ℂ) = (latticeNorm2 v : ℂ) := by rw [← h]; push_cast; rfl
  exact Complex.ofReal_injective h'

/-- One direction of the hopping term. -/
noncomputable def hopDir (T : Torus S) (U : GField S N) (μ : Fin 4) (v : SField S N) : SField S N := fun x =>
  (1 - tabGamma μ) * (v (T.sup μ x) * (U x μ)ᵀ) + (1 + tabGamma μ) * (v (T.sdn μ x) * ((U (T.sdn μ x) μ)ᴴ)ᵀ)

theorem hoppingSpec_dir (T : Torus S) (U : GField S N) (v : SField S N) : hoppingSpec T U v = ∑ μ, hopDir T U μ v := by
  funext x
  rw [Finset.sum_apply]
  rfl

theorem gamma_sq (μ : Fin 4) : tabGamma μ * tabGamma μ = 1 := by
  have h := (C32_clifford μ μ).1
  rw [if_pos rfl, ← two_smul ℂ] at h
  have h2 : (2 : SpinMat) = (2 : ℂ) • 1 := by
    rw [← one_add_one_eq_two, ← two_smul ℂ (1 : SpinMat)]
  rw [h2] at h
  exact smul_right_injective _ (two_ne_zero' ℂ) h

theorem hop_site (γ : SpinMat) (h2 : γ * γ = 1) (hh : γᴴ = γ) (a b : Matrix (Fin 4) (Fin N) ℂ) :
    trace (((1 - γ) * a + (1 + γ) * b)ᴴ * ((1 - γ) * a + (1 + γ) * b)) = 2 * trace (aᴴ * ((1 - γ) * a)) + 2 * trace (bᴴ * ((1 + γ) * b)) := by
  have e1 : (1 - γ) * (1 - γ) = (2 : ℂ) • (1 - γ) := by
    rw [Matrix.sub_mul, Matrix.mul_sub, Matrix.mul_sub, h2, two_smul]; simp only [Matrix.one_mul, Matrix.mul_one]; abel
  have e2 : (1 + γ) * (1 + γ) = (2 : ℂ) • (1 + γ) := by
    rw [Matrix.add_mul, Matrix.mul_add, Matrix.mul_add, h2, two_smul]; simp only [Matrix.one_mul, Matrix.mul_one]; abel
  have e3 : (1 - γ) * (1 + γ) = 0 := by
    rw [Matrix.sub_mul, Matrix.mul_add, Matrix.mul_add, h2]; simp only [Matrix.one_mul, Matrix.mul_one]; abel
  have e4 : (1 + γ) * (1 - γ) = 0 := by
    rw [Matrix.add_mul, Matrix.mul_sub, Matrix.mul_sub, h2]; simp only [Matrix.one_mul, Matrix.mul_one]; abel
  have hm : (1 - γ)ᴴ = 1 - γ := by rw [conjTranspose_sub, conjTranspose_one, hh]
  have hp : (1 + γ)ᴴ = 1 + γ := by rw [conjTranspose_add, conjTranspose_one, hh]
  have f : ∀ (x y : SpinMat) (c d : Matrix (Fin 4) (Fin N) ℂ), cᴴ * x * (y * d) = cᴴ * (x * y * d) := fun x y c d => by
    simp only [Matrix.mul_assoc]
  rw [conjTranspose_add, conjTranspose_mul, conjTranspose_mul, hm, hp, Matrix.add_mul, Matrix.mul_add, Matrix.mul_add, f, f, f, f, e1, e2, e3, e4]
  simp only [Matrix.zero_mul, Matrix.mul_zero, add_zero, zero_add, Matrix.smul_mul, Matrix.mul_smul, trace_add, trace_smul, smul_eq_mul]

theorem trace_unitary_right (Γ : SpinMat) (w : Matrix (Fin 4) (Fin N) ℂ) {W : Mat N} (hW : W * Wᴴ = 1) :
    trace ((w * Wᵀ)ᴴ * (Γ * (w * Wᵀ))) = trace (wᴴ * (Γ * w)) := by
  have h : Wᵀ * Wᵀᴴ = 1 := by
    have := congrArg Matrix.transpose (mul_eq_one_comm.1 hW)
    rw [transpose_mul, transpose_one] at this
    exact this
  have h' := mul_eq_one_comm.1 h
  have e : (w * Wᵀ)ᴴ * (Γ * (w * Wᵀ)) = Wᵀᴴ * (wᴴ * (Γ * w)) * Wᵀ := by
    rw [conjTranspose_mul]; simp only [Matrix.mul_assoc]
  rw [e, trace_mul_comm, ← Matrix.mul_assoc, h, Matrix.one_mul]

/-- One direction of the hopping term is twice an isometry. -/
theorem norm_hopDir [Fintype S] {T : Torus S} {U : GField S N} (hU : ∀ x μ, U x μ ∈ unitaryGroup (Fin N) ℂ) (μ : Fin 4) (v : SField S N) :
    ‖toE (hopDir T U μ v)‖ = 2 * ‖toE v‖ := by
  have h1 : ∀ x μ, U x μ * (U x μ)ᴴ = 1 := fun x μ => mem_unitaryGroup_iff.1 (hU x μ)
  have h2 : ∀ x μ, (U x μ)ᴴ * (U x μ)ᴴᴴ = 1 := fun x μ => by rw [conjTranspose_conjTranspose]; exact mul_eq_one_comm.1 (h1 x μ)
  have key : ‖toE (hopDir T U μ v)‖ ^ 2 = (2 * ‖toE v‖) ^ 2 := by
    rw [mul_pow, norm_toE_sq, norm_toE_sq]
    unfold hopDir
    simp only [hop_site (tabGamma μ) (gamma_sq μ) (C32_clifford μ μ).2, trace_unitary_right _ _ (h1 _ _), trace_unitary_right _ _ (h2 _ _)]
    rw [Finset.sum_add_distrib, ← Finset.mul_sum, ← Finset.mul_sum]
    have s1 : ∑ x, trace ((v (T.sup μ x))ᴴ * ((1 - tabGamma μ) * v (T.sup μ x))) = ∑ x, trace ((v x)ᴴ * ((1 - tabGamma μ) * v x)) :=
      Equiv.sum_comp (T.sup μ) fun x => trace ((v x)ᴴ * ((1 - tabGamma μ) * v x))
    have s2 : ∑ x, trace ((v (T.sdn μ x))ᴴ * ((1 + tabGamma μ) * v (T.sdn μ x))) = ∑ x, trace ((v x)ᴴ * ((1 + tabGamma μ) * v x)) :=
      Equiv.sum_comp (T.sup μ).symm fun x => trace ((v x)ᴴ * ((1 + tabGamma μ) * v x))
    rw [s1, s2, ← mul_add, ← Finset.sum_add_distrib]
    have s3 : ∀ x, trace ((v x)ᴴ * ((1 - tabGamma μ) * v x)) + trace ((v x)ᴴ * ((1 + tabGamma μ) * v x)) = 2 * trace ((v x)ᴴ * v x) := by
      intro x
      rw [← trace_add, ← Matrix.mul_add, ← Matrix.add_mul, show (1 - tabGamma μ) + (1 + tabGamma μ) = (2 : ℂ) • (1 : SpinMat) by rw [two_smul]; abel,
        Matrix.smul_mul, Matrix.one_mul, Matrix.mul_smul, trace_smul, smul_eq_mul]
    simp only [s3]
    rw [← Finset.mul_sum, ← mul_assoc]
    rw [show (2 : ℂ) * 2 = ((2 ^ 2 : ℝ) : ℂ) by norm_num, Complex.re_ofReal_mul]
  exact (sq_eq_sq₀ (norm_nonneg _) (by positivity)).1 key

theorem norm_hopping [Fintype S] {T : Torus S} {U : GField S N} (hU : ∀ x μ, U x μ ∈ unitaryGroup (Fin N) ℂ) (v : SField S N) :
    ‖toE (hoppingSpec T U v)‖ ≤ 8 * ‖toE v‖ := by
  rw [hoppingSpec_dir, Fin.sum_univ_four, toE_add, toE_add, toE_add]
  have h := norm_hopDir (T := T) hU
  have h1 := norm_add_le (toE (hopDir T U 0 v) + toE (hopDir T U 1 v) + toE (hopDir T U 2 v)) (toE (hopDir T U 3 v))
  have h2 := norm_add_le (toE (hopDir T U 0 v) + toE (hopDir T U 1 v)) (toE (hopDir T U 2 v))
  have h3 := norm_add_le (toE (hopDir T U 0 v)) (toE (hopDir T U 1 v))
  rw [h] at h1 h2 h3
  rw [h] at h3
  linarith

/-! ### The clover term -/

theorem sigma_sq {μ ν : Fin 4} (h : μ ≠ ν) : tabSigma μ ν * tabSigma μ ν = 1 := by
  have hT : ∀ a b : Fin 4, a ≠ b → tabSigmaT a b * tabSigmaT a b = 1 := by decide +kernel
  have := congrArg toSpin (hT μ ν h)
  rw [toSpin_mul, toSpin_one] at this
  exact this

/-- Multiplication of a spinor field by a spin matrix and colour matrices. -/
noncomputable def actField (Γ : SpinMat) (W : S → Mat N) (v : SField S N) : SField S N := fun x => Γ * (v x * (W x)ᵀ)

theorem norm_actField [Fintype S] {Γ : SpinMat} (hΓ : Γᴴ * Γ = 1) {W : S → Mat N} (hW : ∀ x, W x * (W x)ᴴ = 1) (v : SField S N) :
    ‖toE (actField Γ W v)‖ = ‖toE v‖ := by
  have key : ‖toE (actField Γ W v)‖ ^ 2 = ‖toE v‖ ^ 2 := by
    rw [norm_toE_sq, norm_toE_sq]
    congr 1
    refine Finset.sum_congr rfl fun x _ => ?_
    have h := trace_unitary_right 1 (v x) (hW x)
    rw [Matrix.one_mul, Matrix.one_mul] at h
    rw [actField, conjTranspose_mul, Matrix.mul_assoc, ← Matrix.mul_assoc Γᴴ, hΓ, Matrix.one_mul, h]
  exact (sq_eq_sq₀ (norm_nonneg _) (norm_nonneg _)).1 key

theorem norm_clover_plane [Fintype S] {T : Torus S} {U : GField S N} (hU : ∀ x μ, U x μ ∈ unitaryGroup (Fin N) ℂ) {μ ν : Fin 4} (hμν : μ ≠ ν)
    (v : SField S N) : ‖toE (actField (tabSigma μ ν) (cloverF T U μ ν) v)‖ ≤ ‖toE v‖ := by
  have hS : (tabSigma μ ν)ᴴ * tabSigma μ ν = 1 := by rw [tabSigma_hermitian, sigma_sq hμν]
  have hh : ∀ p x, holo T U x p * (holo T U x p)ᴴ = 1 := fun p x => mem_unitaryGroup_iff.1 (holo_mem_unitary T U hU p x)
  have hh' : ∀ p x, (holo T U x p)ᴴ * (holo T U x p)ᴴᴴ = 1 := fun p x => by rw [conjTranspose_conjTranspose]; exact mul_eq_one_comm.1 (hh p x)
  let P : Fin 4 → List Hop := ![[(μ, true), (ν, true), (μ, false), (ν, false)], [(ν, true), (μ, false), (ν, false), (μ, true)],
    [(μ, false), (ν, false), (μ, true), (ν, true)], [(ν, false), (μ, true), (ν, true), (μ, false)]]
  have e : actField (tabSigma μ ν) (cloverF T U μ ν) v = (1 / 8 : ℂ) • ∑ k, (actField (tabSigma μ ν) (fun x => holo T U x (P k)) v
      + (-1 : ℂ) • actField (tabSigma μ ν) (fun x => (holo T U x (P k))ᴴ) v) := by
    funext x
    have hq : cloverQ T U μ ν x = ∑ k, holo T U x (P k) := by rw [Fin.sum_univ_four]; rfl
    simp only [actField, cloverF, hq, Pi.smul_apply, Finset.sum_apply, Pi.add_apply]
    rw [conjTranspose_sum, transpose_smul, transpose_sub, transpose_sum, transpose_sum, Matrix.mul_smul, Matrix.mul_smul, Matrix.mul_sub, Matrix.mul_sub,
      Matrix.mul_sum, Matrix.mul_sum, Matrix.mul_sum, Matrix.mul_sum, ← Finset.sum_sub_distrib]
    simp only [neg_smul, one_smul, sub_eq_add_neg]
  have hn : ∀ k, ‖toE (actField (tabSigma μ ν) (fun x => holo T U x (P k)) v + (-1 : ℂ) • actField (tabSigma μ ν) (fun x => (holo T U x (P k))ᴴ) v)‖
      ≤ 2 * ‖toE v‖ := by
    intro k
    rw [toE_add, toE_smul]
    refine (norm_add_le _ _).trans ?_
    rw [norm_smul, norm_actField hS (fun x => hh _ x), norm_actField hS (fun x => hh' _ x), norm_neg, norm_one]
    linarith
  rw [e, toE_smul, toE_sum, norm_smul, show ‖(1 / 8 : ℂ)‖ = 1 / 8 by norm_num]
  have h := norm_sum_le_of_le Finset.univ fun k _ => hn k
  rw [Finset.sum_const, Finset.card_univ, Fintype.card_fin, nsmul_eq_mul] at h
  push_cast at h
  linarith

theorem norm_clover [Fintype S] {T : Torus S} {U : GField S N} (hU : ∀ x μ, U x μ ∈ unitaryGroup (Fin N) ℂ) (v : SField S N) :
    ‖toE (cloverField T U v)‖ ≤ 6 * ‖toE v‖ := by
  have e : cloverField T U v = ∑ μ, ∑ ν, if μ < ν then Complex.I • actField (tabSigma μ ν) (cloverF T U μ ν) v else 0 := by
    funext x
    simp only [cloverField, Finset.sum_apply]
    refine Finset.sum_congr rfl fun μ _ => Finset.sum_congr rfl fun ν _ => ?_
    split <;> rfl
  have hb : ∀ μ ν : Fin 4, ‖toE (if μ < ν then Complex.I • actField (tabSigma μ ν) (cloverF T U μ ν) v else 0)‖ ≤ if μ < ν then ‖toE v‖ else 0 := by
    intro μ ν
    split
    · next h =>
      rw [toE_smul, norm_smul, Complex.norm_I, one_mul]
      exact norm_clover_plane hU h.ne v
    · rw [toE_zero, norm_zero]
  rw [e, toE_sum]
  refine (norm_sum_le_of_le Finset.univ (f := fun μ => toE (∑ ν, if μ < ν then Complex.I • actField (tabSigma μ ν) (cloverF T U μ ν) v else 0))
    (n := fun μ => ∑ ν, if μ < ν then ‖toE v‖ else 0) fun μ _ => ?_).trans ?_
  · rw [toE_sum]
    exact norm_sum_le_of_le Finset.univ fun ν _ => hb μ ν
  · generalize ‖toE v‖ = r
    simp only [Fin.sum_univ_four]
    simp [Fin.lt_def]
    linarith

/-- The operator differs from the identity by at most `|κ| (8 + 6 |csw|)`. -/
theorem norm_improved_sub [Fintype S] {T : Torus S} {U : GField S N} (hU : ∀ x μ, U x μ ∈ unitaryGroup (Fin N) ℂ) (κ csw : ℝ) (v : SField S N) :
    ‖toE (improvedSpec T U κ csw v) - toE v‖ ≤ |κ| * (8 + 6 * |csw|) * ‖toE v‖ := by
  rw [improvedSpec_eq, toE_add, toE_add, toE_smul, toE_smul, add_assoc, add_sub_cancel_left]
  refine (norm_add_le _ _).trans ?_
  rw [norm_smul, norm_smul, norm_neg, Complex.norm_real, Complex.norm_real, Real.norm_eq_abs, Real.norm_eq_abs, abs_mul]
  have h1 := mul_le_mul_of_nonneg_left (norm_hopping (T := T) hU v) (abs_nonneg κ)
  have h2 := mul_le_mul_of_nonneg_left (norm_clover (T := T) hU v) (mul_nonneg (abs_nonneg κ) (abs_nonneg csw))
  nlinarith

end Leonard
