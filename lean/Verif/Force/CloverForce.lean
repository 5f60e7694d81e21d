import Verif.Force.CloverLink

/-!
# The clover force is the change of the clover operator with one link
-/

set_option autoImplicit false

namespace Leonard

open Matrix
open scoped ContDiff Topology Matrix.Norms.Operator

variable {S : Type} [Fintype S] {N M : ℕ}

theorem trace_tensor_csum (g : SpinMat) (c : ℂ) (X Y : Matrix (Fin 4) (Fin M) ℂ) (C E B : Mat M) :
    trace ((∑ α, tensor (C *ᵥ X α) (∑ β, (c * g α β) • (E *ᵥ Y β))) * B) = c * trace (Xᴴ * (g * (Y * (Cᴴ * B * E)ᵀ))) := by
  have h1 : ∀ α, trace (tensor (C *ᵥ X α) (∑ β, (c * g α β) • (E *ᵥ Y β)) * B) =
      star (C *ᵥ X α) ⬝ᵥ (B *ᵥ ∑ β, (c * g α β) • (E *ᵥ Y β)) := by
    intro α
    rw [trace_tensor]
    rfl
  rw [Finset.sum_mul, trace_sum]
  simp only [h1, star_mulVec, ← dotProduct_mulVec, mulVec_sum, mulVec_smul, mulVec_mulVec, ← Matrix.mul_assoc]
  rw [Matrix.mul_assoc Xᴴ, Matrix.mul_assoc Xᴴ, Matrix.mul_assoc g, trace_conj_mul, Finset.mul_sum]
  refine Finset.sum_congr rfl fun α _ => ?_
  rw [Finset.mul_sum]
  simp only [dotProduct, Finset.sum_apply, Pi.smul_apply, smul_eq_mul, Pi.star_apply]
  refine Finset.sum_congr rfl fun k _ => ?_
  rw [Matrix.mul_apply, Finset.mul_sum, Finset.mul_sum, Finset.mul_sum]
  refine Finset.sum_congr rfl fun β _ => ?_
  rw [Matrix.mul_apply]
  simp only [mulVec, dotProduct, transpose_apply, Complex.star_def]
  rw [show (∑ j, Y β j * (Cᴴ * B * E) k j) = ∑ j, (Cᴴ * B * E) k j * Y β j from Finset.sum_congr rfl fun j _ => mul_comm _ _]
  ring

theorem trace_tensor_clover (g : SpinMat) (c : ℂ) (X Y : Matrix (Fin 4) (Fin M) ℂ) (C E B : Mat M) :
    trace ((∑ α, tensor (C *ᵥ X α) (E *ᵥ ∑ β, (c * g α β) • Y β)) * B) = c * spinForm g X Y (Cᴴ * B * E) := by
  have h : ∀ α, E *ᵥ (∑ β, (c * g α β) • Y β) = ∑ β, (c * g α β) • (E *ᵥ Y β) := fun α => by
    rw [mulVec_sum]
    exact Finset.sum_congr rfl fun β _ => mulVec_smul _ _ _
  have e : ∀ α, tensor (C *ᵥ X α) (E *ᵥ ∑ β, (c * g α β) • Y β) = tensor (C *ᵥ X α) (∑ β, (c * g α β) • (E *ᵥ Y β)) := fun α =>
    congrArg (tensor (C *ᵥ X α)) (h α)
  rw [Finset.sum_congr rfl fun α _ => e α]
  exact trace_tensor_csum g c X Y C E B

theorem trace_cloverTensor (κ csw : ℝ) (μ ν : Fin 4) (c : CloverTerm S M) (X Y : SField S M) (B : Mat M) :
    trace ((cloverTensor κ csw μ ν c X Y + cloverTensor κ csw μ ν c Y X) * B) =
      Complex.I * κ * csw * pairForm X Y μ ν c.site (c.rightᴴ * B * c.left) := by
  change _ = _ * (spinForm _ _ _ _ + spinForm _ _ _ _)
  rw [Matrix.add_mul, trace_add, mul_add]
  unfold cloverTensor
  rw [trace_tensor_clover, trace_tensor_clover]

/-- The eight terms, contracted with the spinors. -/
noncomputable def cloverSum (T : Torus S) (L : GField S M) (X Y : SField S M) (s : S) (μ ν : Fin 4) (B : Mat M) : ℂ :=
  ((cloverTerms T L s μ ν).map fun c => c.sign * pairForm X Y μ ν c.site (c.rightᴴ * B * c.left)).sum

theorem trace_improvedDerivative (T : Torus S) (κ csw : ℝ) (L : GField S M) (X Y : SField S M) (s : S) (μ : Fin 4) (B : Mat M) :
    trace (improvedDerivative T κ csw L X Y s μ * B) =
      (1 / 4 : ℂ) * (∑ ν, if ν ≠ μ then Complex.I * κ * csw * cloverSum T L X Y s μ ν B else 0)
        + trace (wilsonDerivative T κ L X Y s μ * B) := by
  unfold improvedDerivative
  rw [Matrix.add_mul, trace_add, Matrix.smul_mul, trace_smul, smul_eq_mul, Matrix.sum_mul, trace_sum]
  congr 2
  refine Finset.sum_congr rfl fun ν _ => ?_
  split
  · unfold cloverSum
    induction cloverTerms T L s μ ν with
    | nil => simp
    | cons c l ih =>
      rw [List.map_cons, List.sum_cons, List.map_cons, List.sum_cons, Matrix.add_mul, trace_add, ih, Matrix.smul_mul, trace_smul,
        trace_cloverTensor, smul_eq_mul]
      ring
  · simp

theorem sum_dcloverQ (T : Torus S) (L : GField S M) (X Y : SField S M) (s : S) {μ ν : Fin 4} (h : ν ≠ μ) (B : Mat M)
    (hB : (L s μ)ᴴ * B * (L s μ)ᴴ = Bᴴ) :
    (∑ x, pairForm X Y μ ν x (dcloverQ T L (oneLink s μ (Complex.I • B)) μ ν x)) = Complex.I * cloverSum T L X Y s μ ν B := by
  have hB' : ∀ C : Mat M, (L s μ)ᴴ * (B * ((L s μ)ᴴ * C)) = Bᴴ * C := fun C => by
    rw [← hB]; simp only [Matrix.mul_assoc]
  have hB'' : (L s μ)ᴴ * (B * (L s μ)ᴴ) = Bᴴ := by rw [← hB, Matrix.mul_assoc]
  simp only [dcloverQ, map_add, Finset.sum_add_distrib]
  rw [leaf_one T L (pairForm X Y μ ν) s h, leaf_two T L (pairForm X Y μ ν) s h, leaf_three T L (pairForm X Y μ ν) s h,
    leaf_four T L (pairForm X Y μ ν) s h]
  simp only [cloverSum, cloverTerms, List.map_cons, List.map_nil, List.sum_cons, List.sum_nil, conjTranspose_mul, conjTranspose_conjTranspose,
    conjTranspose_one, one_mul, mul_one, Matrix.mul_assoc, hB', hB'', conjTranspose_smul, Complex.star_def, Complex.conj_I,
    Matrix.smul_mul, Matrix.mul_smul, map_smul, smul_eq_mul]
  ring

theorem clover_isLinkDerivative (T : Torus S) (κ csw : ℝ) :
    IsLinkDerivative (M := M) (cloverFamily T κ csw) (improvedDerivative T κ csw) := by
  intro L X Y s μ t hL ht
  have hw := wilson_isLinkDerivative T κ L X Y s μ t hL ht
  have hl2 : (L s μ)ᴴ * (t * L s μ) * (L s μ)ᴴ = (t * L s μ)ᴴ := by
    rw [conjTranspose_mul, ht]
    rcases hL s μ with h | h
    · rw [Matrix.mul_assoc, Matrix.mul_assoc, h, mul_one]
    · rw [h]; simp
  rw [Matrix.mul_assoc] at hw
  rw [Matrix.mul_assoc, fderiv_cloverFamily, rdot_add, rdot_cloverOf, trace_improvedDerivative, Complex.add_im, hw]
  generalize hB : t * L s μ = B at hl2 ⊢
  rw [sum_planes_with μ _ (fun ρ σ => planeChange_swap T L _ X Y σ ρ) (fun ρ σ h1 h2 => by
    unfold planeChange
    simp only [dcloverQ_other T L s μ _ h1 h2, map_zero, Finset.sum_const_zero, mul_zero, Complex.zero_re])]
  have h1 : ∀ ν, (if ν ≠ μ then planeChange T L (oneLink s μ (Complex.I • B)) X Y μ ν else 0) =
      if ν ≠ μ then -(cloverSum T L X Y s μ ν B).re else 0 := by
    intro ν
    split
    · rename_i h
      unfold planeChange
      rw [sum_dcloverQ T L X Y s h B hl2, ← mul_assoc, Complex.I_mul_I, neg_one_mul, Complex.neg_re]
    · rfl
  have h2 : ∀ ν, (if ν ≠ μ then Complex.I * κ * csw * cloverSum T L X Y s μ ν B else 0) =
      ((κ * csw : ℝ) : ℂ) * (Complex.I * if ν ≠ μ then cloverSum T L X Y s μ ν B else 0) := by
    intro ν
    split
    · push_cast; ring
    · simp
  simp only [h1, h2]
  rw [← Finset.mul_sum, ← Finset.mul_sum]
  have h3 : (∑ ν, if ν ≠ μ then -(cloverSum T L X Y s μ ν B).re else 0) = -(∑ ν, if ν ≠ μ then cloverSum T L X Y s μ ν B else 0).re := by
    rw [Complex.re_sum, ← Finset.sum_neg_distrib]
    refine Finset.sum_congr rfl fun ν _ => ?_
    split <;> simp
  rw [h3]
  generalize (∑ ν, if ν ≠ μ then cloverSum T L X Y s μ ν B else 0) = z
  rw [show (1 / 4 : ℂ) * (((κ * csw : ℝ) : ℂ) * (Complex.I * z)) = ((κ * csw / 4 : ℝ) : ℂ) * (Complex.I * z) by push_cast; ring,
    Complex.im_ofReal_mul]
  simp only [Complex.mul_im, Complex.I_re, Complex.I_im]
  ring

end Leonard
