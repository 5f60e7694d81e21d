import Verif.Chiral.Model
import Verif.Chiral.ExpLemmas

/-!
# Lemmas on the chiral rotations
-/

set_option autoImplicit false

namespace Leonard

open Matrix

noncomputable section

variable {S : Type} {M : ℕ}

/-- gamma5 as a linear map. -/
def gamma5CLin : SField S M →ₗ[ℂ] SField S M where
  toFun := gamma5Field
  map_add' := gamma5Field_add
  map_smul' := gamma5Field_smul

/-- `γ5 (1 - D)`. -/
def chiralA (D : SField S M →ₗ[ℂ] SField S M) : SField S M →ₗ[ℂ] SField S M := gamma5CLin ∘ₗ (LinearMap.id - D)

/-- `(1 - D) γ5`. -/
def chiralB (D : SField S M →ₗ[ℂ] SField S M) : SField S M →ₗ[ℂ] SField S M := (LinearMap.id - D) ∘ₗ gamma5CLin

theorem chiralA_apply (D : SField S M →ₗ[ℂ] SField S M) (v : SField S M) : chiralA D v = gamma5Field (v - D v) := rfl

theorem chiralB_apply (D : SField S M →ₗ[ℂ] SField S M) (v : SField S M) : chiralB D v = gamma5Field v - D (gamma5Field v) := rfl

theorem psiStep_eq (D : SField S M →ₗ[ℂ] SField S M) (t : ℂ) (v : SField S M) : psiStep D t v = v + t • chiralA D v := by
  funext x
  ext mu i
  rw [chiralA_apply]
  simp only [psiStep, Matrix.of_apply, Pi.add_apply, Pi.smul_apply, Matrix.add_apply, Matrix.smul_apply, gamma5Field_apply, Pi.sub_apply,
    Matrix.sub_apply, smul_eq_mul, spinSign]
  fin_cases mu <;> simp <;> ring

theorem psibarStep_eq (D : SField S M →ₗ[ℂ] SField S M) (t : ℂ) (v : SField S M) : psibarStep D t v = v + t • chiralB D v := by
  funext x
  ext mu i
  rw [chiralB_apply]
  simp only [psibarStep, Matrix.of_apply, Pi.add_apply, Pi.smul_apply, Matrix.add_apply, Matrix.smul_apply, Pi.sub_apply, Matrix.sub_apply, smul_eq_mul]
  ring

variable [Fintype S]

/-- A linear map on fields as an operator on the Euclidean space. -/
def fieldOp (F : SField S M →ₗ[ℂ] SField S M) : EuclideanSpace ℂ (S × Fin 4 × Fin M) →L[ℂ] EuclideanSpace ℂ (S × Fin 4 × Fin M) :=
  LinearMap.toContinuousLinearMap (toEL.toLinearMap ∘ₗ F ∘ₗ toEL.symm.toLinearMap)

theorem fieldOp_apply (F : SField S M →ₗ[ℂ] SField S M) (v : SField S M) : fieldOp F (toEL v) = toEL (F v) := by
  change toEL (F (toEL.symm (toEL v))) = _
  rw [LinearEquiv.symm_apply_apply]

theorem fieldOp_smul (c : ℂ) (F : SField S M →ₗ[ℂ] SField S M) : fieldOp (c • F) = c • fieldOp F := by
  ext1 e
  change toEL (c • F (toEL.symm e)) = c • toEL (F (toEL.symm e))
  rw [map_smul]

theorem fieldNorm_toEL (v : SField S M) : fieldNorm v = ‖toEL v‖ := (norm_toE v).symm

theorem fieldOp_norm (F : SField S M →ₗ[ℂ] SField S M) (c : ℝ) (hc : 0 ≤ c) (h : ∀ v, fieldNorm (F v) ≤ c * fieldNorm v) : ‖fieldOp F‖ ≤ c := by
  refine ContinuousLinearMap.opNorm_le_bound _ hc fun e => ?_
  have := h (toEL.symm e)
  rw [fieldNorm_toEL, fieldNorm_toEL, ← fieldOp_apply, LinearEquiv.apply_symm_apply] at this
  exact this

theorem iterate_toEL (F : SField S M →ₗ[ℂ] SField S M) (f : SField S M → SField S M) (t : ℂ) (hf : ∀ v, f v = v + t • F v) (n : ℕ) (v : SField S M) :
    toEL (f^[n] v) = ((1 + t • fieldOp F) ^ n : EuclideanSpace ℂ (S × Fin 4 × Fin M) →L[ℂ] _) (toEL v) := by
  induction n with
  | zero => rfl
  | succ n ih =>
    rw [Function.iterate_succ_apply', hf, map_add, map_smul, ← fieldOp_apply, ih, pow_succ']
    rfl

/-- The exponential of a linear map on fields. -/
def expField (F : SField S M →ₗ[ℂ] SField S M) (v : SField S M) : SField S M := toEL.symm (NormedSpace.exp (fieldOp F) (toEL v))

/-- The step size of the rotation. -/
theorem iterate_exp (F : SField S M →ₗ[ℂ] SField S M) (θ : ℂ) (a : ℝ) (ha : 0 ≤ a) (hF : ∀ v, fieldNorm (F v) ≤ a * fieldNorm v) (n : ℕ) (hn : n ≠ 0)
    (f : SField S M → SField S M) (hf : ∀ v, f v = v + (θ / n) • F v) (v : SField S M) :
    fieldNorm (f^[n] v - expField (θ • F) v) ≤ (‖θ‖ * a) ^ 2 * Real.exp (2 * (‖θ‖ * a)) / n * fieldNorm v := by
  have h1 : ‖(1 : EuclideanSpace ℂ (S × Fin 4 × Fin M) →L[ℂ] EuclideanSpace ℂ (S × Fin 4 × Fin M))‖ ≤ 1 := ContinuousLinearMap.norm_id_le
  have hX : ‖fieldOp (θ • F)‖ ≤ ‖θ‖ * a := by
    rw [fieldOp_smul, norm_smul]
    exact mul_le_mul_of_nonneg_left (fieldOp_norm F a ha hF) (norm_nonneg _)
  have hp := norm_product_formula h1 (fieldOp (θ • F)) n hn
  rw [fieldNorm_toEL, fieldNorm_toEL, map_sub, iterate_toEL F f (θ / n) hf, expField, LinearEquiv.apply_symm_apply]
  have e : (θ / n) • fieldOp F = (n : ℂ)⁻¹ • fieldOp (θ • F) := by rw [fieldOp_smul, smul_smul, div_eq_inv_mul]
  rw [e, ← ContinuousLinearMap.sub_apply]
  refine (ContinuousLinearMap.le_opNorm _ _).trans (mul_le_mul_of_nonneg_right (hp.trans ?_) (norm_nonneg _))
  have h2 : Real.exp (2 * (‖θ‖ * a)) = Real.exp (‖θ‖ * a) ^ 2 := by rw [← Real.exp_nat_mul]; norm_num
  rw [h2]
  gcongr

theorem expField_eigen (F : SField S M →ₗ[ℂ] SField S M) (z : ℂ) (v : SField S M) (h : F v = z • v) : expField F v = Complex.exp z • v := by
  have hp : ∀ n : ℕ, (fieldOp F ^ n) (toEL v) = z ^ n • toEL v := by
    intro n
    induction n with
    | zero => simp
    | succ n ih =>
      rw [pow_succ']
      change fieldOp F ((fieldOp F ^ n) (toEL v)) = _
      rw [ih, map_smul, fieldOp_apply, h, map_smul, smul_smul, pow_succ]
  have h1 := NormedSpace.exp_series_hasSum_exp' (𝕂 := ℂ) (fieldOp F)
  have h2 := (ContinuousLinearMap.apply ℂ _ (toEL v)).hasSum h1
  have h3 := NormedSpace.exp_series_hasSum_exp' (𝕂 := ℂ) z
  have h4 := h3.smul_const (toEL v)
  have h5 : NormedSpace.exp (fieldOp F) (toEL v) = NormedSpace.exp z • toEL v := by
    have h6 : (fun n : ℕ => (ContinuousLinearMap.apply ℂ (EuclideanSpace ℂ (S × Fin 4 × Fin M)) (toEL v)) ((n.factorial : ℂ)⁻¹ • fieldOp F ^ n))
        = fun n : ℕ => ((n.factorial : ℂ)⁻¹ • z ^ n) • toEL v := by
      funext n
      change ((n.factorial : ℂ)⁻¹ • fieldOp F ^ n) (toEL v) = _
      rw [ContinuousLinearMap.smul_apply, hp, smul_smul, smul_eq_mul]
    have h7 := h6 ▸ h2
    exact h7.unique h4
  unfold expField
  rw [h5, map_smul, LinearEquiv.symm_apply_apply, Complex.exp_eq_exp_ℂ]

/-! ### The overlap operator -/

theorem overlapVariant_eq (exact : Bool) (T : Torus S) (κ : ℝ) (scaling : ℂ) (roots : List ℂ) (h : roots ≠ []) (old : SField S M)
    (eigs : List (ℝ × SField S M)) (L : GField S M) : ∃ E : SField S M →ₗ[ℂ] SField S M, ∀ (mass : ℝ) (v : SField S M),
      overlapVariant exact T κ mass scaling roots old eigs L v = .ok ((1 / 2 + mass / 2) • v + (1 / 2 - mass / 2) • gamma5Field (E v)) := by
  cases exact
  · refine ⟨signLin T κ scaling roots L, fun mass v => ?_⟩
    change overlapMul T κ mass scaling roots old false L v = _
    rw [overlapMul_eq T κ mass scaling roots h, overlapOut_false]
  · refine ⟨⟨⟨exactSign T κ scaling roots eigs L, exactSign_add T κ scaling roots eigs L⟩, exactSign_csmul T κ scaling roots eigs L⟩, fun mass v => ?_⟩
    change exactOverlapMul T κ mass scaling roots old eigs false L v = _
    rw [exactOverlapMul_eq T κ mass scaling roots h, overlapOut_false]
    rfl

/-- The operator with mass and the one without. -/
theorem overlap_mass (exact : Bool) (T : Torus S) (κ mass : ℝ) (scaling : ℂ) (roots : List ℂ) (old : SField S M)
    (eigs : List (ℝ × SField S M)) (L : GField S M) (D D0 : SField S M → SField S M)
    (hD : ∀ v, overlapVariant exact T κ mass scaling roots old eigs L v = .ok (D v))
    (hD0 : ∀ v, overlapVariant exact T κ 0 scaling roots old eigs L v = .ok (D0 v)) (v : SField S M) : D v = (mass : ℂ) • v + (1 - mass : ℂ) • D0 v := by
  have h0 : roots ≠ [] := by
    rintro rfl
    have := hD v
    cases exact <;> cases this
  obtain ⟨E, hE⟩ := overlapVariant_eq exact T κ scaling roots h0 old eigs L
  have h1 := (hD v).symm.trans (hE mass v)
  have h2 := (hD0 v).symm.trans (hE 0 v)
  rw [Outcome.ok.inj h1, Outcome.ok.inj h2, ← Complex.ofReal_one, ← Complex.ofReal_sub, Complex.coe_smul, Complex.coe_smul]
  module

/-- It is linear. -/
theorem overlap_linear (exact : Bool) (T : Torus S) (κ mass : ℝ) (scaling : ℂ) (roots : List ℂ) (h : roots ≠ []) (old : SField S M)
    (eigs : List (ℝ × SField S M)) (L : GField S M) :
    ∃ D : SField S M →ₗ[ℂ] SField S M, ∀ v, overlapVariant exact T κ mass scaling roots old eigs L v = .ok (D v) := by
  obtain ⟨E, hE⟩ := overlapVariant_eq exact T κ scaling roots h old eigs L
  refine ⟨(1 / 2 + mass / 2 : ℂ) • LinearMap.id + (1 / 2 - mass / 2 : ℂ) • (gamma5CLin ∘ₗ E), fun v => ?_⟩
  rw [hE]
  congr 1
  have e1 : (1 / 2 + mass / 2 : ℂ) = ((1 / 2 + mass / 2 : ℝ) : ℂ) := by push_cast; ring
  have e2 : (1 / 2 - mass / 2 : ℂ) = ((1 / 2 - mass / 2 : ℝ) : ℂ) := by push_cast; ring
  rw [e1, e2]
  rfl

end

end Leonard
