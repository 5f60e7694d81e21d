import Verif.Overlap.Force
import Verif.Meson.Bound
import Mathlib.Analysis.InnerProductSpace.Spectrum

/-!
# Functions of a Hermitian operator
-/

set_option autoImplicit false

namespace Leonard

open Matrix Polynomial
open scoped ComplexConjugate

section
variable {E : Type*} [NormedAddCommGroup E] [InnerProductSpace ℂ E] [FiniteDimensional ℂ E]

/-- An operator that has the eigenvectors of a symmetric operator is bounded by its eigenvalues, on every invariant subspace. -/
theorem spectral_bound (T : E →ₗ[ℂ] E) (hT : T.IsSymmetric) (W : Submodule ℂ E) (hW : ∀ v ∈ W, T v ∈ W) (F : E →ₗ[ℂ] E) (μ : ℝ → ℂ) (δ : ℝ)
    (hF : ∀ (v : E) (lam : ℝ), T v = (lam : ℂ) • v → F v = μ lam • v)
    (hμ : ∀ (lam : ℝ) (v : E), v ∈ W → v ≠ 0 → T v = (lam : ℂ) • v → ‖μ lam‖ ≤ δ) (w : E) (hw : w ∈ W) : ‖F w‖ ≤ δ * ‖w‖ := by
  have hT' := hT.restrict_invariant hW
  let b := hT'.eigenvectorBasis rfl
  let ev := hT'.eigenvalues rfl
  have hb : ∀ i, T (b i : E) = (ev i : ℂ) • (b i : E) := by
    intro i
    have h := hT'.apply_eigenvectorBasis rfl i
    exact congrArg Subtype.val h
  have hne : ∀ i, (b i : E) ≠ 0 := by
    intro i h
    have h1 := b.orthonormal.1 i
    rw [show b i = 0 from Subtype.ext h, norm_zero] at h1
    exact zero_ne_one h1
  let w0 : W := ⟨w, hw⟩
  let w1 : W := ∑ i, (b.repr w0 i * μ (ev i)) • b i
  have hsum : (∑ i, b.repr w0 i • b i) = w0 := b.sum_repr w0
  have hFw : F w = (w1 : E) := by
    have h : w = ∑ i, b.repr w0 i • (b i : E) := by
      have := congrArg Subtype.val hsum
      rw [Submodule.coe_sum] at this
      exact this.symm
    rw [h, map_sum]
    change _ = ((∑ i, (b.repr w0 i * μ (ev i)) • b i : W) : E)
    rw [Submodule.coe_sum]
    refine Finset.sum_congr rfl fun i _ => ?_
    rw [map_smul, hF _ _ (hb i), smul_smul]
    rfl
  have hrep : ∀ i, b.repr w1 i = b.repr w0 i * μ (ev i) := by
    intro i
    have h := b.repr_apply_apply w1 i
    rw [h]
    change inner ℂ (b i) (∑ j, (b.repr w0 j * μ (ev j)) • b j) = _
    exact b.orthonormal.inner_right_fintype _ i
  have hnorm : ∀ x : W, ‖x‖ ^ 2 = ∑ i, ‖b.repr x i‖ ^ 2 := by
    intro x
    rw [← b.repr.norm_map x, EuclideanSpace.norm_sq_eq]
  rw [hFw]
  change ‖w1‖ ≤ δ * ‖w0‖
  by_cases hz : w0 = 0
  · have : w1 = 0 := by
      change (∑ i, (b.repr w0 i * μ (ev i)) • b i : W) = 0
      rw [hz]
      simp
    rw [this, hz, norm_zero, mul_zero]
  have hδ : 0 ≤ δ := by
    by_contra hc
    have hall : ∀ i, False := fun i => hc ((norm_nonneg _).trans (hμ (ev i) (b i) (b i).2 (hne i) (hb i)))
    apply hz
    rw [← hsum]
    exact Finset.sum_eq_zero fun i _ => (hall i).elim
  refine le_of_sq_le_sq ?_ (mul_nonneg hδ (norm_nonneg _))
  rw [mul_pow, hnorm w1, hnorm w0, Finset.mul_sum]
  refine Finset.sum_le_sum fun i _ => ?_
  rw [hrep, norm_mul, mul_pow, mul_comm]
  refine mul_le_mul_of_nonneg_right ?_ (sq_nonneg _)
  exact pow_le_pow_left₀ (norm_nonneg _) (hμ (ev i) (b i) (b i).2 (hne i) (hb i)) 2

end

variable {S : Type} [Fintype S] {M : ℕ}

/-- Spinor fields as a Euclidean space. -/
noncomputable def toEL : SField S M ≃ₗ[ℂ] EuclideanSpace ℂ (S × Fin 4 × Fin M) where
  toFun := toE
  invFun e := fun x => Matrix.of fun c i => e (x, c, i)
  map_add' := toE_add
  map_smul' := toE_smul
  left_inv _ := rfl
  right_inv _ := rfl

theorem toEL_apply (v : SField S M) : toEL v = toE v := rfl

/-- The same for operators on spinor fields and the norm of fields. -/
theorem field_bound (Q F : SField S M →ₗ[ℂ] SField S M) (hQ : ∀ v w, latticeDot v (Q w) = latticeDot (Q v) w) (us : List (SField S M))
    (hus : ∀ u ∈ us, ∃ lam : ℂ, Q u = lam • u) (μ : ℝ → ℂ) (δ : ℝ)
    (hF : ∀ (v : SField S M) (lam : ℝ), Q v = (lam : ℂ) • v → F v = μ lam • v)
    (hμ : ∀ (lam : ℝ) (v : SField S M), (∀ u ∈ us, latticeDot u v = 0) → v ≠ 0 → Q v = (lam : ℂ) • v → ‖μ lam‖ ≤ δ)
    (w : SField S M) (hw : ∀ u ∈ us, latticeDot u w = 0) : fieldNorm (F w) ≤ δ * fieldNorm w := by
  let T : EuclideanSpace ℂ (S × Fin 4 × Fin M) →ₗ[ℂ] _ := toEL.toLinearMap ∘ₗ Q ∘ₗ toEL.symm.toLinearMap
  let G : EuclideanSpace ℂ (S × Fin 4 × Fin M) →ₗ[ℂ] _ := toEL.toLinearMap ∘ₗ F ∘ₗ toEL.symm.toLinearMap
  let W : Submodule ℂ (EuclideanSpace ℂ (S × Fin 4 × Fin M)) :=
    { carrier := {e | ∀ u ∈ us, inner ℂ (toE u) e = 0}
      add_mem' := fun {a b} ha hb u hu => by rw [inner_add_right, ha u hu, hb u hu, add_zero]
      zero_mem' := fun u _ => inner_zero_right _
      smul_mem' := fun z a ha u hu => by rw [inner_smul_right, ha u hu, mul_zero] }
  have hTa : ∀ v, T (toE v) = toE (Q v) := fun v => rfl
  have hGa : ∀ v, G (toE v) = toE (F v) := fun v => rfl
  have hsur : ∀ e : EuclideanSpace ℂ (S × Fin 4 × Fin M), ∃ v : SField S M, toE v = e := fun e => ⟨toEL.symm e, toEL.apply_symm_apply e⟩
  have hinj : ∀ v w : SField S M, toE v = toE w → v = w := fun v w h => toEL.injective h
  have hsym : T.IsSymmetric := by
    intro e f
    obtain ⟨v, rfl⟩ := hsur e
    obtain ⟨w, rfl⟩ := hsur f
    rw [hTa, hTa, inner_toE, inner_toE, hQ]
  have hmem : ∀ v : SField S M, toE v ∈ W ↔ ∀ u ∈ us, latticeDot u v = 0 := by
    intro v
    change (∀ u ∈ us, inner ℂ (toE u) (toE v) = 0) ↔ _
    simp only [inner_toE]
  have hWT : ∀ e ∈ W, T e ∈ W := by
    intro e he
    obtain ⟨v, rfl⟩ := hsur e
    rw [hTa, hmem]
    intro u hu
    obtain ⟨lam, hlam⟩ := hus u hu
    rw [hQ, hlam, ← latticeDot_conj, latticeDot_smul, map_mul, latticeDot_conj, (hmem v).1 he u hu, mul_zero]
  have h := spectral_bound T hsym W hWT G μ δ (fun e lam he => ?_) (fun lam e heW hne he => ?_) (toE w) ((hmem w).2 hw)
  · rw [hGa, norm_toE, norm_toE] at h
    exact h
  · obtain ⟨v, rfl⟩ := hsur e
    rw [hTa, ← toE_smul] at he
    rw [hGa, hF v lam (hinj _ _ he), toE_smul]
  · obtain ⟨v, rfl⟩ := hsur e
    rw [hTa, ← toE_smul] at he
    refine hμ lam v ((hmem v).1 heW) (fun h0 => hne ?_) (hinj _ _ he)
    rw [h0]; rfl

end Leonard
