/-
Rational functions of Hermitian matrices.
-/
import Verif.Rhmc.Lemmas

set_option autoImplicit false

namespace Leonard

open Matrix MeasureTheory ProbabilityTheory
open scoped ENNReal NNReal

variable {κ : Type} [Fintype κ] [DecidableEq κ]

/-- A real function of a Hermitian matrix. -/
noncomputable def specFun {A : Matrix κ κ ℂ} (hA : A.IsHermitian) (g : ℝ → ℝ) : Matrix κ κ ℂ :=
  (hA.eigenvectorUnitary : Matrix κ κ ℂ) * diagonal (fun i => ((g (hA.eigenvalues i) : ℝ) : ℂ)) * (hA.eigenvectorUnitary : Matrix κ κ ℂ)ᴴ

section

variable {A : Matrix κ κ ℂ} (hA : A.IsHermitian)

theorem eigenvector_left : (hA.eigenvectorUnitary : Matrix κ κ ℂ)ᴴ * (hA.eigenvectorUnitary : Matrix κ κ ℂ) = 1 :=
  mem_unitaryGroup_iff'.1 hA.eigenvectorUnitary.2

theorem eigenvector_right : (hA.eigenvectorUnitary : Matrix κ κ ℂ) * (hA.eigenvectorUnitary : Matrix κ κ ℂ)ᴴ = 1 :=
  mem_unitaryGroup_iff.1 hA.eigenvectorUnitary.2

theorem specFun_id : specFun hA id = A := by
  conv_rhs => rw [hA.spectral_theorem, Unitary.conjStarAlgAut_apply]
  rfl

theorem specFun_mul (g h : ℝ → ℝ) : specFun hA g * specFun hA h = specFun hA fun x => g x * h x := by
  unfold specFun
  have : ∀ (V D W X Y Z : Matrix κ κ ℂ), W * X = 1 → V * D * W * (X * Y * Z) = V * (D * Y) * Z := by
    intro V D W X Y Z hWX
    calc V * D * W * (X * Y * Z) = V * D * (W * X) * Y * Z := by simp only [Matrix.mul_assoc]
      _ = V * (D * Y) * Z := by rw [hWX, Matrix.mul_one, Matrix.mul_assoc V D Y]
  rw [this _ _ _ _ _ _ (eigenvector_left hA), diagonal_mul_diagonal]
  congr 3
  funext i
  push_cast
  rfl

theorem specFun_const (c : ℝ) : (specFun hA fun _ => c) = (c : ℂ) • 1 := by
  unfold specFun
  have : diagonal (fun _ : κ => (c : ℂ)) = (c : ℂ) • (1 : Matrix κ κ ℂ) := by
    rw [smul_one_eq_diagonal]
  rw [this, Matrix.mul_smul, Matrix.mul_one, Matrix.smul_mul, eigenvector_right hA]

theorem specFun_add (g h : ℝ → ℝ) : specFun hA g + specFun hA h = specFun hA fun x => g x + h x := by
  unfold specFun
  rw [← Matrix.add_mul, ← Matrix.mul_add, diagonal_add]
  congr 3
  funext i
  push_cast
  rfl

theorem specFun_smul (c : ℝ) (g : ℝ → ℝ) : (c : ℂ) • specFun hA g = specFun hA fun x => c * g x := by
  rw [← specFun_mul hA (fun _ => c) g, specFun_const, Matrix.smul_mul, Matrix.one_mul]

theorem specFun_congr (g h : ℝ → ℝ) (e : ∀ x ∈ spectrum ℝ A, g x = h x) : specFun hA g = specFun hA h := by
  unfold specFun
  congr 3
  funext i
  rw [e _ (hA.eigenvalues_mem_spectrum_real i)]

theorem specFun_inv (g : ℝ → ℝ) (e : ∀ x ∈ spectrum ℝ A, g x ≠ 0) : (specFun hA g)⁻¹ = specFun hA fun x => (g x)⁻¹ := by
  refine inv_eq_right_inv ?_
  rw [specFun_mul, specFun_congr hA _ (fun _ => 1) fun x hx => mul_inv_cancel₀ (e x hx), specFun_const]
  simp

theorem specFun_det (g : ℝ → ℝ) : (specFun hA g).det = ((∏ i, g (hA.eigenvalues i) : ℝ) : ℂ) := by
  unfold specFun
  rw [det_mul_right_comm, eigenvector_right hA, Matrix.one_mul, det_diagonal]
  push_cast
  rfl

theorem specFun_isHermitian (g : ℝ → ℝ) : (specFun hA g)ᴴ = specFun hA g := by
  unfold specFun
  rw [conjTranspose_mul, conjTranspose_mul, conjTranspose_conjTranspose, diagonal_conjTranspose, ← Matrix.mul_assoc]
  congr 3
  funext i
  exact Complex.conj_ofReal _

/-- The quadratic form in the basis of eigenvectors. -/
theorem specFun_form (g : ℝ → ℝ) (v : κ → ℂ) : fermionDot v (specFun hA g *ᵥ v) =
    ((∑ i, g (hA.eigenvalues i) * Complex.normSq (((hA.eigenvectorUnitary : Matrix κ κ ℂ)ᴴ *ᵥ v) i) : ℝ) : ℂ) := by
  have h0 : ∀ v w : κ → ℂ, fermionDot v w = star v ⬝ᵥ w := fun v w => rfl
  unfold specFun
  rw [h0, ← mulVec_mulVec, ← mulVec_mulVec, dotProduct_mulVec, ← conjTranspose_conjTranspose (hA.eigenvectorUnitary : Matrix κ κ ℂ),
    ← star_mulVec, conjTranspose_conjTranspose]
  push_cast
  unfold dotProduct
  refine Finset.sum_congr rfl fun i _ => ?_
  rw [mulVec_diagonal, Pi.star_apply, Complex.normSq_eq_conj_mul_self]
  change starRingEnd ℂ _ * _ = _
  ring

theorem fermionNormSq_eq_dot (v : κ → ℂ) : ((fermionNormSq v : ℝ) : ℂ) = fermionDot v v := by
  unfold fermionNormSq fermionDot
  push_cast
  exact Finset.sum_congr rfl fun k _ => Complex.normSq_eq_conj_mul_self

theorem specFun_norm (g : ℝ → ℝ) (v : κ → ℂ) : fermionNormSq (specFun hA g *ᵥ v) =
    ∑ i, g (hA.eigenvalues i) ^ 2 * Complex.normSq (((hA.eigenvectorUnitary : Matrix κ κ ℂ)ᴴ *ᵥ v) i) := by
  have h0 : ∀ v w : κ → ℂ, fermionDot v w = star v ⬝ᵥ w := fun v w => rfl
  have h : ((fermionNormSq (specFun hA g *ᵥ v) : ℝ) : ℂ) = fermionDot v (specFun hA (fun x => g x ^ 2) *ᵥ v) := by
    rw [fermionNormSq_eq_dot, h0, h0, star_mulVec, specFun_isHermitian, ← dotProduct_mulVec, mulVec_mulVec, specFun_mul]
    simp only [sq]
  rw [specFun_form] at h
  exact_mod_cast h

end

/-! ### Partial fractions -/

/-- A partial fraction of a number. -/
noncomputable def fractionValue (r : List (ℝ × ℝ)) (x : ℝ) : ℝ := (r.map fun p => p.1 / (x + p.2)).sum

/-- A partial fraction of a matrix. -/
noncomputable def fractionMatrix (r : List (ℝ × ℝ)) (A : Matrix κ κ ℂ) : Matrix κ κ ℂ := (r.map fun p => (p.1 : ℂ) • (A + (p.2 : ℂ) • 1)⁻¹).sum

theorem fractionEvaluate_eq (r : List (ℝ × ℝ)) (x : ℝ) : fractionEvaluate r x = fractionValue r x := by
  unfold fractionEvaluate fractionValue
  have : ∀ (r : List (ℝ × ℝ)) (a : ℝ), r.foldl (fun result p => result + p.1 / (x + p.2)) a = a + (r.map fun p => p.1 / (x + p.2)).sum := by
    intro r
    induction r with
    | nil => intro a; simp
    | cons p r ih => intro a; rw [List.foldl_cons, ih, List.map_cons, List.sum_cons, add_assoc]
  rw [this, zero_add]

theorem fractionMatrix_eq {A : Matrix κ κ ℂ} (hA : A.IsHermitian) (r : List (ℝ × ℝ)) (hr : ∀ p ∈ r, ∀ x ∈ spectrum ℝ A, x + p.2 ≠ 0) :
    fractionMatrix r A = specFun hA (fractionValue r) := by
  induction r with
  | nil =>
    have : fractionValue [] = fun _ => (0 : ℝ) := rfl
    rw [this, specFun_const]
    simp [fractionMatrix]
  | cons p r ih =>
    have e1 : fractionMatrix (p :: r) A = (p.1 : ℂ) • (A + (p.2 : ℂ) • 1)⁻¹ + fractionMatrix r A := rfl
    have e2 : fractionValue (p :: r) = fun x => p.1 * (x + p.2)⁻¹ + fractionValue r x := by
      funext x
      rw [← div_eq_mul_inv]
      rfl
    have e3 : A + (p.2 : ℂ) • 1 = specFun hA fun x => x + p.2 := by
      have := specFun_add hA id fun _ => p.2
      rw [specFun_id, specFun_const] at this
      exact this
    rw [e1, e2, ih fun q hq => hr q (List.mem_cons_of_mem _ hq), e3, specFun_inv hA _ (hr p List.mem_cons_self), specFun_smul, specFun_add]

/-- A solver for the shifted systems gives partial fractions of the matrix. -/
theorem fractionSolve_eq {A : Matrix κ κ ℂ} (solve : ℝ → (κ → ℂ) → κ → ℂ) (r : List (ℝ × ℝ))
    (hr : ∀ p ∈ r, ∀ v, A *ᵥ solve p.2 v + (p.2 : ℂ) • solve p.2 v = v) (v : κ → ℂ) : fractionSolve solve r v = fractionMatrix r A *ᵥ v := by
  induction r with
  | nil => simp [fractionSolve, fractionMatrix]
  | cons p r ih =>
    have e1 : fractionSolve solve (p :: r) v = (p.1 : ℂ) • solve p.2 v + fractionSolve solve r v := rfl
    have e2 : fractionMatrix (p :: r) A = (p.1 : ℂ) • (A + (p.2 : ℂ) • 1)⁻¹ + fractionMatrix r A := rfl
    have hs : ∀ w, (A + (p.2 : ℂ) • 1) *ᵥ solve p.2 w = w := fun w => by
      rw [add_mulVec, smul_mulVec, one_mulVec]
      exact hr p List.mem_cons_self w
    have hu : IsUnit (A + (p.2 : ℂ) • 1).det := by
      rw [← isUnit_iff_isUnit_det, ← mulVec_surjective_iff_isUnit]
      exact fun w => ⟨_, hs w⟩
    have h1 : solve p.2 v = (A + (p.2 : ℂ) • 1)⁻¹ *ᵥ v := by
      conv_rhs => rw [← hs v]
      rw [mulVec_mulVec, nonsing_inv_mul _ hu, one_mulVec]
    rw [e1, e2, add_mulVec, smul_mulVec, ih fun q hq => hr q (List.mem_cons_of_mem _ hq), h1]

/-- Where the shifted systems can be solved there is no pole on the spectrum. -/
theorem no_pole {A : Matrix κ κ ℂ} (β : ℝ) (h : ∀ v, ∃ w, A *ᵥ w + (β : ℂ) • w = v) : ∀ x ∈ spectrum ℝ A, x + β ≠ 0 := by
  intro x hx h0
  have hu : IsUnit (A + (β : ℂ) • 1) := by
    rw [← mulVec_surjective_iff_isUnit]
    intro v
    obtain ⟨w, hw⟩ := h v
    exact ⟨w, by rw [add_mulVec, smul_mulVec, one_mulVec]; exact hw⟩
  rw [spectrum.mem_iff] at hx
  refine hx ?_
  have e : algebraMap ℝ (Matrix κ κ ℂ) x - A = -(A + (β : ℂ) • 1) := by
    have : x = -β := by linarith
    rw [this, Algebra.algebraMap_eq_smul_one, Complex.coe_smul, neg_smul]
    abel
  rw [e]
  exact hu.neg

/-- The energy of a pseudofermion in the accept/reject step and its energy as a Gaussian field. -/
theorem fraction_gap {A : Matrix κ κ ℂ} (hA : A.IsHermitian) (h r : ℝ → ℝ) (ε : ℝ) (hε : ∀ x ∈ spectrum ℝ A, |h x ^ 2 * r x - 1| ≤ ε) (hε1 : ε < 1)
    (v : κ → ℂ) : |(fermionDot v (specFun hA r *ᵥ v)).re - fermionNormSq ((specFun hA h)⁻¹ *ᵥ v)| ≤ ε * fermionNormSq ((specFun hA h)⁻¹ *ᵥ v) := by
  have hne : ∀ x ∈ spectrum ℝ A, h x ≠ 0 := by
    intro x hx h0
    have := hε x hx
    rw [h0] at this
    norm_num at this
    linarith
  rw [specFun_inv hA h hne, specFun_norm, specFun_form, Complex.ofReal_re, ← Finset.sum_sub_distrib, Finset.mul_sum]
  refine (Finset.abs_sum_le_sum_abs _ _).trans (Finset.sum_le_sum fun i _ => ?_)
  have hx := hA.eigenvalues_mem_spectrum_real i
  have h1 := hε _ hx
  have h2 := hne _ hx
  generalize hA.eigenvalues i = x at *
  rw [← sub_mul, abs_mul, abs_of_nonneg (Complex.normSq_nonneg _), ← mul_assoc]
  refine mul_le_mul_of_nonneg_right ?_ (Complex.normSq_nonneg _)
  have e : r x - (h x)⁻¹ ^ 2 = (h x ^ 2 * r x - 1) * (h x)⁻¹ ^ 2 := by
    field_simp
  rw [e, abs_mul, abs_of_nonneg (sq_nonneg ((h x)⁻¹))]
  exact mul_le_mul_of_nonneg_right h1 (sq_nonneg _)

end Leonard
