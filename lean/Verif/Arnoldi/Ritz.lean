import Verif.Arnoldi.Process
import Verif.Overlap.Spectral
import Mathlib.Analysis.Matrix.Spectrum
import Mathlib.Analysis.Matrix.PosDef

/-!
# Hermitian operators: eigenvectors and the eigenvalues of the Hessenberg matrix
-/

set_option autoImplicit false

namespace Leonard

open Matrix Polynomial

variable {S : Type} [Fintype S] {M : ℕ}

/-! ## Eigenvectors of a Hermitian operator on spinor fields -/

/-- A complete orthonormal system of eigenvectors. -/
structure EigenBasis (D : SField S M →ₗ[ℂ] SField S M) (N : ℕ) (u : Fin N → SField S M) (mu : Fin N → ℝ) : Prop where
  orth : ∀ a b, latticeDot (u a) (u b) = if a = b then 1 else 0
  eigen : ∀ a, D (u a) = (mu a : ℂ) • u a
  norm : ∀ w, latticeNorm2 w = ∑ a, ‖latticeDot (u a) w‖ ^ 2

theorem exists_eigenBasis (D : SField S M →ₗ[ℂ] SField S M) (hD : ∀ v w, latticeDot v (D w) = latticeDot (D v) w) :
    ∃ (N : ℕ) (u : Fin N → SField S M) (mu : Fin N → ℝ), EigenBasis D N u mu := by
  let T : EuclideanSpace ℂ (S × Fin 4 × Fin M) →ₗ[ℂ] _ := toEL.toLinearMap ∘ₗ D ∘ₗ toEL.symm.toLinearMap
  have hsur : ∀ e : EuclideanSpace ℂ (S × Fin 4 × Fin M), ∃ v : SField S M, toE v = e := fun e => ⟨toEL.symm e, toEL.apply_symm_apply e⟩
  have hTa : ∀ v, T (toE v) = toE (D v) := fun v => rfl
  have hsym : T.IsSymmetric := by
    intro e f
    obtain ⟨v, rfl⟩ := hsur e
    obtain ⟨w, rfl⟩ := hsur f
    rw [hTa, hTa, inner_toE, inner_toE, hD]
  let b := hsym.eigenvectorBasis rfl
  have hb : ∀ a, toE (toEL.symm (b a)) = b a := fun a => toEL.apply_symm_apply (b a)
  refine ⟨_, fun a => toEL.symm (b a), hsym.eigenvalues rfl, ⟨fun a c => ?_, fun a => ?_, fun w => ?_⟩⟩
  · rw [← inner_toE, hb, hb]
    exact orthonormal_iff_ite.1 b.orthonormal a c
  · apply toEL.injective
    rw [map_smul, toEL_apply, ← hTa, hb, toEL_apply, hb]
    exact hsym.apply_eigenvectorBasis rfl a
  · rw [← fieldNorm_sq, ← norm_toE, ← b.sum_sq_norm_inner_right (toE w)]
    refine Finset.sum_congr rfl fun a _ => ?_
    rw [← hb a, inner_toE, hb]

theorem latticeNorm2_eq_zero {w : SField S M} (h : latticeNorm2 w = 0) : w = 0 := by
  rw [← fieldNorm_sq, ← norm_toE] at h
  have : toE w = 0 := by simpa using h
  exact toEL.injective this

variable {D : SField S M →ₗ[ℂ] SField S M} {N : ℕ} {u : Fin N → SField S M} {mu : Fin N → ℝ}

theorem EigenBasis.sum (h : EigenBasis D N u mu) (w : SField S M) : w = ∑ a, latticeDot (u a) w • u a := by
  have h0 : latticeNorm2 (w - ∑ a, latticeDot (u a) w • u a) = 0 := by
    rw [h.norm]
    refine Finset.sum_eq_zero fun a _ => ?_
    rw [latticeDot_sub', latticeDot_sum, Finset.sum_eq_single a]
    · rw [latticeDot_smul, h.orth, if_pos rfl, mul_one, sub_self, norm_zero, zero_pow two_ne_zero]
    · intro b _ hb
      rw [latticeDot_smul, h.orth, if_neg (Ne.symm hb), mul_zero]
    · intro h1; exact absurd (Finset.mem_univ _) h1
  exact sub_eq_zero.1 (latticeNorm2_eq_zero h0)

theorem EigenBasis.coeff (h : EigenBasis D N u mu) (hD : ∀ v w, latticeDot v (D w) = latticeDot (D v) w) (a : Fin N) (w : SField S M) :
    latticeDot (u a) (D w) = (mu a : ℂ) * latticeDot (u a) w := by
  rw [hD, h.eigen, latticeDot_smul_left, Complex.conj_ofReal]

/-- The quadratic form. -/
theorem EigenBasis.form (h : EigenBasis D N u mu) (w : SField S M) : latticeDot w (D w) = ((∑ a, mu a * ‖latticeDot (u a) w‖ ^ 2 : ℝ) : ℂ) := by
  conv_lhs => rw [h.sum w]
  rw [map_sum, latticeDot_sum, Complex.ofReal_sum]
  refine Finset.sum_congr rfl fun a _ => ?_
  rw [map_smul, h.eigen, latticeDot_smul, latticeDot_smul, ← h.sum w, ← latticeDot_conj (u a) w, Complex.ofReal_mul, ← Complex.normSq_eq_norm_sq, ← Complex.mul_conj]
  ring

/-- An eigenvalue close to any number for which the operator nearly vanishes. -/
theorem EigenBasis.near (h : EigenBasis D N u mu) (hD : ∀ v w, latticeDot v (D w) = latticeDot (D v) w) (z : ℝ) (v : SField S M) (hv : v ≠ 0) :
    ∃ a, |mu a - z| * fieldNorm v ≤ fieldNorm (D v - (z : ℂ) • v) := by
  by_contra hno
  push Not at hno
  have h1 : latticeNorm2 (D v - (z : ℂ) • v) = ∑ a, (mu a - z) ^ 2 * ‖latticeDot (u a) v‖ ^ 2 := by
    rw [h.norm]
    refine Finset.sum_congr rfl fun a _ => ?_
    rw [latticeDot_sub', h.coeff hD, latticeDot_smul, ← sub_mul, norm_mul, mul_pow, ← Complex.ofReal_sub, Complex.norm_real, Real.norm_eq_abs, sq_abs]
  have hpos : 0 < latticeNorm2 v := lt_of_le_of_ne (latticeNorm2_nonneg' v) fun h0 => hv (latticeNorm2_eq_zero h0.symm)
  have h2 : ∀ a, latticeNorm2 (D v - (z : ℂ) • v) < (mu a - z) ^ 2 * latticeNorm2 v := by
    intro a
    have h3 := hno a
    have h4 : fieldNorm (D v - (z : ℂ) • v) ^ 2 < (|mu a - z| * fieldNorm v) ^ 2 := pow_lt_pow_left₀ h3 (Real.sqrt_nonneg _) two_ne_zero
    rwa [fieldNorm_sq, mul_pow, sq_abs, fieldNorm_sq] at h4
  have h5 : latticeNorm2 (D v - (z : ℂ) • v) * latticeNorm2 v < latticeNorm2 (D v - (z : ℂ) • v) * latticeNorm2 v := by
    calc latticeNorm2 (D v - (z : ℂ) • v) * latticeNorm2 v = ∑ a, latticeNorm2 (D v - (z : ℂ) • v) * ‖latticeDot (u a) v‖ ^ 2 := by
          rw [← Finset.mul_sum, ← h.norm]
      _ < ∑ a, ((mu a - z) ^ 2 * latticeNorm2 v) * ‖latticeDot (u a) v‖ ^ 2 := by
          refine Finset.sum_lt_sum (fun a _ => mul_le_mul_of_nonneg_right (h2 a).le (by positivity)) ?_
          have : ∃ a, ‖latticeDot (u a) v‖ ^ 2 ≠ 0 := by
            by_contra h6
            push Not at h6
            rw [h.norm, Finset.sum_eq_zero fun a _ => h6 a] at hpos
            exact lt_irrefl _ hpos
          obtain ⟨a, ha⟩ := this
          exact ⟨a, Finset.mem_univ _, mul_lt_mul_of_pos_right (h2 a) (lt_of_le_of_ne (by positivity) (Ne.symm ha))⟩
      _ = latticeNorm2 (D v - (z : ℂ) • v) * latticeNorm2 v := by
          rw [h1, Finset.sum_mul]
          exact Finset.sum_congr rfl fun a _ => by ring
  exact lt_irrefl _ h5

/-! ## The Hessenberg matrix -/

variable {A : SField S M →ₗ[ℂ] SField S M}

/-- The process is complete and did not break down. -/
def Full (A : SField S M →ₗ[ℂ] SField S M) (steps : ℕ) (s : ArnoldiState S M) : Prop := Arnoldi A steps (steps - 1) s ∧ Unreduced (steps - 1) s.H

theorem Full.hermitian {steps : ℕ} {s : ArnoldiState S M} (hs : Full A steps s) (hA : ∀ v w, latticeDot v (A w) = latticeDot (A v) w) : (hMatrix steps s.H).IsHermitian := by
  ext i c
  have h1 := combine_form hs.1 (Pi.single i 1) (Pi.single c 1)
  have h2 := combine_form hs.1 (Pi.single c 1) (Pi.single i 1)
  rw [hA, ← latticeDot_conj, h2] at h1
  rw [conjTranspose_apply]
  have e : ∀ a b : Fin steps, star (Pi.single a (1 : ℂ) : Fin steps → ℂ) ⬝ᵥ (hMatrix steps s.H *ᵥ Pi.single b 1) = hMatrix steps s.H a b := by
    intro a b
    rw [Matrix.mulVec_single_one, ← Pi.single_star, star_one, single_one_dotProduct]
    rfl
  rw [e, e] at h1
  exact h1

/-- An eigenvector of an unreduced Hessenberg matrix has a last component. -/
theorem hessenberg_last {steps : ℕ} {H : ℕ → ℕ → ℂ} (hess : ∀ i c, c + 1 < i → H i c = 0) (hu : Unreduced (steps - 1) H) (hst : 0 < steps) (θ : ℂ) (y : Fin steps → ℂ)
    (hy : hMatrix steps H *ᵥ y = θ • y) (h0 : y ⟨steps - 1, by omega⟩ = 0) : y = 0 := by
  have key : ∀ k, k < steps → ∀ i : Fin steps, steps - 1 - k ≤ i.val → y i = 0 := by
    intro k
    induction k with
    | zero =>
      intro _ i hi
      have : i = ⟨steps - 1, by omega⟩ := Fin.ext (by simp only; omega)
      rw [this, h0]
    | succ k ih =>
      intro hk i hi
      by_cases h1 : steps - 1 - k ≤ i.val
      · exact ih (by omega) i h1
      · have hi1 : i.val + 1 < steps := by omega
        have h2 := congrFun hy ⟨i.val + 1, hi1⟩
        rw [Pi.smul_apply, ih (by omega) ⟨i.val + 1, hi1⟩ (by simp only; omega), smul_zero, Matrix.mulVec, dotProduct, Finset.sum_eq_single i] at h2
        · rw [hMatrix_apply] at h2
          exact (mul_eq_zero.1 h2).resolve_left (hu i.val (by omega))
        · intro c _ hc
          by_cases h3 : c.val < i.val
          · rw [hMatrix_apply, hess _ _ (by simp only; omega), zero_mul]
          · have : c.val ≠ i.val := fun h4 => hc (Fin.ext h4)
            rw [ih (by omega) c (by omega), mul_zero]
        · intro h3; exact absurd (Finset.mem_univ _) h3
  funext i
  exact key (steps - 1) (by omega) i (by omega)

theorem star_dot_self {n : ℕ} (x : Fin n → ℂ) : star x ⬝ᵥ x = ((∑ i, ‖x i‖ ^ 2 : ℝ) : ℂ) := by
  rw [dotProduct, Complex.ofReal_sum]
  refine Finset.sum_congr rfl fun i _ => ?_
  rw [Pi.star_apply, Complex.star_def, ← Complex.normSq_eq_conj_mul_self, Complex.normSq_eq_norm_sq]

theorem star_dot_self_zero {n : ℕ} {x : Fin n → ℂ} (h : star x ⬝ᵥ x = 0) : x = 0 := by
  rw [star_dot_self, Complex.ofReal_eq_zero, Finset.sum_eq_zero_iff_of_nonneg fun i _ => by positivity] at h
  funext i
  simpa using h i (Finset.mem_univ _)

/-- Two eigenvectors to the same eigenvalue are proportional. -/
theorem hessenberg_simple {steps : ℕ} {H : ℕ → ℕ → ℂ} (hess : ∀ i c, c + 1 < i → H i c = 0) (hu : Unreduced (steps - 1) H) (hst : 0 < steps) (θ : ℂ) (x y : Fin steps → ℂ)
    (hx : hMatrix steps H *ᵥ x = θ • x) (hy : hMatrix steps H *ᵥ y = θ • y) (h0 : star x ⬝ᵥ y = 0) : x = 0 ∨ y = 0 := by
  have h1 : y ⟨steps - 1, by omega⟩ • x - x ⟨steps - 1, by omega⟩ • y = 0 := by
    apply hessenberg_last hess hu hst θ
    · rw [Matrix.mulVec_sub, Matrix.mulVec_smul, Matrix.mulVec_smul, hx, hy, smul_sub, smul_comm, smul_comm θ (x _)]
    · simp only [Pi.sub_apply, Pi.smul_apply, smul_eq_mul]; ring
  by_cases hy0 : y ⟨steps - 1, by omega⟩ = 0
  · right
    exact hessenberg_last hess hu hst θ y hy hy0
  · left
    have h2 : star x ⬝ᵥ (y ⟨steps - 1, by omega⟩ • x) = 0 := by
      rw [sub_eq_zero.1 h1, dotProduct_smul, h0, smul_zero]
    rw [dotProduct_smul] at h2
    have h3 := (smul_eq_zero.1 h2).resolve_left hy0
    exact star_dot_self_zero h3

theorem root_mem {eig : DenseSolver} (he : eig.Correct) {n : ℕ} (B : Matrix (Fin n) (Fin n) ℂ) (z : ℂ) (h : B.charpoly.IsRoot z) : ∃ i, (eig n B).1 i = z := by
  rw [← he.all n B, IsRoot.def, eval_prod, Finset.prod_eq_zero_iff] at h
  obtain ⟨i, _, hi⟩ := h
  refine ⟨i, ?_⟩
  rw [eval_sub, eval_X, eval_C] at hi
  exact (sub_eq_zero.1 hi).symm

theorem mem_root {eig : DenseSolver} (he : eig.Correct) {n : ℕ} (B : Matrix (Fin n) (Fin n) ℂ) (i : Fin n) : B.charpoly.IsRoot ((eig n B).1 i) := by
  rw [← he.all n B, IsRoot.def, eval_prod]
  exact Finset.prod_eq_zero (Finset.mem_univ i) (by rw [eval_sub, eval_X, eval_C, sub_self])

/-- The computed eigenvalues are different from each other. -/
theorem Full.distinct {steps : ℕ} {s : ArnoldiState S M} (hs : Full A steps s) (hA : ∀ v w, latticeDot v (A w) = latticeDot (A v) w) {eig : DenseSolver} (he : eig.Correct) :
    Function.Injective (eig steps (hMatrix steps s.H)).1 := by
  have hst : 0 < steps := lt_of_le_of_lt (Nat.zero_le _) hs.1.lt
  have hH := hs.hermitian hA
  have hinj : Function.Injective hH.eigenvalues := by
    intro a b hab
    by_contra hne
    have hx := hH.mulVec_eigenvectorBasis a
    have hy := hH.mulVec_eigenvectorBasis b
    rw [← hab] at hy
    have hx' : hMatrix steps s.H *ᵥ ⇑(hH.eigenvectorBasis a) = ((hH.eigenvalues a : ℝ) : ℂ) • ⇑(hH.eigenvectorBasis a) := hx
    have hy' : hMatrix steps s.H *ᵥ ⇑(hH.eigenvectorBasis b) = ((hH.eigenvalues a : ℝ) : ℂ) • ⇑(hH.eigenvectorBasis b) := hy
    have h0 : star ⇑(hH.eigenvectorBasis a) ⬝ᵥ ⇑(hH.eigenvectorBasis b) = 0 := by
      have h1 := orthonormal_iff_ite.1 hH.eigenvectorBasis.orthonormal a b
      rw [if_neg hne, EuclideanSpace.inner_eq_star_dotProduct, dotProduct_comm] at h1
      exact h1
    have hz : ∀ c, ⇑(hH.eigenvectorBasis c) ≠ 0 := by
      intro c h2
      have h3 := hH.eigenvectorBasis.orthonormal.1 c
      have h4 : hH.eigenvectorBasis c = 0 := by ext i; exact congrFun h2 i
      rw [h4, norm_zero] at h3
      exact zero_ne_one h3
    rcases hessenberg_simple hs.1.hess hs.2 hst _ _ _ hx' hy' h0 with h | h
    · exact hz a h
    · exact hz b h
  have h1 : (hMatrix steps s.H).charpoly.roots.Nodup := by
    rw [hH.roots_charpoly_eq_eigenvalues]
    exact (Multiset.nodup_map_iff_of_injective (fun a b hab => hinj (Complex.ofReal_injective hab))).2 Finset.univ.nodup
  have h2 : (hMatrix steps s.H).charpoly.roots = Multiset.map (eig steps (hMatrix steps s.H)).1 Finset.univ.val := by
    conv_lhs => rw [← he.all steps (hMatrix steps s.H)]
    rw [Polynomial.roots_prod]
    · simp
    · simp [Finset.prod_ne_zero_iff, Polynomial.X_sub_C_ne_zero]
  rw [h2] at h1
  intro a b hab
  exact Multiset.inj_on_of_nodup_map h1 a (Finset.mem_univ_val a) b (Finset.mem_univ_val b) hab

theorem dot_mulVec_hermitian {n : ℕ} {B : Matrix (Fin n) (Fin n) ℂ} (hB : B.IsHermitian) (x y : Fin n → ℂ) : star x ⬝ᵥ (B *ᵥ y) = star (B *ᵥ x) ⬝ᵥ y := by
  rw [star_mulVec, hB.eq, dotProduct_mulVec]

theorem root_real {n : ℕ} {B : Matrix (Fin n) (Fin n) ℂ} (hB : B.IsHermitian) {z : ℂ} (h : B.charpoly.IsRoot z) : z.im = 0 := by
  rw [hB.charpoly_eq, IsRoot.def, eval_prod, Finset.prod_eq_zero_iff] at h
  obtain ⟨i, _, hi⟩ := h
  rw [eval_sub, eval_X, eval_C] at hi
  rw [sub_eq_zero.1 hi]
  exact Complex.ofReal_im _

theorem root_iff_eigen {n : ℕ} (B : Matrix (Fin n) (Fin n) ℂ) (z : ℂ) : B.charpoly.IsRoot z ↔ ∃ x, x ≠ 0 ∧ B *ᵥ x = z • x := by
  rw [IsRoot.def, Matrix.eval_charpoly, ← Matrix.exists_mulVec_eq_zero_iff]
  have e : ∀ x, (Matrix.scalar (Fin n) z - B) *ᵥ x = z • x - B *ᵥ x := by
    intro x
    rw [Matrix.sub_mulVec, Matrix.scalar_apply, ← Matrix.smul_one_eq_diagonal, Matrix.smul_mulVec, Matrix.one_mulVec]
  simp only [e, sub_eq_zero]
  exact ⟨fun ⟨x, h1, h2⟩ => ⟨x, h1, h2.symm⟩, fun ⟨x, h1, h2⟩ => ⟨x, h1, h2.symm⟩⟩

open scoped ComplexOrder in
/-- The quadratic form of a Hermitian matrix is bounded by its largest eigenvalue. -/
theorem form_le {n : ℕ} {B : Matrix (Fin n) (Fin n) ℂ} (hB : B.IsHermitian) (c : ℝ) (hc : ∀ z, B.charpoly.IsRoot z → z.re ≤ c) (x : Fin n → ℂ) :
    (star x ⬝ᵥ (B *ᵥ x)).re ≤ c * (star x ⬝ᵥ x).re := by
  have hC : ((c : ℂ) • (1 : Matrix (Fin n) (Fin n) ℂ) - B).IsHermitian := by
    rw [Matrix.IsHermitian, conjTranspose_sub, conjTranspose_smul, conjTranspose_one, hB.eq, Complex.star_def, Complex.conj_ofReal]
  have happ : ∀ y, ((c : ℂ) • (1 : Matrix (Fin n) (Fin n) ℂ) - B) *ᵥ y = (c : ℂ) • y - B *ᵥ y := by
    intro y
    rw [Matrix.sub_mulVec, Matrix.smul_mulVec, Matrix.one_mulVec]
  have hev : ∀ i, 0 ≤ hC.eigenvalues i := by
    intro i
    have h1 : ((c : ℂ) • (1 : Matrix (Fin n) (Fin n) ℂ) - B) *ᵥ ⇑(hC.eigenvectorBasis i) = ((hC.eigenvalues i : ℝ) : ℂ) • ⇑(hC.eigenvectorBasis i) := hC.mulVec_eigenvectorBasis i
    rw [happ] at h1
    have h2 : ⇑(hC.eigenvectorBasis i) ≠ 0 := by
      intro h2
      have h3 := hC.eigenvectorBasis.orthonormal.1 i
      have h4 : hC.eigenvectorBasis i = 0 := by ext k; exact congrFun h2 k
      rw [h4, norm_zero] at h3
      exact zero_ne_one h3
    have h3 := hc ((c : ℂ) - (hC.eigenvalues i : ℂ)) ((root_iff_eigen B _).2 ⟨_, h2, by rw [sub_smul, ← h1]; abel⟩)
    rw [Complex.sub_re, Complex.ofReal_re, Complex.ofReal_re] at h3
    linarith
  have hp : ((c : ℂ) • (1 : Matrix (Fin n) (Fin n) ℂ) - B).PosSemidef := hC.posSemidef_iff_eigenvalues_nonneg.2 hev
  have h5 := hp.dotProduct_mulVec_nonneg x
  rw [happ, dotProduct_sub, dotProduct_smul, Complex.le_def] at h5
  have h6 := h5.1
  rw [Complex.sub_re, smul_eq_mul, Complex.re_ofReal_mul, Complex.zero_re] at h6
  linarith

/-- If a vector made from the process has a value of the quadratic form, some eigenvalue of the matrix is as large. -/
theorem Full.above {steps : ℕ} {s : ArnoldiState S M} (hs : Full A steps s) (hA : ∀ v w, latticeDot v (A w) = latticeDot (A v) w) (x : Fin steps → ℂ) (hx : x ≠ 0) :
    ∃ z, (hMatrix steps s.H).charpoly.IsRoot z ∧ (star x ⬝ᵥ (hMatrix steps s.H *ᵥ x)).re ≤ z.re * (star x ⬝ᵥ x).re := by
  have hst : 0 < steps := lt_of_le_of_lt (Nat.zero_le _) hs.1.lt
  have hH := hs.hermitian hA
  haveI : Nonempty (Fin steps) := ⟨⟨0, hst⟩⟩
  obtain ⟨i, hi⟩ := Finite.exists_max hH.eigenvalues
  have hroot : ∀ z, (hMatrix steps s.H).charpoly.IsRoot z ↔ ∃ k, z = (hH.eigenvalues k : ℂ) := by
    intro z
    rw [hH.charpoly_eq, IsRoot.def, eval_prod, Finset.prod_eq_zero_iff]
    simp [sub_eq_zero]
  refine ⟨(hH.eigenvalues i : ℂ), (hroot _).2 ⟨i, rfl⟩, form_le hH _ (fun z hz => ?_) x⟩
  obtain ⟨k, rfl⟩ := (hroot z).1 hz
  exact hi k

end Leonard
