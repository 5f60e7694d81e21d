import Verif.Force.Linear
import Verif.Order.Smooth
import Verif.Dirac.HermProps
import Verif.Rep.AdjointProps

/-!
# Gradients of functions of the fermion links
-/

set_option autoImplicit false

namespace Leonard

open Matrix
open scoped ContDiff Topology Matrix.Norms.Operator

variable {S : Type} [Fintype S] {N M : ℕ}

/-! ### The product of spinor fields -/

/-- The real part of the product of two fields. -/
noncomputable def rdot (v w : SField S M) : ℝ := (latticeDot v w).re

theorem rdot_comm (v w : SField S M) : rdot v w = rdot w v := by
  unfold rdot
  rw [← latticeDot_conj w v, Complex.conj_re]

theorem rdot_add (v w w' : SField S M) : rdot v (w + w') = rdot v w + rdot v w' := by
  unfold rdot latticeDot
  simp only [Pi.add_apply, Matrix.add_apply, mul_add, Finset.sum_add_distrib, Complex.add_re]

theorem rdot_smul (c : ℝ) (v w : SField S M) : rdot v (c • w) = c * rdot v w := by
  unfold rdot latticeDot
  have : ∀ x mu n, starRingEnd ℂ (v x mu n) * (c • w) x mu n = (c : ℂ) * (starRingEnd ℂ (v x mu n) * w x mu n) := by
    intro x mu n
    simp only [Pi.smul_apply, Matrix.smul_apply, Complex.real_smul]
    ring
  simp only [this, ← Finset.mul_sum, Complex.re_ofReal_mul]

/-- The product with a fixed field. -/
noncomputable def rdotL (v : SField S M) : SField S M →L[ℝ] ℝ :=
  LinearMap.toContinuousLinearMap { toFun := rdot v, map_add' := rdot_add v, map_smul' := fun c w => rdot_smul c v w }

theorem rdotL_apply (v w : SField S M) : rdotL v w = rdot v w := rfl

/-- A continuous bilinear form on a normed space. -/
abbrev Form (E : Type*) [NormedAddCommGroup E] [NormedSpace ℝ E] := E →L[ℝ] E →L[ℝ] ℝ

/-- The product as a bilinear map. -/
noncomputable def rdotB : Form (SField S M) :=
  LinearMap.toContinuousLinearMap
    { toFun := rdotL
      map_add' := fun v w => by
        ext u; change rdot (v + w) u = rdot v u + rdot w u
        rw [rdot_comm, rdot_add, rdot_comm u v, rdot_comm u w]
      map_smul' := fun c v => by
        ext u; change rdot (c • v) u = c * rdot v u
        rw [rdot_comm, rdot_smul, rdot_comm u v] }

theorem rdotB_apply (v w : SField S M) : rdotB v w = rdot v w := rfl

theorem rdotB_comm (v w : SField S M) : rdotB v w = rdotB w v := rdot_comm v w

theorem rdot_self (v : SField S M) : rdot v v = latticeNorm2 v := by
  unfold rdot
  rw [(C34_dot v v).1, Complex.ofReal_re]

/-! ### Fields with one link -/

open Classical in
/-- The field that is `A` on one link and zero elsewhere. -/
noncomputable def oneLink (s : S) (μ : Fin 4) : Mat M →ₗ[ℝ] GField S M where
  toFun A := fun s' μ' => if s' = s ∧ μ' = μ then A else 0
  map_add' A B := by funext s' μ'; simp only [Pi.add_apply]; split <;> simp
  map_smul' c A := by funext s' μ'; simp only [Pi.smul_apply, RingHom.id_apply]; split <;> simp

theorem oneLink_same (s : S) (μ : Fin 4) (A : Mat M) : oneLink s μ A s μ = A := if_pos ⟨rfl, rfl⟩

theorem oneLink_ne {s s' : S} {μ μ' : Fin 4} (A : Mat M) (h : ¬ (s' = s ∧ μ' = μ)) : oneLink s μ A s' μ' = 0 := if_neg h

theorem sum_oneLink (V : GField S M) : V = ∑ s, ∑ μ, oneLink s μ (V s μ) := by
  classical
  funext s μ
  simp only [Finset.sum_apply]
  rw [Finset.sum_eq_single s, Finset.sum_eq_single μ]
  · rw [oneLink_same]
  · intro μ' _ h; exact oneLink_ne _ fun e => h e.2.symm
  · simp
  · intro s' _ h; exact Finset.sum_eq_zero fun μ' _ => oneLink_ne _ fun e => h e.1.symm
  · simp

/-! ### Gradients -/

/-- The field `i Σ_a (dE in the direction i t_a L) T_a`, for a linear form `dE` on the variations of the links `L`. -/
noncomputable def gradField (ρ : FermionRep N M) (L : GField S M) (dE : GField S M →ₗ[ℝ] ℝ) : GField S N := fun s μ =>
  ∑ i, (Complex.I * (dE (oneLink s μ (Complex.I • (ρ.gen i * L s μ))) : ℂ)) • gens N i

theorem isLie_gens_sum (f : Fin (lieGenerators N).length → ℝ) : IsLie (∑ i, (Complex.I * (f i : ℂ)) • gens N i) := by
  have hg := C30_generators N
  constructor
  · rw [conjTranspose_sum, ← Finset.sum_neg_distrib]
    refine Finset.sum_congr rfl fun i _ => ?_
    rw [conjTranspose_smul, hg.hermitian, ← neg_smul]
    congr 1
    simp
  · rw [trace_sum]
    exact Finset.sum_eq_zero fun i _ => by rw [trace_smul, hg.traceless, smul_zero]

theorem isLie_gradField (ρ : FermionRep N M) (L : GField S M) (dE : GField S M →ₗ[ℝ] ℝ) (s : S) (μ : Fin 4) :
    IsLie (gradField ρ L dE s μ) := isLie_gens_sum _

theorem trace_gens_lie {P : Mat N} (hP : IsLie P) (i : Fin (lieGenerators N).length) :
    trace (gens N i * P) = Complex.I * ((trace (gens N i * P)).im : ℂ) := by
  have h : starRingEnd ℂ (trace (gens N i * P)) = -trace (gens N i * P) := by
    rw [conj_trace, conjTranspose_mul, hP.1, (C30_generators N).hermitian, Matrix.neg_mul, trace_neg, trace_mul_comm]
  have hre : (trace (gens N i * P)).re = 0 := by
    have := congrArg Complex.re h
    simp only [Complex.conj_re, Complex.neg_re] at this
    linarith
  apply Complex.ext <;> simp [hre]

/-- The change of the fermion links when the gauge links move with velocities `P`. -/
noncomputable def linkVelocity (ρ : FermionRep N M) (P : GField S N) (L : GField S M) : GField S M := fun s μ =>
  ∑ i, (2 * trace (gens N i * P s μ)) • (ρ.gen i * L s μ)

/-- The gradient belongs to the linear form. -/
theorem gradField_conserves (ρ : FermionRep N M) (L : GField S M) (dE : GField S M →ₗ[ℝ] ℝ) (P : GField S N) (hP : ∀ s μ, IsLie (P s μ)) :
    (∑ s, ∑ μ, 2 * (trace (P s μ * gradField ρ L dE s μ)).re) + dE (linkVelocity ρ P L) = 0 := by
  rw [sum_oneLink (linkVelocity ρ P L), map_sum, ← Finset.sum_add_distrib]
  refine Finset.sum_eq_zero fun s _ => ?_
  rw [map_sum, ← Finset.sum_add_distrib]
  refine Finset.sum_eq_zero fun μ _ => ?_
  have h1 : linkVelocity ρ P L s μ = ∑ i, (2 * (trace (gens N i * P s μ)).im) • (Complex.I • (ρ.gen i * L s μ)) := by
    refine Finset.sum_congr rfl fun i _ => ?_
    rw [trace_gens_lie (hP s μ) i, ← Complex.coe_smul, smul_smul]
    congr 1
    simp
    ring
  rw [h1, map_sum, map_sum]
  simp only [map_smul, smul_eq_mul]
  unfold gradField
  rw [Finset.mul_sum, trace_sum, Complex.re_sum, Finset.mul_sum, ← Finset.sum_add_distrib]
  refine Finset.sum_eq_zero fun i _ => ?_
  rw [Matrix.mul_smul, trace_smul, trace_mul_comm, trace_gens_lie (hP s μ) i]
  generalize dE _ = f
  simp only [smul_eq_mul, Complex.mul_re, Complex.mul_im, Complex.I_re, Complex.I_im, Complex.ofReal_re, Complex.ofReal_im]
  ring

/-! ### Representations -/

/-- What is needed of a representation. -/
structure FermionRep.Lawful (ρ : FermionRep N M) : Prop where
  smooth : ContDiff ℝ ∞ ρ.link
  deriv : ∀ (P U : Mat N), IsLie P → HasDerivAt (fun t : ℝ => ρ.link (NormedSpace.exp (t • P) * U))
    (∑ i, (2 * trace (gens N i * P)) • (ρ.gen i * ρ.link U)) 0
  zero : ρ.link 0 = 0
  unitary : ∀ U, U * Uᴴ = 1 → ρ.link U * (ρ.link U)ᴴ = 1
  hermitian : ∀ i, (ρ.gen i)ᴴ = ρ.gen i

theorem fundamental_lawful (N : ℕ) : (fundamentalRep N).Lawful where
  smooth := contDiff_id
  deriv P U hP := by
    have h := (hasDerivAt_exp_smul_const (𝕂 := ℝ) P 0).mul_const U
    simp only [zero_smul, NormedSpace.exp_zero, one_mul] at h
    refine HasDerivAt.congr_deriv h ?_
    conv_lhs => rw [C30_complete N P hP.2]
    rw [Finset.sum_mul]
    refine Finset.sum_congr rfl fun i _ => ?_
    rw [Matrix.smul_mul]
    rfl
  zero := rfl
  unitary _ h := h
  hermitian := (C30_generators N).hermitian

theorem adjointGenerator_apply (N : ℕ) (a i k : Fin (lieGenerators N).length) :
    adjointGenerator (gens N) a i k = -2 * trace ((gens N i * gens N k - gens N k * gens N i) * gens N a) := by
  unfold adjointGenerator
  split
  · rfl
  · rename_i h
    push Not at h
    rw [h]; simp

/-- The change of an entry of the adjoint link. -/
theorem adjoint_velocity (N : ℕ) (P U : Mat N) (hP : IsLie P) (i j : Fin (lieGenerators N).length) :
    ((2 * (trace (gens N i * (P * U) * gens N j * Uᴴ)).re + 2 * (trace (gens N i * U * gens N j * (P * U)ᴴ)).re : ℝ) : ℂ) =
      ∑ a, (2 * trace (gens N a * P)) * ∑ k, adjointGenerator (gens N) a i k * ((toAdjoint (gens N) U k j : ℝ) : ℂ) := by
  have hg := C30_generators N
  have hc := C30_complete N
  set W := U * gens N j * Uᴴ with hW
  set C := gens N i * P - P * gens N i with hC
  have hCt : trace C = 0 := by rw [hC, trace_sub, trace_mul_comm, sub_self]
  have hCh : Cᴴ = C := by
    rw [hC, conjTranspose_sub, conjTranspose_mul, conjTranspose_mul, hP.1, hg.hermitian]
    simp only [Matrix.neg_mul, Matrix.mul_neg]
    abel
  have e1 : (2 * (trace (gens N i * (P * U) * gens N j * Uᴴ)).re + 2 * (trace (gens N i * U * gens N j * (P * U)ᴴ)).re : ℝ) = 2 * (trace (C * W)).re := by
    have a1 : gens N i * (P * U) * gens N j * Uᴴ = gens N i * P * W := by simp only [hW, Matrix.mul_assoc]
    have a2 : trace (gens N i * U * gens N j * (P * U)ᴴ) = -trace (P * gens N i * W) := by
      rw [conjTranspose_mul, hP.1, Matrix.mul_neg, Matrix.mul_neg, trace_neg, Matrix.mul_assoc P, trace_mul_comm P]
      simp only [hW, Matrix.mul_assoc]
    rw [a1, a2, hC, Matrix.sub_mul, trace_sub, Complex.neg_re, Complex.sub_re]
    ring
  have e2 : ∀ k, ∑ a, (2 * trace (gens N a * P)) * adjointGenerator (gens N) a i k = 2 * trace (gens N k * C) := by
    intro k
    have h1 : ∀ a, (2 * trace (gens N a * P)) * adjointGenerator (gens N) a i k =
        -2 * trace ((gens N i * gens N k - gens N k * gens N i) * ((2 * trace (gens N a * P)) • gens N a)) := by
      intro a
      rw [adjointGenerator_apply, Matrix.mul_smul, trace_smul, smul_eq_mul]
      ring
    simp only [h1]
    rw [← Finset.mul_sum, ← trace_sum, ← Finset.mul_sum, ← hc P hP.2, hC, Matrix.sub_mul, Matrix.mul_sub, trace_sub, trace_sub,
      ← Matrix.mul_assoc, ← Matrix.mul_assoc, trace_mul_cycle (gens N i) (gens N k) P, trace_mul_comm (P * gens N i) (gens N k), Matrix.mul_assoc]
    ring_nf
    rw [Matrix.mul_assoc (gens N k) P]
    ring
  have e3 : ∀ k, trace (gens N k * C) = (((trace (gens N k * C)).re : ℝ) : ℂ) := by
    intro k
    have h : starRingEnd ℂ (trace (gens N k * C)) = trace (gens N k * C) := by
      rw [conj_trace, conjTranspose_mul, hCh, hg.hermitian, trace_mul_comm]
    exact (Complex.conj_eq_iff_re.1 h).symm
  have e4 : ∀ k, toAdjoint (gens N) U k j = 2 * (trace (gens N k * W)).re := by
    intro k
    simp only [toAdjoint, hW, Matrix.mul_assoc]
  have e5 : (trace (C * W)).re = ∑ k, 2 * (trace (gens N k * C)).re * (trace (gens N k * W)).re := by
    conv_lhs => rw [hc C hCt, Finset.sum_mul, trace_sum, Complex.re_sum]
    refine Finset.sum_congr rfl fun k _ => ?_
    rw [Matrix.smul_mul, trace_smul, e3 k, smul_eq_mul]
    rw [show (2 : ℂ) * (((trace (gens N k * C)).re : ℝ) : ℂ) = ((2 * (trace (gens N k * C)).re : ℝ) : ℂ) by push_cast; ring, Complex.re_ofReal_mul]
    simp
  rw [e1, e5]
  simp only [Finset.mul_sum, ← mul_assoc]
  rw [Finset.sum_comm]
  simp only [← Finset.sum_mul, e2, e4]
  push_cast
  refine Finset.sum_congr rfl fun k _ => ?_
  rw [e3 k]
  simp
  ring

/-- Arrays as matrices. -/
def matOf (M : ℕ) : (Fin M → Fin M → ℂ) →ₗ[ℝ] Mat M where
  toFun f := Matrix.of f
  map_add' _ _ := rfl
  map_smul' _ _ := rfl

theorem adjoint_lawful (N : ℕ) : (adjointRep N).Lawful where
  smooth := by
    have h : ContDiff ℝ ∞ fun U : Mat N => fun i j => ((2 * (trace (gens N i * U * gens N j * Uᴴ)).re : ℝ) : ℂ) := by
      refine contDiff_pi.2 fun i => contDiff_pi.2 fun j => Complex.ofRealCLM.contDiff.comp ?_
      exact contDiff_const.mul (contDiff_re (contDiff_tr (((contDiff_const.mul contDiff_id).mul contDiff_const).mul (contDiff_ct contDiff_id))))
    exact (contDiff_linear (matOf _)).comp h
  deriv P U hP := by
    have h := (hasDerivAt_exp_smul_const (𝕂 := ℝ) P 0).mul_const U
    simp only [zero_smul, NormedSpace.exp_zero, one_mul] at h
    have h0 : NormedSpace.exp ((0 : ℝ) • P) * U = U := by simp
    have hij : ∀ i j, HasDerivAt (fun t : ℝ => ((2 * (trace (gens N i * (NormedSpace.exp (t • P) * U) * gens N j * (NormedSpace.exp (t • P) * U)ᴴ)).re : ℝ) : ℂ))
        (((2 * (trace (gens N i * (P * U) * gens N j * Uᴴ)).re + 2 * (trace (gens N i * U * gens N j * (P * U)ᴴ)).re : ℝ) : ℂ)) 0 := by
      intro i j
      have h1 := (((h.const_mul (gens N i)).mul_const (gens N j)).mul (ctL.hasFDerivAt.comp_hasDerivAt (0 : ℝ) h))
      have h2 := ((trL.hasFDerivAt.comp_hasDerivAt (0 : ℝ) h1).const_mul 2).ofReal_comp
      refine HasDerivAt.congr_deriv h2 ?_
      change (((2 * (trace (gens N i * (P * U) * gens N j * (NormedSpace.exp ((0 : ℝ) • P) * U)ᴴ +
        gens N i * (NormedSpace.exp ((0 : ℝ) • P) * U) * gens N j * (P * U)ᴴ)).re : ℝ)) : ℂ) = _
      rw [h0, trace_add, Complex.add_re, mul_add]
    have h3 := (LinearMap.toContinuousLinearMap (matOf (lieGenerators N).length)).hasFDerivAt.comp_hasDerivAt (0 : ℝ)
      (hasDerivAt_pi.2 fun i => hasDerivAt_pi.2 fun j => hij i j)
    refine HasDerivAt.congr_deriv h3 ?_
    ext i j
    change (((2 * (trace (gens N i * (P * U) * gens N j * Uᴴ)).re + 2 * (trace (gens N i * U * gens N j * (P * U)ᴴ)).re : ℝ) : ℂ)) = _
    rw [adjoint_velocity N P U hP i j, Matrix.sum_apply]
    rfl
  zero := by
    ext i j
    simp [adjointRep, toAdjoint]
  unitary U h := by
    have hU : U ∈ unitaryGroup (Fin N) ℂ := mem_unitaryGroup_iff.2 h
    have ho := (mem_orthogonalGroup_iff _ _).1 (C29_representation N U U hU hU).2.2.2.2
    ext i j
    have := congrFun (congrFun ho i) j
    rw [Matrix.mul_apply] at this ⊢
    have h2 := congrArg Complex.ofReal this
    rw [Complex.ofReal_sum] at h2
    simp only [Matrix.transpose_apply, Complex.ofReal_mul] at h2
    simp only [adjointRep, conjTranspose_apply, Matrix.map_apply, Complex.star_def, Complex.conj_ofReal]
    rw [h2, Matrix.one_apply, Matrix.one_apply]
    split <;> simp
  hermitian i := (C30_adjoint N i i).2.2.1

end Leonard
