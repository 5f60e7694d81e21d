import Verif.Force.Energy

/-!
# The Wilson operator and its force
-/

set_option autoImplicit false

namespace Leonard

open Matrix
open scoped ContDiff Topology Matrix.Norms.Operator

variable {S : Type} [Fintype S] {N M : ℕ}

/-- `γ₅` as a linear map. -/
noncomputable def gamma5Lin : SField S M →ₗ[ℝ] SField S M where
  toFun := gamma5Field
  map_add' v w := by funext x; simp only [gamma5Field, Pi.add_apply, Matrix.mul_add]
  map_smul' c v := by funext x; simp only [gamma5Field, Pi.smul_apply, Matrix.mul_smul, RingHom.id_apply]

theorem gamma5Field_rsmul (c : ℝ) (v : SField S M) : gamma5Field (c • v) = c • gamma5Field v := by
  funext x; simp only [gamma5Field, Pi.smul_apply, Matrix.mul_smul]

theorem hoppingSpec_smul_left (T : Torus S) (c : ℝ) (L : GField S M) (v : SField S M) : hoppingSpec T (c • L) v = c • hoppingSpec T L v := by
  funext x
  simp only [hoppingSpec, Pi.smul_apply, Finset.smul_sum]
  refine Finset.sum_congr rfl fun μ _ => ?_
  simp only [transpose_smul, conjTranspose_smul, Matrix.mul_smul, star_trivial, smul_add]

theorem hoppingSpec_smul_right (T : Torus S) (c : ℝ) (L : GField S M) (v : SField S M) : hoppingSpec T L (c • v) = c • hoppingSpec T L v := by
  funext x
  simp only [hoppingSpec, Pi.smul_apply, Finset.smul_sum]
  refine Finset.sum_congr rfl fun μ _ => ?_
  simp only [Matrix.smul_mul, Matrix.mul_smul, smul_add]

theorem hoppingSpec_add_left (T : Torus S) (L L' : GField S M) (v : SField S M) :
    hoppingSpec T (L + L') v = hoppingSpec T L v + hoppingSpec T L' v := by
  funext x
  simp only [hoppingSpec, Pi.add_apply, ← Finset.sum_add_distrib]
  refine Finset.sum_congr rfl fun μ _ => ?_
  simp only [transpose_add, conjTranspose_add, Matrix.mul_add]
  abel

theorem hoppingSpec_add_right (T : Torus S) (L : GField S M) (v v' : SField S M) :
    hoppingSpec T L (v + v') = hoppingSpec T L v + hoppingSpec T L v' := by
  funext x
  simp only [hoppingSpec, Pi.add_apply, ← Finset.sum_add_distrib]
  refine Finset.sum_congr rfl fun μ _ => ?_
  simp only [Matrix.add_mul, Matrix.mul_add]
  abel

/-- `-κ γ₅` times the hopping term, linear in the links and in the field. -/
noncomputable def hopLin (T : Torus S) (κ : ℝ) : GField S M →ₗ[ℝ] SField S M →ₗ[ℝ] SField S M :=
  LinearMap.mk₂ ℝ (fun L v => (-κ) • gamma5Field (hoppingSpec T L v))
    (fun L L' v => by rw [hoppingSpec_add_left, gamma5Field_add, smul_add])
    (fun c L v => by rw [hoppingSpec_smul_left, gamma5Field_rsmul, smul_comm])
    (fun L v v' => by rw [hoppingSpec_add_right, gamma5Field_add, smul_add])
    (fun c L v => by rw [hoppingSpec_smul_right, gamma5Field_rsmul, smul_comm])

theorem hopLin_apply (T : Torus S) (κ : ℝ) (L : GField S M) (v : SField S M) :
    hopLin T κ L v = (-κ) • gamma5Field (hoppingSpec T L v) := rfl

/-- The Wilson operator with `γ₅` as a family of operators. -/
noncomputable def wilsonFamily (T : Torus S) (κ : ℝ) : GField S M → Op (SField S M) := affineOp gamma5Lin (hopLin T κ)

theorem wilson_isDirac (T : Torus S) (κ : ℝ) : IsDirac (fun L => optMul T L κ true) (wilsonFamily (M := M) T κ) := by
  have ha : ∀ L v, wilsonFamily (M := M) T κ L v = optMul T L κ true v := by
    intro L v
    rw [(C33_wilson T L κ true v).1]
    change gamma5Field v + (-κ) • gamma5Field (hoppingSpec T L v) = gamma5Field (wilsonSpec T L κ v)
    funext x
    rw [Pi.add_apply, Pi.smul_apply]
    simp only [gamma5Field, wilsonSpec, Matrix.mul_sub, Matrix.mul_smul, neg_smul, Complex.coe_smul]
    abel
  refine ⟨⟨contDiff_affineOp _ _, fun L v w => ?_, rdotB_comm⟩, ha⟩
  rw [ha, ha]
  change (latticeDot _ _).re = (latticeDot _ _).re
  rw [(C34_hermitian T L κ 0 v w).1]

/-- The change of the hopping term with the link at `s` in direction `μ`. -/
theorem rdot_hop_oneLink (T : Torus S) (κ : ℝ) (X Y : SField S M) (s : S) (μ : Fin 4) (V : Mat M) :
    rdot X (hopLin T κ (oneLink s μ V) Y) =
      -κ * (trace ((X s)ᴴ * (tabGamma5Minus μ * (Y (T.sup μ s) * Vᵀ)))
        + trace ((X (T.sup μ s))ᴴ * (tabGamma5Plus μ * (Y s * (Vᴴ)ᵀ)))).re := by
  classical
  rw [hopLin_apply, rdot_smul]
  congr 1
  unfold rdot
  rw [latticeDot_trace]
  congr 1
  have h1 : ∀ x, trace ((X x)ᴴ * gamma5Field (hoppingSpec T (oneLink s μ V) Y) x) =
      ∑ ν, (trace ((X x)ᴴ * (tabGamma5Minus ν * (Y (T.sup ν x) * (oneLink s μ V x ν)ᵀ)))
        + trace ((X x)ᴴ * (tabGamma5Plus ν * (Y (T.sdn ν x) * ((oneLink s μ V (T.sdn ν x) ν)ᴴ)ᵀ)))) := by
    intro x
    simp only [gamma5Field, hoppingSpec, Matrix.mul_sum, trace_sum, Matrix.mul_add, trace_add]
    refine Finset.sum_congr rfl fun ν _ => ?_
    rw [(C32_derived ν ν).1, (C32_derived ν ν).2.1]
    simp only [Matrix.mul_assoc]
  simp only [h1, Finset.sum_add_distrib]
  congr 1
  · rw [Finset.sum_eq_single s, Finset.sum_eq_single μ]
    · rw [oneLink_same]
    · intro ν _ h; rw [oneLink_ne _ fun e => h e.2]; simp
    · simp
    · intro x _ h
      exact Finset.sum_eq_zero fun ν _ => by rw [oneLink_ne _ fun e => h e.1]; simp
    · simp
  · rw [Finset.sum_comm, Finset.sum_eq_single μ, Finset.sum_eq_single (T.sup μ s)]
    · rw [T.sdn_sup, oneLink_same]
    · intro x _ h
      rw [oneLink_ne _ fun e => h ?_]
      · simp
      · rw [← e.1, T.sup_sdn]
    · simp
    · intro ν _ h
      exact Finset.sum_eq_zero fun x _ => by rw [oneLink_ne _ fun e => h e.2]; simp
    · simp

theorem trace_tensor (x y : Fin M → ℂ) (B : Mat M) : trace (tensor x y * B) = ∑ j, starRingEnd ℂ (x j) * (B *ᵥ y) j := by
  simp only [trace, diag_apply, Matrix.mul_apply, tensor, mulVec, dotProduct, Finset.mul_sum]
  rw [Finset.sum_comm]
  refine Finset.sum_congr rfl fun i _ => Finset.sum_congr rfl fun j _ => ?_
  ring

theorem trace_conj_mul (X Z : Matrix (Fin 4) (Fin M) ℂ) : trace (Xᴴ * Z) = ∑ α, ∑ k, starRingEnd ℂ (X α k) * Z α k := by
  simp only [trace, diag_apply, Matrix.mul_apply, conjTranspose_apply, Complex.star_def]
  exact Finset.sum_comm

/-- One of the four sums of the derivative. -/
theorem trace_tensor_sum (g : SpinMat) (κ : ℝ) (X Y : Matrix (Fin 4) (Fin M) ℂ) (C E B : Mat M) :
    trace ((∑ α, tensor (C *ᵥ X α) (∑ β, (-(κ : ℂ) * g α β) • (E *ᵥ Y β))) * B) =
      -(κ : ℂ) * trace (Xᴴ * (g * (Y * (Cᴴ * B * E)ᵀ))) := by
  have h1 : ∀ α, trace (tensor (C *ᵥ X α) (∑ β, (-(κ : ℂ) * g α β) • (E *ᵥ Y β)) * B) =
      star (C *ᵥ X α) ⬝ᵥ (B *ᵥ ∑ β, (-(κ : ℂ) * g α β) • (E *ᵥ Y β)) := by
    intro α
    rw [trace_tensor]
    rfl
  rw [Finset.sum_mul, trace_sum]
  simp only [h1, star_mulVec, ← dotProduct_mulVec, mulVec_sum, mulVec_smul, mulVec_mulVec, ← Matrix.mul_assoc]
  rw [Matrix.mul_assoc Xᴴ, Matrix.mul_assoc Xᴴ, Matrix.mul_assoc g, trace_conj_mul, Finset.mul_sum]
  refine Finset.sum_congr rfl fun α _ => ?_
  rw [Finset.mul_sum]
  simp only [dotProduct, Finset.sum_apply, Pi.smul_apply, smul_eq_mul, Pi.star_apply]
  refine Finset.sum_congr rfl fun k _ => ?_
  rw [Matrix.mul_apply, Finset.mul_sum, Finset.mul_sum, Finset.mul_sum]
  refine Finset.sum_congr rfl fun β _ => ?_
  rw [Matrix.mul_apply]
  simp only [mulVec, dotProduct, transpose_apply, Complex.star_def]
  rw [show (∑ j, Y β j * (Cᴴ * B * E) k j) = ∑ j, (Cᴴ * B * E) k j * Y β j from Finset.sum_congr rfl fun j _ => mul_comm _ _]
  ring

theorem tabGamma5Minus_conj (μ : Fin 4) : (tabGamma5Minus μ)ᴴ = tabGamma5Plus μ := by
  rw [(C32_derived μ μ).1, (C32_derived μ μ).2.1, conjTranspose_mul, conjTranspose_sub, conjTranspose_one, (C32_clifford μ μ).2,
    C32_gamma5.2.1, Matrix.sub_mul, Matrix.mul_add, one_mul, mul_one, C32_gamma5.2.2.2.1 μ, sub_eq_add_neg]

/-- A link that is unitary or has been cut by open boundary conditions. -/
def UnitaryOrCut (A : Mat M) : Prop := A * Aᴴ = 1 ∨ A = 0

/-- `deriv` gives the change of the operators `A` with one link, along the generators of rotations of that link. -/
def IsLinkDerivative (A : GField S M → Op (SField S M)) (deriv : GField S M → SField S M → SField S M → S → Fin 4 → Mat M) : Prop :=
  ∀ (L : GField S M) (X Y : SField S M) (s : S) (μ : Fin 4) (t : Mat M), (∀ s μ, UnitaryOrCut (L s μ)) → tᴴ = t →
    (trace (deriv L X Y s μ * t * L s μ)).im = -2 * rdot X (fderiv ℝ A L (oneLink s μ (Complex.I • (t * L s μ))) Y)

theorem conj_hop (κ : ℝ) (g : SpinMat) (X Y : Matrix (Fin 4) (Fin M) ℂ) (B : Mat M) :
    starRingEnd ℂ (-(κ : ℂ) * trace (Yᴴ * (g * (X * Bᵀ)))) = -(κ : ℂ) * trace (Xᴴ * (gᴴ * (Y * (Bᴴ)ᵀ))) := by
  rw [map_mul, map_neg, Complex.conj_ofReal, conj_trace]
  congr 1
  simp only [conjTranspose_mul, conjTranspose_conjTranspose]
  rw [show (Bᵀ)ᴴ = (Bᴴ)ᵀ from by ext i j; simp [conjTranspose_apply, transpose_apply]]
  rw [Matrix.mul_assoc, Matrix.mul_assoc, trace_mul_comm]
  simp only [Matrix.mul_assoc]

theorem wilson_isLinkDerivative (T : Torus S) (κ : ℝ) : IsLinkDerivative (M := M) (wilsonFamily T κ) (wilsonDerivative T κ) := by
  intro L X Y s μ t hL ht
  have hf : fderiv ℝ (wilsonFamily T κ) L (oneLink s μ (Complex.I • (t * L s μ))) Y = hopLin T κ (oneLink s μ (Complex.I • (t * L s μ))) Y :=
    fderiv_affineOp _ _ _ _ _
  rw [hf, rdot_hop_oneLink]
  generalize hl : L s μ = l
  have hl2 : lᴴ * (t * l) * lᴴ = (t * l)ᴴ := by
    rw [conjTranspose_mul, ht]
    rcases hL s μ with h | h
    · rw [hl] at h
      rw [Matrix.mul_assoc, Matrix.mul_assoc, h, mul_one]
    · rw [← hl, h]; simp
  rw [Matrix.mul_assoc]
  generalize t * l = B at hl2 ⊢
  have h1 := trace_tensor_sum (tabGamma5Minus μ) κ (X s) (Y (T.sup μ s)) 1 1 B
  have h2 := trace_tensor_sum (tabGamma5Plus μ) κ (X (T.sup μ s)) (Y s) l lᴴ B
  have h3 := trace_tensor_sum (tabGamma5Minus μ) κ (Y s) (X (T.sup μ s)) 1 1 B
  have h4 := trace_tensor_sum (tabGamma5Plus μ) κ (Y (T.sup μ s)) (X s) l lᴴ B
  rw [hl2] at h2 h4
  simp only [one_mulVec, conjTranspose_one, one_mul, mul_one] at h1 h3
  have c3 := conj_hop κ (tabGamma5Minus μ) (X (T.sup μ s)) (Y s) B
  have c1 := conj_hop κ (tabGamma5Minus μ) (Y (T.sup μ s)) (X s) B
  rw [tabGamma5Minus_conj] at c1 c3
  rw [← c1] at h4
  rw [← c3] at h2
  have e : trace (wilsonDerivative T κ L X Y s μ * B) = -(κ : ℂ) * trace ((X s)ᴴ * (tabGamma5Minus μ * (Y (T.sup μ s) * Bᵀ)))
      - starRingEnd ℂ (-(κ : ℂ) * trace ((Y s)ᴴ * (tabGamma5Minus μ * (X (T.sup μ s) * Bᵀ))))
      + -(κ : ℂ) * trace ((Y s)ᴴ * (tabGamma5Minus μ * (X (T.sup μ s) * Bᵀ)))
      - starRingEnd ℂ (-(κ : ℂ) * trace ((X s)ᴴ * (tabGamma5Minus μ * (Y (T.sup μ s) * Bᵀ)))) := by
    unfold wilsonDerivative
    rw [hl, Matrix.sub_mul, Matrix.add_mul, Matrix.sub_mul, trace_sub, trace_add, trace_sub, h1, h2, h3, h4]
  have r1 : trace ((X s)ᴴ * (tabGamma5Minus μ * (Y (T.sup μ s) * (Complex.I • B)ᵀ))) =
      Complex.I * trace ((X s)ᴴ * (tabGamma5Minus μ * (Y (T.sup μ s) * Bᵀ))) := by
    simp only [transpose_smul, Matrix.mul_smul, trace_smul, smul_eq_mul]
  have r2 : trace ((X (T.sup μ s))ᴴ * (tabGamma5Plus μ * (Y s * ((Complex.I • B)ᴴ)ᵀ))) =
      -Complex.I * trace ((X (T.sup μ s))ᴴ * (tabGamma5Plus μ * (Y s * (Bᴴ)ᵀ))) := by
    simp only [conjTranspose_smul, transpose_smul, Matrix.mul_smul, trace_smul, smul_eq_mul, Complex.star_def, Complex.conj_I]
  have r3 : -κ * (trace ((X s)ᴴ * (tabGamma5Minus μ * (Y (T.sup μ s) * (Complex.I • B)ᵀ)))
        + trace ((X (T.sup μ s))ᴴ * (tabGamma5Plus μ * (Y s * ((Complex.I • B)ᴴ)ᵀ)))).re =
      (Complex.I * (-(κ : ℂ) * trace ((X s)ᴴ * (tabGamma5Minus μ * (Y (T.sup μ s) * Bᵀ)))) +
        -Complex.I * (-(κ : ℂ) * trace ((X (T.sup μ s))ᴴ * (tabGamma5Plus μ * (Y s * (Bᴴ)ᵀ))))).re := by
    rw [r1, r2, ← Complex.re_ofReal_mul]
    congr 1
    push_cast
    ring
  rw [r3, ← c3, e]
  generalize -(κ : ℂ) * trace ((X s)ᴴ * (tabGamma5Minus μ * (Y (T.sup μ s) * Bᵀ))) = a
  generalize -(κ : ℂ) * trace ((Y s)ᴴ * (tabGamma5Minus μ * (X (T.sup μ s) * Bᵀ))) = b
  simp only [Complex.add_im, Complex.sub_im, Complex.conj_im, Complex.add_re, Complex.mul_re, Complex.neg_re, Complex.neg_im, Complex.I_re,
    Complex.I_im, Complex.conj_re]
  ring

end Leonard
