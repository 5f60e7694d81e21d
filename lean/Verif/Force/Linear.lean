import Verif.Force.Model
import Mathlib.Analysis.Calculus.FDeriv.Mul
import Mathlib.Analysis.Calculus.ContDiff.Operations
import Mathlib.Analysis.Calculus.Deriv.Comp
import Mathlib.Analysis.Calculus.Deriv.Mul
import Mathlib.Topology.Algebra.Module.FiniteDimension

/-!
# Pseudofermion energies as functions of an operator

Derivatives of `|A⁻¹φ|²` and `φ†(A²+β)⁻¹φ` for operators `A` that depend on a parameter.
-/

set_option autoImplicit false

namespace Leonard

open scoped ContDiff Topology

/-- Operators on a space. -/
abbrev Op (E : Type*) [NormedAddCommGroup E] [NormedSpace ℝ E] := E →L[ℝ] E

section
variable {E : Type*} [NormedAddCommGroup E] [NormedSpace ℝ E]

/-- Symmetric with respect to a bilinear form. -/
def SymmOp (B : E →L[ℝ] E →L[ℝ] ℝ) (A : Op E) : Prop := ∀ v w, B v (A w) = B (A v) w

theorem isUnit_apply {A : Op E} (h : IsUnit A) (v : E) : A (Ring.inverse A v) = v := by
  have := Ring.mul_inverse_cancel A h
  exact congrArg (fun B : Op E => B v) this

theorem apply_isUnit {A : Op E} (h : IsUnit A) (v : E) : Ring.inverse A (A v) = v := by
  have := Ring.inverse_mul_cancel A h
  exact congrArg (fun B : Op E => B v) this

theorem isUnit_injective {A : Op E} (h : IsUnit A) : Function.Injective A := fun v w e => by
  rw [← apply_isUnit h v, e, apply_isUnit h]

theorem symm_inverse {B : E →L[ℝ] E →L[ℝ] ℝ} {A : Op E} (h : IsUnit A) (hA : SymmOp B A) : SymmOp B (Ring.inverse A) := by
  intro v w
  have := hA (Ring.inverse A v) (Ring.inverse A w)
  rw [isUnit_apply h, isUnit_apply h] at this
  exact this.symm

theorem symm_shift {B : E →L[ℝ] E →L[ℝ] ℝ} {A : Op E} (hA : SymmOp B A) (β : ℝ) : SymmOp B (A * A + β • (1 : Op E)) := by
  intro v w
  change B v (A (A w) + β • w) = B (A (A v) + β • v) w
  rw [map_add, map_add, map_smul, map_smul, hA, hA]
  rfl

/-- A linear operator without zero modes is invertible. -/
theorem isUnit_of_injective [FiniteDimensional ℝ E] (A : Op E) (h : Function.Injective A) : IsUnit A := by
  have hk : LinearMap.ker (A : E →ₗ[ℝ] E) = ⊥ := LinearMap.ker_eq_bot.2 h
  have hu : IsUnit (A : E →ₗ[ℝ] E) := LinearMap.isUnit_iff_ker_eq_bot _ |>.2 hk
  obtain ⟨u, hu⟩ := hu
  let B : Op E := LinearMap.toContinuousLinearMap (u⁻¹ : (E →ₗ[ℝ] E)ˣ).val
  refine ⟨⟨A, B, ?_, ?_⟩, rfl⟩
  · ext1 v
    have := congrArg (fun f : E →ₗ[ℝ] E => f v) u.mul_inv
    rw [hu] at this
    exact this
  · ext1 v
    have := congrArg (fun f : E →ₗ[ℝ] E => f v) u.inv_mul
    rw [hu] at this
    exact this

variable [CompleteSpace E] {A : ℝ → Op E} {A' : Op E}

theorem hasDerivAt_inverse (hA : HasDerivAt A A' 0) (hu : IsUnit (A 0)) :
    HasDerivAt (fun t => Ring.inverse (A t)) (-(Ring.inverse (A 0) * A' * Ring.inverse (A 0))) 0 := by
  obtain ⟨u, hu⟩ := hu
  have h := hasFDerivAt_ringInverse (𝕜 := ℝ) u
  rw [hu] at h
  have h2 := h.comp_hasDerivAt (0 : ℝ) hA
  rw [show Ring.inverse (A 0) = ↑u⁻¹ by rw [← hu, Ring.inverse_unit]]
  exact HasDerivAt.congr_deriv h2 (by simp)

/-- The derivative of `|A⁻¹φ|²`. -/
theorem hasDerivAt_norm_inverse (B : E →L[ℝ] E →L[ℝ] ℝ) (hB : ∀ v w, B v w = B w v) (hA : HasDerivAt A A' 0) (hu : IsUnit (A 0))
    (hs : SymmOp B (A 0)) (φ : E) :
    HasDerivAt (fun t => B (Ring.inverse (A t) φ) (Ring.inverse (A t) φ))
      (-2 * B (Ring.inverse (A 0) (Ring.inverse (A 0) φ)) (A' (Ring.inverse (A 0) φ))) 0 := by
  have h := (hasDerivAt_inverse hA hu).clm_apply (hasDerivAt_const (0 : ℝ) φ)
  have h2 := (((B.hasFDerivAt).comp_hasDerivAt (0 : ℝ) h).clm_apply h)
  refine HasDerivAt.congr_deriv h2 ?_
  simp only [Function.comp, map_zero, add_zero]
  rw [hB]
  change B (Ring.inverse (A 0) φ) (-(Ring.inverse (A 0) (A' (Ring.inverse (A 0) φ)))) +
    B (Ring.inverse (A 0) φ) (-(Ring.inverse (A 0) (A' (Ring.inverse (A 0) φ)))) = _
  rw [map_neg, symm_inverse hu hs]
  ring

/-- The derivative of `φ†(A²+β)⁻¹φ`. -/
theorem hasDerivAt_shift_inverse (B : E →L[ℝ] E →L[ℝ] ℝ) (hB : ∀ v w, B v w = B w v) (hA : HasDerivAt A A' 0) (β : ℝ)
    (hu : IsUnit (A 0 * A 0 + β • (1 : Op E))) (hs : SymmOp B (A 0)) (hs' : SymmOp B A') (φ : E) :
    HasDerivAt (fun t => B φ (Ring.inverse (A t * A t + β • (1 : Op E)) φ))
      (-2 * B (Ring.inverse (A 0 * A 0 + β • (1 : Op E)) φ) (A' (A 0 (Ring.inverse (A 0 * A 0 + β • (1 : Op E)) φ)))) 0 := by
  have h1 : HasDerivAt (fun t => A t * A t + β • (1 : Op E)) (A' * A 0 + A 0 * A') 0 := (hA.mul hA).add_const _
  have h := (hasDerivAt_inverse h1 hu).clm_apply (hasDerivAt_const (0 : ℝ) φ)
  have h2 := (B φ).hasFDerivAt.comp_hasDerivAt (0 : ℝ) h
  refine HasDerivAt.congr_deriv h2 ?_
  simp only [map_zero, add_zero]
  generalize hX : Ring.inverse (A 0 * A 0 + β • (1 : Op E)) = R
  change B φ (-(R (A' (A 0 (R φ)) + A 0 (A' (R φ))))) = _
  have hR : SymmOp B R := hX ▸ symm_inverse hu (symm_shift hs β)
  rw [map_neg, hR, map_add, hs, hB (A 0 (R φ)), ← hs']
  ring

end

/-! ### Operators that depend smoothly on the links -/

section
variable {G E : Type*} [NormedAddCommGroup G] [NormedSpace ℝ G] [NormedAddCommGroup E] [NormedSpace ℝ E]

/-- A smooth family of symmetric operators. -/
structure SmoothSymm (B : E →L[ℝ] E →L[ℝ] ℝ) (A : G → Op E) : Prop where
  smooth : ContDiff ℝ ∞ A
  symm : ∀ L, SymmOp B (A L)
  comm : ∀ v w, B v w = B w v

variable {B : E →L[ℝ] E →L[ℝ] ℝ} {A : G → Op E}

theorem SmoothSymm.hasFDerivAt (h : SmoothSymm B A) (L : G) : HasFDerivAt A (fderiv ℝ A L) L :=
  (h.smooth.differentiable (by simp)).differentiableAt.hasFDerivAt

theorem SmoothSymm.symm_fderiv (h : SmoothSymm B A) (L V : G) : SymmOp B (fderiv ℝ A L V) := by
  intro v w
  have h1 := (h.hasFDerivAt L).clm_apply (hasFDerivAt_const w L)
  have h2 := (h.hasFDerivAt L).clm_apply (hasFDerivAt_const v L)
  have h3 := (B v).hasFDerivAt.comp L h1
  have h4 := (B w).hasFDerivAt.comp L h2
  have e : (fun L => B v (A L w)) = fun L => B w (A L v) := by
    funext L
    rw [h.symm L, h.comm]
  have h5 := HasFDerivAt.unique (f := fun L => B v (A L w)) h3 (by rw [e]; exact h4)
  have h6 := congrArg (fun f : G →L[ℝ] ℝ => f V) h5
  rw [h.comm (fderiv ℝ A L V v) w]
  simpa using h6

/-- The change of `|A⁻¹φ|²` with the links. -/
noncomputable def normForm (B : E →L[ℝ] E →L[ℝ] ℝ) (A : G → Op E) (φ : E) (L : G) : G →ₗ[ℝ] ℝ :=
  (-2 : ℝ) • ((B (Ring.inverse (A L) (Ring.inverse (A L) φ))).toLinearMap.comp
    ((ContinuousLinearMap.apply ℝ E (Ring.inverse (A L) φ)).toLinearMap.comp (fderiv ℝ A L).toLinearMap))

theorem normForm_apply (φ : E) (L V : G) : normForm B A φ L V =
    -2 * B (Ring.inverse (A L) (Ring.inverse (A L) φ)) (fderiv ℝ A L V (Ring.inverse (A L) φ)) := rfl

/-- The operator `A² + β`. -/
noncomputable def shiftOp (A : Op E) (β : ℝ) : Op E := A * A + β • (1 : Op E)

theorem shiftOp_apply (A : Op E) (β : ℝ) (v : E) : shiftOp A β v = A (A v) + β • v := rfl

/-- The change of `φ†(A²+β)⁻¹φ` with the links. -/
noncomputable def shiftForm (B : E →L[ℝ] E →L[ℝ] ℝ) (A : G → Op E) (φ : E) (β : ℝ) (L : G) : G →ₗ[ℝ] ℝ :=
  (-2 : ℝ) • ((B (Ring.inverse (shiftOp (A L) β) φ)).toLinearMap.comp
    ((ContinuousLinearMap.apply ℝ E (A L (Ring.inverse (shiftOp (A L) β) φ))).toLinearMap.comp (fderiv ℝ A L).toLinearMap))

theorem shiftForm_apply (φ : E) (β : ℝ) (L V : G) : shiftForm B A φ β L V =
    -2 * B (Ring.inverse (shiftOp (A L) β) φ) (fderiv ℝ A L V (A L (Ring.inverse (shiftOp (A L) β) φ))) := rfl

variable [CompleteSpace E]

theorem SmoothSymm.hasDerivAt_norm (h : SmoothSymm B A) (φ : E) {L : ℝ → G} {V : G} (hL : HasDerivAt L V 0) (hu : IsUnit (A (L 0))) :
    HasDerivAt (fun t => B (Ring.inverse (A (L t)) φ) (Ring.inverse (A (L t)) φ)) (normForm B A φ (L 0) V) 0 :=
  hasDerivAt_norm_inverse B h.comm ((h.hasFDerivAt (L 0)).comp_hasDerivAt (0 : ℝ) hL) hu (h.symm _) φ

theorem SmoothSymm.hasDerivAt_shift (h : SmoothSymm B A) (φ : E) (β : ℝ) {L : ℝ → G} {V : G} (hL : HasDerivAt L V 0)
    (hu : IsUnit (shiftOp (A (L 0)) β)) :
    HasDerivAt (fun t => B φ (Ring.inverse (shiftOp (A (L t)) β) φ)) (shiftForm B A φ β (L 0) V) 0 :=
  hasDerivAt_shift_inverse B h.comm ((h.hasFDerivAt (L 0)).comp_hasDerivAt (0 : ℝ) hL) β hu (h.symm _) (h.symm_fderiv _ _) φ

variable {H : Type*} [NormedAddCommGroup H] [NormedSpace ℝ H] {L : H → G} {V : H → G}

theorem contDiffAt_inverse {C : H → Op E} {x : H} (hC : ContDiffAt ℝ ∞ C x) (hu : IsUnit (C x)) :
    ContDiffAt ℝ ∞ (fun y => Ring.inverse (C y)) x := by
  obtain ⟨u, hu⟩ := hu
  have h := contDiffAt_ringInverse ℝ (n := ∞) u
  rw [hu] at h
  exact h.comp x hC

theorem isOpen_isUnit {C : H → Op E} (hC : Continuous C) : IsOpen {x | IsUnit (C x)} := Units.isOpen.preimage hC

theorem SmoothSymm.contDiff_shift (h : SmoothSymm B A) (hL : ContDiff ℝ ∞ L) (β : ℝ) : ContDiff ℝ ∞ fun x => shiftOp (A (L x)) β :=
  ((h.smooth.comp hL).clm_comp (h.smooth.comp hL)).add contDiff_const

theorem SmoothSymm.isOpen_norm (h : SmoothSymm B A) (hL : ContDiff ℝ ∞ L) : IsOpen {x | IsUnit (A (L x))} :=
  isOpen_isUnit (h.smooth.comp hL).continuous

theorem SmoothSymm.isOpen_shift (h : SmoothSymm B A) (hL : ContDiff ℝ ∞ L) (β : ℝ) : IsOpen {x | IsUnit (shiftOp (A (L x)) β)} :=
  isOpen_isUnit (h.contDiff_shift hL β).continuous

theorem SmoothSymm.contDiffAt_fderiv (h : SmoothSymm B A) (hL : ContDiff ℝ ∞ L) (hV : ContDiff ℝ ∞ V) (x : H) :
    ContDiffAt ℝ ∞ (fun x => fderiv ℝ A (L x) (V x)) x :=
  (((h.smooth.fderiv_right (m := ∞) (by simp)).comp hL).clm_apply hV).contDiffAt

theorem SmoothSymm.contDiffAt_norm (h : SmoothSymm B A) (φ : E) (hL : ContDiff ℝ ∞ L) (x : H) (hu : IsUnit (A (L x))) :
    ContDiffAt ℝ ∞ (fun x => B (Ring.inverse (A (L x)) φ) (Ring.inverse (A (L x)) φ)) x := by
  have h1 : ContDiffAt ℝ ∞ (fun x => Ring.inverse (A (L x)) φ) x :=
    (contDiffAt_inverse (h.smooth.comp hL).contDiffAt hu).clm_apply contDiffAt_const
  exact (B.contDiff.contDiffAt.comp x h1).clm_apply h1

theorem SmoothSymm.contDiffAt_normForm (h : SmoothSymm B A) (φ : E) (hL : ContDiff ℝ ∞ L) (hV : ContDiff ℝ ∞ V) (x : H)
    (hu : IsUnit (A (L x))) : ContDiffAt ℝ ∞ (fun x => normForm B A φ (L x) (V x)) x := by
  have h0 := contDiffAt_inverse (h.smooth.comp hL).contDiffAt hu
  have h1 : ContDiffAt ℝ ∞ (fun x => Ring.inverse (A (L x)) φ) x := h0.clm_apply contDiffAt_const
  have h2 : ContDiffAt ℝ ∞ (fun x => Ring.inverse (A (L x)) (Ring.inverse (A (L x)) φ)) x := h0.clm_apply h1
  exact contDiffAt_const.mul ((B.contDiff.contDiffAt.comp x h2).clm_apply ((h.contDiffAt_fderiv hL hV x).clm_apply h1))

theorem SmoothSymm.contDiffAt_shiftEnergy (h : SmoothSymm B A) (φ : E) (β : ℝ) (hL : ContDiff ℝ ∞ L) (x : H)
    (hu : IsUnit (shiftOp (A (L x)) β)) : ContDiffAt ℝ ∞ (fun x => B φ (Ring.inverse (shiftOp (A (L x)) β) φ)) x := by
  have h1 : ContDiffAt ℝ ∞ (fun x => Ring.inverse (shiftOp (A (L x)) β) φ) x :=
    (contDiffAt_inverse (h.contDiff_shift hL β).contDiffAt hu).clm_apply contDiffAt_const
  exact (B φ).contDiff.contDiffAt.comp x h1

theorem SmoothSymm.contDiffAt_shiftForm (h : SmoothSymm B A) (φ : E) (β : ℝ) (hL : ContDiff ℝ ∞ L) (hV : ContDiff ℝ ∞ V) (x : H)
    (hu : IsUnit (shiftOp (A (L x)) β)) : ContDiffAt ℝ ∞ (fun x => shiftForm B A φ β (L x) (V x)) x := by
  have h1 : ContDiffAt ℝ ∞ (fun x => Ring.inverse (shiftOp (A (L x)) β) φ) x :=
    (contDiffAt_inverse (h.contDiff_shift hL β).contDiffAt hu).clm_apply contDiffAt_const
  have h2 : ContDiffAt ℝ ∞ (fun x => A (L x) (Ring.inverse (shiftOp (A (L x)) β) φ)) x := (h.smooth.comp hL).contDiffAt.clm_apply h1
  exact contDiffAt_const.mul ((B.contDiff.contDiffAt.comp x h1).clm_apply ((h.contDiffAt_fderiv hL hV x).clm_apply h2))

end

/-! ### Operators that are affine functions of the links -/

section
variable {G E : Type*} [NormedAddCommGroup G] [NormedSpace ℝ G] [FiniteDimensional ℝ G] [NormedAddCommGroup E] [NormedSpace ℝ E]
  [FiniteDimensional ℝ E]

/-- The linear part. -/
noncomputable def linOp (H : G →ₗ[ℝ] E →ₗ[ℝ] E) : G →L[ℝ] Op E :=
  LinearMap.toContinuousLinearMap ((LinearMap.toContinuousLinearMap (E := E) (F' := E) (𝕜 := ℝ)).toLinearMap.comp H)

theorem linOp_apply (H : G →ₗ[ℝ] E →ₗ[ℝ] E) (L : G) (v : E) : linOp H L v = H L v := rfl

/-- The operators `C + H(L)`. -/
noncomputable def affineOp (C : E →ₗ[ℝ] E) (H : G →ₗ[ℝ] E →ₗ[ℝ] E) (L : G) : Op E := LinearMap.toContinuousLinearMap C + linOp H L

theorem affineOp_apply (C : E →ₗ[ℝ] E) (H : G →ₗ[ℝ] E →ₗ[ℝ] E) (L : G) (v : E) : affineOp C H L v = C v + H L v := rfl

theorem contDiff_affineOp (C : E →ₗ[ℝ] E) (H : G →ₗ[ℝ] E →ₗ[ℝ] E) : ContDiff ℝ ∞ (affineOp C H) :=
  contDiff_const.add (linOp H).contDiff

theorem fderiv_affineOp (C : E →ₗ[ℝ] E) (H : G →ₗ[ℝ] E →ₗ[ℝ] E) (L V : G) (v : E) : fderiv ℝ (affineOp C H) L V v = H V v := by
  have h : HasFDerivAt (affineOp C H) (linOp H) L := (linOp H).hasFDerivAt.const_add _
  rw [h.fderiv]
  rfl

end

end Leonard
