import Verif.Force.CloverModel
import Verif.Force.Wilson

/-!
# The clover operator as a function of the links
-/

set_option autoImplicit false

namespace Leonard

open Matrix
open scoped ContDiff Topology Matrix.Norms.Operator

variable {S : Type} [Fintype S] {N M : ℕ}

/-! ### The change of a product of links -/

theorem hasDerivAt_holo_line (T : Torus S) (L V : GField S M) (p : List Hop) (x : S) :
    HasDerivAt (fun t : ℝ => holo T (L + t • V) x p) (dholo T L V x p) 0 := by
  have hl : ∀ y ρ, HasDerivAt (fun t : ℝ => (L + t • V) y ρ) (V y ρ) 0 := by
    intro y ρ
    have h := ((hasDerivAt_id (0 : ℝ)).smul_const (V y ρ)).const_add (L y ρ)
    rw [one_smul] at h
    exact h
  induction p generalizing x with
  | nil => exact hasDerivAt_const (0 : ℝ) (1 : Mat M)
  | cons h p ih =>
    have hh : HasDerivAt (fun t : ℝ => hopMat T (L + t • V) x h) (hopMat T V x h) 0 := by
      obtain ⟨ρ, b⟩ := h
      cases b
      · exact ctL.hasFDerivAt.comp_hasDerivAt (0 : ℝ) (hl (T.sdn ρ x) ρ)
      · exact hl x ρ
    have := hh.mul (ih (T.hop h x))
    simp only [zero_smul, add_zero] at this
    exact this

theorem contDiff_holo (T : Torus S) (p : List Hop) (x : S) : ContDiff ℝ ∞ fun L : GField S M => holo T L x p := by
  induction p generalizing x with
  | nil => exact contDiff_const
  | cons h p ih =>
    have hh : ContDiff ℝ ∞ fun L : GField S M => hopMat T L x h := by
      obtain ⟨ρ, b⟩ := h
      cases b
      · exact ctL.contDiff.comp (contDiff_link (T.sdn ρ x) ρ)
      · exact contDiff_link x ρ
    exact hh.mul (ih (T.hop h x))

/-- The change of the clover. -/
noncomputable def dcloverQ (T : Torus S) (L V : GField S M) (μ ν : Fin 4) (x : S) : Mat M :=
  dholo T L V x [(μ, true), (ν, true), (μ, false), (ν, false)]
  + dholo T L V x [(ν, true), (μ, false), (ν, false), (μ, true)]
  + dholo T L V x [(μ, false), (ν, false), (μ, true), (ν, true)]
  + dholo T L V x [(ν, false), (μ, true), (ν, true), (μ, false)]

/-- The change of the field strength. -/
noncomputable def dcloverF (T : Torus S) (L V : GField S M) (μ ν : Fin 4) (x : S) : Mat M :=
  (1 / 8 : ℂ) • (dcloverQ T L V μ ν x - (dcloverQ T L V μ ν x)ᴴ)

/-- Multiplication with a complex number as a real-linear map. -/
noncomputable def csmulL (c : ℂ) : Mat M →L[ℝ] Mat M :=
  LinearMap.toContinuousLinearMap
    { toFun := fun A => c • A
      map_add' := fun A B => smul_add c A B
      map_smul' := fun r A => smul_comm c r A }

theorem hasDerivAt_cloverF (T : Torus S) (L V : GField S M) (μ ν : Fin 4) (x : S) :
    HasDerivAt (fun t : ℝ => cloverF T (L + t • V) μ ν x) (dcloverF T L V μ ν x) 0 := by
  have hq : HasDerivAt (fun t : ℝ => cloverQ T (L + t • V) μ ν x) (dcloverQ T L V μ ν x) 0 :=
    (((hasDerivAt_holo_line T L V _ x).add (hasDerivAt_holo_line T L V _ x)).add (hasDerivAt_holo_line T L V _ x)).add
      (hasDerivAt_holo_line T L V _ x)
  exact (csmulL (1 / 8)).hasFDerivAt.comp_hasDerivAt (0 : ℝ) (hq.sub (ctL.hasFDerivAt.comp_hasDerivAt (0 : ℝ) hq))

theorem contDiff_cloverF (T : Torus S) (μ ν : Fin 4) (x : S) : ContDiff ℝ ∞ fun L : GField S M => cloverF T L μ ν x := by
  have hq : ContDiff ℝ ∞ fun L : GField S M => cloverQ T L μ ν x :=
    (((contDiff_holo T _ x).add (contDiff_holo T _ x)).add (contDiff_holo T _ x)).add (contDiff_holo T _ x)
  exact (csmulL (1 / 8)).contDiff.comp (hq.sub (ctL.contDiff.comp hq))

/-! ### The operator -/

/-- All field strengths. -/
abbrev FField (S : Type) (M : ℕ) := S → Fin 4 → Fin 4 → Mat M

/-- The field strengths of the links. -/
noncomputable def strengths (T : Torus S) (L : GField S M) : FField S M := fun x μ ν => cloverF T L μ ν x

/-- The clover term for given field strengths, with `γ₅`. -/
noncomputable def cloverOf (κ csw : ℝ) (F : FField S M) (v : SField S M) : SField S M := fun x =>
  ∑ μ, ∑ ν, if μ < ν then (κ * csw : ℝ) • (Complex.I • (tabGamma5Sigma μ ν * (v x * (F x μ ν)ᵀ))) else 0

/-- The clover term, linear in the field strengths and in the field. -/
noncomputable def cloverLin (κ csw : ℝ) : FField S M →ₗ[ℝ] SField S M →ₗ[ℝ] SField S M :=
  LinearMap.mk₂ ℝ (cloverOf κ csw)
    (fun F F' v => by
      funext x
      rw [Pi.add_apply]
      simp only [cloverOf, ← Finset.sum_add_distrib]
      refine Finset.sum_congr rfl fun μ _ => Finset.sum_congr rfl fun ν _ => ?_
      split
      · simp only [Pi.add_apply, transpose_add, Matrix.mul_add, smul_add]
      · simp)
    (fun c F v => by
      funext x
      rw [Pi.smul_apply]
      simp only [cloverOf, Finset.smul_sum]
      refine Finset.sum_congr rfl fun μ _ => Finset.sum_congr rfl fun ν _ => ?_
      split
      · simp only [Pi.smul_apply, transpose_smul, Matrix.mul_smul, smul_comm c]
      · simp)
    (fun F v v' => by
      funext x
      rw [Pi.add_apply]
      simp only [cloverOf, ← Finset.sum_add_distrib]
      refine Finset.sum_congr rfl fun μ _ => Finset.sum_congr rfl fun ν _ => ?_
      split
      · simp only [Pi.add_apply, Matrix.add_mul, Matrix.mul_add, smul_add]
      · simp)
    (fun c F v => by
      funext x
      rw [Pi.smul_apply]
      simp only [cloverOf, Finset.smul_sum]
      refine Finset.sum_congr rfl fun μ _ => Finset.sum_congr rfl fun ν _ => ?_
      split
      · simp only [Pi.smul_apply, Matrix.smul_mul, Matrix.mul_smul, smul_comm c]
      · simp)

theorem cloverLin_apply (κ csw : ℝ) (F : FField S M) (v : SField S M) : cloverLin κ csw F v = cloverOf κ csw F v := rfl

/-- The clover improved operator with `γ₅` as a family of operators. -/
noncomputable def cloverFamily (T : Torus S) (κ csw : ℝ) (L : GField S M) : Op (SField S M) :=
  wilsonFamily T κ L + linOp (cloverLin κ csw) (strengths T L)

theorem cloverOf_strengths (T : Torus S) (κ csw : ℝ) (L : GField S M) (v : SField S M) :
    cloverOf κ csw (strengths T L) v = ((κ * csw : ℝ) : ℂ) • gamma5Field (cloverField T L v) := by
  funext x
  simp only [cloverOf, strengths, Pi.smul_apply, gamma5Field, cloverField, Matrix.mul_sum, Finset.smul_sum]
  refine Finset.sum_congr rfl fun μ _ => Finset.sum_congr rfl fun ν _ => ?_
  split
  · rw [(C32_derived μ ν).2.2.2.2, Matrix.mul_smul, Complex.coe_smul, Matrix.mul_assoc]
  · simp

theorem contDiff_strengths (T : Torus S) : ContDiff ℝ ∞ fun L : GField S M => strengths T L :=
  contDiff_pi.2 fun x => contDiff_pi.2 fun μ => contDiff_pi.2 fun ν => contDiff_cloverF T μ ν x

theorem clover_isDirac (T : Torus S) (κ csw : ℝ) :
    IsDirac (fun L => improvedMul T L κ csw true) (cloverFamily (M := M) T κ csw) := by
  have ha : ∀ L v, cloverFamily (M := M) T κ csw L v = improvedMul T L κ csw true v := by
    intro L v
    rw [C33_improved]
    change wilsonFamily T κ L v + cloverLin κ csw (strengths T L) v = gamma5Field (improvedSpec T L κ csw v)
    rw [(wilson_isDirac T κ).apply, (C33_wilson T L κ true v).1, cloverLin_apply, cloverOf_strengths, improvedSpec_eq, ← wilsonSpec_eq,
      gamma5Field_add, gamma5Field_smul]
    rfl
  have hc : ContDiff ℝ ∞ fun L : GField S M => linOp (cloverLin κ csw) (strengths T L) :=
    (linOp (cloverLin (S := S) (M := M) κ csw)).contDiff.comp (contDiff_strengths T)
  refine ⟨⟨(wilson_isDirac T κ).family.smooth.add hc, fun L v w => ?_, rdotB_comm⟩, ha⟩
  rw [ha, ha]
  change (latticeDot _ _).re = (latticeDot _ _).re
  rw [(C34_hermitian T L κ csw v w).2.2]

/-- The change of the field strengths with the links. -/
theorem fderiv_strengths (T : Torus S) (L V : GField S M) :
    fderiv ℝ (fun L : GField S M => strengths T L) L V = fun x μ ν => dcloverF T L V μ ν x := by
  have h1 : HasDerivAt (fun t : ℝ => L + t • V) V 0 := by
    have h := ((hasDerivAt_id (0 : ℝ)).smul_const V).const_add L
    rw [one_smul] at h
    exact h
  have hd : DifferentiableAt ℝ (fun L : GField S M => strengths T L) (L + (0 : ℝ) • V) :=
    ((contDiff_strengths T).differentiable (by simp)).differentiableAt
  have h2 := hd.hasFDerivAt.comp_hasDerivAt (0 : ℝ) h1
  have h3 : HasDerivAt (fun t : ℝ => strengths T (L + t • V)) (fun x μ ν => dcloverF T L V μ ν x) 0 :=
    hasDerivAt_pi.2 fun x => hasDerivAt_pi.2 fun μ => hasDerivAt_pi.2 fun ν => hasDerivAt_cloverF T L V μ ν x
  rw [zero_smul, add_zero] at h2
  exact h2.unique h3

theorem fderiv_cloverFamily (T : Torus S) (κ csw : ℝ) (L V : GField S M) (v : SField S M) :
    fderiv ℝ (cloverFamily T κ csw) L V v = fderiv ℝ (wilsonFamily T κ) L V v + cloverOf κ csw (fun x μ ν => dcloverF T L V μ ν x) v := by
  have hd : HasFDerivAt (fun L : GField S M => strengths T L) (fderiv ℝ (fun L : GField S M => strengths T L) L) L :=
    ((contDiff_strengths T).differentiable (by simp)).differentiableAt.hasFDerivAt
  have h := ((wilson_isDirac T κ).family.hasFDerivAt L).add ((linOp (cloverLin κ csw)).hasFDerivAt.comp L hd)
  have e : fderiv ℝ (cloverFamily T κ csw) L = _ := h.fderiv
  rw [e, ← fderiv_strengths T L V]
  rfl

end Leonard
