import Verif.Stout.Once
import Verif.Force.Energy
import Verif.Force.Props
import Verif.Smear.Props
import Mathlib.LinearAlgebra.Matrix.Charpoly.Coeff
import Mathlib.Analysis.Calculus.Deriv.Polynomial

/-!
# Smeared links move in the group when the links do
-/

set_option autoImplicit false

namespace Leonard

open Matrix
open scoped ContDiff Topology Matrix.Norms.Operator

variable {S : Type} {N M : ℕ}

theorem contDiff_det : ContDiff ℝ ∞ fun A : Mat N => A.det := by
  simp only [Matrix.det_apply']
  refine ContDiff.sum fun σ _ => contDiff_const.mul (contDiff_prod fun i _ => ?_)
  exact contDiff_linear { toFun := fun A : Mat N => A (σ i) i, map_add' := fun _ _ => rfl, map_smul' := fun _ _ => rfl }

theorem hasDerivAt_det_line (Q : Mat N) : HasDerivAt (fun t : ℝ => (1 + t • Q : Mat N).det) (trace Q) 0 := by
  let p : Polynomial ℂ := (Matrix.det (1 + (Polynomial.X : Polynomial ℂ) • Q.map (Polynomial.C : ℂ →+* Polynomial ℂ))).divX.divX
  have hcd : DifferentiableAt ℝ (fun t : ℝ => p.eval (t : ℂ)) 0 := by
    have h := p.differentiable (𝕜 := ℂ)
    exact (((h (0 : ℝ)).restrictScalars ℝ).comp (0 : ℝ) Complex.ofRealCLM.differentiableAt :)
  have ht : HasDerivAt (fun t : ℝ => (t : ℂ)) 1 0 := Complex.ofRealCLM.hasDerivAt
  have h3 := ((ht.const_mul (trace Q)).const_add 1).add (hcd.hasDerivAt.mul (ht.pow 2))
  refine HasDerivAt.congr_deriv (h3.congr_of_eventuallyEq (Filter.Eventually.of_forall fun t => ?_)) (by simp)
  exact Matrix.det_one_add_smul (t : ℂ) Q

/-- The derivative of the determinant at the identity is the trace. -/
theorem hasDerivAt_det {V : ℝ → Mat N} {Q : Mat N} (h0 : V 0 = 1) (hv : HasDerivAt V Q 0) : HasDerivAt (fun t => (V t).det) (trace Q) 0 := by
  have hd : HasFDerivAt (fun A : Mat N => A.det) (fderiv ℝ (fun A : Mat N => A.det) 1) 1 :=
    ((contDiff_det.differentiable (by simp)) 1).hasFDerivAt
  have h1 : HasDerivAt (fun t : ℝ => (1 + t • Q : Mat N)) Q 0 := by
    have := ((hasDerivAt_id (0 : ℝ)).smul_const Q).const_add 1
    rw [one_smul] at this
    exact this
  have hd' : HasFDerivAt (fun A : Mat N => A.det) (fderiv ℝ (fun A : Mat N => A.det) 1) (1 + (0 : ℝ) • Q) := by
    rw [zero_smul, add_zero]; exact hd
  have h2 := (hd'.comp_hasDerivAt (0 : ℝ) h1).unique (hasDerivAt_det_line Q)
  have hd'' : HasFDerivAt (fun A : Mat N => A.det) (fderiv ℝ (fun A : Mat N => A.det) 1) (V 0) := by rw [h0]; exact hd
  exact HasDerivAt.congr_deriv (hd''.comp_hasDerivAt (0 : ℝ) hv) h2

/-- The exponential of an element of the Lie algebra has determinant one. -/
theorem det_exp_lie {X : Mat N} (hX : trace X = 0) : (NormedSpace.exp X).det = 1 := by
  have hmul : ∀ s t : ℝ, (NormedSpace.exp ((s + t) • X)).det = (NormedSpace.exp (s • X)).det * (NormedSpace.exp (t • X)).det := by
    intro s t
    rw [add_smul, Matrix.exp_add_of_commute _ _ (((Commute.refl X).smul_left s).smul_right t), det_mul]
  have h0 : HasDerivAt (fun t : ℝ => (NormedSpace.exp (t • X)).det) 0 0 := by
    have h1 := hasDerivAt_exp_smul_const (𝕂 := ℝ) X 0
    rw [zero_smul, NormedSpace.exp_zero, one_mul] at h1
    rw [← hX]
    exact hasDerivAt_det (by rw [zero_smul, NormedSpace.exp_zero]) h1
  have ht : ∀ t : ℝ, HasDerivAt (fun t : ℝ => (NormedSpace.exp (t • X)).det) 0 t := by
    intro t
    have h1 : HasDerivAt (fun u : ℝ => u - t) 1 t := (hasDerivAt_id t).sub_const t
    have h2 : HasDerivAt (fun t : ℝ => (NormedSpace.exp (t • X)).det) 0 (t - t) := by rw [sub_self]; exact h0
    have h3 := (HasDerivAt.scomp (h := fun u : ℝ => u - t) t h2 h1).const_mul (NormedSpace.exp (t • X)).det
    refine HasDerivAt.congr_deriv (h3.congr_of_eventuallyEq (Filter.Eventually.of_forall fun u => ?_)) (by simp)
    change _ = (NormedSpace.exp (t • X)).det * (NormedSpace.exp ((u - t) • X)).det
    rw [← hmul, add_sub_cancel]
  have hc := is_const_of_deriv_eq_zero (fun t => (ht t).differentiableAt) (fun t => (ht t).deriv) 1 0
  rw [one_smul, zero_smul, NormedSpace.exp_zero, det_one] at hc
  exact hc

/-- Curves in the special unitary group start in the direction of the Lie algebra. -/
theorem lie_of_path {V : ℝ → Mat N} {Q : Mat N} (h0 : V 0 = 1) (hu : ∀ t, V t * (V t)ᴴ = 1) (hd : ∀ t, (V t).det = 1)
    (hv : HasDerivAt V Q 0) : IsLie Q := by
  constructor
  · have h1 := hv.mul (ctL.hasFDerivAt.comp_hasDerivAt (0 : ℝ) hv)
    have e : (fun t => V t * (V t)ᴴ) = fun _ => (1 : Mat N) := funext hu
    have h2 : HasDerivAt (fun t => V t * (V t)ᴴ) (Q * (V 0)ᴴ + V 0 * Qᴴ) 0 := h1
    rw [e] at h2
    have h3 := h2.unique (hasDerivAt_const (0 : ℝ) (1 : Mat N))
    rw [h0, conjTranspose_one, mul_one, one_mul] at h3
    exact eq_neg_of_add_eq_zero_right h3
  · have h2 := hasDerivAt_det h0 hv
    have e : (fun t => (V t).det) = fun _ => (1 : ℂ) := funext hd
    rw [e] at h2
    exact h2.unique (hasDerivAt_const (0 : ℝ) (1 : ℂ))

theorem contDiff_matExp : ContDiff ℝ ∞ (NormedSpace.exp : Mat N → Mat N) := by
  rw [contDiff_iff_contDiffAt]
  intro x
  exact (NormedSpace.exp_analytic (𝕂 := ℝ) x).contDiffAt

theorem contDiff_stoutGenerator {E : Type*} [NormedAddCommGroup E] [NormedSpace ℝ E] (r : ℝ) {f g : E → Mat N} (hf : ContDiff ℝ ∞ f)
    (hg : ContDiff ℝ ∞ g) : ContDiff ℝ ∞ fun x => stoutGenerator r (f x) (g x) := by
  have h1 : ContDiff ℝ ∞ fun x => (r : ℂ) • (g x)ᴴ * (f x)ᴴ := (contDiff_csmul _ (contDiff_ct hg)).mul (contDiff_ct hf)
  have h2 : ContDiff ℝ ∞ fun x => (0.5 : ℂ) • (((r : ℂ) • (g x)ᴴ * (f x)ᴴ)ᴴ - (r : ℂ) • (g x)ᴴ * (f x)ᴴ) :=
    contDiff_csmul _ ((contDiff_ct h1).sub h1)
  have h3 := contDiff_tr h2
  unfold stoutGenerator
  exact (h2.sub ((h3.div_const _).smul contDiff_const)).neg

variable [Fintype S]

theorem contDiff_stoutLinks (T : Torus S) (r : ℝ) : ContDiff ℝ ∞ fun U : GField S N => stoutLinks T r U := by
  refine contDiff_pi.2 fun s => contDiff_pi.2 fun μ => ?_
  exact (contDiff_matExp.comp (contDiff_stoutGenerator r (contDiff_link s μ) (contDiff_wilsonStaple T s μ))).mul (contDiff_link s μ)

theorem contDiff_moveLinks (P U : GField S N) : ContDiff ℝ ∞ fun t : ℝ => moveLinks P U t := by
  refine contDiff_pi.2 fun s => contDiff_pi.2 fun μ => ?_
  exact (contDiff_matExp.comp (contDiff_id.smul contDiff_const)).mul contDiff_const

theorem lie_zero_colours {X : Mat 0} : IsLie X := ⟨Subsingleton.elim _ _, by simp⟩

theorem stoutGenerator_isLie (r : ℝ) (U st : Mat N) : IsLie (stoutGenerator r U st) := by
  rcases Nat.eq_zero_or_pos N with rfl | h
  · exact lie_zero_colours
  · exact stoutGenerator_lie h r U st

/-- When the links move with velocities `P`, the smeared links move with velocities in the Lie algebra. -/
theorem stout_velocity (T : Torus S) (r : ℝ) (U P : GField S N) (hP : ∀ s μ, IsLie (P s μ)) :
    ∃ Q : GField S N, (∀ s μ, IsLie (Q s μ)) ∧
      ∀ s μ, HasDerivAt (fun t : ℝ => stoutLinks T r (moveLinks P U t) s μ) (Q s μ * stoutLinks T r U s μ) 0 := by
  have key : ∀ s μ, ∃ Q : Mat N, IsLie Q ∧ HasDerivAt (fun t : ℝ => stoutLinks T r (moveLinks P U t) s μ) (Q * stoutLinks T r U s μ) 0 := by
    intro s μ
    obtain ⟨R, hR⟩ : ∃ R : ℝ → Mat N, R = fun t => NormedSpace.exp (stoutGenerator r (moveLinks P U t s μ) (wilsonStaple T (moveLinks P U t) s μ)) :=
      ⟨_, rfl⟩
    have hRd : ContDiff ℝ ∞ R := by
      rw [hR]
      exact contDiff_matExp.comp (contDiff_stoutGenerator r ((contDiff_link s μ).comp (contDiff_moveLinks P U))
        ((contDiff_wilsonStaple T s μ).comp (contDiff_moveLinks P U)))
    have hu : ∀ t, R t * (R t)ᴴ = 1 := by
      intro t
      have := exp_lie_unitary (stoutGenerator_isLie r (moveLinks P U t s μ) (wilsonStaple T (moveLinks P U t) s μ)) 1
      rw [one_smul] at this
      rw [hR]; exact this
    have hdet : ∀ t, (R t).det = 1 := by
      intro t
      rw [hR]
      exact det_exp_lie (stoutGenerator_isLie r _ _).2
    have hu' : (R 0)ᴴ * R 0 = 1 := mul_eq_one_comm.1 (hu 0)
    obtain ⟨V, hV⟩ : ∃ V : ℝ → Mat N, V = fun t => R t * NormedSpace.exp (t • P s μ) * (R 0)ᴴ := ⟨_, rfl⟩
    have hVd : ContDiff ℝ ∞ V := by
      rw [hV]
      exact (hRd.mul (contDiff_matExp.comp (contDiff_id.smul contDiff_const))).mul contDiff_const
    have hv : HasDerivAt V (deriv V 0) 0 := ((hVd.differentiable (by simp)) 0).hasDerivAt
    have hl : IsLie (deriv V 0) := by
      refine lie_of_path ?_ ?_ ?_ hv
      · rw [hV]
        simp only [zero_smul, NormedSpace.exp_zero, mul_one]
        exact hu 0
      · intro t
        rw [hV]
        simp only [conjTranspose_mul, conjTranspose_conjTranspose]
        have e2 := exp_lie_unitary (hP s μ) t
        calc R t * NormedSpace.exp (t • P s μ) * (R 0)ᴴ * (R 0 * ((NormedSpace.exp (t • P s μ))ᴴ * (R t)ᴴ))
            = R t * NormedSpace.exp (t • P s μ) * ((R 0)ᴴ * R 0) * ((NormedSpace.exp (t • P s μ))ᴴ * (R t)ᴴ) := by simp only [Matrix.mul_assoc]
          _ = R t * (NormedSpace.exp (t • P s μ) * (NormedSpace.exp (t • P s μ))ᴴ) * (R t)ᴴ := by rw [hu', mul_one]; simp only [Matrix.mul_assoc]
          _ = 1 := by rw [e2, mul_one, hu]
      · intro t
        rw [hV]
        have e3 : (NormedSpace.exp (t • P s μ)).det = 1 := det_exp_lie (by rw [trace_smul, (hP s μ).2, smul_zero])
        have e4 : ((R 0)ᴴ).det = 1 := by rw [det_conjTranspose, hdet, star_one]
        simp only [det_mul, hdet, e3, e4, mul_one]
    refine ⟨deriv V 0, hl, ?_⟩
    refine (hv.mul_const (stoutLinks T r U s μ)).congr_of_eventuallyEq (Filter.Eventually.of_forall fun t => ?_)
    have e5 : stoutLinks T r U s μ = R 0 * U s μ := by rw [hR]; simp only [moveLinks_zero]; rfl
    rw [e5, hV]
    calc stoutLinks T r (moveLinks P U t) s μ = R t * (NormedSpace.exp (t • P s μ) * U s μ) := by rw [hR]; rfl
      _ = R t * NormedSpace.exp (t • P s μ) * ((R 0)ᴴ * R 0) * U s μ := by rw [hu', mul_one, Matrix.mul_assoc]
      _ = _ := by simp only [Matrix.mul_assoc]
  choose Q hQ using fun p : S × Fin 4 => key p.1 p.2
  exact ⟨fun s μ => Q (s, μ), fun s μ => (hQ (s, μ)).1, fun s μ => (hQ (s, μ)).2⟩

/-- The representation of a link that moves in the group. -/
theorem rep_velocity (ρ : FermionRep N M) (hρ : ρ.Lawful) {W : ℝ → Mat N} {Q : Mat N} (hQ : IsLie Q) (hW : HasDerivAt W (Q * W 0) 0) :
    HasDerivAt (fun t => ρ.link (W t)) (∑ i, (2 * trace (gens N i * Q)) • (ρ.gen i * ρ.link (W 0))) 0 := by
  have hd : HasFDerivAt ρ.link (fderiv ℝ ρ.link (W 0)) (W 0) := ((hρ.smooth.differentiable (by simp)) _).hasFDerivAt
  have h1 := hd.comp_hasDerivAt (0 : ℝ) hW
  have h2 : HasDerivAt (fun t : ℝ => NormedSpace.exp (t • Q) * W 0) (Q * W 0) 0 := by
    refine HasDerivAt.congr_deriv ((hasDerivAt_exp_smul_const (𝕂 := ℝ) Q 0).mul_const (W 0)) ?_
    simp
  have hd' : HasFDerivAt ρ.link (fderiv ℝ ρ.link (W 0)) (NormedSpace.exp ((0 : ℝ) • Q) * W 0) := by
    rw [zero_smul, NormedSpace.exp_zero, one_mul]; exact hd
  have h3 := hd'.comp_hasDerivAt (0 : ℝ) h2
  have h4 := h3.unique (hρ.deriv Q (W 0) hQ)
  rw [h4] at h1
  exact h1

end Leonard
