import Verif.Order.Fields

/-!
# The gauge energies and forces are smooth functions of the links
-/

set_option autoImplicit false

namespace Leonard

open Finset Matrix
open scoped ContDiff Topology Matrix.Norms.Operator

variable {S : Type} [Fintype S] {N : ℕ} {E : Type*} [NormedAddCommGroup E] [NormedSpace ℝ E]

theorem contDiff_link (s : S) (μ : Fin 4) : ContDiff ℝ ∞ fun U : GField S N => U s μ := contDiff_apply_apply ℝ (Mat N) s μ

theorem contDiff_ct {f : E → Mat N} (hf : ContDiff ℝ ∞ f) : ContDiff ℝ ∞ fun x => (f x)ᴴ :=
  (contDiff_linear { toFun := fun A : Mat N => Aᴴ, map_add' := conjTranspose_add, map_smul' := fun c A => by simp }).comp hf

theorem contDiff_tr {f : E → Mat N} (hf : ContDiff ℝ ∞ f) : ContDiff ℝ ∞ fun x => trace (f x) :=
  (contDiff_linear (Matrix.traceLinearMap (Fin N) ℝ ℂ)).comp hf

theorem contDiff_re {f : E → ℂ} (hf : ContDiff ℝ ∞ f) : ContDiff ℝ ∞ fun x => (f x).re := Complex.reCLM.contDiff.comp hf

theorem contDiff_ite {F : Type*} [NormedAddCommGroup F] [NormedSpace ℝ F] {p : Prop} [Decidable p] {f g : E → F} (hf : ContDiff ℝ ∞ f)
    (hg : ContDiff ℝ ∞ g) : ContDiff ℝ ∞ fun x => if p then f x else g x := by
  split
  · exact hf
  · exact hg

theorem contDiff_csmul {f : E → Mat N} (c : ℂ) (hf : ContDiff ℝ ∞ f) : ContDiff ℝ ∞ fun x => c • f x := hf.const_smul c

theorem contDiff_stapleUp (T : Torus S) (s : S) (μ ν : Fin 4) : ContDiff ℝ ∞ fun U : GField S N => stapleUp T U s μ ν :=
  ((contDiff_link _ _).mul (contDiff_ct (contDiff_link _ _))).mul (contDiff_ct (contDiff_link _ _))

theorem contDiff_stapleDown (T : Torus S) (s : S) (μ ν : Fin 4) : ContDiff ℝ ∞ fun U : GField S N => stapleDown T U s μ ν :=
  ((contDiff_ct (contDiff_link _ _)).mul (contDiff_ct (contDiff_link _ _))).mul (contDiff_link _ _)

theorem contDiff_wilsonStaple (T : Torus S) (s : S) (μ : Fin 4) : ContDiff ℝ ∞ fun U : GField S N => wilsonStaple T U s μ :=
  ContDiff.sum fun ν _ => contDiff_ite ((contDiff_stapleUp T s μ ν).add (contDiff_stapleDown T s μ ν)) contDiff_const

theorem contDiff_rectStaple (T : Torus S) (s : S) (μ ν : Fin 4) : ContDiff ℝ ∞ fun U : GField S N => rectStaple T U s μ ν := by
  unfold rectStaple
  have l := fun (s : S) (μ : Fin 4) => contDiff_link (N := N) s μ
  have c := fun (s : S) (μ : Fin 4) => contDiff_ct (contDiff_link (N := N) s μ)
  refine ContDiff.add (ContDiff.add (ContDiff.add (ContDiff.add (ContDiff.add ?_ ?_) ?_) ?_) ?_) ?_
  · exact ((((l _ _).mul (l _ _)).mul (c _ _)).mul (c _ _)).mul (c _ _)
  · exact ((((l _ _).mul (c _ _)).mul (c _ _)).mul (c _ _)).mul (l _ _)
  · exact ((((l _ _).mul (c _ _)).mul (c _ _)).mul (c _ _)).mul (l _ _)
  · exact ((((c _ _).mul (c _ _)).mul (c _ _)).mul (l _ _)).mul (l _ _)
  · exact ((((l _ _).mul (l _ _)).mul (c _ _)).mul (c _ _)).mul (c _ _)
  · exact ((((c _ _).mul (c _ _)).mul (c _ _)).mul (l _ _)).mul (l _ _)

theorem contDiff_improvedStaple (u0 : ℝ) (T : Torus S) (s : S) (μ : Fin 4) : ContDiff ℝ ∞ fun U : GField S N => improvedStaple u0 T U s μ :=
  ContDiff.sum fun ν _ => contDiff_ite ((contDiff_csmul _ ((contDiff_stapleUp T s μ ν).add (contDiff_stapleDown T s μ ν))).sub
    (contDiff_csmul _ (contDiff_rectStaple T s μ ν))) contDiff_const

theorem contDiff_wilsonEnergy (β : ℝ) (T : Torus S) : ContDiff ℝ ∞ fun U : GField S N => wilsonEnergy β T U := by
  refine ContDiff.sum fun s _ => ContDiff.sum fun μ _ => contDiff_const.mul (contDiff_re (contDiff_tr ((contDiff_link s μ).mul ?_)))
  exact ContDiff.sum fun ν _ => contDiff_ite (contDiff_stapleUp T s μ ν) contDiff_const

theorem contDiff_improvedEnergy (u0 β : ℝ) (T : Torus S) : ContDiff ℝ ∞ fun U : GField S N => improvedEnergy u0 β T U := by
  have l := fun (s : S) (μ : Fin 4) => contDiff_link (N := N) s μ
  have c := fun (s : S) (μ : Fin 4) => contDiff_ct (contDiff_link (N := N) s μ)
  refine ContDiff.sum fun s _ => ContDiff.sum fun μ _ => contDiff_const.mul (contDiff_re (contDiff_tr ((contDiff_link s μ).mul ?_)))
  refine ContDiff.sum fun ν _ => contDiff_ite (((contDiff_csmul _ (contDiff_stapleUp T s μ ν)).sub (contDiff_csmul _ ?_)).sub
    (contDiff_csmul _ ?_)) contDiff_const
  · exact ((((l _ _).mul (l _ _)).mul (c _ _)).mul (c _ _)).mul (c _ _)
  · exact ((((l _ _).mul (l _ _)).mul (c _ _)).mul (c _ _)).mul (c _ _)

theorem contDiff_gaugeForce (β : ℝ) {st : GField S N → Mat N} (hst : ContDiff ℝ ∞ st) (s : S) (μ : Fin 4) :
    ContDiff ℝ ∞ fun U : GField S N => gaugeForce β U (st U) s μ := by
  have e : (fun U : GField S N => gaugeForce β U (st U) s μ) = fun U =>
      (-((0.25 * β / N : ℝ) : ℂ)) • ((U s μ * st U)ᴴ - U s μ * st U) -
        (trace ((-((0.25 * β / N : ℝ) : ℂ)) • ((U s μ * st U)ᴴ - U s μ * st U)) * (N : ℂ)⁻¹) • (1 : Mat N) := by
    funext U
    unfold gaugeForce
    simp only []
    congr 2
    rw [← div_eq_mul_inv]
    apply Complex.ext
    · simp
    · simp
  rw [e]
  have h1 : ContDiff ℝ ∞ fun U : GField S N => (-((0.25 * β / N : ℝ) : ℂ)) • ((U s μ * st U)ᴴ - U s μ * st U) :=
    contDiff_csmul _ ((contDiff_ct ((contDiff_link s μ).mul hst)).sub ((contDiff_link s μ).mul hst))
  exact h1.sub (ContDiff.smul ((contDiff_tr h1).mul contDiff_const) contDiff_const)

theorem contDiff_wilsonForce (β : ℝ) (T : Torus S) : ContDiff ℝ ∞ fun (U : GField S N) s μ => gaugeForce β U (wilsonStaple T U s μ) s μ :=
  contDiff_pi.2 fun s => contDiff_pi.2 fun μ => contDiff_gaugeForce β (contDiff_wilsonStaple T s μ) s μ

theorem contDiff_improvedForce (u0 β : ℝ) (T : Torus S) :
    ContDiff ℝ ∞ fun (U : GField S N) s μ => gaugeForce β U (improvedStaple u0 T U s μ) s μ :=
  contDiff_pi.2 fun s => contDiff_pi.2 fun μ => contDiff_gaugeForce β (contDiff_improvedStaple u0 T s μ) s μ

theorem contDiff_momentaEnergy : ContDiff ℝ ∞ fun P : GField S N => momentaEnergy P :=
  ContDiff.sum fun s _ => ContDiff.sum fun μ _ => (contDiff_re (contDiff_tr ((contDiff_link s μ).mul (contDiff_link s μ)))).neg

end Leonard
