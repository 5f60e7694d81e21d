import Verif.Npr.Vertex
import Mathlib.Analysis.Calculus.FDeriv.Mul
import Mathlib.Analysis.Calculus.Deriv.Comp
import Mathlib.Analysis.Calculus.Deriv.Mul
import Mathlib.Analysis.Calculus.Deriv.Add
import Mathlib.Analysis.Calculus.Deriv.Linear
import Mathlib.Analysis.Matrix.Normed
import Mathlib.Analysis.CStarAlgebra.Matrix

/-!
# The derivative of the propagator with respect to the mass
-/

set_option autoImplicit false

namespace Leonard

open Matrix
open scoped Matrix.Norms.Operator Topology

noncomputable section

theorem hasDerivAt_resolvent {J : Type} [Fintype J] [DecidableEq J] (Y : Matrix J J ℂ) {R : ℝ → Matrix J J ℂ} {m₀ : ℝ}
    (hR : ∀ᶠ m : ℝ in 𝓝 m₀, ((m : ℂ) • (1 : Matrix J J ℂ) + Y) * R m = 1) (p q : J) :
    HasDerivAt (fun m => R m p q) (-(R m₀ * R m₀) p q) m₀ := by
  let A : ℝ → Matrix J J ℂ := fun m => (m : ℂ) • (1 : Matrix J J ℂ) + Y
  have hA : HasDerivAt A (1 : Matrix J J ℂ) m₀ := by
    have h1 : HasDerivAt (fun m : ℝ => (m : ℂ) • (1 : Matrix J J ℂ)) ((1 : ℂ) • (1 : Matrix J J ℂ)) m₀ :=
      (Complex.ofRealCLM.hasDerivAt (x := m₀)).smul_const (1 : Matrix J J ℂ)
    rw [one_smul] at h1
    exact h1.add_const Y
  have h0 := hR.self_of_nhds
  have h0' : R m₀ * A m₀ = 1 := mul_eq_one_comm.1 h0
  let u : (Matrix J J ℂ)ˣ := ⟨A m₀, R m₀, h0, h0'⟩
  have hi := (hasFDerivAt_ringInverse (𝕜 := ℝ) u).comp_hasDerivAt m₀ hA
  have he : (fun m => Ring.inverse (A m)) =ᶠ[𝓝 m₀] R := by
    filter_upwards [hR] with m hm
    let w : (Matrix J J ℂ)ˣ := ⟨A m, R m, hm, mul_eq_one_comm.1 hm⟩
    exact Ring.inverse_unit w
  have hd : HasDerivAt R (-(R m₀ * R m₀)) m₀ := by
    refine (hi.congr_of_eventuallyEq he.symm).congr_deriv ?_
    simp only [ContinuousLinearMap.neg_apply, ContinuousLinearMap.mulLeftRight_apply]
    change -(R m₀ * 1 * R m₀) = _
    rw [Matrix.mul_one]
  have := (LinearMap.toContinuousLinearMap (Matrix.entryLinearMap ℝ ℂ p q)).hasFDerivAt.comp_hasDerivAt m₀ hd
  exact this

variable {S : Type} {N : ℕ} [Fintype S] [DecidableEq S]

/-- The part of the operator in front of the hopping parameter. -/
def kappaPart (T : Torus S) (U : GField S N) (csw : ℝ) : Matrix (S × Fin 4 × Fin N) (S × Fin 4 × Fin N) ℂ :=
  Matrix.of fun p q => improvedSpec T U 1 csw (unitField q.1 q.2) p.1 p.2.1 p.2.2 - unitField q.1 q.2 p.1 p.2.1 p.2.2

theorem improved_split (T : Torus S) (U : GField S N) (κ csw : ℝ) (v : SField S N) :
    improvedSpec T U κ csw v = v + (κ : ℂ) • (improvedSpec T U 1 csw v - v) := by
  simp only [improvedSpec_eq]
  push_cast
  module

theorem field_sum (v : SField S N) : v = ∑ q : S × Fin 4 × Fin N, v q.1 q.2.1 q.2.2 • unitField q.1 q.2 := by
  funext x
  ext mu i
  simp only [Finset.sum_apply, Matrix.sum_apply, Pi.smul_apply, Matrix.smul_apply, unitField, Matrix.of_apply, smul_eq_mul]
  rw [Finset.sum_eq_single (x, mu, i)]
  · simp
  · rintro ⟨y, q⟩ _ hq
    rw [if_neg, mul_zero]
    rintro ⟨rfl, rfl⟩
    exact hq rfl
  · simp

theorem kappaPart_apply (T : Torus S) (U : GField S N) (csw : ℝ) (v : SField S N) (x : S) (mu : Fin 4) (i : Fin N) :
    improvedSpec T U 1 csw v x mu i - v x mu i = ∑ q : S × Fin 4 × Fin N, kappaPart T U csw (x, mu, i) q * v q.1 q.2.1 q.2.2 := by
  let L : SField S N →ₗ[ℂ] SField S N := improvedLin T U 1 csw - LinearMap.id
  have hL : ∀ w : SField S N, L w x mu i = improvedSpec T U 1 csw w x mu i - w x mu i := fun w => rfl
  rw [← hL]
  conv_lhs => rw [field_sum v, map_sum]
  simp only [map_smul, Finset.sum_apply, Matrix.sum_apply, Pi.smul_apply, Matrix.smul_apply, smul_eq_mul, hL, kappaPart, Matrix.of_apply]
  exact Finset.sum_congr rfl fun q _ => mul_comm _ _

theorem green_resolvent {T : Torus S} {U : GField S N} {κ csw : ℝ} {G : S → S → Matrix (Fin 4 × Fin N) (Fin 4 × Fin N) ℂ}
    (hG : IsGreen (improvedSpec T U κ csw) G) : (1 + (κ : ℂ) • kappaPart T U csw) * greenMatrix G = 1 := by
  ext ⟨x, mu, i⟩ ⟨y, j⟩
  have h := congrFun (congrFun (congrFun (hG y j) x) mu) i
  rw [improved_split] at h
  simp only [Pi.add_apply, Pi.smul_apply, Pi.sub_apply, Matrix.add_apply, Matrix.smul_apply, Matrix.sub_apply, smul_eq_mul] at h
  rw [kappaPart_apply] at h
  rw [Matrix.add_mul, Matrix.one_mul, Matrix.smul_mul, Matrix.add_apply, Matrix.smul_apply, Matrix.mul_apply, smul_eq_mul, one_apply]
  refine Eq.trans h ?_
  simp only [unitField, Matrix.of_apply, Prod.mk.injEq]

/-- The Green function times `2κ`, as a function of `1/(2κ)`, has minus its square as derivative. -/
theorem hasDerivAt_green {T : Torus S} {U : GField S N} {csw : ℝ} {G : ℝ → S → S → Matrix (Fin 4 × Fin N) (Fin 4 × Fin N) ℂ} {m₀ : ℝ} (hm : m₀ ≠ 0)
    (hG : ∀ᶠ m in 𝓝 m₀, IsGreen (improvedSpec T U (1 / (2 * m)) csw) (G m)) (p q : S × Fin 4 × Fin N) :
    HasDerivAt (fun m : ℝ => (1 / m : ℂ) * greenMatrix (G m) p q) (-((1 / m₀ : ℂ) ^ 2 * (greenMatrix (G m₀) * greenMatrix (G m₀)) p q)) m₀ := by
  have h : ∀ᶠ m : ℝ in 𝓝 m₀, ((m : ℂ) • (1 : Matrix (S × Fin 4 × Fin N) (S × Fin 4 × Fin N) ℂ) + (1 / 2 : ℂ) • kappaPart T U csw)
      * ((1 / m : ℂ) • greenMatrix (G m)) = 1 := by
    filter_upwards [hG, isOpen_ne.mem_nhds hm] with m hGm hm'
    have hm'' : (m : ℂ) ≠ 0 := by exact_mod_cast hm'
    have := green_resolvent hGm
    refine Eq.trans ?_ this
    rw [Matrix.mul_smul, ← Matrix.smul_mul]
    congr 1
    rw [smul_add, smul_smul, smul_smul]
    congr 1
    · rw [one_div, inv_mul_cancel₀ hm'', one_smul]
    · congr 1
      push_cast
      field_simp
  have h2 := hasDerivAt_resolvent ((1 / 2 : ℂ) • kappaPart T U csw) h p q
  refine h2.congr_deriv ?_
  rw [Matrix.smul_mul, Matrix.mul_smul, smul_smul, Matrix.smul_apply, smul_eq_mul, pow_two]

end

end Leonard
