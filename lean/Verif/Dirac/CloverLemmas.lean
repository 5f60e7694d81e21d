/-
Lemmas about the clover term.
-/
import Verif.Dirac.Lemmas
import Mathlib.Tactic.Abel

set_option autoImplicit false

namespace Leonard

open Matrix

variable {S : Type} {N : ℕ}

/-! ### The clover term -/

theorem leafSum_eq (T : Torus S) (U : GField S N) (μ ν : Fin 4) (x : S) :
    leafSum T U μ ν x = cloverQ T U μ ν x := by
  have e1 : T.sup μ (T.sdn ν (T.sdn μ x)) = T.sdn ν x := by rw [T.sdn_comm, T.sup_sdn]
  have e2 : T.sdn ν (T.sup μ x) = T.sup μ (T.sdn ν x) := (T.sup_sdn_comm μ ν x).symm
  have e3 : T.sdn μ (T.sup ν x) = T.sup ν (T.sdn μ x) := (T.sup_sdn_comm ν μ x).symm
  have e4 : T.sdn μ (T.sup ν (T.sup μ x)) = T.sup ν x := by rw [T.comm, T.sdn_sup]
  have e5 : T.sdn ν (T.sup ν x) = x := T.sdn_sup ν x
  have e6 : T.sdn μ (T.sup ν (T.sup μ (T.sdn ν x))) = x := by
    rw [T.comm, T.sup_sdn, T.sdn_sup]
  simp only [leafSum, cloverQ, holo, hopMat, Torus.hop, mul_one]
  change _ = U x μ * (U (T.sup μ x) ν * ((U (T.sdn μ (T.sup ν (T.sup μ x))) μ)ᴴ *
      (U (T.sdn ν (T.sdn μ (T.sup ν (T.sup μ x)))) ν)ᴴ))
    + U x ν * ((U (T.sdn μ (T.sup ν x)) μ)ᴴ * ((U (T.sdn ν (T.sdn μ (T.sup ν x))) ν)ᴴ *
      U (T.sdn ν (T.sdn μ (T.sup ν x))) μ))
    + (U (T.sdn μ x) μ)ᴴ * ((U (T.sdn ν (T.sdn μ x)) ν)ᴴ * (U (T.sdn ν (T.sdn μ x)) μ *
      U (T.sup μ (T.sdn ν (T.sdn μ x))) ν))
    + (U (T.sdn ν x) ν)ᴴ * (U (T.sdn ν x) μ * (U (T.sup μ (T.sdn ν x)) ν *
      (U (T.sdn μ (T.sup ν (T.sup μ (T.sdn ν x)))) μ)ᴴ))
  rw [e1, e4, e6, e5, e3, T.sdn_sup]
  simp only [Matrix.mul_assoc]
  abel

theorem fieldStrength_eq (T : Torus S) (U : GField S N) (k : Fin 6) (x : S) :
    fieldStrength T U x k = cloverF T U (planeOf k).1 (planeOf k).2 x := by
  simp only [fieldStrength, cloverF, leafSum_eq]

theorem mulI_eq (z : ℂ) : mulI z = Complex.I * z := by
  apply Complex.ext <;> simp [mulI]

theorem tabSigma_eq01 : tabSigma 0 1 = !![-1, 0, 0, 0; 0, 1, 0, 0; 0, 0, -1, 0; 0, 0, 0, 1] := by
  ext a b; fin_cases a <;> fin_cases b <;> simp [tabSigma, toSpin, tabSigmaT]
theorem tabSigma_eq02 : tabSigma 0 2 = !![0, -Complex.I, 0, 0; Complex.I, 0, 0, 0; 0, 0, 0, -Complex.I; 0, 0, Complex.I, 0] := by
  ext a b; fin_cases a <;> fin_cases b <;> simp [tabSigma, toSpin, tabSigmaT, toComplex_gI]
theorem tabSigma_eq03 : tabSigma 0 3 = !![0, 1, 0, 0; 1, 0, 0, 0; 0, 0, 0, -1; 0, 0, -1, 0] := by
  ext a b; fin_cases a <;> fin_cases b <;> simp [tabSigma, toSpin, tabSigmaT]
theorem tabSigma_eq12 : tabSigma 1 2 = !![0, -1, 0, 0; -1, 0, 0, 0; 0, 0, 0, -1; 0, 0, -1, 0] := by
  ext a b; fin_cases a <;> fin_cases b <;> simp [tabSigma, toSpin, tabSigmaT]
theorem tabSigma_eq13 : tabSigma 1 3 = !![0, -Complex.I, 0, 0; Complex.I, 0, 0, 0; 0, 0, 0, Complex.I; 0, 0, -Complex.I, 0] := by
  ext a b; fin_cases a <;> fin_cases b <;> simp [tabSigma, toSpin, tabSigmaT, toComplex_gI]
theorem tabSigma_eq23 : tabSigma 2 3 = !![1, 0, 0, 0; 0, -1, 0, 0; 0, 0, -1, 0; 0, 0, 0, 1] := by
  ext a b; fin_cases a <;> fin_cases b <;> simp [tabSigma, toSpin, tabSigmaT]

/-- The clover term computed by the program is `γ₅ Σ i σ F`. -/
theorem cloverTerm_eq (F : Fin 4 → Fin 4 → Mat N) (v : Matrix (Fin 4) (Fin N) ℂ) (c : Fin 4) (i : Fin N) :
    cloverTerm (fun k => F (planeOf k).1 (planeOf k).2) v c i =
    (tabGamma5 * ∑ μ, ∑ ν, if μ < ν then Complex.I • (tabSigma μ ν * (v * (F μ ν)ᵀ)) else 0) c i := by
  rw [gamma5_apply]
  have hs : (∑ μ : Fin 4, ∑ ν : Fin 4, if μ < ν then Complex.I • (tabSigma μ ν * (v * (F μ ν)ᵀ)) else 0) =
      Complex.I • (tabSigma 0 1 * (v * (F 0 1)ᵀ)) + Complex.I • (tabSigma 0 2 * (v * (F 0 2)ᵀ))
      + Complex.I • (tabSigma 0 3 * (v * (F 0 3)ᵀ)) + Complex.I • (tabSigma 1 2 * (v * (F 1 2)ᵀ))
      + Complex.I • (tabSigma 1 3 * (v * (F 1 3)ᵀ)) + Complex.I • (tabSigma 2 3 * (v * (F 2 3)ᵀ)) := by
    simp only [Fin.sum_univ_four, Fin.reduceLT, if_true, if_false]
    simp; abel
  rw [hs]
  generalize hA : F 0 1 = A; generalize hB : F 0 2 = B; generalize hC : F 0 3 = C
  generalize hD : F 1 2 = D; generalize hE : F 1 3 = E; generalize hG : F 2 3 = G
  have hc : (fun k => F (planeOf k).1 (planeOf k).2) = ![A, B, C, D, E, G] := by
    funext k
    fin_cases k <;> simp [planeOf, hA, hB, hC, hD, hE, hG]
  rw [hc]
  have hx : ∀ (P : SpinMat) (M : Mat N) (s : Fin 4), (Complex.I • (P * (v * Mᵀ))) s i =
      Complex.I * (P s 0 * (M i ⬝ᵥ v 0) + P s 1 * (M i ⬝ᵥ v 1) + P s 2 * (M i ⬝ᵥ v 2) + P s 3 * (M i ⬝ᵥ v 3)) :=
    fun P M s => by
      have hv : ∀ (s : Fin 4), (v * Mᵀ) s i = M i ⬝ᵥ v s := fun s => by
        rw [Matrix.mul_apply]; exact Finset.sum_congr rfl fun _ _ => mul_comm _ _
      rw [Matrix.smul_apply, smul_eq_mul, Matrix.mul_apply, Fin.sum_univ_four, hv, hv, hv, hv]
  have hd : ∀ (a w : Fin N → ℂ), (∑ j, mulI (a j * w j)) = Complex.I * (a ⬝ᵥ w) := fun a w => by
    simp only [mulI_eq, ← Finset.mul_sum]; rfl
  have hm : ∀ (a b w : Fin N → ℂ), (∑ j, (a j + mulI (b j)) * w j) = a ⬝ᵥ w + Complex.I * (b ⬝ᵥ w) := fun a b w => by
    simp only [mulI_eq, add_mul, mul_assoc, Finset.sum_add_distrib, ← Finset.mul_sum]; rfl
  have key : cloverTerm ![A, B, C, D, E, G] v c i =
      ![Complex.I * ((-A i + G i) ⬝ᵥ v 0) + ((B i + E i) ⬝ᵥ v 1 + Complex.I * ((C i - D i) ⬝ᵥ v 1)),
        Complex.I * ((A i - G i) ⬝ᵥ v 1) + ((-B i - E i) ⬝ᵥ v 0 + Complex.I * ((C i - D i) ⬝ᵥ v 0)),
        Complex.I * ((A i + G i) ⬝ᵥ v 2) + ((-B i + E i) ⬝ᵥ v 3 + Complex.I * ((C i + D i) ⬝ᵥ v 3)),
        Complex.I * ((-A i - G i) ⬝ᵥ v 3) + ((B i - E i) ⬝ᵥ v 2 + Complex.I * ((C i + D i) ⬝ᵥ v 2))] c := by
    rw [← hm, ← hm, ← hm, ← hm, ← hd, ← hd, ← hd, ← hd]
    rfl
  rw [key]
  simp only [Matrix.add_apply, hx, tabSigma_eq01, tabSigma_eq02, tabSigma_eq03, tabSigma_eq12, tabSigma_eq13,
    tabSigma_eq23, add_dotProduct, sub_dotProduct, neg_dotProduct]
  generalize A i ⬝ᵥ v 0 = a0; generalize A i ⬝ᵥ v 1 = a1; generalize A i ⬝ᵥ v 2 = a2; generalize A i ⬝ᵥ v 3 = a3
  generalize B i ⬝ᵥ v 0 = b0; generalize B i ⬝ᵥ v 1 = b1; generalize B i ⬝ᵥ v 2 = b2; generalize B i ⬝ᵥ v 3 = b3
  generalize C i ⬝ᵥ v 0 = c0; generalize C i ⬝ᵥ v 1 = c1; generalize C i ⬝ᵥ v 2 = c2; generalize C i ⬝ᵥ v 3 = c3
  generalize D i ⬝ᵥ v 0 = d0; generalize D i ⬝ᵥ v 1 = d1; generalize D i ⬝ᵥ v 2 = d2; generalize D i ⬝ᵥ v 3 = d3
  generalize E i ⬝ᵥ v 0 = e0; generalize E i ⬝ᵥ v 1 = e1; generalize E i ⬝ᵥ v 2 = e2; generalize E i ⬝ᵥ v 3 = e3
  generalize G i ⬝ᵥ v 0 = g0; generalize G i ⬝ᵥ v 1 = g1; generalize G i ⬝ᵥ v 2 = g2; generalize G i ⬝ᵥ v 3 = g3
  fin_cases c <;> simp <;> ring_nf <;> simp only [Complex.I_sq] <;> ring

end Leonard
