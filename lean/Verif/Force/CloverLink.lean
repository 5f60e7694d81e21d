import Verif.Force.Clover

/-!
# The change of the clover term with one link
-/

set_option autoImplicit false

namespace Leonard

open Matrix
open scoped ContDiff Topology Matrix.Norms.Operator

variable {S : Type} [Fintype S] {N M : ℕ}

theorem symm_sup (T : Torus S) (ρ : Fin 4) (y : S) : (T.sup ρ).symm y = T.sdn ρ y := rfl

theorem sum_pick_up (k : S → Mat M →ₗ[ℂ] ℂ) (s : S) (μ : Fin 4) (W : Mat M) (g : S → S) (A B : S → Mat M) (x0 : S)
    (hg : ∀ x, g x = s ↔ x = x0) :
    (∑ x, k x (A x * (oneLink s μ W (g x) μ * B x))) = k x0 (A x0 * (W * B x0)) := by
  rw [Finset.sum_eq_single x0]
  · rw [(hg x0).2 rfl, oneLink_same]
  · intro x _ h
    rw [oneLink_ne _ fun e => h ((hg x).1 e.1)]
    simp
  · simp

theorem sum_pick_dn (k : S → Mat M →ₗ[ℂ] ℂ) (s : S) (μ : Fin 4) (W : Mat M) (g : S → S) (A B : S → Mat M) (x0 : S)
    (hg : ∀ x, g x = s ↔ x = x0) :
    (∑ x, k x (A x * ((oneLink s μ W (g x) μ)ᴴ * B x))) = k x0 (A x0 * (Wᴴ * B x0)) := by
  rw [Finset.sum_eq_single x0]
  · rw [(hg x0).2 rfl, oneLink_same]
  · intro x _ h
    rw [oneLink_ne _ fun e => h ((hg x).1 e.1)]
    simp
  · simp

section
variable (T : Torus S) (L : GField S M) (k : S → Mat M →ₗ[ℂ] ℂ) (s : S) {μ ν : Fin 4} (h : ν ≠ μ) (W : Mat M)
include h

theorem leaf_one : (∑ x, k x (dholo T L (oneLink s μ W) x [(μ, true), (ν, true), (μ, false), (ν, false)])) =
    k s (W * (L (T.sup μ s) ν * ((L (T.sup ν s) μ)ᴴ * (L s ν)ᴴ)))
    + k (T.sdn ν s) (L (T.sdn ν s) μ * (L (T.sdn ν (T.sup μ s)) ν * (Wᴴ * (L (T.sdn ν s) ν)ᴴ))) := by
  have hν : ∀ y, oneLink s μ W y ν = 0 := fun y => oneLink_ne _ fun e => h e.2
  have e1 : ∀ x, T.sdn μ (T.sup ν (T.sup μ x)) = T.sup ν x := fun x => by rw [T.comm, T.sdn_sup]
  have hd : ∀ x, dholo T L (oneLink s μ W) x [(μ, true), (ν, true), (μ, false), (ν, false)] =
      1 * (oneLink s μ W x μ * (L (T.sup μ x) ν * ((L (T.sup ν x) μ)ᴴ * (L x ν)ᴴ)))
      + (L x μ * L (T.sup μ x) ν) * ((oneLink s μ W (T.sup ν x) μ)ᴴ * (L x ν)ᴴ) := by
    intro x
    simp only [dholo, holo, hopMat, Torus.hop, symm_sup, hν, e1, T.sdn_sup, conjTranspose_zero, zero_mul, mul_zero, add_zero, zero_add, mul_one,
      one_mul, Matrix.mul_add, Matrix.mul_assoc]
  simp only [hd, map_add, Finset.sum_add_distrib]
  rw [sum_pick_up k s μ W (fun x => x) (fun _ => 1) _ s fun x => Iff.rfl,
    sum_pick_dn k s μ W (fun x => T.sup ν x) (fun x => L x μ * L (T.sup μ x) ν) (fun x => (L x ν)ᴴ) (T.sdn ν s) fun x => T.sup_eq_iff ν x s]
  simp only [one_mul, Matrix.mul_assoc, T.sup_sdn_comm]

theorem leaf_two : (∑ x, k x (dholo T L (oneLink s μ W) x [(ν, true), (μ, false), (ν, false), (μ, true)])) =
    k (T.sdn ν (T.sup μ s)) (L (T.sdn ν (T.sup μ s)) ν * (Wᴴ * ((L (T.sdn ν s) ν)ᴴ * L (T.sdn ν s) μ)))
    + k (T.sup μ s) (L (T.sup μ s) ν * ((L (T.sup ν s) μ)ᴴ * ((L s ν)ᴴ * W))) := by
  have hν : ∀ y, oneLink s μ W y ν = 0 := fun y => oneLink_ne _ fun e => h e.2
  have e1 : ∀ x, T.sdn ν (T.sdn μ (T.sup ν x)) = T.sdn μ x := fun x => by rw [T.sdn_comm, T.sdn_sup]
  have hd : ∀ x, dholo T L (oneLink s μ W) x [(ν, true), (μ, false), (ν, false), (μ, true)] =
      L x ν * ((oneLink s μ W (T.sdn μ (T.sup ν x)) μ)ᴴ * ((L (T.sdn μ x) ν)ᴴ * L (T.sdn μ x) μ))
      + (L x ν * ((L (T.sdn μ (T.sup ν x)) μ)ᴴ * (L (T.sdn μ x) ν)ᴴ)) * (oneLink s μ W (T.sdn μ x) μ * 1) := by
    intro x
    simp only [dholo, holo, hopMat, Torus.hop, symm_sup, hν, e1, conjTranspose_zero, zero_mul, mul_zero, add_zero, zero_add, mul_one,
      one_mul, Matrix.mul_add, Matrix.mul_assoc]
  simp only [hd, map_add, Finset.sum_add_distrib]
  rw [sum_pick_dn k s μ W (fun x => T.sdn μ (T.sup ν x)) (fun x => L x ν) (fun x => (L (T.sdn μ x) ν)ᴴ * L (T.sdn μ x) μ)
      (T.sdn ν (T.sup μ s)) fun x => by rw [T.sdn_eq_iff, T.sup_eq_iff],
    sum_pick_up k s μ W (fun x => T.sdn μ x) (fun x => L x ν * ((L (T.sdn μ (T.sup ν x)) μ)ᴴ * (L (T.sdn μ x) ν)ᴴ)) (fun _ => 1)
      (T.sup μ s) fun x => T.sdn_eq_iff μ x s]
  have e2 : T.sdn μ (T.sdn ν (T.sup μ s)) = T.sdn ν s := by rw [T.sdn_comm, T.sdn_sup]
  have e3 : T.sdn μ (T.sup ν (T.sup μ s)) = T.sup ν s := by rw [T.comm, T.sdn_sup]
  simp only [mul_one, Matrix.mul_assoc, e2, e3, T.sdn_sup]

theorem leaf_three : (∑ x, k x (dholo T L (oneLink s μ W) x [(μ, false), (ν, false), (μ, true), (ν, true)])) =
    k (T.sup μ s) (Wᴴ * ((L (T.sdn ν s) ν)ᴴ * (L (T.sdn ν s) μ * L (T.sdn ν (T.sup μ s)) ν)))
    + k (T.sup ν (T.sup μ s)) ((L (T.sup ν s) μ)ᴴ * ((L s ν)ᴴ * (W * L (T.sup μ s) ν))) := by
  have hν : ∀ y, oneLink s μ W y ν = 0 := fun y => oneLink_ne _ fun e => h e.2
  have e1 : ∀ x, T.sup μ (T.sdn ν (T.sdn μ x)) = T.sdn ν x := fun x => by rw [T.sdn_comm, T.sup_sdn]
  have hd : ∀ x, dholo T L (oneLink s μ W) x [(μ, false), (ν, false), (μ, true), (ν, true)] =
      1 * ((oneLink s μ W (T.sdn μ x) μ)ᴴ * ((L (T.sdn ν (T.sdn μ x)) ν)ᴴ * (L (T.sdn ν (T.sdn μ x)) μ * L (T.sdn ν x) ν)))
      + ((L (T.sdn μ x) μ)ᴴ * (L (T.sdn ν (T.sdn μ x)) ν)ᴴ) * (oneLink s μ W (T.sdn ν (T.sdn μ x)) μ * L (T.sdn ν x) ν) := by
    intro x
    simp only [dholo, holo, hopMat, Torus.hop, symm_sup, hν, e1, conjTranspose_zero, zero_mul, mul_zero, add_zero, zero_add, mul_one,
      one_mul, Matrix.mul_add, Matrix.mul_assoc]
  simp only [hd, map_add, Finset.sum_add_distrib]
  rw [sum_pick_dn k s μ W (fun x => T.sdn μ x) (fun _ => 1)
      (fun x => (L (T.sdn ν (T.sdn μ x)) ν)ᴴ * (L (T.sdn ν (T.sdn μ x)) μ * L (T.sdn ν x) ν)) (T.sup μ s) fun x => T.sdn_eq_iff μ x s,
    sum_pick_up k s μ W (fun x => T.sdn ν (T.sdn μ x)) (fun x => (L (T.sdn μ x) μ)ᴴ * (L (T.sdn ν (T.sdn μ x)) ν)ᴴ)
      (fun x => L (T.sdn ν x) ν) (T.sup ν (T.sup μ s)) fun x => by rw [T.sdn_eq_iff, T.sdn_eq_iff, T.comm]]
  have e3 : T.sdn μ (T.sup ν (T.sup μ s)) = T.sup ν s := by rw [T.comm, T.sdn_sup]
  simp only [one_mul, Matrix.mul_assoc, e3, T.sdn_sup]

theorem leaf_four : (∑ x, k x (dholo T L (oneLink s μ W) x [(ν, false), (μ, true), (ν, true), (μ, false)])) =
    k (T.sup ν s) ((L s ν)ᴴ * (W * (L (T.sup μ s) ν * (L (T.sup ν s) μ)ᴴ)))
    + k s ((L (T.sdn ν s) ν)ᴴ * (L (T.sdn ν s) μ * (L (T.sdn ν (T.sup μ s)) ν * Wᴴ))) := by
  have hν : ∀ y, oneLink s μ W y ν = 0 := fun y => oneLink_ne _ fun e => h e.2
  have e1 : ∀ x, T.sdn μ (T.sup ν (T.sup μ (T.sdn ν x))) = x := fun x => by rw [T.comm, T.sdn_sup, T.sup_sdn]
  have hd : ∀ x, dholo T L (oneLink s μ W) x [(ν, false), (μ, true), (ν, true), (μ, false)] =
      (L (T.sdn ν x) ν)ᴴ * (oneLink s μ W (T.sdn ν x) μ * (L (T.sup μ (T.sdn ν x)) ν * (L x μ)ᴴ))
      + ((L (T.sdn ν x) ν)ᴴ * (L (T.sdn ν x) μ * L (T.sup μ (T.sdn ν x)) ν)) * ((oneLink s μ W x μ)ᴴ * 1) := by
    intro x
    simp only [dholo, holo, hopMat, Torus.hop, symm_sup, hν, e1, conjTranspose_zero, zero_mul, mul_zero, add_zero, zero_add, mul_one,
      one_mul, Matrix.mul_add, Matrix.mul_assoc]
  simp only [hd, map_add, Finset.sum_add_distrib]
  rw [sum_pick_up k s μ W (fun x => T.sdn ν x) (fun x => (L (T.sdn ν x) ν)ᴴ) (fun x => L (T.sup μ (T.sdn ν x)) ν * (L x μ)ᴴ) (T.sup ν s)
      fun x => T.sdn_eq_iff ν x s,
    sum_pick_dn k s μ W (fun x => x) (fun x => (L (T.sdn ν x) ν)ᴴ * (L (T.sdn ν x) μ * L (T.sup μ (T.sdn ν x)) ν)) (fun _ => 1) s
      fun x => Iff.rfl]
  simp only [mul_one, Matrix.mul_assoc, T.sdn_sup, T.sup_sdn_comm]

end

/-- Planes that do not contain the direction of the link do not change. -/
theorem dholo_other (T : Torus S) (L : GField S M) (s : S) (μ : Fin 4) (W : Mat M) (p : List Hop) (hp : ∀ h ∈ p, h.1 ≠ μ) (x : S) :
    dholo T L (oneLink s μ W) x p = 0 := by
  induction p generalizing x with
  | nil => rfl
  | cons h p ih =>
    have h1 : hopMat T (oneLink s μ W) x h = 0 := by
      obtain ⟨ρ, b⟩ := h
      have hρ : ρ ≠ μ := hp (ρ, b) (by simp)
      cases b
      · change (oneLink s μ W (T.sdn ρ x) ρ)ᴴ = 0
        rw [oneLink_ne _ fun e => hρ e.2, conjTranspose_zero]
      · exact oneLink_ne _ fun e => hρ e.2
    rw [dholo, h1, ih fun h' hm => hp h' (by simp [hm])]
    simp

theorem dcloverQ_other (T : Torus S) (L : GField S M) (s : S) (μ : Fin 4) (W : Mat M) {ρ σ : Fin 4} (h1 : ρ ≠ μ) (h2 : σ ≠ μ) (x : S) :
    dcloverQ T L (oneLink s μ W) ρ σ x = 0 := by
  unfold dcloverQ
  rw [dholo_other, dholo_other, dholo_other, dholo_other]
  · simp
  all_goals simp [h1, h2]

/-- Exchanging the directions of a plane reverses the clover. -/
theorem cloverQ_swap (T : Torus S) (L : GField S M) (μ ν : Fin 4) (x : S) : cloverQ T L ν μ x = (cloverQ T L μ ν x)ᴴ := by
  have e1 : T.sdn μ (T.sup ν (T.sup μ x)) = T.sup ν x := by rw [T.comm, T.sdn_sup]
  have e1' : T.sdn ν (T.sup μ (T.sup ν x)) = T.sup μ x := by rw [T.comm, T.sdn_sup]
  have e2 : T.sdn ν (T.sdn μ (T.sup ν x)) = T.sdn μ x := by rw [T.sdn_comm, T.sdn_sup]
  have e2' : T.sdn μ (T.sdn ν (T.sup μ x)) = T.sdn ν x := by rw [T.sdn_comm, T.sdn_sup]
  have e3 : T.sup μ (T.sdn ν (T.sdn μ x)) = T.sdn ν x := by rw [T.sdn_comm, T.sup_sdn]
  have e3' : T.sup ν (T.sdn μ (T.sdn ν x)) = T.sdn μ x := by rw [T.sdn_comm, T.sup_sdn]
  have e4 : T.sdn μ (T.sup ν (T.sup μ (T.sdn ν x))) = x := by rw [T.comm, T.sdn_sup, T.sup_sdn]
  have e4' : T.sdn ν (T.sup μ (T.sup ν (T.sdn μ x))) = x := by rw [T.comm, T.sdn_sup, T.sup_sdn]
  simp only [cloverQ, holo_up, holo_down, holo_nil, e1, e1', e2, e2', e3, e3', e4, e4', T.sdn_sup, T.sup_sdn_comm, T.sdn_comm μ ν,
    conjTranspose_add, conjTranspose_mul, conjTranspose_conjTranspose, mul_one, Matrix.mul_assoc]
  abel

theorem dcloverQ_swap (T : Torus S) (L V : GField S M) (μ ν : Fin 4) (x : S) : dcloverQ T L V ν μ x = (dcloverQ T L V μ ν x)ᴴ := by
  have hq : ∀ μ ν, HasDerivAt (fun t : ℝ => cloverQ T (L + t • V) μ ν x) (dcloverQ T L V μ ν x) 0 := fun μ ν =>
    (((hasDerivAt_holo_line T L V _ x).add (hasDerivAt_holo_line T L V _ x)).add (hasDerivAt_holo_line T L V _ x)).add
      (hasDerivAt_holo_line T L V _ x)
  have h1 := ctL.hasFDerivAt.comp_hasDerivAt (0 : ℝ) (hq μ ν)
  have e : (fun t : ℝ => cloverQ T (L + t • V) ν μ x) = ctL ∘ fun t : ℝ => cloverQ T (L + t • V) μ ν x := by
    funext t
    exact cloverQ_swap T _ μ ν x
  have h2 := hq ν μ
  rw [e] at h2
  exact h2.unique h1

/-! ### Spinors -/

/-- The complex-linear form `A ↦ tr(X† g Y Aᵀ)` at one site. -/
noncomputable def spinForm (g : SpinMat) (X Y : Matrix (Fin 4) (Fin M) ℂ) : Mat M →ₗ[ℂ] ℂ where
  toFun A := trace (Xᴴ * (g * (Y * Aᵀ)))
  map_add' A B := by simp only [transpose_add, Matrix.mul_add, trace_add]
  map_smul' c A := by simp only [transpose_smul, Matrix.mul_smul, trace_smul, RingHom.id_apply]

theorem spinForm_conj {g : SpinMat} (hg : gᴴ = g) (X Y : Matrix (Fin 4) (Fin M) ℂ) (A : Mat M) :
    spinForm g X Y Aᴴ = starRingEnd ℂ (spinForm g Y X A) := by
  change trace (Xᴴ * (g * (Y * (Aᴴ)ᵀ))) = starRingEnd ℂ (trace (Yᴴ * (g * (X * Aᵀ))))
  rw [conj_trace]
  simp only [conjTranspose_mul, conjTranspose_conjTranspose, hg]
  rw [show (Aᵀ)ᴴ = (Aᴴ)ᵀ from by ext i j; simp [conjTranspose_apply, transpose_apply]]
  simp only [Matrix.mul_assoc]
  rw [trace_mul_comm (Aᴴ)ᵀ]
  simp only [Matrix.mul_assoc]

theorem g5sigma_hermitian (μ ν : Fin 4) : (tabGamma5Sigma μ ν)ᴴ = tabGamma5Sigma μ ν := by
  rw [(C32_derived μ ν).2.2.2.2, conjTranspose_mul, tabSigma_hermitian, C32_gamma5.2.1, tabSigma_gamma5]

theorem g5sigma_swap (μ ν : Fin 4) : tabGamma5Sigma ν μ = -tabGamma5Sigma μ ν := by
  have h : ∀ a b : Fin 4, tabGamma5SigmaT b a = -tabGamma5SigmaT a b := by decide +kernel
  rw [tabGamma5Sigma, tabGamma5Sigma, h, toSpin_neg]

/-- Both orders of the fields. -/
noncomputable def pairForm (X Y : SField S M) (μ ν : Fin 4) (x : S) : Mat M →ₗ[ℂ] ℂ :=
  spinForm (tabGamma5Sigma μ ν) (X x) (Y x) + spinForm (tabGamma5Sigma μ ν) (Y x) (X x)

theorem pairForm_conj (X Y : SField S M) (μ ν : Fin 4) (x : S) (A : Mat M) :
    pairForm X Y μ ν x Aᴴ = starRingEnd ℂ (pairForm X Y μ ν x A) := by
  change spinForm _ _ _ _ + spinForm _ _ _ _ = starRingEnd ℂ (spinForm _ _ _ _ + spinForm _ _ _ _)
  rw [spinForm_conj (g5sigma_hermitian μ ν), spinForm_conj (g5sigma_hermitian μ ν), map_add, add_comm]

theorem spinForm_neg (g : SpinMat) (X Y : Matrix (Fin 4) (Fin M) ℂ) (A : Mat M) : spinForm (-g) X Y A = -spinForm g X Y A := by
  change trace (Xᴴ * (-g * (Y * Aᵀ))) = -trace (Xᴴ * (g * (Y * Aᵀ)))
  rw [Matrix.neg_mul, Matrix.mul_neg, trace_neg]

theorem pairForm_swap (X Y : SField S M) (μ ν : Fin 4) (x : S) (A : Mat M) : pairForm X Y ν μ x A = -pairForm X Y μ ν x A := by
  change spinForm _ _ _ _ + spinForm _ _ _ _ = -(spinForm _ _ _ _ + spinForm _ _ _ _)
  rw [g5sigma_swap μ ν, spinForm_neg, spinForm_neg, neg_add]

/-- The contribution of one plane to the change of the clover term. -/
noncomputable def planeChange (T : Torus S) (L V : GField S M) (X Y : SField S M) (μ ν : Fin 4) : ℝ :=
  (Complex.I * ∑ x, pairForm X Y μ ν x (dcloverQ T L V μ ν x)).re

theorem planeChange_swap (T : Torus S) (L V : GField S M) (X Y : SField S M) (μ ν : Fin 4) :
    planeChange T L V X Y ν μ = planeChange T L V X Y μ ν := by
  unfold planeChange
  simp only [dcloverQ_swap T L V μ ν, pairForm_swap X Y μ ν, pairForm_conj X Y μ ν, Finset.sum_neg_distrib, ← map_sum]
  generalize (∑ x, pairForm X Y μ ν x (dcloverQ T L V μ ν x)) = z
  simp

theorem rdot_cloverOf (T : Torus S) (κ csw : ℝ) (L V : GField S M) (X Y : SField S M) :
    rdot X (cloverOf κ csw (fun x μ ν => dcloverF T L V μ ν x) Y) =
      κ * csw / 8 * ∑ μ, ∑ ν, if μ < ν then planeChange T L V X Y μ ν else 0 := by
  unfold rdot
  rw [latticeDot_trace]
  have h1 : ∀ x, trace ((X x)ᴴ * cloverOf κ csw (fun x μ ν => dcloverF T L V μ ν x) Y x) =
      ∑ μ, ∑ ν, if μ < ν then ((κ * csw : ℝ) : ℂ) * (Complex.I * spinForm (tabGamma5Sigma μ ν) (X x) (Y x) (dcloverF T L V μ ν x)) else 0 := by
    intro x
    simp only [cloverOf, Matrix.mul_sum, trace_sum]
    refine Finset.sum_congr rfl fun μ _ => Finset.sum_congr rfl fun ν _ => ?_
    split
    · rw [Matrix.mul_smul, Matrix.mul_smul, trace_smul, trace_smul, Complex.real_smul]
      rfl
    · simp
  simp only [h1]
  rw [Finset.sum_comm, Complex.re_sum, Finset.mul_sum]
  refine Finset.sum_congr rfl fun μ _ => ?_
  rw [Finset.sum_comm, Complex.re_sum, Finset.mul_sum]
  refine Finset.sum_congr rfl fun ν _ => ?_
  split
  · unfold planeChange
    rw [Finset.mul_sum, Complex.re_sum, Complex.re_sum, Finset.mul_sum]
    refine Finset.sum_congr rfl fun x _ => ?_
    have h2 : spinForm (tabGamma5Sigma μ ν) (X x) (Y x) (dcloverF T L V μ ν x) =
        (1 / 8 : ℂ) * (spinForm (tabGamma5Sigma μ ν) (X x) (Y x) (dcloverQ T L V μ ν x)
          - starRingEnd ℂ (spinForm (tabGamma5Sigma μ ν) (Y x) (X x) (dcloverQ T L V μ ν x))) := by
      rw [dcloverF, map_smul, map_sub, spinForm_conj (g5sigma_hermitian μ ν), smul_eq_mul]
    rw [h2]
    change _ = _ * (Complex.I * (spinForm (tabGamma5Sigma μ ν) (X x) (Y x) (dcloverQ T L V μ ν x)
      + spinForm (tabGamma5Sigma μ ν) (Y x) (X x) (dcloverQ T L V μ ν x))).re
    generalize spinForm (tabGamma5Sigma μ ν) (X x) (Y x) (dcloverQ T L V μ ν x) = a
    generalize spinForm (tabGamma5Sigma μ ν) (Y x) (X x) (dcloverQ T L V μ ν x) = b
    rw [Complex.re_ofReal_mul]
    have h3 : (Complex.I * (1 / 8 * (a - starRingEnd ℂ b))).re = 1 / 8 * (Complex.I * (a + b)).re := by
      rw [show Complex.I * (1 / 8 * (a - starRingEnd ℂ b)) = ((1 / 8 : ℝ) : ℂ) * (Complex.I * (a - starRingEnd ℂ b)) by push_cast; ring,
        Complex.re_ofReal_mul]
      simp
    rw [h3]
    ring
  · simp

/-- Only the planes with the direction of the link matter. -/
theorem sum_planes_with (μ : Fin 4) (e : Fin 4 → Fin 4 → ℝ) (hs : ∀ ρ σ, e ρ σ = e σ ρ) (h0 : ∀ ρ σ, ρ ≠ μ → σ ≠ μ → e ρ σ = 0) :
    (∑ ρ, ∑ σ, if ρ < σ then e ρ σ else 0) = ∑ ν, if ν ≠ μ then e μ ν else 0 := by
  have h1 := hs 1 0
  have h2 := hs 2 0
  have h3 := hs 3 0
  have h4 := hs 2 1
  have h5 := hs 3 1
  have h6 := hs 3 2
  have h01 := h0 0 1
  have h02 := h0 0 2
  have h03 := h0 0 3
  have h12 := h0 1 2
  have h13 := h0 1 3
  have h23 := h0 2 3
  simp only [Fin.sum_univ_four]
  fin_cases μ <;> simp at h01 h02 h03 h12 h13 h23 ⊢ <;> simp [*] <;> ring

end Leonard
