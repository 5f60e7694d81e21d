/-
Lemmas for C34.
-/
import Verif.Dirac.HermModel
import Verif.Dirac.Props

set_option autoImplicit false

namespace Leonard

open Matrix

variable {S : Type} {N : ℕ}

theorem latticeDot_trace [Fintype S] (v w : SField S N) : latticeDot v w = ∑ x, trace ((v x)ᴴ * w x) := by
  unfold latticeDot
  refine Finset.sum_congr rfl fun x _ => ?_
  simp only [trace, diag_apply, Matrix.mul_apply, conjTranspose_apply]
  rw [Finset.sum_comm]
  rfl

theorem latticeDot_conj [Fintype S] (v w : SField S N) : starRingEnd ℂ (latticeDot v w) = latticeDot w v := by
  simp only [latticeDot, map_sum, map_mul, Complex.conj_conj]
  refine Finset.sum_congr rfl fun x _ => Finset.sum_congr rfl fun _ _ => Finset.sum_congr rfl fun _ _ => mul_comm _ _

theorem conj_trace (A : Mat N) : starRingEnd ℂ (trace A) = trace Aᴴ := (trace_conjTranspose A).symm

/-- The form that belongs to a field of matrices acting on one neighbour. -/
theorem forward_backward [Fintype S] (T : Torus S) (U : GField S N) (μ : Fin 4) (v w : SField S N) :
    starRingEnd ℂ (∑ x, trace ((w x)ᴴ * (tabGamma5 * ((1 + tabGamma μ) * (v (T.sdn μ x) * ((U (T.sdn μ x) μ)ᴴ)ᵀ)))))
      = ∑ x, trace ((v x)ᴴ * (tabGamma5 * ((1 - tabGamma μ) * (w (T.sup μ x) * (U x μ)ᵀ)))) := by
  rw [map_sum]
  rw [← Equiv.sum_comp (T.sup μ)]
  refine Finset.sum_congr rfl fun x _ => ?_
  have h5 := C32_gamma5
  have hg := (C32_clifford μ μ).2
  have e : (1 + tabGamma μ)ᴴ * tabGamma5ᴴ = tabGamma5 * (1 - tabGamma μ) := by
    rw [conjTranspose_add, conjTranspose_one, hg, h5.2.1, Matrix.add_mul, Matrix.mul_sub, h5.2.2.2.1 μ]
    simp
  have et : (((U x μ)ᴴ)ᵀ)ᴴ = (U x μ)ᵀ := by
    ext i j; simp [conjTranspose_apply]
  rw [conj_trace, T.sdn_sup]
  simp only [conjTranspose_mul, conjTranspose_conjTranspose, et]
  rw [show ((U x μ)ᵀ * (v x)ᴴ * (1 + tabGamma μ)ᴴ * tabGamma5ᴴ * w (T.sup μ x))
      = (U x μ)ᵀ * ((v x)ᴴ * ((1 + tabGamma μ)ᴴ * tabGamma5ᴴ) * w (T.sup μ x)) by simp only [Matrix.mul_assoc], e,
    trace_mul_comm]
  simp only [Matrix.mul_assoc]

theorem hopping_hermitian [Fintype S] (T : Torus S) (U : GField S N) (v w : SField S N) :
    starRingEnd ℂ (latticeDot w (gamma5Field (hoppingSpec T U v))) = latticeDot v (gamma5Field (hoppingSpec T U w)) := by
  have split : ∀ v w : SField S N, latticeDot v (gamma5Field (hoppingSpec T U w)) =
      ∑ μ, ((∑ x, trace ((v x)ᴴ * (tabGamma5 * ((1 - tabGamma μ) * (w (T.sup μ x) * (U x μ)ᵀ)))))
        + ∑ x, trace ((v x)ᴴ * (tabGamma5 * ((1 + tabGamma μ) * (w (T.sdn μ x) * ((U (T.sdn μ x) μ)ᴴ)ᵀ))))) := by
    intro v w
    rw [latticeDot_trace]
    simp only [gamma5Field, hoppingSpec, Matrix.mul_sum, trace_sum, Matrix.mul_add, trace_add, ← Finset.sum_add_distrib]
    exact Finset.sum_comm
  rw [split, split, map_sum]
  refine Finset.sum_congr rfl fun μ _ => ?_
  rw [map_add, forward_backward T U μ v w, ← forward_backward T U μ w v, Complex.conj_conj, add_comm]

theorem gamma5_hermitian [Fintype S] (v w : SField S N) :
    starRingEnd ℂ (latticeDot w (gamma5Field v)) = latticeDot v (gamma5Field w) := by
  rw [latticeDot_trace, latticeDot_trace, map_sum]
  refine Finset.sum_congr rfl fun x _ => ?_
  rw [conj_trace]
  simp only [gamma5Field, conjTranspose_mul, conjTranspose_conjTranspose, C32_gamma5.2.1, Matrix.mul_assoc]

theorem latticeDot_add [Fintype S] (v w u : SField S N) : latticeDot v (w + u) = latticeDot v w + latticeDot v u := by
  simp only [latticeDot_trace, Pi.add_apply, Matrix.mul_add, trace_add, Finset.sum_add_distrib]

theorem latticeDot_smul [Fintype S] (v w : SField S N) (a : ℂ) : latticeDot v (a • w) = a * latticeDot v w := by
  simp only [latticeDot_trace, Pi.smul_apply, Matrix.mul_smul, trace_smul, smul_eq_mul, Finset.mul_sum]

theorem gamma5Field_add (v w : SField S N) : gamma5Field (v + w) = gamma5Field v + gamma5Field w := by
  funext x; simp only [gamma5Field, Pi.add_apply, Matrix.mul_add]

theorem gamma5Field_smul (a : ℂ) (v : SField S N) : gamma5Field (a • v) = a • gamma5Field v := by
  funext x; simp only [gamma5Field, Pi.smul_apply, Matrix.mul_smul]

theorem gamma5Field_gamma5Field (v : SField S N) : gamma5Field (gamma5Field v) = v := by
  funext x; simp only [gamma5Field, ← Matrix.mul_assoc, C32_gamma5.2.2.1, Matrix.one_mul]

theorem gamma5Field_move [Fintype S] (v w : SField S N) : latticeDot v (gamma5Field w) = latticeDot (gamma5Field v) w := by
  rw [← gamma5_hermitian, latticeDot_conj]

/-- The clover part of the operator. -/
noncomputable def cloverField (T : Torus S) (U : GField S N) (v : SField S N) : SField S N := fun x =>
  ∑ μ, ∑ ν, if μ < ν then Complex.I • (tabSigma μ ν * (v x * (cloverF T U μ ν x)ᵀ)) else 0

theorem tabSigma_hermitian (μ ν : Fin 4) : (tabSigma μ ν)ᴴ = tabSigma μ ν := by
  have h : ∀ a b : Fin 4, (tabSigmaT a b)ᴴ = tabSigmaT a b := by decide +kernel
  rw [tabSigma, ← toSpin_conjTranspose, h]

theorem tabSigma_gamma5 (μ ν : Fin 4) : tabSigma μ ν * tabGamma5 = tabGamma5 * tabSigma μ ν := by
  have h : ∀ a b : Fin 4, tabSigmaT a b * tabGamma5T = tabGamma5T * tabSigmaT a b := by decide +kernel
  rw [tabSigma, tabGamma5, ← toSpin_mul, h, toSpin_mul]

theorem cloverF_antihermitian (T : Torus S) (U : GField S N) (μ ν : Fin 4) (x : S) :
    (cloverF T U μ ν x)ᴴ = -cloverF T U μ ν x := by
  unfold cloverF
  rw [conjTranspose_smul, conjTranspose_sub, conjTranspose_conjTranspose]
  rw [show star (1 / 8 : ℂ) = 1 / 8 by
    rw [star_div₀, star_one, Complex.star_def, map_ofNat (starRingEnd ℂ) 8], ← smul_neg, neg_sub]

theorem clover_hermitian [Fintype S] (T : Torus S) (U : GField S N) (v w : SField S N) :
    starRingEnd ℂ (latticeDot w (gamma5Field (cloverField T U v))) = latticeDot v (gamma5Field (cloverField T U w)) := by
  rw [latticeDot_trace, latticeDot_trace, map_sum]
  refine Finset.sum_congr rfl fun x _ => ?_
  simp only [gamma5Field, cloverField, Matrix.mul_sum, trace_sum, map_sum]
  refine Finset.sum_congr rfl fun μ _ => Finset.sum_congr rfl fun ν _ => ?_
  split_ifs with h
  · rw [conj_trace]
    have e : ((cloverF T U μ ν x)ᵀ)ᴴ = -(cloverF T U μ ν x)ᵀ := by
      rw [show ((cloverF T U μ ν x)ᵀ)ᴴ = ((cloverF T U μ ν x)ᴴ)ᵀ by ext i j; simp [conjTranspose_apply],
        cloverF_antihermitian, transpose_neg]
    simp only [conjTranspose_mul, conjTranspose_smul, conjTranspose_conjTranspose, e, tabSigma_hermitian,
      C32_gamma5.2.1, Complex.star_def, Complex.conj_I, Matrix.mul_smul, Matrix.smul_mul, trace_smul, Matrix.neg_mul,
      trace_neg]
    rw [smul_neg, neg_smul, neg_neg]
    congr 1
    rw [show (cloverF T U μ ν x)ᵀ * (v x)ᴴ * tabSigma μ ν * tabGamma5 * w x
      = (cloverF T U μ ν x)ᵀ * ((v x)ᴴ * (tabSigma μ ν * tabGamma5) * w x) by simp only [Matrix.mul_assoc],
      tabSigma_gamma5, trace_mul_comm]
    simp only [Matrix.mul_assoc]
  · simp

theorem wilsonSpec_eq (T : Torus S) (U : GField S N) (κ : ℝ) (v : SField S N) :
    wilsonSpec T U κ v = v + (-(κ : ℂ)) • hoppingSpec T U v := by
  funext x; rw [Pi.add_apply, Pi.smul_apply, neg_smul, ← sub_eq_add_neg]; rfl

theorem improvedSpec_eq (T : Torus S) (U : GField S N) (κ csw : ℝ) (v : SField S N) :
    improvedSpec T U κ csw v = v + (-(κ : ℂ)) • hoppingSpec T U v + ((κ * csw : ℝ) : ℂ) • cloverField T U v := by
  rw [← wilsonSpec_eq]; rfl

theorem improvedSpec_zero (T : Torus S) (U : GField S N) (κ : ℝ) (v : SField S N) :
    improvedSpec T U κ 0 v = wilsonSpec T U κ v := by
  rw [improvedSpec_eq, wilsonSpec_eq]; simp

theorem improved_hermitian [Fintype S] (T : Torus S) (U : GField S N) (κ csw : ℝ) (v w : SField S N) :
    latticeDot v (gamma5Field (improvedSpec T U κ csw w)) = latticeDot (gamma5Field (improvedSpec T U κ csw v)) w := by
  rw [← latticeDot_conj w]
  have E : ∀ a b : SField S N, latticeDot a (gamma5Field (improvedSpec T U κ csw b)) =
      latticeDot a (gamma5Field b) + -(κ : ℂ) * latticeDot a (gamma5Field (hoppingSpec T U b))
        + ((κ * csw : ℝ) : ℂ) * latticeDot a (gamma5Field (cloverField T U b)) := fun a b => by
    simp only [improvedSpec_eq, gamma5Field_add, gamma5Field_smul, latticeDot_add, latticeDot_smul]
  rw [E, E, map_add, map_add, map_mul, map_mul, map_neg, Complex.conj_ofReal, Complex.conj_ofReal,
    hopping_hermitian T U v w, clover_hermitian T U v w, gamma5_hermitian v w]

/-! ### Covariance -/

variable (T : Torus S) (U : GField S N) (ω : S → Mat N)

theorem hopping_gauge (hω : ∀ s, (ω s)ᴴ * ω s = 1) (v : SField S N) :
    hoppingSpec T (gaugeTransform T ω U) (spinorTransform ω v) = spinorTransform ω (hoppingSpec T U v) := by
  funext x
  simp only [hoppingSpec, spinorTransform, Matrix.sum_mul]
  refine Finset.sum_congr rfl fun μ _ => ?_
  rw [Matrix.add_mul _ _ (ω x)ᵀ]
  have key : ∀ y, (ω y)ᵀ * ((ω y)ᴴ)ᵀ = 1 := fun y => by rw [← transpose_mul, hω, transpose_one]
  congr 1
  · simp only [gaugeTransform, transpose_mul, Matrix.mul_assoc]
    rw [← Matrix.mul_assoc (ω (T.sup μ x))ᵀ, key, Matrix.one_mul]
  · simp only [gaugeTransform, Torus.sup_sdn, conjTranspose_mul, conjTranspose_conjTranspose, transpose_mul, Matrix.mul_assoc]
    rw [← Matrix.mul_assoc (ω (T.sdn μ x))ᵀ, key, Matrix.one_mul]

theorem cloverQ_gauge (hω : ∀ s, (ω s)ᴴ * ω s = 1) (hω' : ∀ s, ω s * (ω s)ᴴ = 1) (μ ν : Fin 4) (x : S) :
    cloverQ T (gaugeTransform T ω U) μ ν x = ω x * cloverQ T U μ ν x * (ω x)ᴴ := by
  have c1 : T.sdn ν (T.sdn μ (T.sup ν (T.sup μ x))) = x := by rw [T.comm, T.sdn_sup, T.sdn_sup]
  have c2 : T.sup μ (T.sdn ν (T.sdn μ (T.sup ν x))) = x := by
    rw [← T.sup_sdn_comm, T.sdn_sup, T.sup_sdn]
  have c3 : T.sup ν (T.sup μ (T.sdn ν (T.sdn μ x))) = x := by rw [T.comm, T.sup_sdn, T.sup_sdn]
  have c4 : T.sdn μ (T.sup ν (T.sup μ (T.sdn ν x))) = x := by rw [T.comm, T.sdn_sup, T.sup_sdn]
  simp only [cloverQ, holo_gauge T U ω hω hω', Torus.walk_up, Torus.walk_down, Torus.walk_nil, c1, c2, c3, c4,
    Matrix.mul_add, Matrix.add_mul]

theorem cloverF_gauge (hω : ∀ s, (ω s)ᴴ * ω s = 1) (hω' : ∀ s, ω s * (ω s)ᴴ = 1) (μ ν : Fin 4) (x : S) :
    cloverF T (gaugeTransform T ω U) μ ν x = ω x * cloverF T U μ ν x * (ω x)ᴴ := by
  simp only [cloverF, cloverQ_gauge T U ω hω hω', conjTranspose_mul, conjTranspose_conjTranspose, Matrix.mul_smul,
    Matrix.smul_mul, Matrix.mul_sub, Matrix.sub_mul, Matrix.mul_assoc]

theorem clover_gauge (hω : ∀ s, (ω s)ᴴ * ω s = 1) (hω' : ∀ s, ω s * (ω s)ᴴ = 1) (v : SField S N) :
    cloverField T (gaugeTransform T ω U) (spinorTransform ω v) = spinorTransform ω (cloverField T U v) := by
  funext x
  simp only [cloverField, spinorTransform, Matrix.sum_mul]
  refine Finset.sum_congr rfl fun μ _ => Finset.sum_congr rfl fun ν _ => ?_
  split_ifs
  · have key : ∀ y, (ω y)ᵀ * ((ω y)ᴴ)ᵀ = 1 := fun y => by rw [← transpose_mul, hω, transpose_one]
    simp only [cloverF_gauge T U ω hω hω', transpose_mul, Matrix.mul_assoc, Matrix.smul_mul]
    rw [← Matrix.mul_assoc (ω x)ᵀ, key, Matrix.one_mul]
  · simp

theorem improved_gauge (hω : ∀ s, (ω s)ᴴ * ω s = 1) (hω' : ∀ s, ω s * (ω s)ᴴ = 1) (κ csw : ℝ) (v : SField S N) :
    improvedSpec T (gaugeTransform T ω U) κ csw (spinorTransform ω v) = spinorTransform ω (improvedSpec T U κ csw v) := by
  simp only [improvedSpec_eq, hopping_gauge T U ω hω, clover_gauge T U ω hω hω']
  funext x
  simp only [spinorTransform, Pi.add_apply, Pi.smul_apply, Matrix.add_mul, Matrix.smul_mul]

theorem withGamma5_transform (g5 : Bool) (v : SField S N) :
    withGamma5 g5 (spinorTransform ω v) = spinorTransform ω (withGamma5 g5 v) := by
  cases g5
  · rfl
  · funext x; simp only [withGamma5, if_true, gamma5Field, spinorTransform, Matrix.mul_assoc]

end Leonard
