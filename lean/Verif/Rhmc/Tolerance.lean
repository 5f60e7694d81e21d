/-
C51: the tolerance of the solver in the two-flavour algorithm.
-/
import Verif.Rhmc.Bias
import Verif.Hmc.TwoFlavorProps

set_option autoImplicit false

namespace Leonard

open Matrix MeasureTheory ProbabilityTheory
open scoped ENNReal NNReal

variable {N : ℕ} {S κ : Type} [Fintype S] [Fintype κ] [DecidableEq κ]

theorem fermionNormSq_nonneg (v : κ → ℂ) : 0 ≤ fermionNormSq v := Finset.sum_nonneg fun _ _ => Complex.normSq_nonneg _

/-- The squared norm of a sum, with any weight `s` for the mixed term. -/
theorem fermionNormSq_add_gap (v e : κ → ℂ) (s : ℝ) (hs : 0 < s) :
    |fermionNormSq (v + e) - fermionNormSq v| ≤ fermionNormSq e + fermionNormSq e / s + s * fermionNormSq v := by
  unfold fermionNormSq
  rw [← Finset.sum_sub_distrib, Finset.mul_sum, Finset.sum_div, ← Finset.sum_add_distrib, ← Finset.sum_add_distrib]
  refine (Finset.abs_sum_le_sum_abs _ _).trans (Finset.sum_le_sum fun k _ => ?_)
  simp only [Pi.add_apply, Complex.normSq_apply, Complex.add_re, Complex.add_im]
  generalize (v k).re = a
  generalize (v k).im = b
  generalize (e k).re = c
  generalize (e k).im = d
  have h1 : ∀ x y : ℝ, 2 * |x * y| ≤ y * y / s + s * (x * x) := fun x y => by
    have : y * y / s + s * (x * x) - 2 * |x * y| = (|y| - s * |x|) ^ 2 / s := by
      have hx := abs_mul_abs_self x
      have hy := abs_mul_abs_self y
      rw [abs_mul, ← hx, ← hy]
      field_simp
      ring
    have h2 : 0 ≤ (|y| - s * |x|) ^ 2 / s := div_nonneg (sq_nonneg _) hs.le
    linarith
  have e1 : (a + c) * (a + c) + (b + d) * (b + d) - (a * a + b * b) = (c * c + d * d) + (2 * (a * c) + 2 * (b * d)) := by ring
  have e2 : (c * c + d * d) / s = c * c / s + d * d / s := add_div _ _ _
  rw [e1, e2]
  have h2 := h1 a c
  have h3 := h1 b d
  have h4 : |(c * c + d * d) + (2 * (a * c) + 2 * (b * d))| ≤ (c * c + d * d) + (2 * |a * c| + 2 * |b * d|) := by
    refine (abs_add_le _ _).trans (add_le_add (le_of_eq (abs_of_nonneg (add_nonneg (mul_self_nonneg c) (mul_self_nonneg d)))) ((abs_add_le _ _).trans (le_of_eq ?_)))
    rw [abs_mul 2 (a * c), abs_mul 2 (b * d), abs_two]
  nlinarith

/-- **C51, the tolerance of the solver.** Many sweeps of the two-flavour algorithm with a solver that stops when the squared residual is at most
`δ`.  If no singular value of the Dirac operator is below `σ` and `s = √δ / σ < 1`, expectation values with the weight
`exp(-energy) |det D|²` change in `m` sweeps at most by `m` times `e^(s + s²) (1-s)⁻ᵈ - 1` times the largest value of the observable, where
`d` is the number of components of the pseudofermion.  The tolerance of the force does not enter: the forces are any measurable fields with values in
the Lie algebra. -/
theorem C51_tolerance (eig : EigenSolver N) (he : eig.Correct) (D solve : GField S N → (κ → ℂ) → κ → ℂ) (M : LinkSU S N → Matrix κ κ ℂ)
    (hD : ∀ Q v, D (linkMat Q) v = M Q *ᵥ v) (hM : ∀ i j, Measurable fun Q => M Q i j)
    (σ δ : ℝ) (hσ : 0 < σ) (hsing : ∀ Q v, σ ^ 2 * fermionNormSq v ≤ fermionNormSq (D (linkMat Q) v)) (hδ : 0 < δ) (hs1 : √δ / σ < 1)
    (hsolve : ∀ Q v, fermionNormSq (D (linkMat Q) (solve (linkMat Q) v) - v) ≤ δ)
    (hsm : ∀ k, Measurable fun p : (κ → ℂ) × LinkSU S N => solve (linkMat p.2) p.1 k)
    (energy : GField S N → ℝ) (hE : Measurable fun Q : LinkSU S N => energy (linkMat Q))
    (fermionForce : (κ → ℂ) → GField S N → GField S N) (gaugeForce : GField S N → GField S N)
    (hLf : ∀ φ (Q : LinkSU S N) s μ, IsLie (fermionForce φ (linkMat Q) s μ)) (hLg : ∀ (Q : LinkSU S N) s μ, IsLie (gaugeForce (linkMat Q) s μ))
    (hFf : ∀ s μ k l, Measurable fun p : (κ → ℂ) × LinkSU S N => fermionForce p.1 (linkMat p.2) s μ k l) (hFg : MeasurableForce gaugeForce)
    (haar : Measure (SU N)) [IsFiniteMeasure haar] [haar.IsMulLeftInvariant] (integrator : String) (steps : List ℕ) (t : ℝ)
    (hd : ∃ l, mdIntegrate integrator (twoFlavorForces steps).1 (twoFlavorForces steps).2 t = .ok l) :
    ∃ sweep : LinkSU S N → (κ → ℝ × ℝ) → Draws S N → ℝ → LinkSU S N,
      (∀ Q Y X u, twoFlavorExecute (eigenLink eig) D solve energy fermionForce gaugeForce integrator steps t (momMat X) (fermionField Y)
        (linkMat Q) u = .ok (linkMat (sweep Q Y X u))) ∧
      let mean : (LinkSU S N → ℝ≥0∞) → LinkSU S N → ℝ≥0∞ := fun f Q =>
        ∫⁻ Y, (∫⁻ X, (∫⁻ u in Set.Ico (0 : ℝ) 1, f (sweep Q Y X u)) ∂gaussianDraws S N) ∂fermionDraws κ
      let w : LinkSU S N → ℝ≥0∞ := fun Q => ENNReal.ofReal (Real.exp (-energy (linkMat Q)) * Complex.normSq (M Q).det)
      let s := √δ / σ
      ∀ f : LinkSU S N → ℝ≥0∞, Measurable f → ∀ C : ℝ≥0∞, (∀ Q, f Q ≤ C) → ∀ m : ℕ,
        let b := m * (C * (ENNReal.ofReal (Real.exp (s + s ^ 2) * ((1 - s) ^ Fintype.card κ)⁻¹ - 1) * ∫⁻ Q, w Q ∂linkMeasure S haar))
        ∫⁻ Q, (mean^[m] f) Q * w Q ∂linkMeasure S haar ≤ ∫⁻ Q, f Q * w Q ∂linkMeasure S haar + b ∧
        ∫⁻ Q, f Q * w Q ∂linkMeasure S haar ≤ ∫⁻ Q, (mean^[m] f) Q * w Q ∂linkMeasure S haar + b := by
  obtain ⟨l, hl⟩ := hd
  have hs : 0 < √δ / σ := div_pos (Real.sqrt_pos.mpr hδ) hσ
  have hdet : ∀ Q, (M Q).det ≠ 0 := by
    intro Q h0
    obtain ⟨v, hv, hv0⟩ := exists_mulVec_eq_zero_iff.mpr h0
    have h1 := hsing Q v
    rw [hD, hv0] at h1
    have h2 : fermionNormSq (0 : κ → ℂ) = 0 := by simp [fermionNormSq]
    have h3 : fermionNormSq v ≤ 0 := by
      rw [h2] at h1
      by_contra h
      exact absurd h1 (not_le.mpr (mul_pos (pow_pos hσ 2) (not_le.mp h)))
    refine hv (funext fun k => Complex.normSq_eq_zero.mp (le_antisymm ?_ (Complex.normSq_nonneg _)))
    exact (Finset.single_le_sum (f := fun k => Complex.normSq (v k)) (fun k _ => Complex.normSq_nonneg _) (Finset.mem_univ k)).trans h3
  let F : (κ → ℂ) → TwoFlavorForce → GField S N → GField S N := fun φ => twoFlavorForce fermionForce gaugeForce φ
  have hFL : ∀ φ i (Q : LinkSU S N) s μ, IsLie (F φ i (linkMat Q) s μ) := by
    intro φ i Q s μ
    cases i with
    | action => exact isLie_add (hLf φ Q s μ) (hLg Q s μ)
    | fermion => exact hLf φ Q s μ
    | gauge => exact hLg Q s μ
  have hFm : ∀ i s μ k l, Measurable fun p : (κ → ℂ) × LinkSU S N => F p.1 i (linkMat p.2) s μ k l := by
    intro i s μ k l
    cases i with
    | action => exact (hFf s μ k l).add ((hFg s μ k l).comp measurable_snd)
    | fermion => exact hFf s μ k l
    | gauge => exact (hFg s μ k l).comp measurable_snd
  let old : (κ → ℂ) → LinkSU S N → ℝ := fun φ Q => energy (linkMat Q) + fermionNormSq ((M Q)⁻¹ *ᵥ φ)
  let new : (κ → ℂ) → LinkSU S N → ℝ := fun φ Q => energy (linkMat Q) + fermionNormSq (solve (linkMat Q) φ)
  have hpf : Measurable fun p : (κ → ℂ) × LinkSU S N => fermionNormSq ((M p.2)⁻¹ *ᵥ p.1) := by
    refine fermionNormSq_measurable.comp (measurable_pi_lambda _ fun i => ?_)
    simp only [Matrix.mulVec, dotProduct]
    exact Finset.measurable_fun_sum _ fun j _ => ((measurable_inv M hM i j).comp measurable_snd).mul ((measurable_pi_apply j).comp measurable_fst)
  have hold : Measurable fun p : (κ → ℂ) × LinkSU S N => old p.1 p.2 := (hE.comp measurable_snd).add hpf
  have hnew : Measurable fun p : (κ → ℂ) × LinkSU S N => new p.1 p.2 :=
    (hE.comp measurable_snd).add (fermionNormSq_measurable.comp (measurable_pi_lambda _ hsm))
  have hinv : ∀ Q v, (M Q)⁻¹ *ᵥ (M Q *ᵥ v) = v := fun Q v => by
    rw [Matrix.mulVec_mulVec, Matrix.nonsing_inv_mul _ (Ne.isUnit (hdet Q)), Matrix.one_mulVec]
  have hgap : ∀ φ Q, |new φ Q - old φ Q| ≤ (√δ / σ + (√δ / σ) ^ 2) + √δ / σ * fermionNormSq ((M Q)⁻¹ *ᵥ φ) := by
    intro φ Q
    have e1 : new φ Q - old φ Q = fermionNormSq ((M Q)⁻¹ *ᵥ φ + (solve (linkMat Q) φ - (M Q)⁻¹ *ᵥ φ)) - fermionNormSq ((M Q)⁻¹ *ᵥ φ) := by
      simp only [new, old, add_sub_cancel]
      ring
    have h1 := fermionNormSq_add_gap ((M Q)⁻¹ *ᵥ φ) (solve (linkMat Q) φ - (M Q)⁻¹ *ᵥ φ) (√δ / σ) hs
    rw [e1]
    refine h1.trans (add_le_add_left ?_ _)
    have h2 : fermionNormSq (solve (linkMat Q) φ - (M Q)⁻¹ *ᵥ φ) ≤ (√δ / σ) ^ 2 := by
      have h3 := hsing Q (solve (linkMat Q) φ - (M Q)⁻¹ *ᵥ φ)
      have e2 : D (linkMat Q) (solve (linkMat Q) φ - (M Q)⁻¹ *ᵥ φ) = D (linkMat Q) (solve (linkMat Q) φ) - φ := by
        rw [hD, hD, Matrix.mulVec_sub, Matrix.mulVec_mulVec, Matrix.mul_nonsing_inv _ (Ne.isUnit (hdet Q)), Matrix.one_mulVec]
      rw [e2] at h3
      rw [div_pow, Real.sq_sqrt hδ.le, le_div_iff₀ (pow_pos hσ 2), mul_comm]
      exact h3.trans (hsolve Q φ)
    have h4 : fermionNormSq (solve (linkMat Q) φ - (M Q)⁻¹ *ᵥ φ) / (√δ / σ) ≤ √δ / σ := by
      rw [div_le_iff₀ hs, ← sq]
      exact h2
    linarith
  refine ⟨fun Q Y X u => hmcSweep2 (F (M Q *ᵥ fermionField Y)) l (old (M Q *ᵥ fermionField Y)) (new (M Q *ᵥ fermionField Y)) Q X u, ?_, ?_⟩
  · intro Q Y X u
    unfold twoFlavorExecute
    rw [hl, ok_bind]
    simp only [hD]
    have h1 := phaseRun_mat eig he (F (M Q *ᵥ fermionField Y)) (hFL _) l (Q, X)
    change _ = mdRun (eigenLink eig) (twoFlavorForce fermionForce gaugeForce (M Q *ᵥ fermionField Y)) l (linkMat Q, momMat X) at h1
    simp only [← h1]
    refine congrArg Outcome.ok ?_
    unfold hmcSweep2
    rw [apply_ite linkMat]
    have e1 : hmcEnergy (old (M Q *ᵥ fermionField Y)) (Q, X) = momentaEnergy (momMat X) + energy (linkMat Q) + fermionNormSq (fermionField Y) := by
      unfold hmcEnergy
      simp only [old, hinv]
      ring
    rw [e1]
    have e2 : ∀ z : LinkSU S N × Draws S N, hmcEnergy (new (M Q *ᵥ fermionField Y)) z =
        momentaEnergy (phaseMat z).2 + energy (phaseMat z).1 + fermionNormSq (solve (phaseMat z).1 (M Q *ᵥ fermionField Y)) := by
      intro z
      unfold hmcEnergy phaseMat
      simp only [new]
      ring
    rw [e2]
    rfl
  · intro mean w s f hf C hC m b
    have hone : ∀ f : LinkSU S N → ℝ≥0∞, Measurable f → (∀ Q, f Q ≤ C) → _ := fun f hf hC =>
      pseudofermion_bias F l M old new hFm hM hdet (fun Q => energy (linkMat Q)) hE (fun φ Q => rfl) hnew (s + s ^ 2) s
        (by positivity) hs.le hs1 hgap haar integrator _ _ t hl f hf C hC
    exact pseudofermion_sweeps F l M old new hFm hM hold hnew _ w C _ hone f hf hC m

/-- An operator that depends on a link, with singular values above one half. -/
theorem exampleOperator_singular (U : Mat 2) (hU : Uᴴ * U = 1) (v : Fin 2 → ℂ) :
    (1 / 2 : ℝ) ^ 2 * fermionNormSq v ≤ fermionNormSq ((1 + (1 / 4 : ℂ) • U) *ᵥ v) := by
  have hn : fermionNormSq (U *ᵥ v) = fermionNormSq v := by
    have e : ∀ w : Fin 2 → ℂ, (fermionNormSq w : ℂ) = star w ⬝ᵥ w := fun w => by
      simp [fermionNormSq, dotProduct, Complex.normSq_eq_conj_mul_self]
    have : (fermionNormSq (U *ᵥ v) : ℂ) = fermionNormSq v := by
      rw [e, e, star_mulVec, dotProduct_mulVec, vecMul_vecMul, hU, vecMul_one]
    exact_mod_cast this
  have h2 : fermionNormSq ((1 / 4 : ℂ) • (U *ᵥ v)) = 1 / 16 * fermionNormSq v := by
    rw [← hn]
    simp only [fermionNormSq, Finset.mul_sum, Pi.smul_apply, smul_eq_mul, map_mul]
    refine Finset.sum_congr rfl fun k _ => ?_
    norm_num [Complex.normSq_apply]
  have h := (abs_le.mp (fermionNormSq_add_gap v ((1 / 4 : ℂ) • (U *ᵥ v)) (1 / 4) (by norm_num))).1
  rw [h2] at h
  rw [add_mulVec, smul_mulVec, one_mulVec]
  have := fermionNormSq_nonneg v
  linarith

/-- The hypotheses are met by this operator with a solver that leaves a residual, together with the Wilson action in two time scales. -/
example (eig : EigenSolver 2) (he : eig.Correct) (T : Torus S) (x : S) (β : ℝ) :
    ∃ sweep : LinkSU S 2 → (Fin 2 → ℝ × ℝ) → Draws S 2 → ℝ → LinkSU S 2, ∀ Q Y X u,
      twoFlavorExecute (eigenLink eig) (fun U v => (1 + (1 / 4 : ℂ) • U x 0) *ᵥ v)
        (fun U v => (1 + (1 / 4 : ℂ) • U x 0)⁻¹ *ᵥ (v + fun _ => 1 / 100)) (wilsonEnergy β T) (fun _ _ _ _ => 0)
        (fun U s μ => gaugeForce β U (wilsonStaple T U s μ) s μ) "second_order" [5, 3] 1 (momMat X) (fermionField Y)
        (linkMat Q) u = .ok (linkMat (sweep Q Y X u)) := by
  have hU : ∀ Q : LinkSU S 2, (linkMat Q x 0)ᴴ * linkMat Q x 0 = 1 := fun Q =>
    mem_unitaryGroup_iff'.1 (mem_specialUnitaryGroup_iff.1 (Q x 0).2).1
  have hMm : ∀ i j, Measurable fun Q : LinkSU S 2 => (1 + (1 / 4 : ℂ) • linkMat Q x 0) i j := fun i j => by
    have hc : Continuous fun U : GField S 2 => (1 : Mat 2) + (1 / 4 : ℂ) • U x 0 := continuous_const.add ((continuous_link x 0).const_smul (1 / 4 : ℂ))
    exact ((hc.comp continuous_linkMat).matrix_elem i j).measurable
  have hdet : ∀ Q : LinkSU S 2, IsUnit ((1 : Mat 2) + (1 / 4 : ℂ) • linkMat Q x 0).det := fun Q => by
    rw [isUnit_iff_ne_zero]
    intro h0
    obtain ⟨v, hv, hv0⟩ := exists_mulVec_eq_zero_iff.mpr h0
    have h1 := exampleOperator_singular _ (hU Q) v
    rw [hv0] at h1
    have h2 : fermionNormSq (0 : Fin 2 → ℂ) = 0 := by simp [fermionNormSq]
    rw [h2] at h1
    refine hv (funext fun k => Complex.normSq_eq_zero.mp (le_antisymm ?_ (Complex.normSq_nonneg _)))
    refine (Finset.single_le_sum (f := fun k => Complex.normSq (v k)) (fun k _ => Complex.normSq_nonneg _) (Finset.mem_univ k)).trans ?_
    change fermionNormSq v ≤ 0
    linarith
  obtain ⟨sweep, h, -⟩ := C51_tolerance eig he (fun U v => (1 + (1 / 4 : ℂ) • U x 0) *ᵥ v)
    (fun U v => (1 + (1 / 4 : ℂ) • U x 0)⁻¹ *ᵥ (v + fun _ => 1 / 100)) (fun Q => 1 + (1 / 4 : ℂ) • linkMat Q x 0) (fun Q v => rfl) hMm (1 / 2)
    (1 / 100) (by norm_num) (fun Q v => exampleOperator_singular _ (hU Q) v) (by norm_num)
    (by
      rw [div_lt_one (by norm_num), Real.sqrt_lt' (by norm_num)]
      norm_num)
    (fun Q v => by
      simp only [mulVec_mulVec]
      rw [mul_nonsing_inv _ (hdet Q), one_mulVec, add_sub_cancel_left]
      norm_num [fermionNormSq, Complex.normSq_apply])
    (fun k => by
      simp only [Matrix.mulVec, dotProduct]
      exact Finset.measurable_fun_sum _ fun j _ => ((measurable_inv _ hMm k j).comp measurable_snd).mul
        (((measurable_pi_apply j).comp measurable_fst).add measurable_const))
    (wilsonEnergy β T) (measurable_of_continuous_link _ (continuous_wilsonEnergy β T)) (fun _ _ _ _ => 0)
    (fun U s μ => gaugeForce β U (wilsonStaple T U s μ) s μ) (fun _ _ _ _ => ⟨by simp, by simp⟩) (fun Q s μ => C21_lie_algebra (by norm_num) β _ _ s μ)
    (fun _ _ _ _ => measurable_const) (measurableForce_of_continuous _ fun s μ => continuous_gaugeForce β _ (continuous_wilsonStaple T s μ) s μ)
    Measure.haar "second_order" [5, 3] 1 ((C43_defined _ _ _ _).mpr (by simp [twoFlavorForces]))
  exact ⟨sweep, h⟩

end Leonard
