/-
The bias of rational hybrid Monte Carlo with several pseudofermions.
-/
import Verif.Rhmc.Bias

set_option autoImplicit false

namespace Leonard

open Matrix MeasureTheory ProbabilityTheory
open scoped ENNReal NNReal

variable {N n : ℕ} {S κ : Type} [Fintype S] [Fintype κ] [DecidableEq κ]

/-! ### Several pseudofermions as one vector -/

/-- The field of one pseudofermion. -/
def flavourPart (φ : κ × Fin n → ℂ) (j : Fin n) : κ → ℂ := fun i => φ (i, j)

omit [DecidableEq κ] in
theorem blockDiagonal_mulVec (M : Fin n → Matrix κ κ ℂ) (φ : κ × Fin n → ℂ) (j : Fin n) :
    flavourPart (blockDiagonal M *ᵥ φ) j = M j *ᵥ flavourPart φ j := by
  funext i
  simp only [flavourPart, mulVec, dotProduct, blockDiagonal_apply]
  rw [Fintype.sum_prod_type]
  refine Finset.sum_congr rfl fun k _ => ?_
  rw [Finset.sum_eq_single j]
  · simp
  · intro j' _ h
    rw [if_neg (Ne.symm h), zero_mul]
  · simp

omit [DecidableEq κ] in
theorem fermionNormSq_flavours (φ : κ × Fin n → ℂ) : fermionNormSq φ = ∑ j, fermionNormSq (flavourPart φ j) := by
  unfold fermionNormSq flavourPart
  rw [Fintype.sum_prod_type_right]

theorem blockDiagonal_inv (M : Fin n → Matrix κ κ ℂ) (h : ∀ j, IsUnit (M j).det) :
    (blockDiagonal M)⁻¹ = blockDiagonal fun j => (M j)⁻¹ := by
  refine inv_eq_right_inv ?_
  rw [← blockDiagonal_mul]
  have : (fun j => M j * (M j)⁻¹) = (1 : Fin n → Matrix κ κ ℂ) := by
    funext j
    exact mul_nonsing_inv _ (h j)
  rw [this, blockDiagonal_one]

theorem measurable_fractionMatrix {Ω : Type} [MeasurableSpace Ω] (A : Ω → Matrix κ κ ℂ) (hA : ∀ i j, Measurable fun ω => A ω i j)
    (r : List (ℝ × ℝ)) (i j : κ) : Measurable fun ω => fractionMatrix r (A ω) i j := by
  induction r with
  | nil => simp [fractionMatrix]
  | cons p r ih =>
    have e : ∀ ω, fractionMatrix (p :: r) (A ω) i j = (p.1 : ℂ) * (A ω + (p.2 : ℂ) • 1)⁻¹ i j + fractionMatrix r (A ω) i j := fun ω => rfl
    simp_rw [e]
    refine ((measurable_inv _ (fun k l => ?_) i j).const_mul _).add ih
    simp only [Matrix.add_apply, Matrix.smul_apply]
    exact (hA k l).add_const _

/-- The common part of C85 and C86. -/
theorem rational_bias {ι : Type} (eig : EigenSolver N) (he : eig.Correct) (solveShift : GField S N → ℝ → (κ → ℂ) → κ → ℂ) (A : LinkSU S N → Matrix κ κ ℂ)
    (hA : ∀ Q, (A Q).IsHermitian) (hAm : ∀ i j, Measurable fun Q => A Q i j) (heat metro : Fin n → List (ℝ × ℝ))
    (hsolve : ∀ Q j, ∀ p ∈ heat j ++ metro j, ∀ v,
      A Q *ᵥ solveShift (linkMat Q) p.2 v + (p.2 : ℂ) • solveShift (linkMat Q) p.2 v = v)
    (ε : ℝ) (hε0 : 0 ≤ ε) (hε1 : ε < 1)
    (hε : ∀ Q j, ∀ x ∈ spectrum ℝ (A Q), |fractionValue (heat j) x ^ 2 * fractionValue (metro j) x - 1| ≤ ε)
    (energy : GField S N → ℝ) (hE : Measurable fun Q : LinkSU S N => energy (linkMat Q))
    (force : (Fin n → κ → ℂ) → ι → GField S N → GField S N)
    (hL : ∀ φ i (Q : LinkSU S N) s μ, IsLie (force φ i (linkMat Q) s μ))
    (hF : ∀ i s μ a b, Measurable fun p : (Fin n → κ → ℂ) × LinkSU S N => force p.1 i (linkMat p.2) s μ a b)
    (haar : Measure (SU N)) [IsFiniteMeasure haar] [haar.IsMulLeftInvariant] (integrator : String) (forces : List ι) (steps : List ℕ) (t : ℝ)
    (hd : ∃ l, mdIntegrate integrator forces steps t = .ok l) :
    ∃ sweep : LinkSU S N → (κ × Fin n → ℝ × ℝ) → Draws S N → ℝ → LinkSU S N,
      (∀ Q Y X u, rationalExecute (eigenLink eig) solveShift energy force heat metro integrator forces steps t (momMat X)
        (flavourPart (fermionField Y)) (linkMat Q) u = .ok (linkMat (sweep Q Y X u))) ∧
      let mean : (LinkSU S N → ℝ≥0∞) → LinkSU S N → ℝ≥0∞ := fun f Q =>
        ∫⁻ Y, (∫⁻ X, (∫⁻ u in Set.Ico (0 : ℝ) 1, f (sweep Q Y X u)) ∂gaussianDraws S N) ∂fermionDraws (κ × Fin n)
      let w : LinkSU S N → ℝ≥0∞ := fun Q =>
        ENNReal.ofReal (Real.exp (-energy (linkMat Q)) * ∏ j, ∏ i, fractionValue (heat j) ((hA Q).eigenvalues i) ^ 2)
      ∀ f : LinkSU S N → ℝ≥0∞, Measurable f → ∀ C : ℝ≥0∞, (∀ Q, f Q ≤ C) → ∀ m : ℕ,
        let b := m * (C * (ENNReal.ofReal (((1 - ε) ^ (Fintype.card κ * n))⁻¹ - 1) * ∫⁻ Q, w Q ∂linkMeasure S haar))
        ∫⁻ Q, (mean^[m] f) Q * w Q ∂linkMeasure S haar ≤ ∫⁻ Q, f Q * w Q ∂linkMeasure S haar + b ∧
        ∫⁻ Q, f Q * w Q ∂linkMeasure S haar ≤ ∫⁻ Q, (mean^[m] f) Q * w Q ∂linkMeasure S haar + b := by
  obtain ⟨l, hl⟩ := hd
  have hpole : ∀ Q j, ∀ p ∈ heat j ++ metro j, ∀ x ∈ spectrum ℝ (A Q), x + p.2 ≠ 0 := fun Q j p hp =>
    no_pole p.2 fun v => ⟨_, hsolve Q j p hp v⟩
  have hspecH : ∀ Q j, fractionMatrix (heat j) (A Q) = specFun (hA Q) (fractionValue (heat j)) := fun Q j =>
    fractionMatrix_eq (hA Q) _ fun p hp => hpole Q j p (List.mem_append_left _ hp)
  have hspecM : ∀ Q j, fractionMatrix (metro j) (A Q) = specFun (hA Q) (fractionValue (metro j)) := fun Q j =>
    fractionMatrix_eq (hA Q) _ fun p hp => hpole Q j p (List.mem_append_right _ hp)
  have hne : ∀ Q j, ∀ x ∈ spectrum ℝ (A Q), fractionValue (heat j) x ≠ 0 := by
    intro Q j x hx h0
    have := hε Q j x hx
    rw [h0] at this
    norm_num at this
    linarith
  let M : LinkSU S N → Matrix (κ × Fin n) (κ × Fin n) ℂ := fun Q => blockDiagonal fun j => fractionMatrix (heat j) (A Q)
  have hdetj : ∀ Q j, (fractionMatrix (heat j) (A Q)).det ≠ 0 := by
    intro Q j
    rw [hspecH, specFun_det, Complex.ofReal_ne_zero]
    exact Finset.prod_ne_zero_iff.mpr fun i _ => hne Q j _ ((hA Q).eigenvalues_mem_spectrum_real i)
  have hdetM : ∀ Q, (M Q).det = ((∏ j, ∏ i, fractionValue (heat j) ((hA Q).eigenvalues i) : ℝ) : ℂ) := by
    intro Q
    simp only [M]
    rw [det_blockDiagonal]
    push_cast
    refine Finset.prod_congr rfl fun j _ => ?_
    rw [hspecH, specFun_det]
    push_cast
    rfl
  have hdet : ∀ Q, (M Q).det ≠ 0 := by
    intro Q
    simp only [M]
    rw [det_blockDiagonal]
    exact Finset.prod_ne_zero_iff.mpr fun j _ => hdetj Q j
  have hMm : ∀ i j, Measurable fun Q => M Q i j := by
    intro i j
    simp only [M, blockDiagonal_apply]
    split
    · exact measurable_fractionMatrix A hAm _ _ _
    · exact measurable_const
  have hMinv : ∀ Q φ j, flavourPart ((M Q)⁻¹ *ᵥ φ) j = (fractionMatrix (heat j) (A Q))⁻¹ *ᵥ flavourPart φ j := by
    intro Q φ j
    simp only [M]
    rw [blockDiagonal_inv _ fun j => Ne.isUnit (hdetj Q j), blockDiagonal_mulVec]
  let old : (κ × Fin n → ℂ) → LinkSU S N → ℝ := fun φ Q => energy (linkMat Q) + fermionNormSq ((M Q)⁻¹ *ᵥ φ)
  let new : (κ × Fin n → ℂ) → LinkSU S N → ℝ := fun φ Q =>
    energy (linkMat Q) + ∑ j, (fermionDot (flavourPart φ j) (fractionMatrix (metro j) (A Q) *ᵥ flavourPart φ j)).re
  have hgap : ∀ φ Q, |new φ Q - old φ Q| ≤ 0 + ε * fermionNormSq ((M Q)⁻¹ *ᵥ φ) := by
    intro φ Q
    have e : new φ Q - old φ Q = ∑ j, ((fermionDot (flavourPart φ j) (fractionMatrix (metro j) (A Q) *ᵥ flavourPart φ j)).re -
        fermionNormSq ((fractionMatrix (heat j) (A Q))⁻¹ *ᵥ flavourPart φ j)) := by
      simp only [new, old]
      rw [fermionNormSq_flavours, Finset.sum_sub_distrib]
      simp only [hMinv]
      ring
    rw [e, zero_add, fermionNormSq_flavours, Finset.mul_sum]
    refine (Finset.abs_sum_le_sum_abs _ _).trans (Finset.sum_le_sum fun j _ => ?_)
    rw [hMinv, hspecM, hspecH]
    exact fraction_gap (hA Q) _ _ ε (hε Q j) hε1 _
  have hpart : ∀ j i, Measurable fun p : (κ × Fin n → ℂ) × LinkSU S N => flavourPart p.1 j i := fun j i => (measurable_pi_apply _).comp measurable_fst
  have hnew : Measurable fun p : (κ × Fin n → ℂ) × LinkSU S N => new p.1 p.2 := by
    simp only [new]
    refine (hE.comp measurable_snd).add (Finset.measurable_fun_sum _ fun j _ => Complex.measurable_re.comp ?_)
    simp only [fermionDot, mulVec, dotProduct]
    refine Finset.measurable_fun_sum _ fun i _ => (Complex.continuous_conj.measurable.comp (hpart j i)).mul ?_
    exact Finset.measurable_fun_sum _ fun k _ => ((measurable_fractionMatrix A hAm _ i k).comp measurable_snd).mul (hpart j k)
  have hpf : Measurable fun p : (κ × Fin n → ℂ) × LinkSU S N => fermionNormSq ((M p.2)⁻¹ *ᵥ p.1) := by
    refine fermionNormSq_measurable.comp (measurable_pi_lambda _ fun i => ?_)
    simp only [Matrix.mulVec, dotProduct]
    exact Finset.measurable_fun_sum _ fun j _ => ((measurable_inv M hMm i j).comp measurable_snd).mul ((measurable_pi_apply j).comp measurable_fst)
  have hold : Measurable fun p : (κ × Fin n → ℂ) × LinkSU S N => old p.1 p.2 := (hE.comp measurable_snd).add hpf
  let F : (κ × Fin n → ℂ) → ι → GField S N → GField S N := fun φ => force (flavourPart φ)
  have hFL : ∀ φ i (Q : LinkSU S N) s μ, IsLie (F φ i (linkMat Q) s μ) := fun φ i Q s μ => hL _ i Q s μ
  have hcur : Measurable fun p : (κ × Fin n → ℂ) × LinkSU S N => (flavourPart p.1, p.2) :=
    (measurable_pi_lambda _ fun j => measurable_pi_lambda _ fun i => hpart j i).prodMk measurable_snd
  have hFm : ∀ i s μ k l, Measurable fun p : (κ × Fin n → ℂ) × LinkSU S N => F p.1 i (linkMat p.2) s μ k l := fun i s μ k l =>
    (hF i s μ k l).comp hcur
  have hinv : ∀ Q v, (M Q)⁻¹ *ᵥ (M Q *ᵥ v) = v := fun Q v => by
    rw [Matrix.mulVec_mulVec, Matrix.nonsing_inv_mul _ (Ne.isUnit (hdet Q)), Matrix.one_mulVec]
  have hheat : ∀ Q φ j, fractionSolve (solveShift (linkMat Q)) (heat j) (flavourPart φ j) = flavourPart (M Q *ᵥ φ) j := by
    intro Q φ j
    simp only [M]
    rw [blockDiagonal_mulVec, fractionSolve_eq (A := A Q) _ _ fun p hp => hsolve Q j p (List.mem_append_left _ hp)]
  have hmetro : ∀ Q j v, fractionSolve (solveShift (linkMat Q)) (metro j) v = fractionMatrix (metro j) (A Q) *ᵥ v := fun Q j v =>
    fractionSolve_eq (A := A Q) _ _ (fun p hp => hsolve Q j p (List.mem_append_right _ hp)) v
  refine ⟨fun Q Y X u => hmcSweep2 (F (M Q *ᵥ fermionField Y)) l (old (M Q *ᵥ fermionField Y)) (new (M Q *ᵥ fermionField Y)) Q X u, ?_, ?_⟩
  · intro Q Y X u
    unfold rationalExecute
    rw [hl, ok_bind]
    simp only [hheat]
    have h1 := phaseRun_mat eig he (F (M Q *ᵥ fermionField Y)) (hFL _) l (Q, X)
    change _ = mdRun (eigenLink eig) (force fun j => flavourPart (M Q *ᵥ fermionField Y) j) l (linkMat Q, momMat X) at h1
    simp only [← h1]
    refine congrArg Outcome.ok ?_
    unfold hmcSweep2
    rw [apply_ite linkMat]
    have e1 : hmcEnergy (old (M Q *ᵥ fermionField Y)) (Q, X) =
        momentaEnergy (momMat X) + energy (linkMat Q) + ∑ j, fermionNormSq (flavourPart (fermionField Y) j) := by
      unfold hmcEnergy
      simp only [old, hinv]
      rw [fermionNormSq_flavours]
      ring
    rw [e1]
    have e2 : ∀ z : LinkSU S N × Draws S N, hmcEnergy (new (M Q *ᵥ fermionField Y)) z =
        momentaEnergy (phaseMat z).2 + energy (phaseMat z).1 + ∑ j, (fermionDot (flavourPart (M Q *ᵥ fermionField Y) j)
          (fractionSolve (solveShift (phaseMat z).1) (metro j) (flavourPart (M Q *ᵥ fermionField Y) j))).re := by
      intro z
      unfold hmcEnergy phaseMat
      simp only [new, hmetro]
      ring
    rw [e2]
    rfl
  · intro mean w f hf C hC m b
    have hw : w = fun Q => ENNReal.ofReal (Real.exp (-energy (linkMat Q)) * Complex.normSq (M Q).det) := by
      funext Q
      simp only [w]
      rw [hdetM, Complex.normSq_ofReal]
      congr 2
      rw [← sq, ← Finset.prod_pow]
      exact Finset.prod_congr rfl fun j _ => by rw [Finset.prod_pow]
    have hcard : Fintype.card (κ × Fin n) = Fintype.card κ * n := by rw [Fintype.card_prod, Fintype.card_fin]
    have hone : ∀ f : LinkSU S N → ℝ≥0∞, Measurable f → (∀ Q, f Q ≤ C) → _ := fun f hf hC =>
      pseudofermion_bias F l M old new hFm hMm hdet (fun Q => energy (linkMat Q)) hE (fun φ Q => rfl) hnew 0 ε le_rfl hε0 hε1 hgap haar integrator forces steps t
        hl f hf C hC
    rw [hcard, Real.exp_zero, one_mul] at hone
    have hw' : ∀ Q, ENNReal.ofReal (Real.exp (-energy (linkMat Q)) * Complex.normSq (M Q).det) = w Q := fun Q => (congrFun hw Q).symm
    simp only [hw'] at hone
    exact pseudofermion_sweeps F l M old new hFm hMm hold hnew _ w C _ hone f hf hC m

end Leonard
