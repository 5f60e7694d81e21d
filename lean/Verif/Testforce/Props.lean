/-
C84: the numerical test of the forces.
-/
import Verif.Testforce.Model
import Verif.Gauge.Props
import Verif.Order.Spec
import Verif.Force.Props
import Mathlib.LinearAlgebra.Complex.Module
import Mathlib.Analysis.Calculus.Deriv.Slope

set_option autoImplicit false

namespace Leonard

open Matrix Filter
open scoped Topology Matrix.Norms.Operator

variable {S : Type} {N : ℕ}

/-- `F` is the force of the energy on the link `(s, μ)`: it is in the Lie algebra and moving the link by `exp(tX)` changes the energy at the
rate `-2 Re tr(X F)` for every `X` of the Lie algebra (the normalisation in which kinetic plus potential energy is conserved). -/
def IsForceAt [DecidableEq S] (energy : GField S N → ℝ) (U : GField S N) (s : S) (μ : Fin 4) (F : Mat N) : Prop :=
  IsLie F ∧ ∀ X : Mat N, IsLie X →
    HasDerivAt (fun t : ℝ => energy (setLink U s μ (NormedSpace.exp (t • X) * U s μ))) (-2 * (trace (X * F)).re) 0

/-- Symmetric difference quotients converge to the derivative. -/
theorem tendsto_symmetric {f : ℝ → ℝ} {d : ℝ} (h : HasDerivAt f d 0) :
    Tendsto (fun ε => (f ε - f (-ε)) / (8 * ε)) (𝓝[≠] 0) (𝓝 (d / 4)) := by
  have hn : HasDerivAt (fun t => f (-t)) (d * -1) 0 :=
    HasDerivAt.comp (0 : ℝ) (by simpa using h) (hasDerivAt_neg (0 : ℝ))
  have hs := (h.sub hn).tendsto_slope
  have e : (fun ε => (f ε - f (-ε)) / (8 * ε)) =ᶠ[𝓝[≠] 0] fun ε => slope (f - fun t => f (-t)) 0 ε / 8 := by
    filter_upwards [self_mem_nhdsWithin] with ε hε
    have hε' : ε ≠ 0 := hε
    simp only [slope_def_field, Pi.sub_apply, neg_zero, sub_self, sub_zero]
    field_simp
  refine Tendsto.congr' e.symm ?_
  have h8 := hs.div_const 8
  convert h8 using 2
  ring

/-- The exponential of a square root of `-1`. -/
theorem exp_smul_of_sq (X : Mat N) (hX : X * X = -1) (t : ℝ) :
    NormedSpace.exp (t • X) = (Real.cos t) • (1 : Mat N) + (Real.sin t) • X := by
  have hc : Continuous (Complex.liftAux X hX) := (Complex.liftAux X hX).toLinearMap.continuous_of_finiteDimensional
  have h := NormedSpace.map_exp (Complex.liftAux X hX) hc (t * Complex.I)
  have h1 : Complex.liftAux X hX (t * Complex.I) = t • X := by
    rw [Complex.liftAux_apply]; simp
  rw [h1, ← Complex.exp_eq_exp_ℂ, Complex.exp_mul_I, ← Complex.ofReal_cos, ← Complex.ofReal_sin, Complex.liftAux_apply] at h
  refine Eq.trans h.symm ?_
  simp [Algebra.algebraMap_eq_smul_one, -Complex.ofReal_cos, -Complex.ofReal_sin]

/-- The diagonal generator of `genericTestForce`. -/
noncomputable def genericDirection (N : ℕ) : Mat (N + 1) :=
  Matrix.diagonal fun i => if i.val < N then (√(2 / ((N + 1 : ℝ) * N)) : ℂ) * Complex.I else -(√(2 * N / (N + 1 : ℝ)) : ℂ) * Complex.I

theorem genericExpm_eq (N : ℕ) (σ ε : ℝ) (hσ : σ = 1 ∨ σ = -1) :
    genericExpm N σ ε = NormedSpace.exp ((σ * ε) • genericDirection N) := by
  unfold genericExpm genericDirection
  rw [← Matrix.diagonal_smul, Matrix.exp_diagonal]
  congr 1
  funext i
  rw [Pi.coe_exp, ← Complex.exp_eq_exp_ℂ]
  have key : ∀ a : ℝ, Complex.exp ((σ * ε : ℝ) * ((a : ℂ) * Complex.I)) = ⟨Real.cos (a * ε), σ * Real.sin (a * ε)⟩ := by
    intro a
    rw [show ((σ * ε : ℝ) : ℂ) * ((a : ℂ) * Complex.I) = ((σ * (a * ε) : ℝ) : ℂ) * Complex.I by push_cast; ring,
      Complex.exp_mul_I, ← Complex.ofReal_cos, ← Complex.ofReal_sin]
    rcases hσ with h | h <;> rw [h] <;> apply Complex.ext <;> simp [-Complex.ofReal_cos, -Complex.ofReal_sin]
  simp only [Pi.smul_apply, Complex.real_smul]
  split
  · exact (key _).symm
  · have h := key (-√(2 * N / (N + 1 : ℝ)))
    rw [neg_mul (√(2 * N / (N + 1 : ℝ))) ε, Real.cos_neg, Real.sin_neg] at h
    rw [show -σ * Real.sin (√(2 * N / (N + 1 : ℝ)) * ε) = σ * -Real.sin (√(2 * N / (N + 1 : ℝ)) * ε) by ring, ← h]
    push_cast
    rfl

/-- The two coefficients of the generator. -/
theorem genericCoeff (hN : 0 < N) : √(2 / ((N + 1 : ℝ) * N)) * N = √(2 * N / (N + 1 : ℝ)) ∧
    √(2 * N / (N + 1 : ℝ)) * (√(2 / ((N + 1 : ℝ) * N)) + √(2 * N / (N + 1 : ℝ))) = 2 := by
  have hN' : (0 : ℝ) < N := by exact_mod_cast hN
  have h1 : √(2 / ((N + 1 : ℝ) * N)) * N = √(2 * N / (N + 1 : ℝ)) := by
    rw [show (2 * N / (N + 1 : ℝ)) = 2 / ((N + 1 : ℝ) * N) * (N : ℝ) ^ 2 by field_simp, Real.sqrt_mul (by positivity), Real.sqrt_sq hN'.le]
  refine ⟨h1, ?_⟩
  rw [← h1]
  have h2 : √(2 / ((N + 1 : ℝ) * N)) * √(2 / ((N + 1 : ℝ) * N)) = 2 / ((N + 1 : ℝ) * N) := Real.mul_self_sqrt (by positivity)
  rw [show √(2 / ((N + 1 : ℝ) * N)) * N * (√(2 / ((N + 1 : ℝ) * N)) + √(2 / ((N + 1 : ℝ) * N)) * N)
    = (√(2 / ((N + 1 : ℝ) * N)) * √(2 / ((N + 1 : ℝ) * N))) * (N * (N + 1)) by ring, h2]
  field_simp

theorem isLie_genericDirection (hN : 0 < N) : IsLie (genericDirection N) := by
  constructor
  · unfold genericDirection
    rw [Matrix.diagonal_conjTranspose, Matrix.diagonal_neg]
    congr 1
    funext i
    simp only [Pi.star_apply]
    split <;> simp
  · unfold genericDirection
    rw [Matrix.trace_diagonal, Fin.sum_univ_castSucc]
    have h : (√(2 / ((N + 1 : ℝ) * N)) : ℂ) * N = (√(2 * N / (N + 1 : ℝ)) : ℂ) := by exact_mod_cast (genericCoeff hN).1
    simp only [Fin.val_castSucc, Fin.is_lt, if_true, Fin.val_last, lt_irrefl, if_false, Finset.sum_const, Finset.card_univ,
      Fintype.card_fin, nsmul_eq_mul, ← h]
    ring

/-- The rate along the generator is a multiple of the last diagonal entry. -/
theorem trace_genericDirection (hN : 0 < N) (F : Mat (N + 1)) (hF : IsLie F) :
    -√(2 * N / (N + 1 : ℝ)) * ((-2 * (trace (genericDirection N * F)).re) / 4) = (F (Fin.last N) (Fin.last N)).im := by
  have ht := congrArg Complex.im hF.2
  rw [Matrix.trace, Fin.sum_univ_castSucc] at ht
  simp only [Matrix.diag_apply, Complex.add_im, Complex.im_sum, Complex.zero_im] at ht
  have hs : (trace (genericDirection N * F)).re = (√(2 / ((N + 1 : ℝ) * N)) + √(2 * N / (N + 1 : ℝ))) * (F (Fin.last N) (Fin.last N)).im := by
    unfold genericDirection
    simp only [Matrix.trace, Matrix.diag_apply, Matrix.diagonal_mul, Complex.re_sum]
    rw [Fin.sum_univ_castSucc]
    simp only [Fin.val_castSucc, Fin.is_lt, if_true, Fin.val_last, lt_irrefl, if_false]
    have e : ∀ i : Fin N, ((√(2 / ((N + 1 : ℝ) * N)) : ℂ) * Complex.I * F i.castSucc i.castSucc).re
        = -√(2 / ((N + 1 : ℝ) * N)) * (F i.castSucc i.castSucc).im := fun i => by
        generalize √(2 / ((N + 1 : ℝ) * N)) = a
        simp
    rw [Finset.sum_congr rfl fun i _ => e i, ← Finset.mul_sum, show ∑ i : Fin N, (F i.castSucc i.castSucc).im
      = -(F (Fin.last N) (Fin.last N)).im by linarith]
    generalize √(2 / ((N + 1 : ℝ) * N)) = a
    generalize √(2 * N / (N + 1 : ℝ)) = b
    simp
    ring
  rw [hs]
  linear_combination (F (Fin.last N) (Fin.last N)).im / 2 * (genericCoeff hN).2

/-- **C84, any number of colours.** If `F` is the force of the energy on the link, the number that `genericTestForce` prints converges for `epsilon` to
zero to the imaginary part of the last diagonal entry of `F`, which is what it prints beside it, for every energy, all links and at least two
colours. -/
theorem C84_generic [DecidableEq S] (hN : 0 < N) (energy : GField S (N + 1) → ℝ) (U : GField S (N + 1)) (s : S) (μ : Fin 4) (F : Mat (N + 1))
    (hF : IsForceAt energy U s μ F) :
    Tendsto (genericTestForce energy U s μ) (𝓝[≠] 0) (𝓝 (F (Fin.last N) (Fin.last N)).im) := by
  have h := (tendsto_symmetric (hF.2 _ (isLie_genericDirection hN))).const_mul (-√(2 * N / (N + 1 : ℝ)))
  rw [trace_genericDirection hN F hF.1] at h
  refine h.congr fun ε => ?_
  simp only [genericTestForce, energyChange, genericExpm_eq N 1 ε (Or.inl rfl), genericExpm_eq N (-1) ε (Or.inr rfl), one_mul, neg_one_mul]
  ring

/-- The three generators of `testForce`. -/
noncomputable def su2Direction (a : Fin 3) : Mat 2 :=
  ![!![0, Complex.I; Complex.I, 0], !![0, 1; -1, 0], !![Complex.I, 0; 0, -Complex.I]] a

theorem su2Direction_sq (a : Fin 3) : su2Direction a * su2Direction a = -1 := by
  ext i j
  fin_cases a <;> fin_cases i <;> fin_cases j <;> simp [su2Direction, Matrix.mul_apply, Fin.sum_univ_two]

theorem isLie_su2Direction (a : Fin 3) : IsLie (su2Direction a) := by
  constructor
  · ext i j
    fin_cases a <;> fin_cases i <;> fin_cases j <;> simp [su2Direction, Matrix.conjTranspose_apply]
  · fin_cases a <;> simp [su2Direction, Matrix.trace_fin_two]

theorem su2Expm_eq (a : Fin 3) (σ ε : ℝ) (hσ : σ = 1 ∨ σ = -1) : su2Expm a σ ε = NormedSpace.exp ((σ * ε) • su2Direction a) := by
  rw [exp_smul_of_sq _ (su2Direction_sq a)]
  have hc : Real.cos (σ * ε) = Real.cos ε := by rcases hσ with h | h <;> rw [h] <;> simp
  have hs : Real.sin (σ * ε) = σ * Real.sin ε := by rcases hσ with h | h <;> rw [h] <;> simp
  rw [hc, hs]
  ext i j
  fin_cases a <;> fin_cases i <;> fin_cases j <;> apply Complex.ext <;>
    simp [su2Expm, su2Direction, -Complex.ofReal_cos, -Complex.ofReal_sin]

/-- **C84, two colours.** If `F` is the force of the energy on the link, the matrix that `testForce` prints converges for `epsilon` to zero to `F`, in
every entry. -/
theorem C84_su2 [DecidableEq S] (energy : GField S 2 → ℝ) (U : GField S 2) (s : S) (μ : Fin 4) (F : Mat 2) (hF : IsForceAt energy U s μ F) :
    Tendsto (su2TestForce energy U s μ) (𝓝[≠] 0) (𝓝 F) := by
  have hd : ∀ a, Tendsto (fun ε => energyChange energy U s μ (su2Expm a 1 ε) (su2Expm a (-1) ε) / (8 * ε)) (𝓝[≠] 0)
      (𝓝 (-2 * (trace (su2Direction a * F)).re / 4)) := fun a => by
    refine (tendsto_symmetric (hF.2 _ (isLie_su2Direction a))).congr fun ε => ?_
    simp only [energyChange, su2Expm_eq a 1 ε (Or.inl rfl), su2Expm_eq a (-1) ε (Or.inr rfl), one_mul, neg_one_mul]
  have h00 := congrFun (congrFun hF.1.1 0) 0
  have h11 := congrFun (congrFun hF.1.1 1) 1
  have h01 := congrFun (congrFun hF.1.1 0) 1
  have ht := hF.1.2
  rw [Matrix.trace_fin_two] at ht
  simp only [Matrix.conjTranspose_apply, Matrix.neg_apply, Complex.ext_iff, Complex.star_def, Complex.conj_re, Complex.conj_im,
    Complex.neg_re, Complex.neg_im] at h00 h11 h01
  have ht' := congrArg Complex.im ht
  simp only [Complex.add_im, Complex.zero_im] at ht'
  have e0 : -2 * (trace (su2Direction 0 * F)).re / 4 = (F 0 1).im := by
    rw [Matrix.trace_fin_two, Matrix.mul_apply, Matrix.mul_apply, Fin.sum_univ_two, Fin.sum_univ_two]; simp [su2Direction]; linarith [h01.2]
  have e1 : -2 * (trace (su2Direction 1 * F)).re / 4 = (F 0 1).re := by
    rw [Matrix.trace_fin_two, Matrix.mul_apply, Matrix.mul_apply, Fin.sum_univ_two, Fin.sum_univ_two]; simp [su2Direction]; linarith [h01.1]
  have e2 : -2 * (trace (su2Direction 2 * F)).re / 4 = (F 0 0).im := by
    rw [Matrix.trace_fin_two, Matrix.mul_apply, Matrix.mul_apply, Fin.sum_univ_two, Fin.sum_univ_two]; simp [su2Direction]; linarith
  have c : ∀ {f g : ℝ → ℝ} {x y : ℝ}, Tendsto f (𝓝[≠] 0) (𝓝 x) → Tendsto g (𝓝[≠] 0) (𝓝 y) →
      Tendsto (fun ε => (⟨f ε, g ε⟩ : ℂ)) (𝓝[≠] 0) (𝓝 ⟨x, y⟩) := fun hf hg =>
    (Complex.equivRealProdCLM.symm.continuous.tendsto _).comp (hf.prodMk_nhds hg)
  have d0 := hd 0; have d1 := hd 1; have d2 := hd 2
  rw [e0] at d0; rw [e1] at d1; rw [e2] at d2
  refine tendsto_pi_nhds.2 fun i => tendsto_pi_nhds.2 fun j => ?_
  fin_cases i <;> fin_cases j
  · have h := c (tendsto_const_nhds (x := (0 : ℝ))) d2
    rw [show (⟨0, (F 0 0).im⟩ : ℂ) = F 0 0 from Complex.ext (by change 0 = (F 0 0).re; linarith [h00.1]) rfl] at h
    exact h
  · exact c d1 d0
  · have h := c d1.neg d0
    rw [show (⟨-(F 0 1).re, (F 0 1).im⟩ : ℂ) = F 1 0 from
      Complex.ext (by change -(F 0 1).re = (F 1 0).re; linarith [h01.1]) (by change (F 0 1).im = (F 1 0).im; linarith [h01.2])] at h
    exact h
  · have h := c (tendsto_const_nhds (x := (0 : ℝ))) d2.neg
    rw [show (⟨0, -(F 0 0).im⟩ : ℂ) = F 1 1 from
      Complex.ext (by change 0 = (F 1 1).re; linarith [h11.1]) (by change -(F 0 0).im = (F 1 1).im; linarith)] at h
    exact h

/-- **C84, the forces of the program.** Any field of forces that conserves kinetic plus potential energy along the equations of motion — which is what the
theorems on the forces show for the program's actions — is the force on every link in the sense used here. -/
theorem C84_conserved [Fintype S] [DecidableEq S] (energy : GField S N → ℝ) (F : GField S N) (U : GField S N) (hF : ∀ s μ, IsLie (F s μ))
    (h : ∀ P : GField S N, (∀ s μ, IsLie (P s μ)) → HasDerivAt (fun t : ℝ =>
      totalEnergy energy (fun s μ => NormedSpace.exp (t • P s μ) * U s μ, fun s μ => P s μ - (t : ℂ) • F s μ)) 0 0) (s : S) (μ : Fin 4) :
    IsForceAt energy U s μ (F s μ) := by
  refine ⟨hF s μ, fun X hX => ?_⟩
  have hP : ∀ s' μ', IsLie ((fun s' μ' => if s' = s ∧ μ' = μ then X else 0 : GField S N) s' μ') := fun s' μ' => by
    simp only []
    split
    · exact hX
    · exact ⟨by simp, by simp⟩
  have h1 := (h _ hP).sub (hasDerivAt_momentaEnergy (fun s' μ' => if s' = s ∧ μ' = μ then X else 0) F)
  rw [sum_single_link s μ X F 2] at h1
  have e : (fun t : ℝ => energy (setLink U s μ (NormedSpace.exp (t • X) * U s μ))) = fun t : ℝ =>
      totalEnergy energy (fun s' μ' => NormedSpace.exp (t • (fun s' μ' => if s' = s ∧ μ' = μ then X else 0 : GField S N) s' μ') * U s' μ',
        fun s' μ' => (fun s' μ' => if s' = s ∧ μ' = μ then X else 0 : GField S N) s' μ' - (t : ℂ) • F s' μ')
      - momentaEnergy (fun s' μ' => (fun s' μ' => if s' = s ∧ μ' = μ then X else 0 : GField S N) s' μ' - (t : ℂ) • F s' μ') := by
    funext t
    rw [setLink_exp]
    simp only [totalEnergy, add_sub_cancel_left]
    rfl
  rw [e]
  refine h1.congr_deriv ?_
  ring

/-- **C84, gauge action.** With the Wilson gauge action the test agrees with the force of the program on every link. -/
theorem C84_wilson [Fintype S] [DecidableEq S] (hN : 0 < N) (T : Torus S) (β : ℝ) (U : GField S (N + 1)) (s : S) (μ : Fin 4) :
    Tendsto (genericTestForce (wilsonEnergy β T) U s μ) (𝓝[≠] 0)
      (𝓝 (gaugeForce β U (wilsonStaple T U s μ) s μ (Fin.last N) (Fin.last N)).im) :=
  C84_generic hN _ U s μ _ ⟨C21_lie_algebra (by omega) β U _ s μ, fun X hX => C21_wilson_derivative T β U s μ X hX⟩

/-- **C84, one component.** `genericTestForce` cannot detect errors elsewhere: from three colours on there is, for every force, a different matrix of the Lie
algebra with the same last diagonal entry, so the two printed numbers agree in the limit although the force is wrong. -/
theorem C84_generic_counterexample [DecidableEq S] (hN : 2 ≤ N) (energy : GField S (N + 1) → ℝ) (U : GField S (N + 1)) (s : S) (μ : Fin 4)
    (F : Mat (N + 1)) (hF : IsForceAt energy U s μ F) :
    ∃ G : Mat (N + 1), IsLie G ∧ ¬ IsForceAt energy U s μ G ∧
      Tendsto (genericTestForce energy U s μ) (𝓝[≠] 0) (𝓝 (G (Fin.last N) (Fin.last N)).im) := by
  set d : Fin (N + 1) → ℂ := fun i => if i.val = 0 then Complex.I else if i.val = 1 then -Complex.I else 0 with hd
  have hX : IsLie (Matrix.diagonal d) := by
    constructor
    · rw [Matrix.diagonal_conjTranspose, Matrix.diagonal_neg]
      congr 1; funext i; simp only [hd, Pi.star_apply]; split_ifs <;> simp
    · rw [Matrix.trace_diagonal]
      obtain ⟨n, rfl⟩ : ∃ n, N = n + 1 := ⟨N - 1, by omega⟩
      rw [Fin.sum_univ_succ, Fin.sum_univ_succ]
      simp [hd]
  have hl : (Matrix.diagonal d : Mat (N + 1)) (Fin.last N) (Fin.last N) = 0 := by
    rw [Matrix.diagonal_apply_eq]; simp only [hd, Fin.val_last]; rw [if_neg (by omega), if_neg (by omega)]
  refine ⟨F + Matrix.diagonal d, ⟨?_, ?_⟩, fun h => ?_, ?_⟩
  · rw [Matrix.conjTranspose_add, hF.1.1, hX.1]; abel
  · rw [Matrix.trace_add, hF.1.2, hX.2, add_zero]
  · have h1 := (hF.2 _ hX).unique (h.2 _ hX)
    rw [Matrix.mul_add, Matrix.trace_add, Complex.add_re] at h1
    have h2 : (trace (Matrix.diagonal d * Matrix.diagonal d : Mat (N + 1))).re = -2 := by
      obtain ⟨n, rfl⟩ : ∃ n, N = n + 1 := ⟨N - 1, by omega⟩
      rw [Matrix.diagonal_mul_diagonal, Matrix.trace_diagonal, Fin.sum_univ_succ, Fin.sum_univ_succ]
      simp [hd]; norm_num
    rw [h2] at h1
    linarith
  · rw [Matrix.add_apply, hl, add_zero]
    exact C84_generic (by omega) energy U s μ F hF

/-- The hypothesis is met by the Wilson gauge action on a `3 × 3 × 4 × 5` lattice. -/
example (U : GField (BoxSite exExt3) 3) (s : BoxSite exExt3) : IsForceAt (wilsonEnergy 6 (boxTorus exExt3 exExt3_pos)) U s 0
    (gaugeForce 6 U (wilsonStaple (boxTorus exExt3 exExt3_pos) U s 0) s 0) :=
  ⟨C21_lie_algebra (by norm_num) 6 U _ s 0, fun X hX => C21_wilson_derivative _ 6 U s 0 X hX⟩

end Leonard
