/-
C85: rational hybrid Monte Carlo samples the gauge action times the rational functions of the fermion matrix, up to a bias that is bounded by
the error of the rational approximations.
-/
import Verif.Rhmc.General

set_option autoImplicit false

namespace Leonard

open Matrix MeasureTheory ProbabilityTheory
open scoped ENNReal NNReal

variable {N n : ℕ} {S κ : Type} [Fintype S] [Fintype κ] [DecidableEq κ]

/-- **C85.** Many sweeps of the algorithm for any number of flavours: standard normal numbers `X` give the momenta, Gaussian fields with
variance one half for real and imaginary parts give one pseudofermion each by the rational functions `heat`, links and momenta are
integrated, and `u` uniform in `[0,1)` decides with the rational functions `metro`.  Let `D² = A` be Hermitian and let the relative error
`heat(x)² metro(x) - 1` of the approximations be at most `ε < 1` at the eigenvalues.  Then expectation values with the
weight `exp(-energy) ∏ heat(λ)²` (product over pseudofermions and eigenvalues) change in `m` sweeps at most by `m` times
`(1-ε)⁻ᵈ - 1` times the largest value of the observable, where `d` is the number of components of all pseudofermions.  For every
integrator, number of levels and list of step numbers for which the integration is defined, and measurable forces with values in the Lie
algebra: in particular the force may use other, less accurate approximations or another operator. -/
theorem C85_bias (eig : EigenSolver N) (he : eig.Correct) (solveShift : GField S N → ℝ → (κ → ℂ) → κ → ℂ) (A : LinkSU S N → Matrix κ κ ℂ)
    (hA : ∀ Q, (A Q).IsHermitian) (hAm : ∀ i j, Measurable fun Q => A Q i j) (heat metro : Fin n → List (ℝ × ℝ))
    (hsolve : ∀ Q j, ∀ p ∈ heat j ++ metro j, ∀ v,
      A Q *ᵥ solveShift (linkMat Q) p.2 v + (p.2 : ℂ) • solveShift (linkMat Q) p.2 v = v)
    (ε : ℝ) (hε0 : 0 ≤ ε) (hε1 : ε < 1)
    (hε : ∀ Q j, ∀ x ∈ spectrum ℝ (A Q), |fractionValue (heat j) x ^ 2 * fractionValue (metro j) x - 1| ≤ ε)
    (energy : GField S N → ℝ) (hE : Measurable fun Q : LinkSU S N => energy (linkMat Q))
    (fermionForce : (Fin n → κ → ℂ) → ℕ → GField S N → GField S N) (gaugeForce : GField S N → GField S N)
    (hLf : ∀ φ k (Q : LinkSU S N) s μ, IsLie (fermionForce φ k (linkMat Q) s μ))
    (hLg : ∀ (Q : LinkSU S N) s μ, IsLie (gaugeForce (linkMat Q) s μ))
    (hFf : ∀ k s μ a b, Measurable fun p : (Fin n → κ → ℂ) × LinkSU S N => fermionForce p.1 k (linkMat p.2) s μ a b)
    (hFg : MeasurableForce gaugeForce)
    (haar : Measure (SU N)) [IsFiniteMeasure haar] [haar.IsMulLeftInvariant] (levels : ℕ) (integrator : String) (steps : List ℕ) (t : ℝ)
    (fs : List NFlavorForce × List ℕ) (hfs : nFlavorForces levels steps = .ok fs) (hd : ∃ l, mdIntegrate integrator fs.1 fs.2 t = .ok l) :
    ∃ sweep : LinkSU S N → (κ × Fin n → ℝ × ℝ) → Draws S N → ℝ → LinkSU S N,
      (∀ Q Y X u, nFlavorExecute (eigenLink eig) solveShift energy fermionForce gaugeForce heat metro levels integrator steps t (momMat X)
        (flavourPart (fermionField Y)) (linkMat Q) u = .ok (linkMat (sweep Q Y X u))) ∧
      let mean : (LinkSU S N → ℝ≥0∞) → LinkSU S N → ℝ≥0∞ := fun f Q =>
        ∫⁻ Y, (∫⁻ X, (∫⁻ u in Set.Ico (0 : ℝ) 1, f (sweep Q Y X u)) ∂gaussianDraws S N) ∂fermionDraws (κ × Fin n)
      let w : LinkSU S N → ℝ≥0∞ := fun Q =>
        ENNReal.ofReal (Real.exp (-energy (linkMat Q)) * ∏ j, ∏ i, fractionValue (heat j) ((hA Q).eigenvalues i) ^ 2)
      ∀ f : LinkSU S N → ℝ≥0∞, Measurable f → ∀ C : ℝ≥0∞, (∀ Q, f Q ≤ C) → ∀ m : ℕ,
        let b := m * (C * (ENNReal.ofReal (((1 - ε) ^ (Fintype.card κ * n))⁻¹ - 1) * ∫⁻ Q, w Q ∂linkMeasure S haar))
        ∫⁻ Q, (mean^[m] f) Q * w Q ∂linkMeasure S haar ≤ ∫⁻ Q, f Q * w Q ∂linkMeasure S haar + b ∧
        ∫⁻ Q, f Q * w Q ∂linkMeasure S haar ≤ ∫⁻ Q, (mean^[m] f) Q * w Q ∂linkMeasure S haar + b := by
  obtain ⟨sweep, h1, h2⟩ := rational_bias eig he solveShift A hA hAm heat metro hsolve ε hε0 hε1 hε energy hE
    (fun φ => nFlavorForce (fermionForce φ) gaugeForce)
    (fun φ i Q s μ => by
      cases i with
      | action => exact isLie_add (hLf _ 0 Q s μ) (hLg Q s μ)
      | fermion k => exact hLf _ k Q s μ
      | gauge => exact hLg Q s μ)
    (fun i s μ k l => by
      cases i with
      | action => exact (hFf 0 s μ k l).add ((hFg s μ k l).comp measurable_snd)
      | fermion j => exact hFf j s μ k l
      | gauge => exact (hFg s μ k l).comp measurable_snd)
    haar integrator fs.1 fs.2 t hd
  refine ⟨sweep, fun Q Y X u => ?_, h2⟩
  unfold nFlavorExecute
  rw [hfs, ok_bind]
  exact h1 Q Y X u

/-- **C85, the fermions.** If the square of the rational function of every pseudofermion is a power `x ^ p` of the eigenvalues up to a factor between
`1 - δ` and `1 + δ`, the weight of the fermions is the power `∑ p` of the determinant up to the same factors: two flavours for
`∑ p = 1`, one for `∑ p = 1/2`. -/
theorem C85_flavours {A : Matrix κ κ ℂ} (hA : A.IsHermitian) (heat : Fin n → List (ℝ × ℝ)) (p : Fin n → ℝ) (δ : ℝ) (hδ : δ ≤ 1)
    (hpos : ∀ x ∈ spectrum ℝ A, 0 < x)
    (h : ∀ j, ∀ x ∈ spectrum ℝ A, (1 - δ) * x ^ p j ≤ fractionValue (heat j) x ^ 2 ∧ fractionValue (heat j) x ^ 2 ≤ (1 + δ) * x ^ p j) :
    (1 - δ) ^ (Fintype.card κ * n) * A.det.re ^ (∑ j, p j) ≤ ∏ j, ∏ i, fractionValue (heat j) (hA.eigenvalues i) ^ 2 ∧
      ∏ j, ∏ i, fractionValue (heat j) (hA.eigenvalues i) ^ 2 ≤ (1 + δ) ^ (Fintype.card κ * n) * A.det.re ^ (∑ j, p j) := by
  have hx : ∀ i, 0 < hA.eigenvalues i := fun i => hpos _ (hA.eigenvalues_mem_spectrum_real i)
  have hdet : A.det.re = ∏ i, hA.eigenvalues i := by
    rw [hA.det_eq_prod_eigenvalues]
    have : (∏ i, ((hA.eigenvalues i : ℝ) : ℂ)) = ((∏ i, hA.eigenvalues i : ℝ) : ℂ) := by push_cast; rfl
    exact (congrArg Complex.re this).trans (Complex.ofReal_re _)
  have hc : ∀ c : ℝ, ∏ j : Fin n, ∏ i, c * hA.eigenvalues i ^ p j = c ^ (Fintype.card κ * n) * A.det.re ^ (∑ j, p j) := by
    intro c
    rw [hdet, Real.rpow_sum_of_pos (Finset.prod_pos fun i _ => hx i)]
    simp_rw [Finset.prod_mul_distrib, Finset.prod_const, Finset.card_univ, Fintype.card_fin]
    rw [← pow_mul]
    congr 1
    exact Finset.prod_congr rfl fun j _ => Real.finset_prod_rpow _ _ (fun i _ => (hx i).le) _
  rw [← hc, ← hc]
  constructor
  · refine Finset.prod_le_prod (fun j _ => Finset.prod_nonneg fun i _ => ?_) fun j _ => Finset.prod_le_prod (fun i _ => ?_) fun i _ => ?_
    · exact mul_nonneg (by linarith) (Real.rpow_nonneg (hx i).le _)
    · exact mul_nonneg (by linarith) (Real.rpow_nonneg (hx i).le _)
    · exact (h j _ (hA.eigenvalues_mem_spectrum_real i)).1
  · refine Finset.prod_le_prod (fun j _ => Finset.prod_nonneg fun i _ => sq_nonneg _) fun j _ => Finset.prod_le_prod (fun i _ => sq_nonneg _) fun i _ => ?_
    exact (h j _ (hA.eigenvalues_mem_spectrum_real i)).2

/-! ### The test of the theory -/

/-- **C85, the number of flavours.** If the rational function of the accept/reject step of every pseudofermion is `x ^ (-p)` at `x = 2`, the number
of flavours printed is twice the sum of the powers. -/
theorem C85_check (force metro heat : Fin n → List (ℝ × ℝ)) (p : Fin n → ℝ) (h : ∀ j, fractionValue (metro j) 2 = 2 ^ (-p j)) :
    (checkTheory force metro heat).1 = 2 * ∑ j, p j := by
  unfold checkTheory
  simp only [fractionEvaluate_eq, h]
  rw [← Real.rpow_sum_of_pos two_pos, Real.log_rpow two_pos, Finset.sum_neg_distrib]
  have : Real.log 2 ≠ 0 := (Real.log_pos one_lt_two).ne'
  field_simp

/-- **C85, no warnings for approximations that match.** -/
theorem C85_check_silent (force metro heat : Fin n → List (ℝ × ℝ)) (h1 : ∀ j, fractionValue (metro j) 2 = fractionValue (force j) 2)
    (h0 : ∀ j, fractionValue (metro j) 2 ≠ 0) (h2 : ∀ j, fractionValue (heat j) 2 ^ 2 * fractionValue (metro j) 2 = 1) :
    (checkTheory force metro heat).2 = (false, false) := by
  unfold checkTheory
  simp only [fractionEvaluate_eq, ← h1]
  have hne : (∏ i, fractionValue (metro i) 2) ≠ 0 := Finset.prod_ne_zero_iff.mpr fun i _ => h0 i
  have e : (∏ i, fractionValue (metro i) 2) * (∏ i, fractionValue (heat i) 2) * (∏ i, fractionValue (heat i) 2) = 1 := by
    rw [← Finset.prod_mul_distrib, ← Finset.prod_mul_distrib]
    refine Finset.prod_eq_one fun j _ => ?_
    rw [← h2 j]
    ring
  rw [div_self hne, e]
  norm_num

/-- **C85, the test looks at a single number.** The approximations of a theory with the wrong power pass the test: one flavour is printed and
there is no warning, although the weight is not the one of one flavour and heat bath and accept/reject step do not match at all. -/
theorem C85_check_counterexample : ∃ metro heat : Fin 1 → List (ℝ × ℝ), checkTheory metro metro heat = (1, false, false) ∧
    fractionValue (heat 0) 8 ^ 2 * fractionValue (metro 0) 8 = 1 / 64 := by
  have hs : (0 : ℝ) < Real.sqrt 2 := Real.sqrt_pos.mpr two_pos
  have hs2 : Real.sqrt 2 * Real.sqrt 2 = 2 := Real.mul_self_sqrt zero_le_two
  have hq : Real.sqrt (Real.sqrt 2) ^ 2 = Real.sqrt 2 := Real.sq_sqrt hs.le
  have v1 : ∀ α x : ℝ, fractionValue [(α, 0)] x = α / x := fun α x => by simp [fractionValue]
  refine ⟨fun _ => [(Real.sqrt 2, 0)], fun _ => [(2 * Real.sqrt (Real.sqrt 2), 0)], ?_, ?_⟩
  · have h1 := C85_check (n := 1) (fun _ => [(Real.sqrt 2, 0)]) (fun _ => [(Real.sqrt 2, 0)]) (fun _ => [(2 * Real.sqrt (Real.sqrt 2), 0)]) (fun _ => 1 / 2)
      (fun _ => by
        rw [v1, Real.rpow_neg zero_le_two, ← Real.sqrt_eq_rpow]
        field_simp
        nlinarith)
    have h2 := C85_check_silent (n := 1) (fun _ => [(Real.sqrt 2, 0)]) (fun _ => [(Real.sqrt 2, 0)]) (fun _ => [(2 * Real.sqrt (Real.sqrt 2), 0)])
      (fun _ => rfl) (fun _ => by rw [v1]; positivity) (fun _ => by rw [v1, v1, div_pow, mul_pow, hq]; nlinarith)
    refine Prod.ext ?_ h2
    rw [h1]
    simp
  · rw [v1, v1, div_pow, mul_pow, hq]
    nlinarith

/-- **C85, the twist.** The twist shifts the argument of every rational function: the theory with twist is the theory of `D² + twist`. -/
theorem C85_twist (twist : ℝ) (rat : List ℝ) (r r0 : List (ℝ × ℝ)) (h : readFraction twist rat = .ok r) (h0 : readFraction 0 rat = .ok r0) (x : ℝ) :
    fractionValue r x = fractionValue r0 (x + twist) := by
  unfold readFraction at h h0
  split at h
  · rename_i he
    rw [if_pos he] at h0
    injection h with h
    injection h0 with h0
    subst h h0
    generalize rat.take (rat.length / 2) = as
    generalize rat.drop (rat.length / 2) = bs
    induction as generalizing bs with
    | nil => simp [fractionValue]
    | cons a as ih =>
      cases bs with
      | nil => simp [fractionValue]
      | cons b bs =>
        have := ih bs
        unfold fractionValue at this ⊢
        simp only [List.map_cons, List.zip_cons_cons, List.sum_cons] at this ⊢
        rw [this, add_zero, show x + (b + twist) = x + twist + b by ring]
  · exact absurd h (by simp)

/-- **C85, the list of an option.** The first half of the list are the numerators, the second half the shifts. -/
theorem C85_read (as bs : List ℝ) (h : as.length = bs.length) : readFraction 0 (as ++ bs) = .ok (as.zip bs) := by
  unfold readFraction
  have h1 : (as ++ bs).length = 2 * as.length := by rw [List.length_append, ← h]; ring
  rw [h1, if_pos (Nat.mul_mod_right 2 _), Nat.mul_div_cancel_left _ two_pos]
  simp

/-- **C85, the number of flavours with a twist.** With twist 2 the number of flavours printed is twice as large as without, for all approximations
that are exact powers at 2 and 4. -/
theorem C85_twist_counterexample (force heat : Fin n → List (ℝ × ℝ)) (rat : Fin n → List ℝ) (metro metro0 : Fin n → List (ℝ × ℝ)) (p : Fin n → ℝ)
    (h : ∀ j, readFraction 2 (rat j) = .ok (metro j)) (h0 : ∀ j, readFraction 0 (rat j) = .ok (metro0 j))
    (hp : ∀ j, ∀ x ∈ ({2, 4} : Set ℝ), fractionValue (metro0 j) x = x ^ (-p j)) :
    (checkTheory force metro heat).1 = 2 * (checkTheory force metro0 heat).1 := by
  rw [C85_check force metro0 heat p fun j => hp j 2 (by simp), C85_check force metro heat (fun j => 2 * p j), ← Finset.mul_sum]
  intro j
  rw [C85_twist 2 (rat j) _ _ (h j) (h0 j), show (2 : ℝ) + 2 = 4 by norm_num, hp j 4 (by simp), show (4 : ℝ) = 2 ^ (2 : ℝ) by norm_num,
    ← Real.rpow_mul zero_le_two]
  congr 1
  ring

/-! ### The hypotheses can be met -/

/-- A Hermitian matrix made of a link, with eigenvalues between 0 and 1/10. -/
noncomputable def exampleSquare (U : Mat N) : Mat N := (1 / 40 : ℂ) • ((1 + U) * (1 + U)ᴴ)

theorem exampleSquare_herm (U : Mat N) : (exampleSquare U).IsHermitian := by
  unfold exampleSquare IsHermitian
  rw [conjTranspose_smul, conjTranspose_mul, conjTranspose_conjTranspose]
  congr 1
  simp

theorem exampleSquare_spectrum (U : Mat N) (hU : U * Uᴴ = 1) : ∀ x ∈ spectrum ℝ (exampleSquare U), 0 ≤ x ∧ x ≤ 1 / 10 := by
  have hs : ∀ v : Fin N → ℂ, star v ⬝ᵥ (exampleSquare U *ᵥ v) = (1 / 40 : ℂ) * (star ((1 + U)ᴴ *ᵥ v) ⬝ᵥ ((1 + U)ᴴ *ᵥ v)) := by
    intro v
    unfold exampleSquare
    rw [smul_mulVec, dotProduct_smul, ← mulVec_mulVec, dotProduct_mulVec, star_mulVec, conjTranspose_conjTranspose, smul_eq_mul]
  have h2 : ∀ v : Fin N → ℂ, star ((1 + U)ᴴ *ᵥ v) ⬝ᵥ ((1 + U)ᴴ *ᵥ v) + star ((1 - U)ᴴ *ᵥ v) ⬝ᵥ ((1 - U)ᴴ *ᵥ v) = 4 * (star v ⬝ᵥ v) := by
    intro v
    have : ∀ B : Mat N, star (Bᴴ *ᵥ v) ⬝ᵥ (Bᴴ *ᵥ v) = star v ⬝ᵥ ((B * Bᴴ) *ᵥ v) := fun B => by
      rw [star_mulVec, conjTranspose_conjTranspose, ← mulVec_mulVec, dotProduct_mulVec (star v)]
    rw [this, this, ← dotProduct_add, ← add_mulVec]
    have e : (1 + U) * (1 + U)ᴴ + (1 - U) * (1 - U)ᴴ = (4 : ℂ) • (1 : Mat N) := by
      rw [conjTranspose_add, conjTranspose_sub, conjTranspose_one]
      have : (1 + U) * (1 + Uᴴ) + (1 - U) * (1 - Uᴴ) = (2 : ℂ) • (1 : Mat N) + (2 : ℂ) • (U * Uᴴ) := by
        simp only [two_smul]
        noncomm_ring
      rw [this, hU, ← add_smul]
      norm_num
    rw [e, smul_mulVec, one_mulVec, dotProduct_smul, smul_eq_mul]
  intro x hx
  rw [(exampleSquare_herm U).spectrum_real_eq_range_eigenvalues] at hx
  obtain ⟨i, rfl⟩ := hx
  have hv := (exampleSquare_herm U).mulVec_eigenvectorBasis i
  generalize (exampleSquare_herm U).eigenvalues i = x at *
  have hnorm : star (((exampleSquare_herm U).eigenvectorBasis i).ofLp) ⬝ᵥ (((exampleSquare_herm U).eigenvectorBasis i).ofLp) = 1 := by
    have h1 := (exampleSquare_herm U).eigenvectorBasis.orthonormal.1 i
    have h3 := EuclideanSpace.inner_eq_star_dotProduct ((exampleSquare_herm U).eigenvectorBasis i) ((exampleSquare_herm U).eigenvectorBasis i)
    rw [inner_self_eq_norm_sq_to_K, h1] at h3
    rw [dotProduct_comm, ← h3]
    simp
  generalize ((exampleSquare_herm U).eigenvectorBasis i).ofLp = v at *
  have e1 := hs v
  rw [hv, dotProduct_smul, hnorm] at e1
  have e2 := h2 v
  rw [hnorm] at e2
  have hpos : ∀ w : Fin N → ℂ, 0 ≤ (star w ⬝ᵥ w).re := fun w => by
    simp only [dotProduct, Complex.re_sum, Pi.star_apply, Complex.star_def, ← Complex.normSq_eq_conj_mul_self, Complex.ofReal_re]
    exact Finset.sum_nonneg fun i _ => Complex.normSq_nonneg _
  have p1 := hpos ((1 + U)ᴴ *ᵥ v)
  have p2 := hpos ((1 - U)ᴴ *ᵥ v)
  generalize star ((1 + U)ᴴ *ᵥ v) ⬝ᵥ (1 + U)ᴴ *ᵥ v = a at *
  generalize star ((1 - U)ᴴ *ᵥ v) ⬝ᵥ (1 - U)ᴴ *ᵥ v = b at *
  have r1 := congrArg Complex.re e1
  have r2 := congrArg Complex.re e2
  simp at r1 r2
  constructor <;> linarith

/-- The hypotheses hold for a matrix that depends on the links, with rational functions that do not match exactly, together with the Wilson
action in two time scales. -/
example (eig : EigenSolver N) (he : eig.Correct) (hN : 0 < N) (T : Torus S) (x : S) (β : ℝ) :
    ∃ sweep : LinkSU S N → (Fin N × Fin 2 → ℝ × ℝ) → Draws S N → ℝ → LinkSU S N, ∀ Q Y X u, nFlavorExecute (eigenLink eig)
      (fun U b (v : Fin N → ℂ) => (exampleSquare (U x 0) + (b : ℂ) • 1)⁻¹ *ᵥ v)
      (wilsonEnergy β T) (fun _ _ _ _ _ => 0) (fun U s μ => gaugeForce β U (wilsonStaple T U s μ) s μ) (fun _ => [(1, 1)]) (fun _ => [(1, 1)]) 1
      "second_order" [5, 3] 1 (momMat X) (flavourPart (fermionField Y)) (linkMat Q) u = .ok (linkMat (sweep Q Y X u)) := by
  have hU : ∀ Q : LinkSU S N, linkMat Q x 0 * (linkMat Q x 0)ᴴ = 1 := fun Q => mem_unitaryGroup_iff.1 (mem_specialUnitaryGroup_iff.1 (Q x 0).2).1
  obtain ⟨sweep, h, -⟩ := C85_bias (n := 2) eig he (fun U b (v : Fin N → ℂ) => (exampleSquare (U x 0) + (b : ℂ) • 1)⁻¹ *ᵥ v)
    (fun Q => exampleSquare (linkMat Q x 0)) (fun Q => exampleSquare_herm _)
    (fun i j => by
      have hc : Continuous fun U : GField S N => exampleSquare (U x 0) :=
        (((continuous_const.add (continuous_link x 0)).matrix_mul (continuous_const.add (continuous_link x 0)).matrix_conjTranspose).const_smul (1 / 40 : ℂ))
      exact ((hc.comp continuous_linkMat).matrix_elem i j).measurable)
    (fun _ => [(1, 1)]) (fun _ => [(1, 1)])
    (fun Q j p hp v => by
      simp only [List.mem_append, List.mem_singleton, or_self] at hp
      subst hp
      have hu : IsUnit (exampleSquare (linkMat Q x 0) + ((1 : ℝ) : ℂ) • (1 : Mat N)).det := by
        have e3 : exampleSquare (linkMat Q x 0) + ((1 : ℝ) : ℂ) • 1 = specFun (exampleSquare_herm (linkMat Q x 0)) fun x => x + 1 := by
          have := specFun_add (exampleSquare_herm (linkMat Q x 0)) id fun _ => 1
          rw [specFun_id, specFun_const] at this
          exact this
        rw [e3, specFun_det, isUnit_iff_ne_zero, Complex.ofReal_ne_zero]
        refine Finset.prod_ne_zero_iff.mpr fun i _ => ?_
        have := (exampleSquare_spectrum _ (hU Q) _ ((exampleSquare_herm (linkMat Q x 0)).eigenvalues_mem_spectrum_real i)).1
        linarith
      have e := mul_nonsing_inv _ hu
      have := congrArg (· *ᵥ v) e
      simp only [one_mulVec, ← mulVec_mulVec, add_mulVec, smul_mulVec] at this
      exact this)
    (1 / 4) (by norm_num) (by norm_num)
    (fun Q j y hy => by
      obtain ⟨h0, h1⟩ := exampleSquare_spectrum _ (hU Q) y hy
      have e : fractionValue [((1 : ℝ), (1 : ℝ))] y = (y + 1)⁻¹ := by simp [fractionValue]
      rw [e]
      have h2 : (y + 1)⁻¹ ≤ 1 := inv_le_one_of_one_le₀ (by linarith)
      have h3 : 10 / 11 ≤ (y + 1)⁻¹ := by rw [le_inv_comm₀ (by norm_num) (by linarith)]; linarith
      generalize (y + 1)⁻¹ = z at *
      rw [abs_le]
      constructor <;> nlinarith [sq_nonneg z, mul_nonneg (sub_nonneg.mpr h3) (sub_nonneg.mpr h3), mul_nonneg (sub_nonneg.mpr h2) (sub_nonneg.mpr h3)])
    (wilsonEnergy β T) (measurable_of_continuous_link _ (continuous_wilsonEnergy β T)) (fun _ _ _ _ _ => 0)
    (fun U s μ => gaugeForce β U (wilsonStaple T U s μ) s μ) (fun _ _ _ _ _ => ⟨by simp, by simp⟩) (fun Q s μ => C21_lie_algebra hN β _ _ s μ)
    (fun _ _ _ _ _ => measurable_const) (measurableForce_of_continuous _ fun s μ => continuous_gaugeForce β _ (continuous_wilsonStaple T s μ) s μ)
    Measure.haar 1 "second_order" [5, 3] 1 ([.fermion 0, .gauge], [5, 3]) rfl ((C43_defined _ _ _ _).mpr (by simp))
  exact ⟨sweep, h⟩

/-- Two flavours from one pseudofermion on a matrix with eigenvalues near 1. -/
example : ∃ δ ≤ (1 : ℝ), ∀ j : Fin 1, ∀ x ∈ spectrum ℝ (1 : Matrix (Fin 2) (Fin 2) ℂ),
    (1 - δ) * x ^ (1 : ℝ) ≤ fractionValue ((fun _ => [(2, 1)] : Fin 1 → List (ℝ × ℝ)) j) x ^ 2 ∧
      fractionValue ((fun _ => [(2, 1)] : Fin 1 → List (ℝ × ℝ)) j) x ^ 2 ≤ (1 + δ) * x ^ (1 : ℝ) := by
  refine ⟨0, zero_le_one, fun j x hx => ?_⟩
  rw [spectrum.one_eq, Set.mem_singleton_iff] at hx
  subst hx
  norm_num [fractionValue]

end Leonard
