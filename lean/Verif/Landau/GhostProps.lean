import Verif.Landau.Ghost
import Verif.Landau.GluonProps

/-!
# C72: the ghost propagator

`M` is the operator that `LandauGhostPropagator` inverts (`ghostMatrix`), the momentum `p` is the `physicalMomentum` of C71.
-/

set_option autoImplicit false

namespace Leonard

open Matrix Vec
open scoped Matrix.Norms.Operator

noncomputable section

variable {S : Type} {N : ℕ} [Fintype S]

/-- The real adjoint field `v` as a field of the solver. -/
def realGhost (v : S → Gen N → ℝ) : GhostField S N := fun x => (v x.1 x.2 : ℂ)

/-- The gauge transformations `exp(i t Σ_a v_a(s) T_a)`. -/
def gaugeRotation (v : S → Gen N → ℝ) (t : ℝ) (s : S) : Mat N := NormedSpace.exp (t • (Complex.I • ∑ a, (v s a : ℂ) • gens N a))

/-- **C72**: the operator is Hermitian. -/
theorem C72_hermitian (T : Torus S) (U : GField S N) (v w : GhostField S N) :
    dot v (ghostMatrix T U w) = dot (ghostMatrix T U v) w := ghostMatrix_hermitian T U v w

/-- **C72**: the operator is the Faddeev-Popov operator of the Landau gauge: its quadratic form is, up to the factor -2, the second
derivative of the functional that the gauge fixing maximises, along the gauge orbit. -/
theorem C72_hessian (T : Torus S) (U : GField S N) (v : S → Gen N → ℝ) :
    HasDerivAt (deriv fun t => landauFunctional (gaugeTransform T (gaugeRotation v t) U))
      (-(dot (realGhost v) (ghostMatrix T U (realGhost v))).re / 2) 0 := by
  refine (orbit_deriv2 T U (fun s => Complex.I • ghostAlgebra v s) (ghostAlgebra_lie v)).congr_deriv ?_
  have h := ghost_form T U v
  have h' : (dot (realGhost v) (ghostMatrix T U (realGhost v))).re = _ := h
  have e : ∀ A B W : Mat N, (trace ((Complex.I • A) * (Complex.I • B) * W)).re = -(trace (A * B * W)).re := by
    intro A B W
    rw [Matrix.smul_mul, Matrix.mul_smul, smul_smul, Complex.I_mul_I, neg_one_smul, Matrix.neg_mul, trace_neg, Complex.neg_re]
  rw [h']
  simp only [e]
  rw [neg_div, mul_div_cancel_left₀ _ (two_ne_zero), ← Finset.sum_neg_distrib]
  refine Finset.sum_congr rfl fun s _ => ?_
  rw [← Finset.sum_neg_distrib]
  exact Finset.sum_congr rfl fun μ _ => by ring

/-- The operator is real. -/
theorem ghostMatrix_real (T : Torus S) (U : GField S N) (v : S → Gen N → ℝ) : ∃ w : S → Gen N → ℝ, ghostMatrix T U (realGhost v) = realGhost w := by
  refine ⟨fun s a => ∑ μ, (∑ b, ghostA T U s μ a b * v s b - ∑ b, ghostB U s μ a b * v (T.sup μ s) b
    - ∑ b, ghostC T U s μ a b * v (T.sdn μ s) b), ?_⟩
  funext x
  simp only [ghostMatrix, realGhost]
  push_cast
  rfl

theorem dot_real (v w : S → Gen N → ℝ) : (dot (realGhost v) (realGhost w)).im = 0 := by
  rw [ghost_dot]
  simp only [Complex.im_sum, realGhost, Complex.conj_ofReal, ← Complex.ofReal_mul, Complex.ofReal_im, Finset.sum_const_zero]

/-- The quadratic form of a complex field. -/
theorem ghost_complex (T : Torus S) (U : GField S N) (a b : S → Gen N → ℝ) :
    (dot (realGhost a + Complex.I • realGhost b) (ghostMatrix T U (realGhost a + Complex.I • realGhost b))).re
      = (dot (realGhost a) (ghostMatrix T U (realGhost a))).re + (dot (realGhost b) (ghostMatrix T U (realGhost b))).re := by
  have hA := ghostMatrix_linear T U
  obtain ⟨wa, ha⟩ := ghostMatrix_real T U a
  obtain ⟨wb, hb⟩ := ghostMatrix_real T U b
  rw [hA.add, hA.smul, add_dot, smul_dot, dot_add, dot_add, dot_smul, dot_smul, ha, hb]
  have h1 := dot_real a wb
  have h2 := dot_real b wa
  simp only [Complex.add_re, Complex.mul_re, Complex.conj_I, Complex.neg_re, Complex.neg_im, Complex.I_re, Complex.I_im, Complex.add_im, Complex.mul_im,
    h1, h2]
  ring

/-- At a maximum the second derivative is not positive. -/
theorem second_deriv_max {F : ℝ → ℝ} {d : ℝ} (hd : ∀ t, DifferentiableAt ℝ F t) (h2 : HasDerivAt (deriv F) d 0) (hmax : ∀ t, F t ≤ F 0) : d ≤ 0 := by
  by_contra hneg
  rw [not_le] at hneg
  have hlm : IsLocalMax F 0 := Filter.Eventually.of_forall hmax
  have hlmin : IsLocalMin F 0 := isLocalMin_of_deriv_deriv_pos (by rw [h2.deriv]; exact hneg) hlm.deriv_eq_zero (hd 0).continuousAt
  have hconst : F =ᶠ[nhds 0] fun _ => F 0 := by
    filter_upwards [hlmin] with t ht
    exact le_antisymm (hmax t) ht
  have hz : deriv F =ᶠ[nhds 0] fun _ => 0 := by
    filter_upwards [hconst.eventuallyEq_nhds] with t ht
    rw [ht.deriv_eq]
    simp
  have := hz.deriv_eq
  rw [h2.deriv, deriv_const] at this
  linarith

omit [Fintype S] in
theorem gaugeRotation_zero (v : S → Gen N → ℝ) (s : S) : gaugeRotation v 0 s = 1 := by
  unfold gaugeRotation
  rw [zero_smul, NormedSpace.exp_zero]

omit [Fintype S] in
theorem gaugeRotation_su (v : S → Gen N → ℝ) (t : ℝ) (s : S) : gaugeRotation v t s ∈ specialUnitaryGroup (Fin N) ℂ := by
  refine exp_mem_su _ ?_
  have hl := ghostAlgebra_lie v s
  unfold ghostAlgebra at hl
  constructor
  · rw [conjTranspose_smul, star_trivial, hl.1, smul_neg]
  · rw [trace_smul, hl.2, smul_zero]

/-- **C72**: at a maximum of the functional over the gauge orbit, as the gauge fixing looks for it, the operator is positive semidefinite: the
configuration is inside the Gribov horizon. -/
theorem C72_gribov (T : Torus S) (U : GField S N)
    (hU : ∀ g : S → Mat N, (∀ s, g s ∈ specialUnitaryGroup (Fin N) ℂ) → landauFunctional (gaugeTransform T g U) ≤ landauFunctional U)
    (v : GhostField S N) : 0 ≤ (dot v (ghostMatrix T U v)).re ∧ (dot v (ghostMatrix T U v)).im = 0 := by
  have real : ∀ w : S → Gen N → ℝ, 0 ≤ (dot (realGhost w) (ghostMatrix T U (realGhost w))).re := by
    intro w
    have h0 : gaugeTransform T (gaugeRotation w 0) U = U := by
      funext s μ
      simp only [gaugeTransform, gaugeRotation_zero, conjTranspose_one, Matrix.one_mul, Matrix.mul_one]
    have h := second_deriv_max (fun t => (orbit_deriv T U (fun s => Complex.I • ghostAlgebra w s) t).differentiableAt) (C72_hessian T U w)
      (fun t => by
        change landauFunctional (gaugeTransform T (gaugeRotation w t) U) ≤ landauFunctional (gaugeTransform T (gaugeRotation w 0) U)
        rw [h0]
        exact hU _ (gaugeRotation_su w t))
    linarith
  constructor
  · have hv : v = realGhost (fun s a => (v (s, a)).re) + Complex.I • realGhost (fun s a => (v (s, a)).im) := by
      funext x
      rw [Pi.add_apply, Pi.smul_apply, smul_eq_mul, mul_comm]
      exact (Complex.re_add_im _).symm
    rw [hv, ghost_complex]
    exact add_nonneg (real _) (real _)
  · have h := dot_conj v (ghostMatrix T U v)
    rw [← ghostMatrix_hermitian] at h
    have := congrArg Complex.im h
    rw [Complex.conj_im] at this
    linarith

/-- **C72**: the operator annihilates the constant fields exactly when the configuration is in the Landau gauge; this is why the momentum zero
is left out. -/
theorem C72_zero_modes (T : Torus S) (U : GField S N) :
    (∀ z : Gen N → ℂ, ghostMatrix T U (fun x => z x.2) = 0) ↔ GaugeStationary landauFunctional T U := by
  classical
  rw [← C47_deviation, landauDeviation_zero_iff]
  constructor
  · intro h s
    have htr : trace (divergence T U s) = 0 := by
      unfold divergence
      rw [trace_sum]
      exact Finset.sum_eq_zero fun μ _ => by rw [trace_sub, trace_lieField, trace_lieField, sub_self]
    have hh : (divergence T U s)ᴴ = divergence T U s := by
      unfold divergence
      rw [conjTranspose_sum]
      exact Finset.sum_congr rfl fun μ _ => by rw [conjTranspose_sub, lieField_herm, lieField_herm]
    refine commutators_vanish _ hh htr fun a b => ?_
    have h1 := congrFun (h fun c => if c = b then 1 else 0) (s, a)
    rw [ghostMatrix_const T U (fun c => if c = b then 1 else 0)] at h1
    simp only [mul_ite, mul_one, mul_zero, Finset.sum_ite_eq', Finset.mem_univ, if_true, Pi.zero_apply] at h1
    exact_mod_cast h1
  · intro h z
    funext ⟨s, a⟩
    rw [ghostMatrix_const, h s]
    simp

/-- **C72**: without gluons, a plane wave of momentum `p` is an eigenvector with eigenvalue `p²`, and the propagator is the volume over `p²`. -/
theorem C72_free (T : Torus S) (n : Fin 4 → ℕ) (hn : ∀ μ, n μ < T.ext μ) (h0 : n ≠ 0) (c : Gen N) :
    0 < ∑ μ, physicalMomentum T.ext n μ ^ 2
      ∧ ghostMatrix T (fun _ _ => 1) (ghostSource T (waveVector T.ext n) c)
        = ((∑ μ, physicalMomentum T.ext n μ ^ 2 : ℝ) : ℂ) • (ghostSource T (waveVector T.ext n) c : GhostField S N)
      ∧ ∀ x : GhostField S N, ghostMatrix T (fun _ _ => 1) x = ghostSource T (waveVector T.ext n) c →
        ghostResult T (waveVector T.ext n) c x = ((Fintype.card S / ∑ μ, physicalMomentum T.ext n μ ^ 2 : ℝ) : ℂ) := by
  have hsq : momentumModulus (waveVector T.ext n) ^ 2 = ∑ μ, physicalMomentum T.ext n μ ^ 2 := by
    rw [momentumModulus_sq]
    simp only [latticeMomentum_wave]
  have hpos : 0 < ∑ μ, physicalMomentum T.ext n μ ^ 2 := by
    rw [← hsq]
    have := modulus_ne_zero T.ext n hn h0
    positivity
  have hw : ghostMatrix T (fun _ _ => 1) (ghostSource T (waveVector T.ext n) c)
      = ((∑ μ, physicalMomentum T.ext n μ ^ 2 : ℝ) : ℂ) • (ghostSource T (waveVector T.ext n) c : GhostField S N) := by
    rw [ghost_wave, hsq]
  refine ⟨hpos, hw, fun x hx => ?_⟩
  have h1 := ghostMatrix_hermitian T (fun _ _ => (1 : Mat N)) (ghostSource T (waveVector T.ext n) c) x
  rw [hx, hw, smul_dot, Complex.conj_ofReal, ← ghostResult_eq T (waveVector T.ext n) c x] at h1
  have hss : dot (ghostSource T (waveVector T.ext n) c : GhostField S N) (ghostSource T (waveVector T.ext n) c) = (Fintype.card S : ℂ) := by
    rw [ghost_dot]
    have : ∀ s : S, ∑ a, starRingEnd ℂ (ghostSource T (waveVector T.ext n) c (s, a)) * ghostSource T (waveVector T.ext n) c (s, a) = 1 := by
      intro s
      rw [Finset.sum_eq_single c]
      · rw [ghostSource_eq, if_pos rfl, ← Complex.star_def, star_eix, mul_comm, eix_mul_neg]
      · intro a _ ha
        rw [ghostSource_eq, if_neg ha, mul_zero]
      · intro h; exact absurd (Finset.mem_univ _) h
    simp [this]
  rw [hss] at h1
  rw [Complex.ofReal_div, eq_div_iff (by exact_mod_cast hpos.ne'), mul_comm, ← h1]
  simp

/-- **C72**, the solver: if it reports success, then there is a field `y` such that either the number stored is the propagator read from `y`
and the residual of `y` is below the precision, or the residual of `y` is annihilated by the operator. What is missing is that in the second
case the number stored has nothing to do with `y`, see `C72_free_counterexample`. -/
theorem C72_solver_partial (T : Torus S) (U : GField S N) (k : Fin 4 → ℝ) (c : Gen N) (ε : ℝ) (maxSteps : ℕ) (z : ℂ)
    (h : ghostBicg T U k c ε maxSteps = .ok (true, z)) :
    ∃ y, (z = ghostResult T k c y ∧ norm2 (ghostSource T k c - ghostMatrix T U y) < ε)
      ∨ ghostMatrix T U (ghostSource T k c - ghostMatrix T U y) = 0 :=
  ghostLoop_true T (ghostMatrix_linear T U) k c ε (ghostSource T k c) _ maxSteps _ _ _ _ _ _ _ _ _ _ rfl h

/-- **C72**, accuracy: a field whose residual is below the precision gives the exact propagator up to `‖M⁻¹ source‖ √ε`. -/
theorem C72_accuracy (T : Torus S) (U : GField S N) (k : Fin 4 → ℝ) (c : Gen N) (ε : ℝ) (y x : GhostField S N)
    (hy : norm2 (ghostSource T k c - ghostMatrix T U y) < ε) (hx : ghostMatrix T U x = ghostSource T k c) :
    ‖ghostResult T k c y - ghostResult T k c x‖ ≤ Real.sqrt (norm2 x) * Real.sqrt ε := by
  rw [ghostResult_eq, ghostResult_eq, ← dot_sub]
  have h : dot (ghostSource T k c) (y - x) = dot x (-(ghostSource T k c - ghostMatrix T U y)) := by
    conv_lhs => rw [← hx]
    rw [← ghostMatrix_hermitian, (ghostMatrix_linear T U).sub, hx, neg_sub]
  rw [h, dot_neg, norm_neg]
  refine (ghost_cauchy _ _).trans ?_
  exact mul_le_mul_of_nonneg_left (Real.sqrt_le_sqrt hy.le) (Real.sqrt_nonneg _)

/-- The first step on the trivial configuration. -/
theorem ghostBicg_one (T : Torus S) (n : Fin 4 → ℕ) (hn : ∀ μ, n μ < T.ext μ) (h0 : n ≠ 0) (c : Gen N) (ε : ℝ) (m : ℕ) :
    ghostBicg T (fun _ _ => (1 : Mat N)) (waveVector T.ext n) c ε (m + 1)
      = if Fintype.card S = 0 ∨ ∑ μ, physicalMomentum T.ext n μ ^ 2 = 1 then .ok (false, 0)
        else if (lieGenerators N).length < 4 then .ub else .ok (true, 0) := by
  obtain ⟨hpos, hw, -⟩ := C72_free T n hn h0 c
  obtain ⟨w, hwd⟩ : ∃ w : GhostField S N, w = ghostSource T (waveVector T.ext n) c := ⟨_, rfl⟩
  obtain ⟨l, hl⟩ : ∃ l, l = ∑ μ, physicalMomentum T.ext n μ ^ 2 := ⟨_, rfl⟩
  obtain ⟨A, hA⟩ : ∃ A : GhostField S N → GhostField S N, A = ghostMatrix T (fun _ _ => 1) := ⟨_, rfl⟩
  have hlin : Linear A := by rw [hA]; exact ghostMatrix_linear T _
  rw [← hwd, ← hl, ← hA] at hw
  rw [← hl] at hpos ⊢
  have hlc : (l : ℂ) ≠ 0 := by exact_mod_cast hpos.ne'
  have hss : dot w w = (Fintype.card S : ℂ) := by
    have h1 : ∀ s : S, ∑ a, starRingEnd ℂ (ghostSource T (waveVector T.ext n) c (s, a)) * ghostSource T (waveVector T.ext n) c (s, a) = 1 := by
      intro s
      rw [Finset.sum_eq_single c]
      · rw [ghostSource_eq, if_pos rfl, ← Complex.star_def, star_eix, mul_comm, eix_mul_neg]
      · intro a _ ha
        rw [ghostSource_eq, if_neg ha, mul_zero]
      · intro h; exact absurd (Finset.mem_univ _) h
    rw [hwd, ghost_dot]
    simp [h1]
  have hr : w - A w = ((1 - l : ℝ) : ℂ) • w := by
    rw [hw, Complex.ofReal_sub, sub_smul, Complex.ofReal_one, one_smul]
  have hrh : w + A w = ((1 + l : ℝ) : ℂ) • w := by
    rw [hw, Complex.ofReal_add, add_smul, Complex.ofReal_one, one_smul]
  have hrho : dot (w + A w) (w - A w) = (((1 + l) * (1 - l) * Fintype.card S : ℝ) : ℂ) := by
    rw [hr, hrh, smul_dot, dot_smul, hss, Complex.conj_ofReal]
    push_cast
    ring
  have hnu : A (w - A w) = (l : ℂ) • (w - A w) := by
    rw [hr, hlin.smul, hw, smul_comm]
  have halpha : dot (w + A w) (A (w - A w)) = (l : ℂ) * (((1 + l) * (1 - l) * Fintype.card S : ℝ) : ℂ) := by
    rw [hnu, dot_smul, hrho]
  unfold ghostBicg
  simp only [← hwd, ← hA]
  unfold ghostLoop
  simp only [smul_zero, sub_zero, add_zero, hrho, halpha, one_ne_zero, if_false]
  by_cases hz : Fintype.card S = 0 ∨ l = 1
  · rw [if_pos hz, if_pos]
    rcases hz with hz | hz
    · rw [hz]; simp
    · rw [hz]; simp
  · rw [not_or] at hz
    have hne : ((((1 + l) * (1 - l) * Fintype.card S : ℝ)) : ℂ) ≠ 0 := by
      have h1 : (1 + l) ≠ 0 := by linarith
      have h2 : (1 - l) ≠ 0 := sub_ne_zero.2 (Ne.symm hz.2)
      have h3 : (Fintype.card S : ℝ) ≠ 0 := by exact_mod_cast hz.1
      exact_mod_cast mul_ne_zero (mul_ne_zero h1 h2) h3
    rw [if_neg (not_or.2 hz), if_neg hne, if_neg (mul_ne_zero hlc hne)]
    obtain ⟨q, hq⟩ : ∃ q : ℂ, q = (((1 + l) * (1 - l) * Fintype.card S : ℝ) : ℂ) := ⟨_, rfl⟩
    rw [← hq] at hne ⊢
    have hs : w - A w - (q / (l * q)) • A (w - A w) = 0 := by
      rw [hnu, smul_smul]
      have : q / (l * q) * l = 1 := by field_simp
      rw [this, one_smul, sub_self]
    rw [hs, hlin.zero, zero_dot, Complex.zero_re, if_pos rfl]

/-- **C72** fails without gluons: whatever the lattice, the number of colours from three on, the momentum, the precision and the number of
steps, the solver leaves the propagator at zero, although it is the volume over `p²`. -/
theorem C72_free_counterexample (T : Torus S) (hN : 3 ≤ N) (n : Fin 4 → ℕ) (hn : ∀ μ, n μ < T.ext μ) (h0 : n ≠ 0) (c : Gen N) (ε : ℝ) (maxSteps : ℕ) :
    ∃ b, ghostBicg T (fun _ _ => (1 : Mat N)) (waveVector T.ext n) c ε maxSteps = .ok (b, 0) := by
  have h4 : ¬ (lieGenerators N).length < 4 := by
    rw [C30_number N (by omega)]
    have : 9 ≤ N ^ 2 := by nlinarith
    omega
  cases maxSteps with
  | zero => exact ⟨false, rfl⟩
  | succ m =>
    rw [ghostBicg_one T n hn h0, if_neg h4]
    split
    · exact ⟨false, rfl⟩
    · exact ⟨true, rfl⟩

/-- **C72** fails for two colours: without gluons the solver writes past the end of the colour vectors, unless `p² = 1`. -/
theorem C72_two_colours_counterexample [Nonempty S] (T : Torus S) (n : Fin 4 → ℕ) (hn : ∀ μ, n μ < T.ext μ) (h0 : n ≠ 0)
    (h1 : ∑ μ, physicalMomentum T.ext n μ ^ 2 ≠ 1) (c : Gen 2) (ε : ℝ) (maxSteps : ℕ) (hm : 0 < maxSteps) :
    ghostBicg T (fun _ _ => (1 : Mat 2)) (waveVector T.ext n) c ε maxSteps = .ub := by
  obtain ⟨m, rfl⟩ := Nat.exists_eq_succ_of_ne_zero hm.ne'
  rw [ghostBicg_one T n hn h0, if_neg (not_or.2 ⟨Fintype.card_ne_zero, h1⟩), if_pos]
  rw [C30_number 2 (by norm_num)]
  norm_num

/-! ## The hypotheses can be met -/

example : (∃ n : Fin 4 → ℕ, n ≠ 0 ∧ (∀ μ, n μ < (boxTorus exExt3 exExt3_pos).ext μ)
      ∧ ∃ x : GhostField (BoxSite exExt3) 3, ghostMatrix (boxTorus exExt3 exExt3_pos) (fun _ _ => 1) x
        = ghostSource (boxTorus exExt3 exExt3_pos) (waveVector (boxTorus exExt3 exExt3_pos).ext n) ⟨0, by rw [C30_number 3 (by norm_num)]; norm_num⟩)
    ∧ ∀ g : BoxSite exExt3 → Mat 3, (∀ s, g s ∈ specialUnitaryGroup (Fin 3) ℂ) →
      landauFunctional (gaugeTransform (boxTorus exExt3 exExt3_pos) g fun _ _ => 1) ≤ landauFunctional (fun (_ : BoxSite exExt3) (_ : Fin 4) => (1 : Mat 3)) := by
  constructor
  · refine ⟨![1, 0, 2, 1], ?_, ?_, ?_⟩
    · intro h; have := congrFun h 0; simp at this
    · intro μ; fin_cases μ <;> decide
    · obtain ⟨hp, hw, -⟩ := C72_free (boxTorus exExt3 exExt3_pos) ![1, 0, 2, 1] (by intro μ; fin_cases μ <;> decide)
        (by intro h; have := congrFun h 0; simp at this) (⟨0, by rw [C30_number 3 (by norm_num)]; norm_num⟩ : Gen 3)
      refine ⟨((∑ μ, physicalMomentum (boxTorus exExt3 exExt3_pos).ext ![1, 0, 2, 1] μ ^ 2 : ℝ) : ℂ)⁻¹ • ghostSource (boxTorus exExt3 exExt3_pos)
        (waveVector (boxTorus exExt3 exExt3_pos).ext ![1, 0, 2, 1]) ⟨0, by rw [C30_number 3 (by norm_num)]; norm_num⟩, ?_⟩
      rw [(ghostMatrix_linear _ _).smul, hw, smul_smul, inv_mul_cancel₀ (by exact_mod_cast hp.ne'), one_smul]
  · intro g hg
    unfold landauFunctional gaugeTransform
    refine Finset.sum_le_sum fun s _ => Finset.sum_le_sum fun μ _ => ?_
    rw [Matrix.mul_one, trace_one]
    have hu : g s * (g ((boxTorus exExt3 exExt3_pos).sup μ s))ᴴ ∈ unitaryGroup (Fin 3) ℂ :=
      mul_mem (mem_specialUnitaryGroup_iff.1 (hg s)).1 (Unitary.star_mem (mem_specialUnitaryGroup_iff.1 (hg _)).1)
    have := (Complex.re_le_norm _).trans (norm_trace_unitary_le hu)
    simpa using this

end

end Leonard
