import Verif.Landau.GluonLemmas
import Verif.Solver.Lemmas
import Verif.Gauge.ExpMapProps
import Mathlib.Analysis.Calculus.DerivativeTest

/-!
# The Faddeev-Popov operator
-/

set_option autoImplicit false

namespace Leonard

open Matrix Vec
open scoped Matrix.Norms.Operator

noncomputable section

variable {S : Type} {N : ℕ} [Fintype S]

theorem ghostMatrix_linear (T : Torus S) (U : GField S N) : Linear (ghostMatrix T U) := by
  constructor
  · intro v w
    funext x
    simp only [ghostMatrix, Pi.add_apply, mul_add, Finset.sum_add_distrib]
    rw [← Finset.sum_add_distrib]
    exact Finset.sum_congr rfl fun μ _ => by ring
  · intro a v
    funext x
    simp only [ghostMatrix, Pi.smul_apply, smul_eq_mul, Finset.mul_sum]
    refine Finset.sum_congr rfl fun μ _ => ?_
    simp only [mul_sub, Finset.mul_sum]
    congr 1
    · congr 1 <;> exact Finset.sum_congr rfl fun b _ => by ring
    · exact Finset.sum_congr rfl fun b _ => by ring

theorem ghost_dot (v w : GhostField S N) : dot v w = ∑ s, ∑ a, starRingEnd ℂ (v (s, a)) * w (s, a) := by
  change ∑ m, starRingEnd ℂ (v m) * w m = _
  rw [Fintype.sum_prod_type]

/-! ### Three parts -/

/-- The diagonal part. -/
def ghostDiag (T : Torus S) (U : GField S N) (v w : GhostField S N) (μ : Fin 4) : ℂ :=
  ∑ s, ∑ a, ∑ b, starRingEnd ℂ (v (s, a)) * ((ghostA T U s μ a b : ℂ) * w (s, b))

/-- The forward part. -/
def ghostHop (T : Torus S) (U : GField S N) (v w : GhostField S N) (μ : Fin 4) : ℂ :=
  ∑ s, ∑ a, ∑ b, starRingEnd ℂ (v (s, a)) * ((ghostB U s μ a b : ℂ) * w (T.sup μ s, b))

/-- The backward part. -/
def ghostBack (T : Torus S) (U : GField S N) (v w : GhostField S N) (μ : Fin 4) : ℂ :=
  ∑ s, ∑ a, ∑ b, starRingEnd ℂ (v (T.sup μ s, b)) * ((ghostB U s μ a b : ℂ) * w (s, a))

omit [Fintype S] in
theorem ghostC_sup (T : Torus S) (U : GField S N) (s : S) (μ : Fin 4) (a b : Gen N) : ghostC T U (T.sup μ s) μ a b = ghostB U s μ b a := by
  unfold ghostC ghostB
  rw [T.sdn_sup]

theorem dot_ghostMatrix (T : Torus S) (U : GField S N) (v w : GhostField S N) :
    dot v (ghostMatrix T U w) = ∑ μ, (ghostDiag T U v w μ - ghostHop T U v w μ - ghostBack T U v w μ) := by
  have hback : ∀ μ, ghostBack T U v w μ = ∑ s, ∑ a, ∑ b, starRingEnd ℂ (v (s, a)) * ((ghostC T U s μ a b : ℂ) * w (T.sdn μ s, b)) := by
    intro μ
    rw [← Equiv.sum_comp (T.sup μ)]
    unfold ghostBack
    refine Finset.sum_congr rfl fun s _ => ?_
    rw [Finset.sum_comm]
    simp only [ghostC_sup, T.sdn_sup]
  rw [ghost_dot]
  simp only [hback, ghostDiag, ghostHop, ghostMatrix, Finset.mul_sum, mul_sub, Finset.sum_sub_distrib]
  congr 1
  · congr 1
    · rw [Finset.sum_comm' (s := Finset.univ (α := Fin 4)) (t := fun _ => Finset.univ) (t' := Finset.univ) (s' := fun _ => Finset.univ) (by simp)]
      exact Finset.sum_congr rfl fun s _ => Finset.sum_comm
    · rw [Finset.sum_comm' (s := Finset.univ (α := Fin 4)) (t := fun _ => Finset.univ) (t' := Finset.univ) (s' := fun _ => Finset.univ) (by simp)]
      exact Finset.sum_congr rfl fun s _ => Finset.sum_comm
  · rw [Finset.sum_comm' (s := Finset.univ (α := Fin 4)) (t := fun _ => Finset.univ) (t' := Finset.univ) (s' := fun _ => Finset.univ) (by simp)]
    exact Finset.sum_congr rfl fun s _ => Finset.sum_comm

theorem ghostDiag_conj (T : Torus S) (U : GField S N) (v w : GhostField S N) (μ : Fin 4) :
    starRingEnd ℂ (ghostDiag T U v w μ) = ghostDiag T U w v μ := by
  unfold ghostDiag
  simp only [map_sum, map_mul, Complex.conj_conj, Complex.conj_ofReal]
  refine Finset.sum_congr rfl fun s _ => ?_
  rw [Finset.sum_comm]
  refine Finset.sum_congr rfl fun a _ => Finset.sum_congr rfl fun b _ => ?_
  have : ghostA T U s μ b a = ghostA T U s μ a b := by unfold ghostA; rw [add_comm]
  rw [this]
  ring

theorem ghostHop_conj (T : Torus S) (U : GField S N) (v w : GhostField S N) (μ : Fin 4) :
    starRingEnd ℂ (ghostHop T U v w μ) = ghostBack T U w v μ := by
  unfold ghostHop ghostBack
  simp only [map_sum, map_mul, Complex.conj_conj, Complex.conj_ofReal]
  exact Finset.sum_congr rfl fun s _ => Finset.sum_congr rfl fun a _ => Finset.sum_congr rfl fun b _ => by ring

theorem ghostMatrix_hermitian (T : Torus S) (U : GField S N) (v w : GhostField S N) :
    dot v (ghostMatrix T U w) = dot (ghostMatrix T U v) w := by
  rw [← dot_conj w, dot_ghostMatrix, dot_ghostMatrix, map_sum]
  refine Finset.sum_congr rfl fun μ _ => ?_
  rw [map_sub, map_sub, ghostDiag_conj, ghostHop_conj, ← ghostHop_conj T U v w, Complex.conj_conj]
  ring

/-! ### Constant fields -/

omit [Fintype S] in
theorem commutator_lie (a b : Gen N) : IsLie (gens N a * gens N b - gens N b * gens N a) := by
  have hg := C30_generators N
  constructor
  · rw [conjTranspose_sub, conjTranspose_mul, conjTranspose_mul, hg.hermitian, hg.hermitian, neg_sub]
  · rw [trace_sub, trace_mul_comm, sub_self]

theorem ghostMatrix_const (T : Torus S) (U : GField S N) (z : Gen N → ℂ) (s : S) (a : Gen N) :
    ghostMatrix T U (fun x => z x.2) (s, a)
      = ∑ b, (((trace ((gens N a * gens N b - gens N b * gens N a) * (Complex.I • divergence T U s))).re : ℝ) : ℂ) * z b := by
  unfold ghostMatrix
  simp only [← Finset.sum_sub_distrib]
  rw [Finset.sum_comm]
  refine Finset.sum_congr rfl fun b _ => ?_
  have h : (trace ((gens N a * gens N b - gens N b * gens N a) * (Complex.I • divergence T U s))).re
      = ∑ μ, (ghostA T U s μ a b - ghostB U s μ a b - ghostC T U s μ a b) := by
    unfold divergence
    rw [Finset.smul_sum, Finset.mul_sum, trace_sum, Complex.re_sum]
    refine Finset.sum_congr rfl fun μ _ => ?_
    rw [lieField_sub, ← re_trace_lie _ _ (commutator_lie a b)]
    unfold ghostA ghostB ghostC
    simp only [Matrix.mul_sub, Matrix.sub_mul, Matrix.mul_add, Matrix.add_mul, trace_sub, trace_add, Complex.sub_re, Complex.add_re]
    ring
  rw [h, Complex.ofReal_sum, Finset.sum_mul]
  refine Finset.sum_congr rfl fun μ _ => ?_
  push_cast
  ring

omit [Fintype S] in
/-- A matrix that commutes with all generators is a multiple of the identity. -/
theorem traceless_central (D : Mat N) (hD : trace D = 0) (h : ∀ b, gens N b * D = D * gens N b) : D = 0 := by
  by_cases hN : N = 0
  · subst hN; ext i; exact i.elim0
  have hc : ∀ M : Mat N, M * D = D * M := by
    intro M
    have hN' : (N : ℂ) ≠ 0 := by exact_mod_cast hN
    obtain ⟨M0, hM0⟩ : ∃ M0, M0 = M - (trace M / N) • (1 : Mat N) := ⟨_, rfl⟩
    have ht : trace M0 = 0 := by
      rw [hM0, trace_sub, trace_smul, trace_one, Fintype.card_fin, smul_eq_mul, div_mul_cancel₀ _ hN', sub_self]
    have h0 : M0 * D = D * M0 := by
      rw [C30_complete N M0 ht, Finset.sum_mul, Finset.mul_sum]
      exact Finset.sum_congr rfl fun b _ => by rw [Matrix.smul_mul, Matrix.mul_smul, h]
    have hM : M = M0 + (trace M / N) • (1 : Mat N) := by rw [hM0]; abel
    rw [hM, Matrix.add_mul, Matrix.mul_add, h0, Matrix.smul_mul, Matrix.mul_smul, Matrix.one_mul, Matrix.mul_one]
  have hs : ∃ r : ℂ, D = r • (1 : Mat N) := by
    have i0 : Fin N := ⟨0, Nat.pos_of_ne_zero hN⟩
    refine ⟨D i0 i0, ?_⟩
    ext i j
    have e := congrFun (congrFun (hc (Matrix.single i0 i 1)) i0) j
    rw [Matrix.single_mul_apply_same] at e
    by_cases hij : i = j
    · subst hij
      rw [Matrix.mul_single_apply_same] at e
      rw [Matrix.smul_apply, Matrix.one_apply_eq, smul_eq_mul, mul_one]
      simpa using e
    · rw [Matrix.mul_single_apply_of_ne _ _ _ _ _ (Ne.symm hij)] at e
      rw [Matrix.smul_apply, Matrix.one_apply_ne hij, smul_zero]
      simpa using e
  obtain ⟨r, hr⟩ := hs
  rw [hr, trace_smul, trace_one, Fintype.card_fin, smul_eq_mul, mul_eq_zero] at hD
  rcases hD with h1 | h1
  · rw [hr, h1, zero_smul]
  · exact absurd (by exact_mod_cast h1) hN

omit [Fintype S] in
theorem commutators_vanish (D : Mat N) (hD : Dᴴ = D) (ht : trace D = 0)
    (h : ∀ a b, (trace ((gens N a * gens N b - gens N b * gens N a) * (Complex.I • D))).re = 0) : D = 0 := by
  have hg := C30_generators N
  refine traceless_central D ht fun b => ?_
  have h1 : ∀ a, trace (gens N a * (gens N b * D - D * gens N b)) = 0 := by
    intro a
    have e : trace (gens N a * (gens N b * D - D * gens N b)) = trace ((gens N a * gens N b - gens N b * gens N a) * D) := by
      rw [Matrix.mul_sub, Matrix.sub_mul, trace_sub, trace_sub, ← Matrix.mul_assoc, ← Matrix.mul_assoc, trace_mul_comm (gens N a * D),
        ← Matrix.mul_assoc]
    have him : (trace ((gens N a * gens N b - gens N b * gens N a) * D)).im = 0 := by
      have := h a b
      rw [Matrix.mul_smul, trace_smul, smul_eq_mul, Complex.mul_re] at this
      simpa using this
    have hst : star (trace ((gens N a * gens N b - gens N b * gens N a) * D)) = -trace ((gens N a * gens N b - gens N b * gens N a) * D) := by
      rw [← trace_conjTranspose, conjTranspose_mul, hD, (commutator_lie a b).1, Matrix.mul_neg, trace_neg, trace_mul_comm]
    have hre : (trace ((gens N a * gens N b - gens N b * gens N a) * D)).re = 0 := by
      have := congrArg Complex.re hst
      rw [Complex.star_def, Complex.conj_re, Complex.neg_re] at this
      linarith
    rw [e]
    exact Complex.ext hre him
  have htr : trace (gens N b * D - D * gens N b) = 0 := by rw [trace_sub, trace_mul_comm, sub_self]
  have := C30_complete N _ htr
  rw [← sub_eq_zero, this]
  exact Finset.sum_eq_zero fun a _ => by rw [h1, mul_zero, zero_smul]

/-! ### The second derivative of the functional -/

/-- The matrices of a real adjoint field. -/
def ghostAlgebra (v : S → Gen N → ℝ) (s : S) : Mat N := ∑ a, (v s a : ℂ) • gens N a

omit [Fintype S] in
theorem ghostAlgebra_herm (v : S → Gen N → ℝ) (s : S) : (ghostAlgebra v s)ᴴ = ghostAlgebra v s := by
  unfold ghostAlgebra
  rw [conjTranspose_sum]
  exact Finset.sum_congr rfl fun a _ => by rw [conjTranspose_smul, (C30_generators N).hermitian, Complex.star_def, Complex.conj_ofReal]

omit [Fintype S] in
theorem ghostAlgebra_lie (v : S → Gen N → ℝ) (s : S) : IsLie (Complex.I • ghostAlgebra v s) := by
  constructor
  · rw [conjTranspose_smul, ghostAlgebra_herm, Complex.star_def, Complex.conj_I, neg_smul]
  · rw [trace_smul]
    unfold ghostAlgebra
    rw [trace_sum, Finset.sum_eq_zero fun a _ => by rw [trace_smul, (C30_generators N).traceless, smul_zero], smul_zero]

omit [Fintype S] in
theorem sum_sum_gens (x y : Gen N → ℝ) (W : Mat N) :
    ∑ a, ∑ b, x a * y b * (trace (gens N a * gens N b * W)).re = (trace ((∑ a, (x a : ℂ) • gens N a) * (∑ b, (y b : ℂ) • gens N b) * W)).re := by
  rw [Finset.sum_mul_sum, Finset.sum_mul, trace_sum, Complex.re_sum]
  refine Finset.sum_congr rfl fun a _ => ?_
  rw [Finset.sum_mul, trace_sum, Complex.re_sum]
  refine Finset.sum_congr rfl fun b _ => ?_
  rw [Matrix.smul_mul, Matrix.mul_smul, smul_smul, Matrix.smul_mul, trace_smul, smul_eq_mul, ← Complex.ofReal_mul, Complex.re_ofReal_mul]

/-- The quadratic form of the operator. -/
theorem ghost_form (T : Torus S) (U : GField S N) (v : S → Gen N → ℝ) :
    (dot (fun x : S × Gen N => (v x.1 x.2 : ℂ)) (ghostMatrix T U fun x => (v x.1 x.2 : ℂ))).re
      = 2 * ∑ s, ∑ μ, ((trace (ghostAlgebra v s * ghostAlgebra v s * U s μ)).re
        + (trace (ghostAlgebra v (T.sup μ s) * ghostAlgebra v (T.sup μ s) * U s μ)).re
        - 2 * (trace (ghostAlgebra v (T.sup μ s) * ghostAlgebra v s * U s μ)).re) := by
  have hd : ∀ μ, (ghostDiag T U (fun x => (v x.1 x.2 : ℂ)) (fun x => (v x.1 x.2 : ℂ)) μ).re
      = ∑ s, 2 * (trace (ghostAlgebra v s * ghostAlgebra v s * (U s μ + U (T.sdn μ s) μ))).re := by
    intro μ
    unfold ghostDiag
    simp only [Complex.re_sum]
    refine Finset.sum_congr rfl fun s _ => ?_
    have h1 := sum_sum_gens (v s) (v s) (U s μ + U (T.sdn μ s) μ)
    have h2 : ∑ a, ∑ b, v s a * v s b * (trace (gens N b * gens N a * (U s μ + U (T.sdn μ s) μ))).re
        = ∑ a, ∑ b, v s a * v s b * (trace (gens N a * gens N b * (U s μ + U (T.sdn μ s) μ))).re := by
      rw [Finset.sum_comm]
      exact Finset.sum_congr rfl fun a _ => Finset.sum_congr rfl fun b _ => by ring
    have h3 : ∑ a, ∑ b, (starRingEnd ℂ (v s a : ℂ) * ((ghostA T U s μ a b : ℂ) * (v s b : ℂ))).re
        = (∑ a, ∑ b, v s a * v s b * (trace (gens N a * gens N b * (U s μ + U (T.sdn μ s) μ))).re)
          + ∑ a, ∑ b, v s a * v s b * (trace (gens N b * gens N a * (U s μ + U (T.sdn μ s) μ))).re := by
      rw [← Finset.sum_add_distrib]
      refine Finset.sum_congr rfl fun a _ => ?_
      rw [← Finset.sum_add_distrib]
      refine Finset.sum_congr rfl fun b _ => ?_
      rw [Complex.conj_ofReal, ← Complex.ofReal_mul, ← Complex.ofReal_mul, Complex.ofReal_re]
      unfold ghostA
      rw [Matrix.add_mul, trace_add, Complex.add_re]
      ring
    rw [h3, h2, h1]
    unfold ghostAlgebra
    ring
  have hh : ∀ μ, (ghostHop T U (fun x => (v x.1 x.2 : ℂ)) (fun x => (v x.1 x.2 : ℂ)) μ).re
      = ∑ s, 2 * (trace (ghostAlgebra v (T.sup μ s) * ghostAlgebra v s * U s μ)).re := by
    intro μ
    unfold ghostHop
    simp only [Complex.re_sum]
    refine Finset.sum_congr rfl fun s _ => ?_
    have h1 := sum_sum_gens (v (T.sup μ s)) (v s) (U s μ)
    rw [Finset.sum_comm] at h1
    unfold ghostAlgebra
    rw [← h1, Finset.mul_sum]
    refine Finset.sum_congr rfl fun a _ => ?_
    rw [Finset.mul_sum]
    refine Finset.sum_congr rfl fun b _ => ?_
    rw [Complex.conj_ofReal, ← Complex.ofReal_mul, ← Complex.ofReal_mul, Complex.ofReal_re]
    unfold ghostB
    ring
  have hb : ∀ μ, (ghostBack T U (fun x => (v x.1 x.2 : ℂ)) (fun x => (v x.1 x.2 : ℂ)) μ).re
      = (ghostHop T U (fun x => (v x.1 x.2 : ℂ)) (fun x => (v x.1 x.2 : ℂ)) μ).re := by
    intro μ
    rw [← ghostHop_conj, Complex.conj_re]
  have hs : ∀ μ, ∑ s, (trace (ghostAlgebra v s * ghostAlgebra v s * U (T.sdn μ s) μ)).re
      = ∑ s, (trace (ghostAlgebra v (T.sup μ s) * ghostAlgebra v (T.sup μ s) * U s μ)).re := by
    intro μ
    rw [← Equiv.sum_comp (T.sup μ)]
    simp only [T.sdn_sup]
  rw [dot_ghostMatrix, Complex.re_sum, Finset.sum_comm (s := Finset.univ (α := S)), Finset.mul_sum]
  refine Finset.sum_congr rfl fun μ _ => ?_
  rw [Complex.sub_re, Complex.sub_re, hb, hd, hh]
  simp only [Matrix.mul_add, trace_add, Complex.add_re, mul_add, Finset.sum_add_distrib, Finset.sum_sub_distrib, ← Finset.mul_sum, hs]
  ring

/-- The matrices along a one-parameter family of gauge transformations. -/
theorem hasDerivAt_family (Y : Mat N) (t : ℝ) : HasDerivAt (fun t : ℝ => NormedSpace.exp (t • Y)) (NormedSpace.exp (t • Y) * Y) t :=
  hasDerivAt_exp_smul_const (𝕂 := ℝ) Y t

theorem hasDerivAt_link (L R Y Y' W : Mat N) (t : ℝ) :
    HasDerivAt (fun t : ℝ => (trace (NormedSpace.exp (t • Y) * L * W * (NormedSpace.exp (t • Y') * R)ᴴ)).re)
      ((trace (NormedSpace.exp (t • Y) * (Y * L) * W * (NormedSpace.exp (t • Y') * R)ᴴ)).re
        + (trace (NormedSpace.exp (t • Y) * L * W * (NormedSpace.exp (t • Y') * (Y' * R))ᴴ)).re) t := by
  have a := ((hasDerivAt_family Y t).mul_const L).mul_const W
  have b := ctL.hasFDerivAt.comp_hasDerivAt t ((hasDerivAt_family Y' t).mul_const R)
  have c := trL.hasFDerivAt.comp_hasDerivAt t (a.mul b)
  refine c.congr_deriv ?_
  show (trace (NormedSpace.exp (t • Y) * Y * L * W * (NormedSpace.exp (t • Y') * R)ᴴ
    + NormedSpace.exp (t • Y) * L * W * (NormedSpace.exp (t • Y') * Y' * R)ᴴ)).re = _
  rw [trace_add, Complex.add_re, Matrix.mul_assoc (NormedSpace.exp (t • Y)) Y L, Matrix.mul_assoc (NormedSpace.exp (t • Y')) Y' R]

/-- The functional along a family of gauge transformations, and its first derivative. -/
def orbitFunctional (T : Torus S) (U : GField S N) (X : S → Mat N) (t : ℝ) : ℝ :=
  landauFunctional (gaugeTransform T (fun s => NormedSpace.exp (t • X s)) U)

theorem orbit_deriv (T : Torus S) (U : GField S N) (X : S → Mat N) (t : ℝ) :
    HasDerivAt (orbitFunctional T U X) (∑ s, ∑ μ,
      ((trace (NormedSpace.exp (t • X s) * (X s * 1) * U s μ * (NormedSpace.exp (t • X (T.sup μ s)) * 1)ᴴ)).re
        + (trace (NormedSpace.exp (t • X s) * 1 * U s μ * (NormedSpace.exp (t • X (T.sup μ s)) * (X (T.sup μ s) * 1))ᴴ)).re)) t := by
  have h : HasDerivAt (fun t : ℝ => ∑ s, ∑ μ, (trace (NormedSpace.exp (t • X s) * 1 * U s μ * (NormedSpace.exp (t • X (T.sup μ s)) * 1)ᴴ)).re) _ t :=
    HasDerivAt.fun_sum fun s _ => HasDerivAt.fun_sum fun μ _ => hasDerivAt_link 1 1 (X s) (X (T.sup μ s)) (U s μ) t
  refine h.congr_of_eventuallyEq (Filter.Eventually.of_forall fun t => ?_)
  simp only [orbitFunctional, landauFunctional, gaugeTransform, Matrix.mul_one]

theorem orbit_deriv2 (T : Torus S) (U : GField S N) (X : S → Mat N) (hX : ∀ s, IsLie (X s)) :
    HasDerivAt (deriv (orbitFunctional T U X)) (∑ s, ∑ μ, ((trace (X s * X s * U s μ)).re
      + (trace (X (T.sup μ s) * X (T.sup μ s) * U s μ)).re - 2 * (trace (X (T.sup μ s) * X s * U s μ)).re)) 0 := by
  have hd : deriv (orbitFunctional T U X) = fun t => ∑ s, ∑ μ,
      ((trace (NormedSpace.exp (t • X s) * (X s * 1) * U s μ * (NormedSpace.exp (t • X (T.sup μ s)) * 1)ᴴ)).re
        + (trace (NormedSpace.exp (t • X s) * 1 * U s μ * (NormedSpace.exp (t • X (T.sup μ s)) * (X (T.sup μ s) * 1))ᴴ)).re) := by
    funext t; exact (orbit_deriv T U X t).deriv
  rw [hd]
  refine (HasDerivAt.fun_sum fun s _ => HasDerivAt.fun_sum fun μ _ =>
    (hasDerivAt_link (X s * 1) 1 (X s) (X (T.sup μ s)) (U s μ) 0).add
      (hasDerivAt_link 1 (X (T.sup μ s) * 1) (X s) (X (T.sup μ s)) (U s μ) 0)).congr_deriv ?_
  refine Finset.sum_congr rfl fun s _ => Finset.sum_congr rfl fun μ _ => ?_
  obtain ⟨Y, hY⟩ : ∃ Y, Y = X (T.sup μ s) := ⟨_, rfl⟩
  have hs := hX (T.sup μ s)
  rw [← hY] at hs ⊢
  simp only [zero_smul, NormedSpace.exp_zero, Matrix.one_mul, Matrix.mul_one, conjTranspose_one, conjTranspose_mul, hs.1, Matrix.mul_neg,
    Matrix.neg_mul, neg_neg, trace_neg, Complex.neg_re]
  have e1 : trace (X s * U s μ * Y) = trace (Y * X s * U s μ) := by
    rw [trace_mul_comm, Matrix.mul_assoc]
  have e2 : trace (U s μ * (Y * Y)) = trace (Y * Y * U s μ) := trace_mul_comm _ _
  rw [e1, e2]
  ring

/-! ### Plane waves on the trivial configuration -/

theorem ghostMatrix_one (T : Torus S) (v : GhostField S N) (s : S) (a : Gen N) :
    ghostMatrix T (fun _ _ => 1) v (s, a) = ∑ μ, (2 * v (s, a) - v (T.sup μ s, a) - v (T.sdn μ s, a)) := by
  have hg := C30_generators N
  unfold ghostMatrix
  refine Finset.sum_congr rfl fun μ _ => ?_
  have hA : ∀ b, (ghostA T (fun _ _ => (1 : Mat N)) s μ a b : ℂ) = if a = b then 2 else 0 := by
    intro b
    unfold ghostA
    rw [Matrix.mul_add, Matrix.mul_one, trace_add, trace_add, hg.orthonormal, hg.orthonormal]
    by_cases h : a = b
    · subst h; simp; norm_num
    · simp [h, Ne.symm h]
  have hB : ∀ b, (ghostB (fun (_ : S) (_ : Fin 4) => (1 : Mat N)) s μ a b : ℂ) = if a = b then 1 else 0 := by
    intro b
    unfold ghostB
    rw [Matrix.mul_one, hg.orthonormal]
    by_cases h : a = b
    · subst h; simp
    · simp [h, Ne.symm h]
  have hC : ∀ b, (ghostC T (fun _ _ => (1 : Mat N)) s μ a b : ℂ) = if a = b then 1 else 0 := by
    intro b
    unfold ghostC
    rw [Matrix.mul_one, hg.orthonormal]
    by_cases h : a = b
    · subst h; simp
    · simp [h]
  simp only [hA, hB, hC, ite_mul, zero_mul, one_mul, Finset.sum_ite_eq, Finset.mem_univ, if_true]

theorem ghostSource_eq (T : Torus S) (k : Fin 4 → ℝ) (c : Gen N) (s : S) (a : Gen N) :
    ghostSource T k c (s, a) = if a = c then eix (ghostPhase T k s) else 0 := by
  unfold ghostSource
  simp only [eix_eq]

theorem eix_sdn (T : Torus S) (n : Fin 4 → ℕ) (μ : Fin 4) (s : S) :
    eix (ghostPhase T (waveVector T.ext n) (T.sdn μ s)) = eix (-waveVector T.ext n μ) * eix (ghostPhase T (waveVector T.ext n) s) := by
  have h := eix_sup T n μ (T.sdn μ s)
  rw [T.sup_sdn] at h
  have := eix_mul_neg (waveVector T.ext n μ)
  rw [h]
  linear_combination (-eix (ghostPhase T (waveVector T.ext n) (T.sdn μ s))) * this

theorem ghost_wave (T : Torus S) (n : Fin 4 → ℕ) (c : Gen N) :
    ghostMatrix T (fun _ _ => 1) (ghostSource T (waveVector T.ext n) c)
      = ((momentumModulus (waveVector T.ext n) ^ 2 : ℝ) : ℂ) • (ghostSource T (waveVector T.ext n) c : GhostField S N) := by
  funext ⟨s, a⟩
  rw [ghostMatrix_one, Pi.smul_apply]
  simp only [ghostSource_eq]
  by_cases h : a = c
  · simp only [if_pos h, eix_sup, eix_sdn, smul_eq_mul]
    rw [momentumModulus_sq, Complex.ofReal_sum, Finset.sum_mul]
    refine Finset.sum_congr rfl fun μ _ => ?_
    have e : ((latticeMomentum (waveVector T.ext n) μ ^ 2 : ℝ) : ℂ) = 2 - eix (waveVector T.ext n μ) - eix (-waveVector T.ext n μ) := by
      unfold latticeMomentum
      generalize waveVector T.ext n μ = x
      have hs : Real.sin (x / 2) ^ 2 = 1 / 2 - Real.cos x / 2 := by
        rw [Real.sin_sq_eq_half_sub]; ring_nf
      rw [mul_pow, hs, ← eix_eq, ← eix_eq, Real.cos_neg, Real.sin_neg]
      generalize Real.cos x = cx
      generalize Real.sin x = sx
      have e4 : ((2 ^ 2 * (1 / 2 - cx / 2) : ℝ)) = 2 - 2 * cx := by ring
      rw [e4]
      apply Complex.ext <;> simp <;> ring
    rw [e]
    ring
  · simp [if_neg h]

/-! ### The loop -/

theorem ghostResult_eq (T : Torus S) (k : Fin 4 → ℝ) (c : Gen N) (y : GhostField S N) : ghostResult T k c y = dot (ghostSource T k c) y := by
  rw [ghost_dot]
  unfold ghostResult
  refine Finset.sum_congr rfl fun s _ => ?_
  rw [Finset.sum_eq_single c]
  · rw [ghostSource_eq, if_pos rfl, eix_neg_eq, ← star_eix, Complex.star_def]
  · intro a _ ha
    rw [ghostSource_eq, if_neg ha, map_zero, zero_mul]
  · intro h; exact absurd (Finset.mem_univ _) h

theorem ghostLoop_true (T : Torus S) {A : GhostField S N → GhostField S N} (hA : Linear A) (k : Fin 4 → ℝ) (c : Gen N) (ε : ℝ)
    (b rhat : GhostField S N) :
    ∀ (m : ℕ) (x r p nu : GhostField S N) (alpha omega rho : ℂ) (minimal : ℝ) (result z : ℂ), r = b - A x →
      ghostLoop T A k c ε rhat m x r p nu alpha omega rho minimal result = .ok (true, z) →
      ∃ y, (z = ghostResult T k c y ∧ norm2 (b - A y) < ε) ∨ A (b - A y) = 0 := by
  intro m
  induction m with
  | zero => intro x r p nu alpha omega rho minimal result z _ h; simp [ghostLoop] at h
  | succ m ih =>
    intro x r p nu alpha omega rho minimal result z hr h
    have key : ∀ (q s : GhostField S N) (a w : ℂ), s = r - a • A q → s - w • A s = b - A (x + (a • q + w • s)) := by
      intro q s a w hs
      rw [hA.add, hA.add, hA.smul, hA.smul]
      generalize A s = t
      rw [hs, hr]
      abel
    have key0 : ∀ (q : GhostField S N) (a : ℂ), b - A (x + a • q) = r - a • A q := by
      intro q a
      rw [hA.add, hA.smul, hr]
      abel
    simp only [ghostLoop] at h
    split_ifs at h with h1 h2 h3 h4 h5 h6 h7
    · simp at h
    · simp at h
    · simp at h
    · refine ⟨x + (dot rhat r / dot rhat (A (r + (dot rhat r / rho * (alpha / omega)) • (p - omega • nu))))
        • (r + (dot rhat r / rho * (alpha / omega)) • (p - omega • nu)), Or.inr ?_⟩
      have := (norm2_eq_zero (v := A (r - (dot rhat r / dot rhat (A (r + (dot rhat r / rho * (alpha / omega)) • (p - omega • nu))))
        • A (r + (dot rhat r / rho * (alpha / omega)) • (p - omega • nu))))).1 h4
      rw [key0]
      exact this
    · refine ⟨_, Or.inl ⟨(Prod.mk.inj (Outcome.ok.inj h)).2.symm, ?_⟩⟩
      rw [key _ _ _ _ rfl] at h6
      exact h6
    · exact ih _ _ _ _ _ _ _ _ _ _ (key _ _ _ _ rfl) h
    · exact ih _ _ _ _ _ _ _ _ _ _ (key _ _ _ _ rfl) h

/-- The Cauchy-Schwarz inequality. -/
theorem ghost_cauchy (v w : GhostField S N) : ‖dot v w‖ ≤ Real.sqrt (norm2 v) * Real.sqrt (norm2 w) := by
  have hn : ∀ u : GhostField S N, norm2 u = ∑ m, ‖u m‖ ^ 2 := by
    intro u
    change (∑ m, starRingEnd ℂ (u m) * u m).re = _
    rw [Complex.re_sum]
    refine Finset.sum_congr rfl fun m _ => ?_
    rw [mul_comm, Complex.mul_conj, Complex.ofReal_re, Complex.normSq_eq_norm_sq]
  have h1 : ‖dot v w‖ ≤ ∑ m, ‖v m‖ * ‖w m‖ := by
    change ‖∑ m, starRingEnd ℂ (v m) * w m‖ ≤ _
    refine (norm_sum_le _ _).trans_eq (Finset.sum_congr rfl fun m _ => ?_)
    rw [norm_mul, RCLike.norm_conj]
  refine h1.trans ?_
  rw [← Real.sqrt_mul (norm2_nonneg v), hn, hn]
  exact Real.le_sqrt_of_sq_le (Finset.sum_mul_sq_le_sq_mul_sq _ _ _)

end

end Leonard
