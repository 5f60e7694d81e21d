/-
C88: the split of a stochastic trace between the coarse space and the rest.
-/
import Verif.Mgtrace.Model
import Verif.Multigrid.Props
import Verif.Meson.Moments
import Mathlib.LinearAlgebra.Trace
import Mathlib.LinearAlgebra.FiniteDimensional.Basic

set_option autoImplicit false

namespace Leonard

open Matrix

variable {P κ R : Type} [Fintype P] [Fintype κ] [DecidableEq R] [DecidableEq P] [DecidableEq κ]

/-- **Specification.** The vector that is one in one component and zero elsewhere. -/
def unitVector (p : P) (k : κ) : P → κ → ℂ := fun p' k' => if p' = p ∧ k' = k then 1 else 0

/-- **Specification.** The trace of an operator on the vectors of the lattice. -/
noncomputable def fineTrace (F : (P → κ → ℂ) → P → κ → ℂ) : ℂ := ∑ p, ∑ k, F (unitVector p k) p k

/-! ### Lemmas -/

section finite
variable {J : Type} [Fintype J] [DecidableEq J]

theorem linear_apply_matrix (F : (J → ℂ) →ₗ[ℂ] J → ℂ) (v : J → ℂ) (i : J) : F v i = ∑ j, LinearMap.toMatrix' F i j * v j := by
  conv_lhs => rw [← LinearMap.toMatrix'_mulVec F v]
  rfl

theorem sum_signs (F : (J → ℂ) →ₗ[ℂ] J → ℂ) (r : J → Bool) :
    ∑ j, starRingEnd ℂ (eta r j) * F (eta r) j = quad (LinearMap.toMatrix' F) r := by
  simp only [linear_apply_matrix F, eta_conj, quad, Finset.mul_sum]
  exact Finset.sum_congr rfl fun p _ => Finset.sum_congr rfl fun q _ => by ring

theorem trace_toMatrix (F : (J → ℂ) →ₗ[ℂ] J → ℂ) : trace (LinearMap.toMatrix' F) = LinearMap.trace ℂ (J → ℂ) F := by
  rw [LinearMap.trace_eq_matrix_trace ℂ (Pi.basisFun ℂ J) F, LinearMap.toMatrix_eq_toMatrix']

/-- A map that a linear map on finitely many numbers undoes is linear, and inverts it on both sides. -/
theorem linear_of_inverse (A : (J → ℂ) →ₗ[ℂ] J → ℂ) (f : (J → ℂ) → J → ℂ) (h : ∀ v, A (f v) = v) :
    ∃ K : (J → ℂ) →ₗ[ℂ] J → ℂ, (∀ v, K v = f v) ∧ ∀ v, K (A v) = v := by
  have hs : Function.Surjective A := fun v => ⟨f v, h v⟩
  have hi : Function.Injective A := LinearMap.injective_iff_surjective.2 hs
  let e := LinearEquiv.ofBijective A ⟨hi, hs⟩
  refine ⟨e.symm.toLinearMap, fun v => ?_, fun v => ?_⟩
  · change e.symm v = f v
    rw [LinearEquiv.symm_apply_eq]
    exact (h v).symm
  · exact e.symm_apply_apply v

end finite

/-- Prolongation of an array with finitely many entries, on pairs. -/
noncomputable def prolongLin (rank : P → R) (idx : P → ℕ) (n d : ℕ) (basis : ℕ → P → κ → ℂ) : (R × Fin (d * n) → ℂ) →ₗ[ℂ] P × κ → ℂ where
  toFun c := fun pk => mgProlong rank idx n d basis (fun r i => if h : i < d * n then c (r, ⟨i, h⟩) else 0) pk.1 pk.2
  map_add' c e := by
    funext pk
    simp only [mgProlong_sum, Pi.add_apply, ← Finset.sum_add_distrib]
    refine Finset.sum_congr rfl fun i _ => ?_
    split <;> ring
  map_smul' z c := by
    funext pk
    simp only [mgProlong_sum, Pi.smul_apply, smul_eq_mul, RingHom.id_apply, Finset.mul_sum]
    refine Finset.sum_congr rfl fun i _ => ?_
    split <;> ring

/-- Restriction, on pairs. -/
noncomputable def restrictLin (rank : P → R) (idx thread : P → ℕ) (n d threads : ℕ) (basis : ℕ → P → κ → ℂ) :
    (P × κ → ℂ) →ₗ[ℂ] R × Fin (d * n) → ℂ where
  toFun x := fun ri => mgRestrict rank idx thread n d threads basis (fun p k => x (p, k)) ri.1 ri.2
  map_add' x y := by
    funext ri
    simp only [mgRestrict_sum, Pi.add_apply, ← Finset.sum_add_distrib]
    refine Finset.sum_congr rfl fun i _ => Finset.sum_congr rfl fun k _ => Finset.sum_congr rfl fun j _ => ?_
    split
    · simp only [mgProj, mul_add, Finset.sum_add_distrib]
      rw [← Finset.sum_add_distrib]
      refine Finset.sum_congr rfl fun p _ => ?_
      split
      · rfl
      · rw [add_zero]
    · rw [add_zero]
  map_smul' z x := by
    funext ri
    simp only [mgRestrict_sum, Pi.smul_apply, smul_eq_mul, RingHom.id_apply, Finset.mul_sum]
    refine Finset.sum_congr rfl fun i _ => Finset.sum_congr rfl fun k _ => Finset.sum_congr rfl fun j _ => ?_
    rw [mul_ite, mul_zero]
    split
    · simp only [mgProj, Finset.mul_sum]
      refine Finset.sum_congr rfl fun p _ => ?_
      rw [mul_ite, mul_zero, Finset.mul_sum]
      split
      · exact Finset.sum_congr rfl fun l _ => by ring
      · rfl
    · rfl

theorem mgRestrict_end (rank : P → R) (idx thread : P → ℕ) (n d threads : ℕ) (basis : ℕ → P → κ → ℂ) (x : P → κ → ℂ) (r : R) {m : ℕ}
    (hm : ¬ m < d * n) : mgRestrict rank idx thread n d threads basis x r m = 0 := by
  rw [mgRestrict_sum]
  refine Finset.sum_eq_zero fun i hi => Finset.sum_eq_zero fun k _ => Finset.sum_eq_zero fun j hj => if_neg fun h => hm ?_
  rw [Finset.mem_range] at hi hj
  have : (i + 1) * n ≤ d * n := Nat.mul_le_mul_right n hi
  rw [Nat.succ_mul] at this
  omega

/-- A linear map of vectors, on pairs. -/
noncomputable def pairLin (Γ : (P → κ → ℂ) →ₗ[ℂ] P → κ → ℂ) : (P × κ → ℂ) →ₗ[ℂ] P × κ → ℂ where
  toFun x := fun pk => Γ (fun p k => x (p, k)) pk.1 pk.2
  map_add' x y := by
    funext pk
    have : (fun p k => (x + y) (p, k)) = (fun p k => x (p, k)) + fun p k => y (p, k) := rfl
    rw [this, map_add]; rfl
  map_smul' z x := by
    funext pk
    have : (fun p k => (z • x) (p, k)) = z • fun p k => x (p, k) := rfl
    rw [this, map_smul]; rfl

theorem trace_pairLin (Γ : (P → κ → ℂ) →ₗ[ℂ] P → κ → ℂ) : LinearMap.trace ℂ (P × κ → ℂ) (pairLin Γ) = fineTrace Γ := by
  rw [← trace_toMatrix]
  unfold fineTrace Matrix.trace
  rw [Fintype.sum_prod_type]
  refine Finset.sum_congr rfl fun p _ => Finset.sum_congr rfl fun k _ => ?_
  rw [diag_apply, LinearMap.toMatrix'_apply]
  refine congrArg (fun z => Γ z p k) (funext fun p' => funext fun k' => ?_)
  simp [unitVector, Pi.single_apply, Prod.ext_iff]

section main
variable [Fintype R]

/-- What the two solvers have to do: solve the equation of the Dirac operator and that of the coarse operator. -/
structure SolvesBoth (rank : P → R) (idx thread : P → ℕ) (n d threads : ℕ) (basis : ℕ → P → κ → ℂ) (D : (P → κ → ℂ) →ₗ[ℂ] P → κ → ℂ)
    (solve : (P → κ → ℂ) → P → κ → ℂ) (coarseSolve : (R → ℕ → ℂ) → R → ℕ → ℂ) : Prop where
  fine : ∀ b, D (solve b) = b
  coarse : ∀ e r, ∀ m < d * n, mgMultiply rank idx thread n d threads basis D (coarseSolve e) r m = e r m

variable {rank : P → R} {idx thread : P → ℕ} {n d threads : ℕ} {basis : ℕ → P → κ → ℂ} {D : (P → κ → ℂ) →ₗ[ℂ] P → κ → ℂ}
  {solve : (P → κ → ℂ) → P → κ → ℂ} {coarseSolve : (R → ℕ → ℂ) → R → ℕ → ℂ}

theorem SolvesBoth.solve_linear (h : SolvesBoth rank idx thread n d threads basis D solve coarseSolve) :
    ∃ G : (P → κ → ℂ) →ₗ[ℂ] P → κ → ℂ, (∀ b, G b = solve b) ∧ ∀ x, G (D x) = x := by
  have hs : Function.Surjective D := fun v => ⟨solve v, h.fine v⟩
  have hi : Function.Injective D := LinearMap.injective_iff_surjective.2 hs
  let e := LinearEquiv.ofBijective D ⟨hi, hs⟩
  refine ⟨e.symm.toLinearMap, fun v => ?_, fun v => e.symm_apply_apply v⟩
  change e.symm v = _
  rw [LinearEquiv.symm_apply_eq]
  exact (h.fine v).symm

theorem SolvesBoth.coarse_linear (h : SolvesBoth rank idx thread n d threads basis D solve coarseSolve) (hidx : ∀ p, idx p < n) :
    ∃ K : (R × Fin (d * n) → ℂ) →ₗ[ℂ] R × Fin (d * n) → ℂ,
      (∀ (e : R → ℕ → ℂ), (∀ r i, ¬ i < d * n → e r i = 0) → ∀ p k,
        mgProlong rank idx n d basis (coarseSolve e) p k = prolongLin rank idx n d basis (K fun ri => e ri.1 ri.2) (p, k)) ∧
      ∀ c, K (restrictLin rank idx thread n d threads basis (pairLin D (prolongLin rank idx n d basis c))) = c := by
  let A := restrictLin rank idx thread n d threads basis ∘ₗ pairLin D ∘ₗ prolongLin rank idx n d basis
  let ex : (R × Fin (d * n) → ℂ) → R → ℕ → ℂ := fun c r i => if h : i < d * n then c (r, ⟨i, h⟩) else 0
  let f : (R × Fin (d * n) → ℂ) → R × Fin (d * n) → ℂ := fun c ri => coarseSolve (ex c) ri.1 ri.2
  have hex : ∀ c : R → ℕ → ℂ, mgProlong rank idx n d basis (ex fun ri => c ri.1 ri.2) = mgProlong rank idx n d basis c := fun c =>
    mgProlong_congr rank idx n d basis hidx fun r m hm => by simp only [ex, dif_pos hm]
  have hA : ∀ v, A (f v) = v := by
    intro v
    funext ri
    have h1 := h.coarse (ex v) ri.1 ri.2 ri.2.2
    have h2 : ex v ri.1 ri.2 = v ri := by simp only [ex, dif_pos ri.2.2]
    rw [h2] at h1
    rw [← h1]
    change mgRestrict rank idx thread n d threads basis (D (mgProlong rank idx n d basis (ex fun ri => coarseSolve (ex v) ri.1 ri.2))) ri.1 ri.2 = _
    rw [hex]
    rfl
  obtain ⟨K, hK, hK'⟩ := linear_of_inverse A f hA
  refine ⟨K, fun e he p k => ?_, hK'⟩
  have e1 : ex (fun ri => e ri.1 ri.2) = e := by
    funext r i
    by_cases hi : i < d * n
    · simp only [ex, dif_pos hi]
    · simp only [ex, dif_neg hi]; exact (he r i hi).symm
  rw [hK]
  change _ = mgProlong rank idx n d basis (ex fun ri => coarseSolve (ex fun ri => e ri.1 ri.2) ri.1 ri.2) p k
  rw [hex, e1]

/-- The two estimates are quadratic forms of the signs. -/
theorem estimates_quad (h : SolvesBoth rank idx thread n d threads basis D solve coarseSolve) (hidx : ∀ p, idx p < n) (ht : ∀ p, thread p < threads)
    (Γ : (P → κ → ℂ) →ₗ[ℂ] P → κ → ℂ) :
    ∃ (F : (R × Fin (d * n) → ℂ) →ₗ[ℂ] R × Fin (d * n) → ℂ) (E : (P × κ → ℂ) →ₗ[ℂ] P × κ → ℂ),
      (∀ q, fineDot (multigridVectors rank idx n d basis coarseSolve q).1 (Γ (multigridVectors rank idx n d basis coarseSolve q).2) =
        quad (LinearMap.toMatrix' F) q) ∧
      (∀ r, fineDot (residualVectors rank idx thread n d threads basis coarseSolve solve r).1
        (Γ (residualVectors rank idx thread n d threads basis coarseSolve solve r).2) = quad (LinearMap.toMatrix' E) r) ∧
      LinearMap.trace ℂ _ F + LinearMap.trace ℂ _ E = fineTrace fun b => Γ (solve b) := by
  obtain ⟨G, hG, -⟩ := h.solve_linear
  obtain ⟨K, hK, -⟩ := h.coarse_linear hidx
  let Pr := prolongLin rank idx n d basis
  let Re := restrictLin rank idx thread n d threads basis
  refine ⟨Re ∘ₗ pairLin Γ ∘ₗ Pr ∘ₗ K, pairLin Γ ∘ₗ pairLin G - pairLin Γ ∘ₗ Pr ∘ₗ K ∘ₗ Re, fun q => ?_, fun r => ?_, ?_⟩
  · rw [← sum_signs]
    have h0 : ∀ r i, ¬ i < d * n → mgNoise q r i = 0 := fun r i hi => dif_neg hi
    have h1 : (fun ri : R × Fin (d * n) => mgNoise q ri.1 ri.2) = eta q := by
      funext ri
      simp only [mgNoise, dif_pos ri.2.2, eta]
    have h2 : (multigridVectors rank idx n d basis coarseSolve q).2 = fun p k => Pr (K (eta q)) (p, k) := by
      funext p k
      rw [← h1]
      exact hK _ h0 p k
    rw [h2]
    change fineDot (mgProlong rank idx n d basis (mgNoise q)) _ = _
    rw [← C46_adjoint rank idx thread n d threads basis hidx ht, coarseDot, Fintype.sum_prod_type]
    refine Finset.sum_congr rfl fun r _ => ?_
    rw [Finset.sum_range]
    refine Finset.sum_congr rfl fun i _ => ?_
    congr 2
    exact congrFun h1 (r, i)
  · rw [← sum_signs]
    have h1 : fineNoise r = fun p k => eta r (p, k) := rfl
    have h2 : (residualVectors rank idx thread n d threads basis coarseSolve solve r).2 =
        fun p k => (pairLin G (eta r) - Pr (K (Re (eta r)))) (p, k) := by
      funext p k
      change solve (fineNoise r) p k - mgProlong rank idx n d basis (coarseSolve (mgRestrict rank idx thread n d threads basis (fineNoise r))) p k = _
      rw [hK _ (fun r' i hi => mgRestrict_end rank idx thread n d threads basis _ r' hi), ← hG]
      rfl
    rw [h2]
    change fineDot (fineNoise r) _ = _
    rw [fineDot, Fintype.sum_prod_type]
    refine Finset.sum_congr rfl fun p _ => Finset.sum_congr rfl fun k _ => ?_
    congr 1
    have h3 : (pairLin Γ ∘ₗ pairLin G - pairLin Γ ∘ₗ Pr ∘ₗ K ∘ₗ Re) (eta r) = pairLin Γ (pairLin G (eta r) - Pr (K (Re (eta r)))) := by
      rw [LinearMap.sub_apply, map_sub]; rfl
    rw [h3]
    rfl
  · have c1 : LinearMap.trace ℂ _ (Re ∘ₗ pairLin Γ ∘ₗ Pr ∘ₗ K) = LinearMap.trace ℂ _ (pairLin Γ ∘ₗ Pr ∘ₗ K ∘ₗ Re) := by
      have := LinearMap.trace_comp_comm' (R := ℂ) (pairLin Γ ∘ₗ Pr ∘ₗ K) Re
      exact this
    have c2 : fineTrace (fun b => Γ (solve b)) = LinearMap.trace ℂ _ (pairLin Γ ∘ₗ pairLin G) := by
      have e1 : (fun b => Γ (solve b)) = (Γ ∘ₗ G : (P → κ → ℂ) →ₗ[ℂ] P → κ → ℂ) := by
        funext b
        rw [LinearMap.comp_apply, hG]
      rw [e1, ← trace_pairLin]
      rfl
    rw [map_sub, c1, c2]
    ring

/-! ### C88 -/

/-- **C88, unbiased.** For every Dirac operator, every observable `Γ`, every basis — orthonormal or not —, all blocks, processes and threads: if
both solvers solve their equations, then the mean of the estimate in the coarse space plus the mean of the estimate with the residual vectors is
the trace of `Γ D⁻¹`. -/
theorem C88_unbiased (h : SolvesBoth rank idx thread n d threads basis D solve coarseSolve) (hidx : ∀ p, idx p < n) (ht : ∀ p, thread p < threads)
    (Γ : (P → κ → ℂ) →ₗ[ℂ] P → κ → ℂ) :
    average (fun q => fineDot (multigridVectors rank idx n d basis coarseSolve q).1 (Γ (multigridVectors rank idx n d basis coarseSolve q).2)) +
      average (fun r => fineDot (residualVectors rank idx thread n d threads basis coarseSolve solve r).1
        (Γ (residualVectors rank idx thread n d threads basis coarseSolve solve r).2)) = fineTrace fun b => Γ (solve b) := by
  obtain ⟨F, E, hF, hE, htr⟩ := estimates_quad h hidx ht Γ
  rw [funext hF, funext hE, ← htr, ← trace_toMatrix, ← trace_toMatrix]
  exact congrArg₂ _ (average_quad _) (average_quad _)

/-- **C88, the coarse space is taken out.** If both solvers solve their equations, the operator that gives the residual vectors vanishes on the
image of the coarse space under the Dirac operator. -/
theorem C88_deflated (h : SolvesBoth rank idx thread n d threads basis D solve coarseSolve) (hidx : ∀ p, idx p < n) (c : R → ℕ → ℂ) :
    residualInverse rank idx thread n d threads basis coarseSolve solve (D (mgProlong rank idx n d basis c)) = 0 := by
  obtain ⟨G, hG, hG'⟩ := h.solve_linear
  obtain ⟨K, hK, hK'⟩ := h.coarse_linear hidx
  funext p k
  change solve _ p k - mgProlong rank idx n d basis (coarseSolve (mgRestrict rank idx thread n d threads basis _)) p k = 0
  rw [hK _ (fun r' i hi => mgRestrict_end rank idx thread n d threads basis _ r' hi), ← hG, hG']
  have e : mgProlong rank idx n d basis c = fun p k => prolongLin rank idx n d basis (fun ri => c ri.1 ri.2) (p, k) := by
    exact mgProlong_congr rank idx n d basis hidx (e := fun r i => if h : i < d * n then c r i else 0) fun r m hm => by rw [dif_pos hm]
  have e2 : (fun ri : R × Fin (d * n) => mgRestrict rank idx thread n d threads basis (D (mgProlong rank idx n d basis c)) ri.1 ri.2) =
      restrictLin rank idx thread n d threads basis (pairLin D (prolongLin rank idx n d basis fun ri => c ri.1 ri.2)) := by
    rw [e]; rfl
  rw [e2, hK', e, sub_self]

/-- **C88, the coarse space is everything.** If every vector is the prolongation of a coarse vector, the residual part vanishes for all random
numbers, and the mean over the coarse noise alone is the trace. -/
theorem C88_complete (h : SolvesBoth rank idx thread n d threads basis D solve coarseSolve) (hidx : ∀ p, idx p < n) (ht : ∀ p, thread p < threads)
    (hb : ∀ x, ∃ c, mgProlong rank idx n d basis c = x) (Γ : (P → κ → ℂ) →ₗ[ℂ] P → κ → ℂ) :
    (∀ r, (residualVectors rank idx thread n d threads basis coarseSolve solve r).2 = 0) ∧
    average (fun q => fineDot (multigridVectors rank idx n d basis coarseSolve q).1 (Γ (multigridVectors rank idx n d basis coarseSolve q).2)) =
      fineTrace fun b => Γ (solve b) := by
  have h0 : ∀ r, (residualVectors rank idx thread n d threads basis coarseSolve solve r).2 = 0 := by
    intro r
    obtain ⟨c, hc⟩ := hb (solve (fineNoise r))
    have := C88_deflated h hidx c
    rwa [hc, h.fine] at this
  refine ⟨h0, ?_⟩
  have hu := C88_unbiased h hidx ht Γ
  simp only [h0, map_zero] at hu
  rw [← hu]
  simp [fineDot, average]

/-- The conditions are met by two sites on one process with one block, one basis vector and the operator `2`. -/
example : SolvesBoth (P := Fin 2) (κ := Unit) (R := Unit) (fun _ => ()) (fun _ => 0) (fun _ => 0) 1 1 1 (fun _ p _ => if p = 0 then 1 else 0)
    ((2 : ℂ) • LinearMap.id) (fun b => (2 : ℂ)⁻¹ • b) (fun e => (2 : ℂ)⁻¹ • e) := by
  refine ⟨fun b => ?_, fun e r m hm => ?_⟩
  · simp
  · have : m = 0 := by omega
    subst this
    simp [mgMultiply, mgRestrict, mgProlong, mgProj, List.range_succ]

end main

end Leonard
