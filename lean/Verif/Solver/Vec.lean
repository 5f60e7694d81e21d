/-
The vectors the linear solvers work with.

`AlgebraUtils::dot` and `AlgebraUtils::squaredNorm` (`/repo/source/algebra_utils/AlgebraUtils.h:17-27,
182-196`) are the only operations besides linear combinations that the solvers use.  The class `Vec`
lists what is needed of them; `instVecSField` shows that the spinor fields of the code, with the
functions `latticeDot` and `latticeNorm2` of `Dirac/HermModel.lean`, have these properties, so the
theorems about solvers hold for them.  The vectors of the multigrid solver (`multigrid_vector_t`, a
plain array of complex numbers, summed over in the solver itself) are the instance `instVecCoarse`.
-/
import Verif.Dirac.HermLemmas
import Mathlib.LinearAlgebra.FiniteDimensional.Basic
import Mathlib.LinearAlgebra.FiniteDimensional.Lemmas

set_option autoImplicit false

namespace Leonard

/-- Complex vectors with an inner product which conjugates its first argument. -/
class Vec (V : Type) [AddCommGroup V] [Module ℂ V] where
  dot : V → V → ℂ
  dot_conj : ∀ v w, starRingEnd ℂ (dot v w) = dot w v
  dot_add : ∀ v w u, dot v (w + u) = dot v w + dot v u
  dot_smul : ∀ v w (a : ℂ), dot v (a • w) = a * dot v w
  dot_pos : ∀ v, v ≠ 0 → 0 < (dot v v).re

open Vec

variable {V : Type} [AddCommGroup V] [Module ℂ V] [Vec V]

/-- `squaredNorm`: the sum of the squared moduli of the components. -/
noncomputable def norm2 (v : V) : ℝ := (dot v v).re

theorem dot_zero (v : V) : dot v (0 : V) = 0 := by
  have := dot_smul v (0 : V) 0
  simpa using this

theorem dot_neg (v w : V) : dot v (-w) = -dot v w := by
  have := dot_smul v w (-1)
  simpa using this

theorem dot_sub (v w u : V) : dot v (w - u) = dot v w - dot v u := by
  rw [sub_eq_add_neg, dot_add, dot_neg, ← sub_eq_add_neg]

theorem zero_dot (v : V) : dot (0 : V) v = 0 := by
  rw [← dot_conj, dot_zero, map_zero]

theorem add_dot (v w u : V) : dot (v + w) u = dot v u + dot w u := by
  rw [← dot_conj u, dot_add, map_add, dot_conj, dot_conj]

theorem smul_dot (v w : V) (a : ℂ) : dot (a • v) w = starRingEnd ℂ a * dot v w := by
  rw [← dot_conj w, dot_smul, map_mul, dot_conj]

theorem sub_dot (v w u : V) : dot (v - w) u = dot v u - dot w u := by
  rw [← dot_conj u, dot_sub, map_sub, dot_conj, dot_conj]

theorem dot_self_im (v : V) : (dot v v).im = 0 := by
  have := congrArg Complex.im (dot_conj v v)
  simp only [Complex.conj_im] at this
  linarith

theorem dot_self (v : V) : dot v v = (norm2 v : ℂ) := by
  apply Complex.ext
  · rfl
  · simp [dot_self_im]

theorem norm2_zero : norm2 (0 : V) = 0 := by simp [norm2, dot_zero]

theorem norm2_nonneg (v : V) : 0 ≤ norm2 v := by
  by_cases h : v = 0
  · rw [h, norm2_zero]
  · exact (dot_pos v h).le

theorem norm2_pos {v : V} (h : v ≠ 0) : 0 < norm2 v := dot_pos v h

theorem norm2_eq_zero {v : V} : norm2 v = 0 ↔ v = 0 :=
  ⟨fun h => by_contra fun hv => (norm2_pos hv).ne' h, fun h => h ▸ norm2_zero⟩

theorem norm2_smul (a : ℂ) (v : V) : norm2 (a • v) = Complex.normSq a * norm2 v := by
  have : dot (a • v) (a • v) = ((Complex.normSq a * norm2 v : ℝ) : ℂ) := by
    rw [dot_smul, smul_dot, dot_self, ← mul_assoc, Complex.mul_conj]
    push_cast; ring
  unfold norm2 at *
  rw [this, Complex.ofReal_re]

/-- The spinor fields of the code, `AlgebraUtils.h:17-27, 182-196`. -/
noncomputable instance instVecSField {S : Type} {N : ℕ} [Fintype S] : Vec (SField S N) where
  dot := latticeDot
  dot_conj := latticeDot_conj
  dot_add := latticeDot_add
  dot_smul := latticeDot_smul
  dot_pos := by
    intro v hv
    have e : ∀ z : ℂ, (starRingEnd ℂ z * z).re = Complex.normSq z := by
      intro z; rw [mul_comm, Complex.mul_conj, Complex.ofReal_re]
    unfold latticeDot
    simp only [Complex.re_sum, e]
    obtain ⟨x, hx⟩ := Function.ne_iff.mp hv
    have : ∃ mu n, v x mu n ≠ 0 := by
      by_contra hc
      push Not at hc
      exact hx (Matrix.ext fun mu n => hc mu n)
    obtain ⟨mu, n, hn⟩ := this
    have hp : ∀ y m k, 0 ≤ Complex.normSq (v y m k) := fun _ _ _ => Complex.normSq_nonneg _
    refine Finset.sum_pos' (fun y _ => Finset.sum_nonneg fun m _ => Finset.sum_nonneg fun k _ => hp y m k)
      ⟨x, Finset.mem_univ x, ?_⟩
    refine Finset.sum_pos' (fun m _ => Finset.sum_nonneg fun k _ => hp x m k) ⟨mu, Finset.mem_univ mu, ?_⟩
    exact Finset.sum_pos' (fun k _ => hp x mu k) ⟨n, Finset.mem_univ n, Complex.normSq_pos.mpr hn⟩

/-- On spinor fields `norm2` is the function `AlgebraUtils::squaredNorm`. -/
theorem norm2_eq_latticeNorm2 {S : Type} {N : ℕ} [Fintype S] (v : SField S N) : norm2 v = latticeNorm2 v := by
  change (latticeDot v v).re = latticeNorm2 v
  simp only [latticeDot, latticeNorm2, Complex.re_sum]

/-- `multigrid_vector_t`: an array of complex numbers, with the sums of
`MultiGridBiConjugateGradient.cpp:33-39`. -/
noncomputable instance instVecCoarse {ι : Type} [Fintype ι] : Vec (ι → ℂ) where
  dot v w := ∑ m, starRingEnd ℂ (v m) * w m
  dot_conj v w := by
    simp only [map_sum, map_mul, Complex.conj_conj]
    exact Finset.sum_congr rfl fun _ _ => mul_comm _ _
  dot_add v w u := by simp only [Pi.add_apply, mul_add, Finset.sum_add_distrib]
  dot_smul v w a := by
    simp only [Pi.smul_apply, smul_eq_mul, Finset.mul_sum]
    exact Finset.sum_congr rfl fun _ _ => by ring
  dot_pos v hv := by
    have e : ∀ z : ℂ, (starRingEnd ℂ z * z).re = Complex.normSq z := by
      intro z; rw [mul_comm, Complex.mul_conj, Complex.ofReal_re]
    simp only [Complex.re_sum, e]
    obtain ⟨x, hx⟩ := Function.ne_iff.mp hv
    exact Finset.sum_pos' (fun _ _ => Complex.normSq_nonneg _) ⟨x, Finset.mem_univ x, Complex.normSq_pos.mpr hx⟩

/-- A linear operator: what every `DiracOperator::multiply` of the code is (C33). -/
structure Linear (A : V → V) : Prop where
  add : ∀ v w, A (v + w) = A v + A w
  smul : ∀ (a : ℂ) v, A (a • v) = a • A v

theorem Linear.zero {A : V → V} (h : Linear A) : A 0 = 0 := by
  have := h.smul 0 0; simpa using this

theorem Linear.neg {A : V → V} (h : Linear A) (v : V) : A (-v) = -A v := by
  have := h.smul (-1) v; simpa using this

theorem Linear.sub {A : V → V} (h : Linear A) (v w : V) : A (v - w) = A v - A w := by
  rw [sub_eq_add_neg, h.add, h.neg, ← sub_eq_add_neg]

/-- A Hermitian positive operator. -/
structure HermPos (A : V → V) : Prop where
  herm : ∀ v w, dot (A v) w = dot v (A w)
  pos : ∀ v, v ≠ 0 → 0 < (dot v (A v)).re

end Leonard
