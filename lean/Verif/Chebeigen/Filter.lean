import Verif.Chebeigen.Model
import Verif.Arnoldi.Props
import Verif.Poly.Props
import Mathlib.Analysis.SpecialFunctions.Trigonometric.Chebyshev.RootsExtrema

/-!
# The filter
-/

set_option autoImplicit false

namespace Leonard

open Polynomial

/-- The filter on the real line: the Chebyshev polynomial of degree `order + 1`, moved to the interval from `a` to `b`. -/
noncomputable def filterValue (a b : ℝ) (order : ℕ) (x : ℝ) : ℝ := (Chebyshev.T ℝ ((order : ℤ) + 1)).eval ((2 * x - (a + b)) / (b - a))

/-- Beyond one the Chebyshev polynomials rise. -/
theorem cheb_mono (n : ℕ) {x y : ℝ} (hx : 1 ≤ x) (hxy : x ≤ y) : (Chebyshev.T ℝ ((n : ℤ) + 1)).eval x ≤ (Chebyshev.T ℝ ((n : ℤ) + 1)).eval y := by
  rw [← Real.cosh_arcosh hx, ← Real.cosh_arcosh (hx.trans hxy), Chebyshev.T_real_cosh, Chebyshev.T_real_cosh, Real.cosh_le_cosh]
  have h1 : Real.arcosh x ≤ Real.arcosh y := by
    have h2 : Real.cosh (Real.arcosh x) ≤ Real.cosh (Real.arcosh y) := by rw [Real.cosh_arcosh hx, Real.cosh_arcosh (hx.trans hxy)]; exact hxy
    rw [Real.cosh_le_cosh, abs_of_nonneg (Real.arcosh_nonneg hx), abs_of_nonneg (Real.arcosh_nonneg (hx.trans hxy))] at h2
    exact h2
  have h0 := Real.arcosh_nonneg hx
  have hn : (0 : ℝ) ≤ (((n : ℤ) + 1 : ℤ) : ℝ) := by push_cast; positivity
  rw [abs_of_nonneg (mul_nonneg hn h0), abs_of_nonneg (mul_nonneg hn (h0.trans h1))]
  exact mul_le_mul_of_nonneg_left h1 hn

theorem cheb_strictMono (n : ℕ) {x y : ℝ} (hx : 1 ≤ x) (hxy : x < y) : (Chebyshev.T ℝ ((n : ℤ) + 1)).eval x < (Chebyshev.T ℝ ((n : ℤ) + 1)).eval y := by
  rw [← Real.cosh_arcosh hx, ← Real.cosh_arcosh (hx.trans hxy.le), Chebyshev.T_real_cosh, Chebyshev.T_real_cosh, Real.cosh_lt_cosh]
  have h1 : Real.arcosh x < Real.arcosh y := by
    have h2 : Real.cosh (Real.arcosh x) < Real.cosh (Real.arcosh y) := by rw [Real.cosh_arcosh hx, Real.cosh_arcosh (hx.trans hxy.le)]; exact hxy
    rw [Real.cosh_lt_cosh, abs_of_nonneg (Real.arcosh_nonneg hx), abs_of_nonneg (Real.arcosh_nonneg (hx.trans hxy.le))] at h2
    exact h2
  have h0 := Real.arcosh_nonneg hx
  have hn : (0 : ℝ) < (((n : ℤ) + 1 : ℤ) : ℝ) := by push_cast; positivity
  rw [abs_of_nonneg (mul_nonneg hn.le h0), abs_of_nonneg (mul_nonneg hn.le (h0.trans h1.le))]
  exact mul_lt_mul_of_pos_left h1 hn

theorem negOnePow_odd_succ {n : ℕ} (h : Odd n) : (((n : ℤ) + 1).negOnePow : ℤ) = 1 := by
  rw [Int.negOnePow_even _ (by obtain ⟨k, hk⟩ := h; exact ⟨k + 1, by rw [hk]; push_cast; ring⟩)]
  rfl

theorem negOnePow_even_succ {n : ℕ} (h : Even n) : (((n : ℤ) + 1).negOnePow : ℤ) = -1 := by
  rw [Int.negOnePow_odd _ (by obtain ⟨k, hk⟩ := h; exact ⟨k, by rw [hk]; push_cast; ring⟩)]
  rfl

theorem cheb_neg_odd {n : ℕ} (h : Odd n) (x : ℝ) : (Chebyshev.T ℝ ((n : ℤ) + 1)).eval (-x) = (Chebyshev.T ℝ ((n : ℤ) + 1)).eval x := by
  rw [Chebyshev.T_eval_neg, negOnePow_odd_succ h, Int.cast_one, one_mul]

theorem cheb_neg_even {n : ℕ} (h : Even n) (x : ℝ) : (Chebyshev.T ℝ ((n : ℤ) + 1)).eval (-x) = -(Chebyshev.T ℝ ((n : ℤ) + 1)).eval x := by
  rw [Chebyshev.T_eval_neg, negOnePow_even_succ h, Int.cast_neg, Int.cast_one, neg_one_mul]

variable {a b : ℝ} {order : ℕ}

private theorem arg_in (hab : a < b) {x : ℝ} (h1 : a ≤ x) (h2 : x ≤ b) : |(2 * x - (a + b)) / (b - a)| ≤ 1 := by
  have h : 0 < b - a := sub_pos.2 hab
  rw [abs_le, le_div_iff₀ h, div_le_iff₀ h]
  constructor <;> linarith

private theorem arg_low (hab : a < b) {x : ℝ} (h1 : x < a) : 1 < -((2 * x - (a + b)) / (b - a)) := by
  have h : 0 < b - a := sub_pos.2 hab
  rw [← neg_div, lt_div_iff₀ h]
  linarith

theorem filter_inside (hab : a < b) {x : ℝ} (h1 : a ≤ x) (h2 : x ≤ b) : |filterValue a b order x| ≤ 1 :=
  Chebyshev.abs_eval_T_real_le_one _ (arg_in hab h1 h2)

theorem filter_below (hab : a < b) (ho : Odd order) {x : ℝ} (h1 : x < a) : 1 < filterValue a b order x := by
  unfold filterValue
  rw [← cheb_neg_odd ho]
  exact Chebyshev.one_lt_eval_T_real (by omega) (arg_low hab h1)

theorem filter_below_even (hab : a < b) (ho : Even order) {x : ℝ} (h1 : x < a) : filterValue a b order x < -1 := by
  have h := Chebyshev.one_lt_eval_T_real (n := (order : ℤ) + 1) (by omega) (arg_low hab h1)
  rw [cheb_neg_even ho] at h
  exact lt_neg_of_lt_neg h

theorem filter_strict (hab : a < b) (ho : Odd order) {x y : ℝ} (h : x < y) (hy : y < a) : filterValue a b order y < filterValue a b order x := by
  unfold filterValue
  rw [← cheb_neg_odd ho, ← cheb_neg_odd ho ((2 * x - (a + b)) / (b - a))]
  refine cheb_strictMono _ (arg_low hab hy).le ?_
  have h1 : 0 < b - a := sub_pos.2 hab
  rw [neg_lt_neg_iff, div_lt_div_iff_of_pos_right h1]
  linarith

theorem filter_strict_even (hab : a < b) (ho : Even order) {x y : ℝ} (h : x < y) (hy : y < a) : filterValue a b order x < filterValue a b order y := by
  unfold filterValue
  rw [← neg_lt_neg_iff, ← cheb_neg_even ho, ← cheb_neg_even ho]
  refine cheb_strictMono _ (arg_low hab hy).le ?_
  have h1 : 0 < b - a := sub_pos.2 hab
  rw [neg_lt_neg_iff, div_lt_div_iff_of_pos_right h1]
  linarith

/-- For odd orders the filter is never below minus one. -/
theorem filter_ge (ho : Odd order) (x : ℝ) : -1 ≤ filterValue a b order x := by
  unfold filterValue
  generalize (2 * x - (a + b)) / (b - a) = y
  rcases le_total |y| 1 with h | h
  · exact (abs_le.1 (Chebyshev.abs_eval_T_real_le_one _ h)).1
  · rcases le_abs'.1 h with h | h
    · rw [← cheb_neg_odd ho]
      linarith [Chebyshev.one_le_eval_T_real ((order : ℤ) + 1) (show 1 ≤ -y by linarith)]
    · linarith [Chebyshev.one_le_eval_T_real ((order : ℤ) + 1) h]

/-- A filter value above one that does not belong to a number above the interval belongs to one below. -/
theorem filter_le_of_le (hab : a < b) (ho : Odd order) {x y : ℝ} (hy : y ≤ b) (hx : x < a) (h : filterValue a b order x ≤ filterValue a b order y) : y ≤ x := by
  have hya : y < a := by
    by_contra hc
    have h1 := filter_inside (order := order) hab (not_lt.1 hc) hy
    have h2 := filter_below hab ho hx
    rw [abs_le] at h1
    linarith
  by_contra hc
  exact absurd h (not_le.2 (filter_strict hab ho (not_le.1 hc) hya))

theorem filter_scalar (hab : a ≠ b) (x : ℝ) : chebScalar a b order x = some ((filterValue a b order x : ℝ) : ℂ) := by
  rw [C39_scalar a b hab, chebMap_real]
  congr 1
  unfold filterValue
  have h := Polynomial.eval₂_at_apply (p := Chebyshev.T ℝ ((order : ℤ) + 1)) Complex.ofRealHom ((2 * x - (a + b)) / (b - a))
  rw [← Polynomial.eval_map, Chebyshev.map_T] at h
  exact h

/-! ## The operator -/

variable {S : Type} [Fintype S] {M : ℕ}

/-- The filter of an operator. -/
noncomputable def filterOp (D : SField S M →ₗ[ℂ] SField S M) (a b : ℝ) (order : ℕ) : SField S M →ₗ[ℂ] SField S M :=
  aeval (((2 / (b - a) : ℝ) : ℂ) • D - (((a + b) / (b - a) : ℝ) : ℂ) • LinearMap.id : SField S M →ₗ[ℂ] SField S M) (Chebyshev.T ℂ ((order : ℤ) + 1))

theorem chebyshevApply_eq (D : SField S M →ₗ[ℂ] SField S M) (hab : a ≠ b) : chebyshevApply D a b order = filterOp D a b order := by
  funext v
  unfold chebyshevApply
  rw [C39_operator D a b hab, Option.getD_some]
  rfl

theorem latticeDot_sub_left (u v w : SField S M) : latticeDot (u - v) w = latticeDot u w - latticeDot v w := by
  rw [← latticeDot_conj, latticeDot_sub', map_sub, latticeDot_conj, latticeDot_conj]

private theorem cheb_hermitian (B : SField S M →ₗ[ℂ] SField S M) (hB : HermitianOp B) : ∀ n : ℕ, HermitianOp (aeval B (Chebyshev.T ℂ (n : ℤ))) ∧
    HermitianOp (aeval B (Chebyshev.T ℂ ((n : ℤ) + 1))) := by
  intro n
  induction n with
  | zero =>
    constructor
    · intro v w
      simp
    · intro v w
      simp only [Nat.cast_zero, zero_add, Chebyshev.T_one, aeval_X]
      exact hB v w
  | succ n ih =>
    obtain ⟨h0, h1⟩ := ih
    refine ⟨by push_cast; exact h1, ?_⟩
    have e : ∀ v, aeval B (Chebyshev.T ℂ (((n + 1 : ℕ) : ℤ) + 1)) v = (2 : ℂ) • B (aeval B (Chebyshev.T ℂ ((n : ℤ) + 1)) v) - aeval B (Chebyshev.T ℂ (n : ℤ)) v := by
      intro v
      rw [show ((n + 1 : ℕ) : ℤ) + 1 = (n : ℤ) + 2 by push_cast; ring, Chebyshev.T_add_two, map_sub, map_mul, map_mul, aeval_X]
      rw [show (2 : ℂ[X]) = C (2 : ℂ) from (map_ofNat C 2).symm, aeval_C]
      simp [Algebra.algebraMap_eq_smul_one]
    have hc : ∀ v, B (aeval B (Chebyshev.T ℂ ((n : ℤ) + 1)) v) = aeval B (Chebyshev.T ℂ ((n : ℤ) + 1)) (B v) := by
      intro v
      have h : aeval B (X * Chebyshev.T ℂ ((n : ℤ) + 1)) = aeval B (Chebyshev.T ℂ ((n : ℤ) + 1) * X) := by rw [mul_comm]
      rw [map_mul, map_mul, aeval_X] at h
      exact LinearMap.congr_fun h v
    intro v w
    rw [e, e, latticeDot_sub', latticeDot_sub_left, latticeDot_smul, latticeDot_smul_left, h0 v w, hB, h1, hc, Complex.conj_ofNat]

theorem filterOp_hermitian {D : SField S M →ₗ[ℂ] SField S M} (hD : HermitianOp D) : HermitianOp (filterOp D a b order) := by
  refine (cheb_hermitian _ ?_ order).2
  intro v w
  simp only [LinearMap.sub_apply, LinearMap.smul_apply, LinearMap.id_apply]
  rw [latticeDot_sub', latticeDot_sub_left, latticeDot_smul, latticeDot_smul, latticeDot_smul_left, latticeDot_smul_left, hD v w, Complex.conj_ofReal, Complex.conj_ofReal]

theorem filterOp_eigen {D : SField S M →ₗ[ℂ] SField S M} (hab : a ≠ b) {v : SField S M} {x : ℝ} (h : D v = (x : ℂ) • v) : filterOp D a b order v = (filterValue a b order x : ℂ) • v := by
  have h1 := C39_eigenvector D a b order v x h
  rw [C39_operator D a b hab, filter_scalar hab, Option.map_some, Option.some.injEq] at h1
  exact h1

theorem filterBasis {D : SField S M →ₗ[ℂ] SField S M} (hab : a ≠ b) {N : ℕ} {u : Fin N → SField S M} {mu : Fin N → ℝ} (h : EigenBasis D N u mu) :
    EigenBasis (filterOp D a b order) N u fun i => filterValue a b order (mu i) :=
  ⟨h.orth, fun i => filterOp_eigen hab (h.eigen i), h.norm⟩

end Leonard
