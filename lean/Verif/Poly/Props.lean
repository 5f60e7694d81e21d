/-
C39, C40: functions of Dirac operators are the corresponding functions of numbers.
-/
import Verif.Poly.Model
import Verif.Solver.ShiftProps
import Mathlib.Analysis.SpecialFunctions.Trigonometric.Chebyshev.RootsExtrema
import Mathlib.Analysis.InnerProductSpace.Defs

set_option autoImplicit false

namespace Leonard

open Polynomial

variable {V : Type} [AddCommGroup V] [Module ℂ V]

/-! ### C39: Chebyshev recursion -/

/-- The map of the interval `[a,b]` to `[-1,1]`. -/
noncomputable def chebMap (a b : ℝ) (x : ℂ) : ℂ := (2 * x - (a + b)) / (b - a)

theorem chebScalarLoop_eq (a b : ℝ) (x : ℂ) : ∀ (m k : ℕ), chebScalarLoop a b x m
    ((Chebyshev.T ℂ k).eval (2 * x / ((b - a : ℝ) : ℂ) - (((a + b) / (b - a) : ℝ) : ℂ)))
    ((Chebyshev.T ℂ (k + 1)).eval (2 * x / ((b - a : ℝ) : ℂ) - (((a + b) / (b - a) : ℝ) : ℂ))) =
    (Chebyshev.T ℂ (k + m + 1)).eval (2 * x / ((b - a : ℝ) : ℂ) - (((a + b) / (b - a) : ℝ) : ℂ)) := by
  intro m
  induction m with
  | zero => intro k; simp [chebScalarLoop]
  | succ m ih =>
    intro k
    have := ih (k + 1)
    rw [chebScalarLoop]
    rw [show ((k : ℤ) + ((m + 1 : ℕ) : ℤ) + 1) = ((k + 1 : ℕ) : ℤ) + (m : ℤ) + 1 by push_cast; ring, ← this]
    congr 1
    rw [show (((k + 1 : ℕ) : ℤ) + 1) = (k : ℤ) + 2 by push_cast; ring, Chebyshev.T_add_two]
    simp

/-- **C39, numbers.** The recursion of order `n` evaluates the Chebyshev polynomial of degree `n + 1` at the argument rescaled from the
interval to `[-1, 1]`, for all orders, intervals of non-zero length and complex arguments. -/
theorem C39_scalar (a b : ℝ) (h : a ≠ b) (n : ℕ) (x : ℂ) :
    chebScalar a b n x = some ((Chebyshev.T ℂ (n + 1)).eval (chebMap a b x)) := by
  have hba : b - a ≠ 0 := sub_ne_zero.mpr h.symm
  have e : 2 * x / ((b - a : ℝ) : ℂ) - (((a + b) / (b - a) : ℝ) : ℂ) = chebMap a b x := by
    unfold chebMap; push_cast; rw [sub_div]
  have h0 := chebScalarLoop_eq a b x n 0
  rw [e] at h0
  unfold chebScalar
  rw [if_neg hba, e]
  congr 1
  rw [show ((n : ℤ) + 1) = ((0 : ℕ) : ℤ) + (n : ℤ) + 1 by push_cast; ring, ← h0]
  simp

theorem chebMap_real (a b x : ℝ) : chebMap a b x = (((2 * x - (a + b)) / (b - a) : ℝ) : ℂ) := by
  unfold chebMap; push_cast; rfl

/-- **C39, filter.** For real arguments the value is real, and it is at most one in absolute value exactly inside the interval. -/
theorem C39_filter (a b : ℝ) (h : a < b) (n : ℕ) (x : ℝ) : ∃ y : ℝ, chebScalar a b n x = some (y : ℂ) ∧
    (|y| ≤ 1 ↔ a ≤ x ∧ x ≤ b) := by
  have hba : 0 < b - a := sub_pos.mpr h
  refine ⟨(Chebyshev.T ℝ (n + 1)).eval ((2 * x - (a + b)) / (b - a)), ?_, ?_⟩
  · rw [C39_scalar a b h.ne, chebMap_real]
    congr 1
    have := Chebyshev.complex_ofReal_eval_T ((2 * x - (a + b)) / (b - a)) (n + 1)
    rw [this]
  · rw [← Chebyshev.abs_eval_T_real_le_one_iff (n := (n : ℤ) + 1) (by omega), abs_le]
    rw [le_div_iff₀ hba, div_le_one hba]
    constructor
    · rintro ⟨h1, h2⟩; constructor <;> linarith
    · rintro ⟨h1, h2⟩; constructor <;> linarith

/-- The rescaled operator. -/
noncomputable def chebShift (A : V →ₗ[ℂ] V) (a b : ℝ) : V →ₗ[ℂ] V :=
  ((2 / (b - a) : ℝ) : ℂ) • A - (((a + b) / (b - a) : ℝ) : ℂ) • LinearMap.id

theorem chebLoop_eq (A : V →ₗ[ℂ] V) (a b : ℝ) (v : V) : ∀ (m k : ℕ), chebLoop A a b m
    (aeval (chebShift A a b) (Chebyshev.T ℂ k) v) (aeval (chebShift A a b) (Chebyshev.T ℂ (k + 1)) v) =
    aeval (chebShift A a b) (Chebyshev.T ℂ (k + m + 1)) v := by
  intro m
  induction m with
  | zero => intro k; simp [chebLoop]
  | succ m ih =>
    intro k
    have := ih (k + 1)
    rw [chebLoop]
    rw [show ((k : ℤ) + ((m + 1 : ℕ) : ℤ) + 1) = ((k + 1 : ℕ) : ℤ) + (m : ℤ) + 1 by push_cast; ring, ← this]
    congr 1
    rw [show (((k + 1 : ℕ) : ℤ) + 1) = (k : ℤ) + 2 by push_cast; ring, Chebyshev.T_add_two]
    rw [map_sub, map_mul, map_mul, aeval_X, map_ofNat]
    rw [LinearMap.sub_apply, mul_assoc, Module.End.mul_apply, Module.End.mul_apply]
    congr 1
    have h2 : ∀ w : V, ((2 : Module.End ℂ V)) w = (2 : ℂ) • w := fun w => by
      rw [show (2 : Module.End ℂ V) = 1 + 1 by norm_num, LinearMap.add_apply, Module.End.one_apply, two_smul]
    rw [h2]
    rfl

/-- **C39, operators.** Applied to a linear operator the recursion gives the same polynomial of the rescaled operator. -/
theorem C39_operator (A : V →ₗ[ℂ] V) (a b : ℝ) (h : a ≠ b) (n : ℕ) (v : V) :
    chebOp A a b n v = some (aeval (((2 / (b - a) : ℝ) : ℂ) • A - (((a + b) / (b - a) : ℝ) : ℂ) • LinearMap.id : V →ₗ[ℂ] V) (Chebyshev.T ℂ (n + 1)) v) := by
  have hba : b - a ≠ 0 := sub_ne_zero.mpr h.symm
  have h0 := chebLoop_eq A a b v n 0
  unfold chebOp
  rw [if_neg hba]
  refine congrArg some ?_
  change _ = aeval (chebShift A a b) (Chebyshev.T ℂ (n + 1)) v
  rw [show ((n : ℤ) + 1) = ((0 : ℕ) : ℤ) + (n : ℤ) + 1 by push_cast; ring, ← h0]
  simp [chebShift]

/-- **C39, eigenvectors.** An eigenvector is multiplied by the value of the recursion at its eigenvalue. -/
theorem C39_eigenvector (A : V →ₗ[ℂ] V) (a b : ℝ) (n : ℕ) (v : V) (lam : ℂ) (hv : A v = lam • v) :
    chebOp A a b n v = (chebScalar a b n lam).map fun y => y • v := by
  unfold chebOp chebScalar
  split
  · rfl
  simp only [Option.map_some, Option.some.injEq]
  have step : ∀ z : ℂ, ((2 / (b - a) : ℝ) : ℂ) • A (z • v) - (((a + b) / (b - a) : ℝ) : ℂ) • (z • v) =
      ((2 * lam / ((b - a : ℝ) : ℂ) - (((a + b) / (b - a) : ℝ) : ℂ)) * z) • v := by
    intro z
    rw [map_smul, hv]
    push_cast
    module
  have key : ∀ (m : ℕ) (y z : ℂ), chebLoop A a b m (y • v) (z • v) = chebScalarLoop a b lam m y z • v := by
    intro m
    induction m with
    | zero => intro y z; rfl
    | succ m ih =>
      intro y z
      rw [chebLoop, chebScalarLoop]
      rw [step, ← ih]
      congr 1
      module
  have s1 := step 1
  rw [one_smul, mul_one] at s1
  rw [s1]
  have := key n 1 (2 * lam / ((b - a : ℝ) : ℂ) - (((a + b) / (b - a) : ℝ) : ℂ))
  rw [one_smul] at this
  exact this

/-- **C39, degenerate interval.** Only an interval of length zero gives no value. -/
theorem C39_defined (a b : ℝ) (n : ℕ) (x : ℂ) (A : V → V) (v : V) :
    (chebScalar a b n x = none ↔ a = b) ∧ (chebOp A a b n v = none ↔ a = b) := by
  constructor
  · unfold chebScalar
    split
    · rename_i h; simp [sub_eq_zero.mp h]
    · rename_i h; simp; exact fun hh => h (by rw [hh]; ring)
  · unfold chebOp
    split
    · rename_i h; simp [sub_eq_zero.mp h]
    · rename_i h; simp; exact fun hh => h (by rw [hh]; ring)

/-- The default settings, order 2 on `[0,1]`: the polynomial `T₃`, that is `4 y³ - 3 y` with `y = 2 x - 1`. -/
example (x : ℂ) : chebScalar 0 1 2 x = some (4 * (2 * x - 1) ^ 3 - 3 * (2 * x - 1)) := by
  simp [chebScalar, chebScalarLoop]; ring

example : ∃ (A : ℂ →ₗ[ℂ] ℂ) (v : ℂ), v ≠ 0 ∧ A v = (3 : ℂ) • v := ⟨(3 : ℂ) • LinearMap.id, 1, one_ne_zero, by simp⟩

/-! ### C40: polynomials -/

/-- The polynomial meant by a list of roots and a scaling: the scaling is applied once per root, its sign once, and its imaginary part
is not used. -/
noncomputable def rootPoly (scaling : ℂ) (roots : List ℂ) : ℂ[X] :=
  C (if scaling.re < 0 then -1 else 1) * (roots.map fun r => C ((|scaling.re| : ℝ) : ℂ) * (X - C r)).prod

theorem polyScalarLoop_eq (s : ℝ) (x : ℂ) : ∀ (rs : List ℂ) (y : ℂ),
    polyScalarLoop s x y rs = y * (rs.map fun r => (s : ℂ) * (x - r)).prod := by
  intro rs
  induction rs with
  | nil => intro y; simp [polyScalarLoop]
  | cons r rest ih => intro y; rw [polyScalarLoop, ih]; simp; ring

/-- **C40, numbers.** The scalar version evaluates this polynomial. -/
theorem C40_poly_scalar (scaling : ℂ) (roots : List ℂ) (h : roots ≠ []) (x : ℂ) :
    polyScalar scaling roots x = .ok ((rootPoly scaling roots).eval x) := by
  cases roots with
  | nil => exact absurd rfl h
  | cons r rest =>
    simp only [polyScalar, polyScalarLoop_eq, rootPoly, eval_mul, eval_C, eval_list_prod, List.map_map, List.map_cons, List.prod_cons]
    have e : (List.map ((fun p => eval x p) ∘ fun r => C ((|scaling.re| : ℝ) : ℂ) * (X - C r)) rest) =
        rest.map fun r => ((|scaling.re| : ℝ) : ℂ) * (x - r) := by
      apply List.map_congr_left; intro r _; simp
    simp only [e]
    split <;> simp

theorem polyLoop_eq {B : V → V → ℂ → V} {M : V →ₗ[ℂ] V} (hB : ∀ v z, B v v z = M v + z • v) (s : ℝ) (rs : List ℂ) (t1 t2 : V) :
    (polyLoop B s t1 t2 rs).1 = (if rs.length % 2 = 0 then aeval M (rs.map fun r => C (s : ℂ) * (X - C r)).prod t1
      else (polyLoop B s t1 t2 rs).1) ∧
    (polyLoop B s t1 t2 rs).2 = (if rs.length % 2 = 1 then aeval M (rs.map fun r => C (s : ℂ) * (X - C r)).prod t1
      else (polyLoop B s t1 t2 rs).2) := by
  have one : ∀ (r : ℂ) (v : V), (s : ℂ) • B v v (-r) = aeval M (C (s : ℂ) * (X - C r)) v := by
    intro r v
    rw [hB, map_mul, map_sub, aeval_X, aeval_C, aeval_C, Module.End.mul_apply, LinearMap.sub_apply,
      Module.algebraMap_end_apply, Module.algebraMap_end_apply, neg_smul, sub_eq_add_neg]
  fun_induction polyLoop B s t1 t2 rs with
  | case1 t1 t2 => simp
  | case2 t1 t2 r => simp only [List.length_singleton, List.map_cons, List.map_nil, List.prod_cons, List.prod_nil, mul_one]; rw [one]; simp
  | case3 t1 t2 r r' rest u2 u1 ih =>
    have e : aeval M (((r :: r' :: rest).map fun r => C (s : ℂ) * (X - C r)).prod) t1 =
        aeval M ((rest.map fun r => C (s : ℂ) * (X - C r)).prod) u1 := by
      have hu1 : u1 = aeval M (C (s : ℂ) * (X - C r')) (aeval M (C (s : ℂ) * (X - C r)) t1) := by
        rw [← one, ← one]
      rw [hu1, ← Module.End.mul_apply, ← Module.End.mul_apply, ← map_mul, ← map_mul]
      congr 2
      simp only [List.map_cons, List.prod_cons]; ring
    have l : (r :: r' :: rest).length % 2 = rest.length % 2 := by simp only [List.length_cons]; omega
    rw [l, e]
    exact ih

/-- **C40, polynomials.** For a linear operator whose `multiplyAdd` follows the law of C33, the operator version computes the polynomial
of the operator, for every non-empty list of roots, all scalings and whatever the kept vectors held before. -/
theorem C40_poly {B : V → V → ℂ → V} (M : V →ₗ[ℂ] V) (hB : ∀ v z, B v v z = M v + z • v) (scaling : ℂ) (old : V)
    (roots : List ℂ) (h : roots ≠ []) (v : V) :
    polyOp B scaling old roots v = .ok (aeval M (rootPoly scaling roots) v) := by
  have one : ∀ (r : ℂ) (v : V), ((|scaling.re| : ℝ) : ℂ) • B v v (-r) = aeval M (C ((|scaling.re| : ℝ) : ℂ) * (X - C r)) v := by
    intro r v
    rw [hB, map_mul, map_sub, aeval_X, aeval_C, aeval_C, Module.End.mul_apply, LinearMap.sub_apply,
      Module.algebraMap_end_apply, Module.algebraMap_end_apply, neg_smul, sub_eq_add_neg]
  cases roots with
  | nil => exact absurd rfl h
  | cons r rest =>
    have hl := polyLoop_eq hB |scaling.re| rest (((|scaling.re| : ℝ) : ℂ) • B v v (-r)) old
    have hprod : aeval M (((r :: rest).map fun r => C ((|scaling.re| : ℝ) : ℂ) * (X - C r)).prod) v =
        aeval M ((rest.map fun r => C ((|scaling.re| : ℝ) : ℂ) * (X - C r)).prod) (((|scaling.re| : ℝ) : ℂ) • B v v (-r)) := by
      rw [one, ← Module.End.mul_apply, ← map_mul]
      congr 2
      simp only [List.map_cons, List.prod_cons]; ring
    have htmp : (if (r :: rest).length % 2 = 0 then (polyLoop B |scaling.re| (((|scaling.re| : ℝ) : ℂ) • B v v (-r)) old rest).2
        else (polyLoop B |scaling.re| (((|scaling.re| : ℝ) : ℂ) • B v v (-r)) old rest).1) =
        aeval M (((r :: rest).map fun r => C ((|scaling.re| : ℝ) : ℂ) * (X - C r)).prod) v := by
      rw [hprod]
      by_cases hpar : (r :: rest).length % 2 = 0
      · rw [if_pos hpar, hl.2, if_pos (by simp only [List.length_cons] at hpar; omega)]
      · rw [if_neg hpar, hl.1, if_pos (by simp only [List.length_cons] at hpar; omega)]
    simp only [polyOp, rootPoly, htmp]
    rw [map_mul, aeval_C, Module.End.mul_apply, Module.algebraMap_end_apply]
    split <;> simp

/-- **C40, polynomials on eigenvectors.** -/
theorem C40_poly_eigenvector {B : V → V → ℂ → V} (M : V →ₗ[ℂ] V) (hB : ∀ v z, B v v z = M v + z • v) (scaling : ℂ) (old : V)
    (roots : List ℂ) (v : V) (lam : ℂ) (hv : M v = lam • v) :
    polyOp B scaling old roots v = polyScalar scaling roots lam >>= fun y => .ok (y • v) := by
  by_cases h : roots = []
  · subst h; rfl
  rw [C40_poly M hB scaling old roots h, C40_poly_scalar scaling roots h]
  change _ = Outcome.ok _
  congr 1
  generalize rootPoly scaling roots = p
  induction p using Polynomial.induction_on' with
  | add p q hp hq => rw [map_add, LinearMap.add_apply, hp, hq, eval_add, add_smul]
  | monomial n c =>
    rw [aeval_monomial, Module.End.mul_apply, Module.algebraMap_end_apply, eval_monomial, mul_smul]
    congr 1
    induction n with
    | zero => simp
    | succ n ih => rw [pow_succ', Module.End.mul_apply, ih, map_smul, hv, smul_smul, pow_succ]

/-- The version with a preconditioner runs the plain loop for the composed operator. -/
theorem polyPrecLoop_eq (A : V → V) (B : V → V → ℂ → V) (s : ℝ) (rs : List ℂ) (t1 t2 : V) :
    polyPrecLoop A B s t1 t2 rs = polyLoop (fun v w z => B (A v) w z) s t1 t2 rs := by
  fun_induction polyPrecLoop A B s t1 t2 rs with
  | case1 t1 t2 => rfl
  | case2 t1 t2 r => rfl
  | case3 t1 t2 r r' rest u2 u1 ih => rw [ih]; rfl

/-- **C40, polynomials with a preconditioner.** The result is the preconditioner applied to the polynomial of the product of
preconditioner and operator. -/
theorem C40_poly_prec {B : V → V → ℂ → V} (A P : V →ₗ[ℂ] V) (hB : ∀ v w z, B v w z = P v + z • w) (scaling : ℂ)
    (roots : List ℂ) (h : roots ≠ []) (v : V) :
    polyPrecOp A P B scaling roots v = .ok (P (aeval (P ∘ₗ A) (rootPoly scaling roots) v)) := by
  have e := C40_poly (B := fun v w z => B (A v) w z) (P ∘ₗ A) (fun v z => hB (A v) v z) scaling (A v) roots h v
  cases roots with
  | nil => exact absurd rfl h
  | cons r rest =>
    simp only [polyOp, Outcome.ok.injEq] at e
    simp only [polyPrecOp, polyPrecLoop_eq]
    rw [← e]
    split <;> simp

/-- **C40, no roots.** An empty list of roots is read outside its bounds, by all versions. -/
theorem C40_poly_empty (B : V → V → ℂ → V) (A P : V → V) (scaling : ℂ) (old v : V) (x : ℂ) :
    polyOp B scaling old [] v = .ub ∧ polyPrecOp A P B scaling [] v = .ub ∧ polyScalar scaling [] x = .ub := ⟨rfl, rfl, rfl⟩

/-- Two roots and a negative scaling. -/
example (x : ℂ) : polyScalar (-2) [1, 3] x = .ok (-(4 * (x - 1) * (x - 3))) := by
  simp only [polyScalar, polyScalarLoop]
  norm_num
  left; ring

/-! ### C40: partial fractions -/

theorem rationalScalar_eq (x : ℂ) : ∀ (as bs : List ℝ), as.length ≤ bs.length → (∀ β ∈ bs, x + (β : ℂ) ≠ 0) →
    rationalScalar x as bs = .ok (some ((as.zip bs).map fun ab => ((ab.1 : ℝ) : ℂ) / (x + ((ab.2 : ℝ) : ℂ))).sum) := by
  intro as
  induction as with
  | nil => intro bs _ _; simp [rationalScalar]
  | cons α as ih =>
    intro bs hl hb
    cases bs with
    | nil => simp at hl
    | cons β bs =>
      simp only [rationalScalar, ih bs (by simpa using hl) fun b hb' => hb b (List.mem_cons_of_mem _ hb')]
      simp [bind, Outcome.bind, hb β (by simp)]

/-- **C40, partial fraction of a number.** With as many shifts as coefficients and away from the poles the value is
`Σ αᵢ / (x + βᵢ)`; with fewer shifts than coefficients the list is left. -/
theorem C40_rational_scalar (x : ℂ) (alphas betas : List ℝ) :
    (alphas.length ≤ betas.length → (∀ β ∈ betas, x + (β : ℂ) ≠ 0) → rationalScalar x alphas betas =
      .ok (some ((alphas.zip betas).map fun ab => ((ab.1 : ℝ) : ℂ) / (x + ((ab.2 : ℝ) : ℂ))).sum)) ∧
    (betas.length < alphas.length → rationalScalar x alphas betas = .ub) := by
  refine ⟨rationalScalar_eq x alphas betas, ?_⟩
  induction alphas generalizing betas with
  | nil => intro h; simp at h
  | cons α as ih =>
    intro h
    cases betas with
    | nil => rfl
    | cons β bs => simp only [rationalScalar, ih bs (by simpa using h)]; rfl

theorem rationalSum_eq : ∀ (as : List ℝ) (xs : List V), xs.length ≤ as.length →
    rationalSum as (xs.map some) = .ok (some ((as.zip xs).map fun ax => ((ax.1 : ℝ) : ℂ) • ax.2).sum) := by
  intro as
  induction as with
  | nil => intro xs h; cases xs with
    | nil => rfl
    | cons x xs => simp at h
  | cons α as ih =>
    intro xs h
    cases xs with
    | nil => simp [rationalSum]
    | cons x xs =>
      simp only [List.map_cons, rationalSum, ih xs (by simpa using h)]
      simp [bind, Outcome.bind]

section
open Vec
variable [Vec V]

/-- The inner product of the vectors makes `√norm2` a norm. -/
noncomputable def vecCore : InnerProductSpace.Core ℂ V where
  inner v w := dot v w
  conj_inner_symm v w := dot_conj w v
  re_inner_nonneg v := norm2_nonneg v
  add_left v w u := add_dot v w u
  smul_left v w a := smul_dot v w a
  definite v h := by
    apply norm2_eq_zero.mp
    unfold norm2
    change dot v v = 0 at h
    rw [h]; rfl

/-- Triangle inequality. -/
theorem sqrt_norm2_add (v w : V) : Real.sqrt (norm2 (v + w)) ≤ Real.sqrt (norm2 v) + Real.sqrt (norm2 w) :=
  letI := @InnerProductSpace.Core.toNormedAddCommGroup ℂ V _ _ _ vecCore
  norm_add_le v w

/-- **C40, partial fraction of an operator.** Let the multishift solver succeed (in the sense of C37: every system is solved to the precision
`eps`), for a linear operator `A` and as many coefficients as shifts.  If `v` is an eigenvector with eigenvalue `lam` and `A + βᵢ` does not
shorten squared norms by more than the factor `m`, then the result differs from `r(lam) v` by a vector of norm at most `Σ |αᵢ| √(eps / m)`. -/
theorem C40_rational {A : V → V} (hA : Linear A) {solve : V → ℕ → List ℝ → Outcome (Bool × List (Option V))} {alphas betas : List ℝ}
    (hlen : alphas.length = betas.length) {v : V} {eps : ℝ} {xs : List (Option V)} (hs : solve v betas.length betas = .ok (true, xs))
    (hx : SolvesAll A v eps betas xs) {lam : ℂ} (hv : A v = lam • v) (hpole : ∀ β ∈ betas, lam + (β : ℂ) ≠ 0) {m : ℝ} (hm : 0 < m)
    (hlow : ∀ β ∈ betas, ∀ w, m * norm2 w ≤ norm2 (A w + ((β : ℝ) : ℂ) • w)) :
    ∃ out y, rationalOp solve alphas betas v = .ok (some out) ∧ rationalScalar lam alphas betas = .ok (some y) ∧
      Real.sqrt (norm2 (out - y • v)) ≤ (alphas.map fun α => |α|).sum * Real.sqrt (eps / m) := by
  have hxs : ∃ ys : List V, xs = ys.map some ∧
      List.Forall₂ (fun β y => norm2 (v - (A y + ((β : ℝ) : ℂ) • y)) < eps) betas ys := by
    clear hs hlen hpole hlow
    induction hx with
    | nil => exact ⟨[], rfl, List.Forall₂.nil⟩
    | cons h _ ih =>
      obtain ⟨ys, rfl, h2⟩ := ih
      obtain ⟨y, rfl, h3⟩ := h
      exact ⟨y :: ys, rfl, List.Forall₂.cons h3 h2⟩
  obtain ⟨ys, rfl, hys⟩ := hxs
  have hl2 := hys.length_eq
  refine ⟨((alphas.zip ys).map fun ax => ((ax.1 : ℝ) : ℂ) • ax.2).sum, _, ?_, (C40_rational_scalar lam alphas betas).1 hlen.le hpole, ?_⟩
  · simp only [rationalOp, hs, bind, Outcome.bind]
    exact rationalSum_eq alphas ys (by omega)
  clear hs hx
  induction hys generalizing alphas with
  | nil =>
    have : alphas = [] := by simpa using hlen
    subst this
    simp [norm2_zero]
  | @cons β y betas ys h hys ih =>
    cases alphas with
    | nil => simp at hlen
    | cons α as =>
      have ih' := ih (alphas := as) (by simpa using hlen) (fun b hb => hpole b (List.mem_cons_of_mem _ hb))
        (fun b hb => hlow b (List.mem_cons_of_mem _ hb)) (by simpa using hl2)
      simp only [List.zip_cons_cons, List.map_cons, List.sum_cons]
      have e : ∀ S : V, ∀ t : ℂ, ((α : ℝ) : ℂ) • y + S - (((α : ℝ) : ℂ) / (lam + ((β : ℝ) : ℂ)) + t) • v =
          ((α : ℝ) : ℂ) • (y - (lam + ((β : ℝ) : ℂ))⁻¹ • v) + (S - t • v) := by
        intro S t; rw [div_eq_mul_inv]; module
      rw [e, add_mul]
      refine (sqrt_norm2_add _ _).trans (add_le_add ?_ ih')
      rw [norm2_smul, Complex.normSq_ofReal, Real.sqrt_mul' _ (norm2_nonneg _), Real.sqrt_mul_self_eq_abs]
      refine mul_le_mul_of_nonneg_left (Real.sqrt_le_sqrt ?_) (abs_nonneg _)
      rw [le_div_iff₀ hm, mul_comm]
      refine (hlow β (by simp) _).trans ?_
      have hp := hpole β (by simp)
      have e2 : A (y - (lam + ((β : ℝ) : ℂ))⁻¹ • v) + ((β : ℝ) : ℂ) • (y - (lam + ((β : ℝ) : ℂ))⁻¹ • v) =
          (-1 : ℂ) • (v - (A y + ((β : ℝ) : ℂ) • y)) := by
        rw [hA.sub, hA.smul, hv]
        have h1 : (lam + ((β : ℝ) : ℂ))⁻¹ * (lam + ((β : ℝ) : ℂ)) = 1 := inv_mul_cancel₀ hp
        have h2 : v = ((lam + ((β : ℝ) : ℂ))⁻¹ * (lam + ((β : ℝ) : ℂ))) • v := by rw [h1, one_smul]
        have h3 : (-1 : ℂ) • (v - (A y + ((β : ℝ) : ℂ) • y)) = A y + ((β : ℝ) : ℂ) • y - v := by module
        rw [h3]
        conv_rhs => rw [h2]
        module
      rw [e2, norm2_smul]
      simp only [Complex.normSq_neg, Complex.normSq_one, one_mul]
      exact h.le

/-- **C40** is violated by the partial fraction when the solver fails: the flag is not looked at.  When the limit of steps is reached at once the
evaluation returns zero, although no eigenvector is mapped to zero by `1 / (x + β)`. -/
theorem C40_flag_counterexample {A : V → V} {B : ℂ → V → V} (eps β : ℝ) (hβ : 0 ≤ β) (v : V) (hv0 : v ≠ 0)
    (lam : ℂ) (hp : lam + (β : ℂ) ≠ 0) : mmmrSolve B eps 0 v 1 [β] = .ok (false, [some 0]) ∧
      rationalOp (mmmrSolve B eps 0) [1] [β] v = .ok (some 0) ∧
      ∃ y, rationalScalar lam [1] [β] = .ok (some y) ∧ y • v ≠ 0 := by
  have h : mmmrSolve B eps 0 v 1 [β] = .ok (false, [some 0]) := by
    simp [mmmrSolve, mmmrFront, not_lt.mpr hβ, mmmrLoop]
  refine ⟨h, ?_, 1 / (lam + (β : ℂ)), ?_, ?_⟩
  · simp [rationalOp, h, bind, Outcome.bind, rationalSum]
  · simp [rationalScalar, hp, bind, Outcome.bind]
  · exact smul_ne_zero (one_div_ne_zero hp) hv0

/-- **C40 with the solvers of the library**: with the multishift solver by mass extrapolation, limit 3000. -/
theorem C40_rational_me {A : V → V} (hA : Linear A) {B : ℂ → V → V} (hB : ∀ σ v, B σ v = A v + σ • v) {alphas betas : List ℝ}
    (hlen : alphas.length = betas.length) {v : V} {eps : ℝ} {xs : List (Option V)}
    (hs : meSolve B eps 3000 v betas.length betas = .ok (true, xs))
    {lam : ℂ} (hv : A v = lam • v) (hpole : ∀ β ∈ betas, lam + (β : ℂ) ≠ 0) {m : ℝ} (hm : 0 < m)
    (hlow : ∀ β ∈ betas, ∀ w, m * norm2 w ≤ norm2 (A w + ((β : ℝ) : ℂ) • w)) :
    ∃ out y, rationalOp (meSolve B eps 3000) alphas betas v = .ok (some out) ∧ rationalScalar lam alphas betas = .ok (some y) ∧
      Real.sqrt (norm2 (out - y • v)) ≤ (alphas.map fun α => |α|).sum * Real.sqrt (eps / m) :=
  C40_rational hA hlen hs (C37_me_partial hA hB eps (by norm_num) v _ betas xs hs) hv hpole hm hlow

/-- The hypotheses hold for the unit operator on numbers. -/
example : ∃ xs, meSolve (fun σ (v : Fin 1 → ℂ) => v + σ • v) (1 / 2) 3000 (fun _ => 1) 1 [1] = .ok (true, xs) ∧
    ∀ β ∈ [(1 : ℝ)], ∀ w : Fin 1 → ℂ, 4 * norm2 w ≤ norm2 (w + ((β : ℝ) : ℂ) • w) := by
  have hd : ∀ v w : Fin 1 → ℂ, dot v w = starRingEnd ℂ (v 0) * w 0 := fun x y => by
    show ∑ m : Fin 1, _ = _
    simp
  refine ⟨[some fun _ => 1 / 2], ?_, ?_⟩
  · simp only [meSolve, meLoop, List.length_nil]
    rw [if_neg (by norm_num), show (3000 : ℕ) = 2999 + 1 by norm_num, shiftCgLoop]
    simp [norm2, hd]
    norm_num
    funext m
    simp
  · intro β hβ w
    have : β = 1 := by simpa using hβ
    subst this
    rw [show w + (((1 : ℝ)) : ℂ) • w = (2 : ℂ) • w by push_cast; module, norm2_smul]
    simp [Complex.normSq_apply]; norm_num

end

/-- **C40, sizes.** With fewer coefficients than shifts the sum leaves the list of coefficients, whenever the solver returns one vector
per shift. -/
theorem C40_sizes_counterexample (solve : V → ℕ → List ℝ → Outcome (Bool × List (Option V))) (alphas betas : List ℝ) (v : V)
    (flag : Bool) (xs : List (Option V)) (hs : solve v betas.length betas = .ok (flag, xs)) (hx : xs.length = betas.length)
    (h : alphas.length < betas.length) : rationalOp solve alphas betas v = .ub := by
  have key : ∀ (as : List ℝ) (xs : List (Option V)), as.length < xs.length → rationalSum as xs = .ub := by
    intro as
    induction as with
    | nil => intro xs h; cases xs with
      | nil => simp at h
      | cons x xs => rfl
    | cons α as ih =>
      intro xs h
      cases xs with
      | nil => simp at h
      | cons x xs => simp only [rationalSum, ih xs (by simpa using h)]; rfl
  simp only [rationalOp, hs, bind, Outcome.bind]
  exact key alphas xs (by omega)

end Leonard
