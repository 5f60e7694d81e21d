import Verif.Linalg.Props
import Verif.Overlap.Props

/-!
# C97: the self test of the overlap operators
-/

set_option autoImplicit false

namespace Leonard

open Matrix MeasureTheory

noncomputable section

variable {S : Type} {N : ℕ}

/-- The part of the self test for the overlap operators, `TestLinearAlgebra.cpp:79-111`. `coeff` is the option `OverlapOperator::squareRootApproximation` (its first entry is
the scaling, an empty list is undefined behaviour), `eigs` are the eigenvectors kept by the exact operator, `old` is what the polynomials hold before each of
the four products. -/
def overlapTest [Fintype S] (T : Torus S) (U : GField S N) (coeff : List ℂ) (eigs : List (ℝ × SField S N)) (old : Fin 4 → SField S N) (b₁ b₂ : SField S N) :
    Outcome (List ℝ) :=
  match coeff with
  | [] => .ub
  | scaling :: roots => do
    let test3 ← overlapMul T (12 / 100) (1 / 10) scaling roots (old 0) true U b₁
    let test4 ← overlapMul T (12 / 100) (1 / 10) scaling roots (old 1) true U b₂
    let htest := Complex.normSq (latticeDot b₂ test3 - latticeDot test4 b₁)
    let test3 ← exactOverlapMul T (2 / 10) (1 / 10) scaling roots (old 2) eigs true U b₁
    let test4 ← exactOverlapMul T (2 / 10) (1 / 10) scaling roots (old 3) eigs true U b₂
    .ok [htest, Complex.normSq (latticeDot b₂ test3 - latticeDot test4 b₁)]

/-- **C97**, overlap operators: if the polynomial has at least one root and is real on the real line, and the exact operator keeps eigenvectors of the Wilson operator,
both numbers are zero for all links and vectors. -/
theorem C97_overlap [Fintype S] (T : Torus S) (U : GField S N) (scaling : ℂ) (roots : List ℂ) (h : roots ≠ [])
    (hr : ∀ x : ℝ, ((roots.map fun r => (x : ℂ) - r).prod).im = 0) (eigs : List (ℝ × SField S N))
    (he : ∀ e ∈ eigs, optMul T U (2 / 10) true e.2 = (e.1 : ℂ) • e.2) (old : Fin 4 → SField S N) (b₁ b₂ : SField S N) :
    overlapTest T U (scaling :: roots) eigs old b₁ b₂ = .ok [0, 0] := by
  have h1 := (C70_hermitian T (12 / 100) (1 / 10) scaling roots hr (old 0) U eigs b₂ b₁).1 _ _
    (overlapMul_eq T _ _ scaling roots h (old 0) true U b₂) (overlapMul_eq T _ _ scaling roots h (old 0) true U b₁)
  have h2 := (C70_hermitian T (2 / 10) (1 / 10) scaling roots hr (old 0) U eigs b₂ b₁).2 _ _ he
    (exactOverlapMul_eq T _ _ scaling roots h (old 0) eigs true U b₂) (exactOverlapMul_eq T _ _ scaling roots h (old 0) eigs true U b₁)
  simp only [overlapTest, overlapMul_eq T _ _ scaling roots h, exactOverlapMul_eq T _ _ scaling roots h, Outcome.bind_ok, h1, h2, sub_self, map_zero]

/-- The overlap operator with gamma5 as a complex linear function. -/
def overlapLin [Fintype S] (T : Torus S) (κ mass : ℝ) (scaling : ℂ) (roots : List ℂ) (U : GField S N) : SField S N →ₗ[ℂ] SField S N where
  toFun v := ((1 / 2 + mass / 2 : ℝ) : ℂ) • gamma5Field v + ((1 / 2 - mass / 2 : ℝ) : ℂ) • signLin T κ scaling roots U v
  map_add' v w := by rw [gamma5Field_add, map_add]; module
  map_smul' c v := by rw [gamma5Field_smul, map_smul, RingHom.id_apply]; module

theorem overlapLin_apply [Fintype S] (T : Torus S) (κ mass : ℝ) (scaling : ℂ) (roots : List ℂ) (U : GField S N) (v : SField S N) :
    overlapLin T κ mass scaling roots U v = overlapOut mass true v (signLin T κ scaling roots U v) := by
  rw [overlapOut_true, ← Complex.coe_smul, ← Complex.coe_smul]
  rfl

theorem overlapLin_def [Fintype S] (T : Torus S) (κ mass : ℝ) (scaling : ℂ) (roots : List ℂ) (U : GField S N) (v : SField S N) :
    overlapLin T κ mass scaling roots U v = ((1 / 2 + mass / 2 : ℝ) : ℂ) • gamma5Field v + ((1 / 2 - mass / 2 : ℝ) : ℂ) • signLin T κ scaling roots U v := rfl

theorem gamma5_dot_real [Fintype S] (u : SField S N) : (latticeDot u (gamma5Field u)).im = 0 := by
  rw [← Complex.conj_eq_iff_im, latticeDot_conj, ← gamma5Field_move]

/-- The overlap operator is not Hermitian when the polynomial is not real at the square of an eigenvalue. -/
theorem overlapLin_not_hermitian [Fintype S] (T : Torus S) (κ mass : ℝ) (hm : mass ≠ 1) (U : GField S N) (scaling : ℂ) (hs : scaling.re ≠ 0) (roots : List ℂ)
    (lam : ℝ) (hl : lam ≠ 0) (u : SField S N) (hu : u ≠ 0) (hlu : optMul T U κ true u = (lam : ℂ) • u)
    (hr : ((roots.map fun r => ((lam ^ 2 : ℝ) : ℂ) - r).prod).im ≠ 0) :
    ¬ ∀ v w, latticeDot v (overlapLin T κ mass scaling roots U w) = latticeDot (overlapLin T κ mass scaling roots U v) w := by
  intro hA
  have hw : wilsonFamily T κ U u = (lam : ℂ) • u := by rw [(wilson_isDirac T κ).apply]; exact hlu
  have hsg := signLin_eigen T κ scaling roots U hw
  have h7 : ((lam : ℂ) * (rootPoly scaling roots).eval ((lam : ℂ) ^ 2)).im ≠ 0 := by
    rw [rootPoly_eval, Complex.im_ofReal_mul, Complex.im_ofReal_mul]
    refine mul_ne_zero hl (mul_ne_zero ?_ ?_)
    · unfold opScale
      have : |scaling.re| ≠ 0 := abs_ne_zero.2 hs
      exact mul_ne_zero (by split_ifs <;> norm_num) (pow_ne_zero _ this)
    · push_cast at hr
      exact hr
  generalize (lam : ℂ) * (rootPoly scaling roots).eval ((lam : ℂ) ^ 2) = z at hsg h7
  have h1 := hA u u
  rw [← latticeDot_conj u] at h1
  have h6 := Complex.conj_eq_iff_im.1 h1.symm
  rw [overlapLin_def, latticeDot_add, latticeDot_smul, latticeDot_smul, hsg, latticeDot_smul, (C34_dot u u).1, Complex.add_im, Complex.im_ofReal_mul,
    gamma5_dot_real, Complex.im_ofReal_mul, Complex.im_mul_ofReal, mul_zero, zero_add] at h6
  have h5 : latticeNorm2 u ≠ 0 := fun h0 => hu ((C34_dot u u).2.2.1.1 h0)
  rcases mul_eq_zero.1 h6 with h8 | h8
  · exact hm (by linarith)
  · exact (mul_ne_zero h7 h5) h8

/-- **C97**, overlap operators: coefficients with a mistake are found. If the polynomial is not real at the square of an eigenvalue of the Wilson operator other than zero, then
for almost every first and almost every second vector the first number is different from zero, whatever the exact operator keeps. -/
theorem C97_overlap_found [Fintype S] (T : Torus S) (U : GField S N) (scaling : ℂ) (hs : scaling.re ≠ 0) (roots : List ℂ) (h : roots ≠ []) (lam : ℝ) (hl : lam ≠ 0)
    (u : SField S N) (hu : u ≠ 0) (hlu : optMul T U (12 / 100) true u = (lam : ℂ) • u)
    (hr : ((roots.map fun r => ((lam ^ 2 : ℝ) : ℂ) - r).prod).im ≠ 0) (eigs : List (ℝ × SField S N)) (old : Fin 4 → SField S N) :
    ∀ᵐ u₁ ∂randomVectorLaw S N, ∀ᵐ u₂ ∂randomVectorLaw S N,
      ∃ a b, overlapTest T U (scaling :: roots) eigs old (randomVector u₁) (randomVector u₂) = .ok [a, b] ∧ a ≠ 0 := by
  have hA := overlapLin_not_hermitian T (12 / 100) (1 / 10) (by norm_num) U scaling hs roots lam hl u hu hlu hr
  filter_upwards [C97_hermitian _ hA] with u₁ h₁
  filter_upwards [h₁] with u₂ h₂
  simp only [hermitianTest, overlapLin_apply] at h₂
  simp only [overlapTest, overlapMul_eq T _ _ scaling roots h, exactOverlapMul_eq T _ _ scaling roots h, Outcome.bind_ok]
  exact ⟨_, _, rfl, h₂⟩

/-- **C97**, overlap operators: an empty option is not caught, the program reads the first entry of an empty list; an option with the scaling only makes the polynomial read a
root that does not exist. -/
theorem C97_overlap_counterexample [Fintype S] (T : Torus S) (U : GField S N) (scaling : ℂ) (eigs : List (ℝ × SField S N)) (old : Fin 4 → SField S N) (b₁ b₂ : SField S N) :
    overlapTest T U [] eigs old b₁ b₂ = .ub ∧ overlapTest T U [scaling] eigs old b₁ b₂ = .ub := ⟨rfl, rfl⟩

/-- `C97_overlap`: two conjugate roots. -/
example : ∀ x : ℝ, ((([Complex.I, -Complex.I] : List ℂ).map fun r => (x : ℂ) - r).prod).im = 0 := by
  intro x
  simp

/-- `C97_overlap_found`: unit links, a constant field with the upper components, the eigenvalue `1 - 8 * 0.12`, and one root that is not real. -/
example (T : Torus S) [Nonempty S] : ∃ u : SField S 3, u ≠ 0 ∧ optMul T (fun _ _ => 1) (12 / 100) true u = ((4 / 100 : ℝ) : ℂ) • u ∧
    ((([Complex.I] : List ℂ).map fun r => (((4 / 100) ^ 2 : ℝ) : ℂ) - r).prod).im ≠ 0 := by
  refine ⟨fun _ => Matrix.of fun mu _ => if mu = 0 then 1 else 0, ?_, ?_, ?_⟩
  · intro h0
    obtain ⟨x⟩ := ‹Nonempty S›
    have := congrFun (congrFun (congrFun h0 x) 0) 0
    simp at this
  · have hc : ∀ m : Matrix (Fin 4) (Fin 3) ℂ, wilsonSpec T (fun _ _ => 1) (12 / 100) (fun _ => m) = fun _ => (4 / 100 : ℂ) • m := by
      intro m
      funext x
      have h8 : hoppingSpec T (fun _ _ => (1 : Mat 3)) (fun _ => m) x = (8 : ℂ) • m := by
        simp only [hoppingSpec, conjTranspose_one, transpose_one, Matrix.mul_one, Matrix.sub_mul, Matrix.add_mul, Matrix.one_mul, Fin.sum_univ_four]
        module
      rw [wilsonSpec, h8]
      push_cast
      module
    rw [(C33_wilson T _ _ true _).1, hc]
    funext x
    ext mu c
    simp only [withGamma5, if_true, gamma5Field, gamma5_apply]
    fin_cases mu <;> simp
  · have e : ((([Complex.I] : List ℂ).map fun r => (((4 / 100) ^ 2 : ℝ) : ℂ) - r).prod) = (((4 / 100) ^ 2 : ℝ) : ℂ) - Complex.I := by simp
    rw [e, Complex.sub_im, Complex.ofReal_im, Complex.I_im]
    norm_num

end

end Leonard
