import Verif.Meson.Model
import Verif.Measure.BoxSymmetry
import Verif.Dirac.HermProps
import Verif.Dirac.EvenOddSchur
import Mathlib.Algebra.Star.BigOperators

/-!
# Green functions of the Wilson operators

Uniqueness, translation, γ₅-Hermiticity and the trace of a contraction.
-/

set_option autoImplicit false

namespace Leonard

open Matrix

variable {S : Type} {N : ℕ}

/-- The field which is one in component `j` at `y` and zero elsewhere. -/
noncomputable def unitField [DecidableEq S] (y : S) (j : Fin 4 × Fin N) : SField S N := fun x => Matrix.of fun mu i =>
  if x = y ∧ (mu, i) = j then 1 else 0

/-- **Specification.** `G x y` is the inverse of the operator `D` between the sites `y` and `x`: the columns of `G` solve `D ψ = δ`. -/
def IsGreen [DecidableEq S] (D : SField S N → SField S N) (G : S → S → Matrix (Fin 4 × Fin N) (Fin 4 × Fin N) ℂ) : Prop :=
  ∀ y j, D (fun x => Matrix.of fun mu i => G x y (mu, i) j) = unitField y j

/-- **Specification.** `Σ_x tr(Γ₁ G(x,y) Γ₂ G(y,x))` over the sites `x` which are `t` time slices after `y`. -/
noncomputable def contraction [Fintype S] (T : Torus S) (G : S → S → Matrix (Fin 4 × Fin N) (Fin 4 × Fin N) ℂ) (Γ₁ Γ₂ : SpinMat) (y : S) (t : ℕ) : ℂ :=
  ∑ x, if T.coord x 3 = (T.coord y 3 + t) % T.ext 3 then
    trace (kroneckerMap (· * ·) Γ₁ (1 : Mat N) * G x y * kroneckerMap (· * ·) Γ₂ (1 : Mat N) * G y x) else 0

/-- The improved operator as a linear map. -/
noncomputable def improvedLin (T : Torus S) (U : GField S N) (κ csw : ℝ) : SField S N →ₗ[ℂ] SField S N :=
  { toFun := improvedSpec T U κ csw, map_add' := improvedSpec_add T U κ csw, map_smul' := fun c a => improvedSpec_smul T U κ csw c a }

theorem improved_injective [Finite S] {T : Torus S} {U : GField S N} {κ csw : ℝ} (h : ∀ b, ∃ v, improvedSpec T U κ csw v = b) :
    Function.Injective (improvedSpec T U κ csw) := by
  cases nonempty_fintype S
  exact (LinearMap.injective_iff_surjective (f := improvedLin T U κ csw)).2 h

theorem latticeDot_unitField [Fintype S] [DecidableEq S] (v : SField S N) (y : S) (j : Fin 4 × Fin N) :
    latticeDot v (unitField y j) = starRingEnd ℂ (v y j.1 j.2) := by
  obtain ⟨a, c⟩ := j
  unfold latticeDot unitField
  rw [Finset.sum_eq_single y, Finset.sum_eq_single a, Finset.sum_eq_single c]
  · simp
  · intro i _ hi; simp [hi]
  · simp
  · intro mu _ hmu; simp [hmu]
  · simp
  · intro x _ hx; simp [hx]
  · simp

/-- The sign of a spin component under γ₅. -/
def spinSign (mu : Fin 4) : ℂ := if 2 ≤ mu.val then -1 else 1

theorem gamma5Field_apply (v : SField S N) (x : S) (mu : Fin 4) (i : Fin N) : gamma5Field v x mu i = spinSign mu * v x mu i := by
  simp only [gamma5Field, gamma5_apply, spinSign]
  fin_cases mu <;> simp

theorem gamma5_left (Γ : SpinMat) (mu nu : Fin 4) : (tabGamma5 * Γ) mu nu = spinSign mu * Γ mu nu := by
  have h := gamma5Field_apply (S := Unit) (N := 4) (fun _ => Γ) () mu nu
  exact h

theorem gamma5_eq_diagonal : tabGamma5 = diagonal spinSign := by
  ext a b
  have h := gamma5_left 1 a b
  rw [Matrix.mul_one] at h
  rw [h, diagonal_apply, one_apply]
  split
  · simp_all
  · simp

theorem gamma5_right (Γ : SpinMat) (mu nu : Fin 4) : (Γ * tabGamma5) mu nu = Γ mu nu * spinSign nu := by
  rw [gamma5_eq_diagonal, mul_diagonal]

theorem spinSign_sq (mu : Fin 4) : spinSign mu * spinSign mu = 1 := by
  unfold spinSign; split <;> simp

theorem spinSign_conj (mu : Fin 4) : starRingEnd ℂ (spinSign mu) = spinSign mu := by
  unfold spinSign; split <;> simp

/-- γ₅-Hermiticity of the Green function. -/
theorem green_gamma5 [Fintype S] [DecidableEq S] {T : Torus S} {U : GField S N} {κ csw : ℝ}
    {G : S → S → Matrix (Fin 4 × Fin N) (Fin 4 × Fin N) ℂ} (hG : IsGreen (improvedSpec T U κ csw) G) (x y : S) (i j : Fin 4 × Fin N) :
    G y x j i = spinSign i.1 * spinSign j.1 * starRingEnd ℂ (G x y i j) := by
  have h := improved_hermitian T U κ csw (fun z => Matrix.of fun mu c => G z y (mu, c) j) (fun z => Matrix.of fun mu c => G z x (mu, c) i)
  rw [hG y j, hG x i, gamma5Field_move, latticeDot_unitField, ← latticeDot_conj, gamma5Field_move, latticeDot_unitField, Complex.conj_conj,
    gamma5Field_apply, gamma5Field_apply, map_mul, spinSign_conj] at h
  simp only [Matrix.of_apply] at h
  calc G y x j i = spinSign j.1 * (spinSign j.1 * G y x j i) := by rw [← mul_assoc, spinSign_sq, one_mul]
    _ = _ := by rw [← h]; ring

/-- A trace with two gamma matrices, written with the Green function in one direction only. -/
theorem trace_contraction [Fintype S] [DecidableEq S] {T : Torus S} {U : GField S N} {κ csw : ℝ}
    {G : S → S → Matrix (Fin 4 × Fin N) (Fin 4 × Fin N) ℂ} (hG : IsGreen (improvedSpec T U κ csw) G) (x y : S) (Γ₁ Γ₂ : SpinMat) :
    trace (kroneckerMap (· * ·) Γ₁ (1 : Mat N) * G x y * kroneckerMap (· * ·) Γ₂ (1 : Mat N) * G y x)
      = ∑ mu, ∑ nu, ∑ α, ∑ β, ∑ c, ∑ d, (tabGamma5 * Γ₁) mu nu * (Γ₂ * tabGamma5) β α * starRingEnd ℂ (G x y (mu, d) (α, c)) * G x y (nu, d) (β, c) := by
  have hk : ∀ (Γ : SpinMat) (M : Matrix (Fin 4 × Fin N) (Fin 4 × Fin N) ℂ) (mu : Fin 4) (d : Fin N) (j : Fin 4 × Fin N),
      (kroneckerMap (· * ·) Γ (1 : Mat N) * M) (mu, d) j = ∑ nu, Γ mu nu * M (nu, d) j := by
    intro Γ M mu d j
    rw [Matrix.mul_apply, Fintype.sum_prod_type]
    refine Finset.sum_congr rfl fun nu _ => ?_
    rw [Finset.sum_eq_single d]
    · simp [kroneckerMap_apply]
    · intro e _ he; simp [kroneckerMap_apply, one_apply, Ne.symm he]
    · simp
  rw [Matrix.mul_assoc, Matrix.mul_assoc]
  simp only [Matrix.trace, Matrix.diag, Fintype.sum_prod_type, hk]
  simp only [Matrix.mul_apply (M := G x y), Fintype.sum_prod_type, hk, green_gamma5 hG x y, gamma5_left, gamma5_right]
  have e : ∀ (mu : Fin 4), ∑ d, ∑ nu, Γ₁ mu nu * ∑ β, ∑ c, G x y (nu, d) (β, c) * ∑ α, Γ₂ β α * (spinSign mu * spinSign α * starRingEnd ℂ (G x y (mu, d) (α, c)))
      = ∑ nu, ∑ α, ∑ β, ∑ c, ∑ d, spinSign mu * Γ₁ mu nu * (Γ₂ β α * spinSign α) * starRingEnd ℂ (G x y (mu, d) (α, c)) * G x y (nu, d) (β, c) := by
    intro mu
    rw [Finset.sum_comm]
    refine Finset.sum_congr rfl fun nu _ => ?_
    simp only [Finset.mul_sum]
    calc _ = ∑ d, ∑ β, ∑ α, ∑ c, Γ₁ mu nu * (G x y (nu, d) (β, c) * (Γ₂ β α * (spinSign mu * spinSign α * starRingEnd ℂ (G x y (mu, d) (α, c))))) :=
          Finset.sum_congr rfl fun d _ => Finset.sum_congr rfl fun β _ => Finset.sum_comm
      _ = ∑ d, ∑ α, ∑ β, ∑ c, Γ₁ mu nu * (G x y (nu, d) (β, c) * (Γ₂ β α * (spinSign mu * spinSign α * starRingEnd ℂ (G x y (mu, d) (α, c))))) :=
          Finset.sum_congr rfl fun d _ => Finset.sum_comm
      _ = ∑ α, ∑ d, ∑ β, ∑ c, Γ₁ mu nu * (G x y (nu, d) (β, c) * (Γ₂ β α * (spinSign mu * spinSign α * starRingEnd ℂ (G x y (mu, d) (α, c))))) :=
          Finset.sum_comm
      _ = ∑ α, ∑ β, ∑ d, ∑ c, Γ₁ mu nu * (G x y (nu, d) (β, c) * (Γ₂ β α * (spinSign mu * spinSign α * starRingEnd ℂ (G x y (mu, d) (α, c))))) :=
          Finset.sum_congr rfl fun α _ => Finset.sum_comm
      _ = ∑ α, ∑ β, ∑ c, ∑ d, Γ₁ mu nu * (G x y (nu, d) (β, c) * (Γ₂ β α * (spinSign mu * spinSign α * starRingEnd ℂ (G x y (mu, d) (α, c))))) :=
          Finset.sum_congr rfl fun α _ => Finset.sum_congr rfl fun β _ => Finset.sum_comm
      _ = _ := Finset.sum_congr rfl fun α _ => Finset.sum_congr rfl fun β _ => Finset.sum_congr rfl fun c _ => Finset.sum_congr rfl fun d _ => by ring
  exact Finset.sum_congr rfl fun mu _ => e mu

/-! ### Translations -/

theorem improved_translate (T : Torus S) (U : GField S N) (κ csw : ℝ) (ρ : Fin 4) (v : SField S N) :
    improvedSpec T (fun x mu => U (T.sup ρ x) mu) κ csw (fun x => v (T.sup ρ x)) = fun x => improvedSpec T U κ csw v (T.sup ρ x) := by
  have hF : ∀ μ ν x, cloverF T (fun x mu => U (T.sup ρ x) mu) μ ν x = cloverF T U μ ν (T.sup ρ x) := by
    intro μ ν x
    have h := (translation T ρ).cloverF_pull (U := U) μ ν x
    have hs : (translation T ρ).sgn μ * (translation T ρ).sgn ν = 1 := by simp [LatticeSymmetry.sgn, translation]
    rw [hs, Complex.ofReal_one, one_smul] at h
    exact h
  funext x
  simp only [improvedSpec, wilsonSpec, hoppingSpec, hF]
  have h1 : ∀ μ, T.sup ρ (T.sup μ x) = T.sup μ (T.sup ρ x) := fun μ => T.comm ρ μ x
  have h2 : ∀ μ, T.sup ρ (T.sdn μ x) = T.sdn μ (T.sup ρ x) := fun μ => T.sup_sdn_comm ρ μ x
  simp only [h1, h2]

theorem rotateLinks_eq (T : Torus S) (n : ℕ) (U : GField S N) : rotateLinks T n U = fun x mu => U ((T.sup 3)^[n] x) mu := by
  induction n generalizing U with
  | zero => rfl
  | succ n ih =>
    rw [rotateLinks, ih]
    funext x mu
    rw [← Function.iterate_succ_apply' (T.sup 3) n x]

theorem improved_rotate (T : Torus S) (U : GField S N) (κ csw : ℝ) (n : ℕ) (v : SField S N) :
    improvedSpec T (fun x mu => U ((T.sup 3)^[n] x) mu) κ csw (fun x => v ((T.sup 3)^[n] x)) = fun x => improvedSpec T U κ csw v ((T.sup 3)^[n] x) := by
  induction n with
  | zero => rfl
  | succ n ih =>
    have h := improved_translate T (fun x mu => U ((T.sup 3)^[n] x) mu) κ csw 3 fun x => v ((T.sup 3)^[n] x)
    rw [ih] at h
    simpa only [← Function.iterate_succ_apply] using h

theorem coord_iterate (T : Torus S) (n : ℕ) (x : S) : T.coord ((T.sup 3)^[n] x) 3 = (T.coord x 3 + n) % T.ext 3 := by
  induction n with
  | zero => exact (Nat.mod_eq_of_lt (T.coord_lt 3 x)).symm
  | succ n ih =>
    rw [Function.iterate_succ_apply', T.coord_sup, ih, Nat.mod_add_mod, Nat.add_assoc]

/-- The Green function of the rotated links. -/
theorem green_rotate [DecidableEq S] {T : Torus S} {U : GField S N} {κ csw : ℝ} {G : S → S → Matrix (Fin 4 × Fin N) (Fin 4 × Fin N) ℂ}
    (hG : IsGreen (improvedSpec T U κ csw) G) (n : ℕ) :
    IsGreen (improvedSpec T (rotateLinks T n U) κ csw) fun x y => G ((T.sup 3)^[n] x) ((T.sup 3)^[n] y) := by
  intro y j
  have h := improved_rotate T U κ csw n fun x => Matrix.of fun mu i => G x ((T.sup 3)^[n] y) (mu, i) j
  rw [rotateLinks_eq, h, hG]
  funext x
  have hi : ((T.sup 3)^[n] x = (T.sup 3)^[n] y) = (x = y) := propext ((T.sup 3).injective.iterate n).eq_iff
  simp only [unitField, hi]

end Leonard
