import Verif.Meson.Ineq
import Verif.Meson.Bound

/-!
# C61: what is written for the scalar
-/

set_option autoImplicit false

namespace Leonard

open Matrix

/-- The lattice with one site. -/
def pointTorus : Torus Unit where
  sup _ := 1
  comm _ _ _ := rfl
  ext _ := 1
  period _ _ := rfl
  coord _ _ := 0
  coord_sup_ne _ _ _ _ := rfl
  coord_sup _ _ := rfl
  coord_lt _ _ := Nat.one_pos

/-- The links of the witness: `diag(i,-i)` in the first direction, one in the others. -/
noncomputable def pointLinks : GField Unit 2 := fun _ μ => if μ = 0 then diagonal ![Complex.I, -Complex.I] else 1

/-- The Pauli matrix σ₃. -/
noncomputable def pauli3 : Mat 2 := diagonal ![1, -1]

theorem pauli3_sq : pauli3 * pauli3 = 1 := by
  rw [pauli3, diagonal_mul_diagonal, ← diagonal_one]
  congr 1
  funext i
  fin_cases i <;> simp

theorem pauli3_transpose : pauli3ᵀ = pauli3 := diagonal_transpose _

theorem pointLinks_zero : diagonal ![Complex.I, -Complex.I] = Complex.I • pauli3 := by
  rw [pauli3, ← diagonal_smul]
  congr 1
  funext i
  fin_cases i <;> simp

/-- The operator of the witness at κ = 1/8. -/
theorem point_wilson (v : SField Unit 2) : wilsonSpec pointTorus pointLinks (1 / 8) v = fun x => (1 / 4 : ℂ) • (v x + Complex.I • (tabGamma 0 * (v x * pauli3))) := by
  funext x
  have h1 : ∀ μ : Fin 4, μ ≠ 0 → (1 - tabGamma μ) * (v (pointTorus.sup μ x) * (pointLinks x μ)ᵀ)
      + (1 + tabGamma μ) * (v (pointTorus.sdn μ x) * ((pointLinks (pointTorus.sdn μ x) μ)ᴴ)ᵀ) = (2 : ℂ) • v x := by
    intro μ hμ
    simp only [pointLinks, if_neg hμ, conjTranspose_one, transpose_one, Matrix.mul_one]
    rw [show v (pointTorus.sup μ x) = v x from rfl, show v (pointTorus.sdn μ x) = v x from rfl, ← Matrix.add_mul,
      show (1 - tabGamma μ) + (1 + tabGamma μ) = (2 : ℂ) • (1 : SpinMat) by rw [two_smul]; abel, Matrix.smul_mul, Matrix.one_mul]
  have h0 : (1 - tabGamma 0) * (v (pointTorus.sup 0 x) * (pointLinks x 0)ᵀ)
      + (1 + tabGamma 0) * (v (pointTorus.sdn 0 x) * ((pointLinks (pointTorus.sdn 0 x) 0)ᴴ)ᵀ) = -(2 * Complex.I) • (tabGamma 0 * (v x * pauli3)) := by
    have hH : (Complex.I • pauli3)ᴴ = -(Complex.I • pauli3) := by
      rw [conjTranspose_smul, show pauli3ᴴ = pauli3 by
        rw [pauli3, diagonal_conjTranspose]; congr 1; funext i; fin_cases i <;> simp]
      simp
    simp only [pointLinks, if_true]
    rw [pointLinks_zero, hH, transpose_neg, transpose_smul, pauli3_transpose, show v (pointTorus.sup 0 x) = v x from rfl,
      show v (pointTorus.sdn 0 x) = v x from rfl]
    simp only [Matrix.mul_neg, Matrix.mul_smul, Matrix.sub_mul, Matrix.add_mul, Matrix.one_mul, smul_add, smul_sub, neg_smul]
    rw [mul_comm 2 Complex.I, mul_smul, two_smul]
    simp only [smul_add]
    abel
  rw [wilsonSpec, hoppingSpec, Fin.sum_univ_four, h0, h1 1 (by decide), h1 2 (by decide), h1 3 (by decide)]
  have : ((1 / 8 : ℝ) : ℂ) = 1 / 8 := by push_cast; rfl
  rw [this]
  ext mu i
  simp only [Matrix.sub_apply, Matrix.add_apply, Matrix.smul_apply, Matrix.neg_apply, smul_eq_mul]
  ring

/-- The Green function of the witness. -/
noncomputable def pointGreen : Unit → Unit → Matrix (Fin 4 × Fin 2) (Fin 4 × Fin 2) ℂ := fun _ _ =>
  (2 : ℂ) • (1 - Complex.I • kroneckerMap (· * ·) (tabGamma 0) pauli3)

/-- The inverse operator of the witness. -/
noncomputable def pointSolve (b : SField Unit 2) : SField Unit 2 := fun x => (2 : ℂ) • (b x - Complex.I • (tabGamma 0 * (b x * pauli3)))

theorem point_solve (b : SField Unit 2) : wilsonSpec pointTorus pointLinks (1 / 8) (pointSolve b) = b := by
  rw [point_wilson]
  funext x
  have h : tabGamma 0 * (tabGamma 0 * (b x * pauli3) * pauli3) = b x := by
    rw [Matrix.mul_assoc (tabGamma 0), Matrix.mul_assoc (b x), pauli3_sq, Matrix.mul_one, ← Matrix.mul_assoc, gamma_sq, Matrix.one_mul]
  simp only [pointSolve, Matrix.smul_mul, Matrix.mul_smul, Matrix.sub_mul, Matrix.mul_sub, h]
  ext mu i
  simp only [Matrix.sub_apply, Matrix.add_apply, Matrix.smul_apply, smul_eq_mul]
  linear_combination (-(1 / 2) * b x mu i) * Complex.I_mul_I

theorem point_green : IsGreen (optMul pointTorus pointLinks (1 / 8) false) pointGreen := by
  rintro y ⟨α, c⟩
  have h : (fun x => Matrix.of fun mu i => pointGreen x y (mu, i) (α, c)) = pointSolve (unitField y (α, c)) := by
    funext x
    ext mu i
    have hX : (tabGamma 0 * (unitField y (α, c) x * pauli3)) mu i = tabGamma 0 mu α * pauli3 c i := by
      rw [Matrix.mul_apply, Finset.sum_eq_single α]
      · rw [Matrix.mul_apply, Finset.sum_eq_single c]
        · simp [unitField]
        · intro k _ hk; simp [unitField, hk]
        · simp
      · intro nu _ hnu
        have : (unitField y (α, c) x * pauli3) nu i = 0 := by
          rw [Matrix.mul_apply]
          exact Finset.sum_eq_zero fun k _ => by simp [unitField, hnu]
        rw [this, mul_zero]
      · simp
    have hs : pauli3 c i = pauli3 i c := by
      have := congrFun (congrFun pauli3_transpose i) c
      exact this
    simp only [pointGreen, pointSolve, Matrix.of_apply, Matrix.smul_apply, Matrix.sub_apply, hX, hs, kroneckerMap_apply, smul_eq_mul, one_apply]
    simp only [unitField, Matrix.of_apply, true_and]
  rw [h, (C33_wilson _ _ _ _ _).1]
  exact point_solve _

theorem pointLinks_unitary (x : Unit) (μ : Fin 4) : pointLinks x μ ∈ unitaryGroup (Fin 2) ℂ := by
  rw [mem_unitaryGroup_iff, pointLinks]
  split
  · rw [star_eq_conjTranspose, diagonal_conjTranspose, diagonal_mul_diagonal, ← diagonal_one]
    congr 1
    funext i
    fin_cases i <;> simp
  · simp

theorem point_contraction (Γ : SpinMat) : contraction pointTorus pointGreen Γ Γ () 0
    = trace (kroneckerMap (· * ·) Γ (1 : Mat 2) * pointGreen () () * kroneckerMap (· * ·) Γ (1 : Mat 2) * pointGreen () ()) := by
  unfold contraction
  simp [pointTorus]

theorem point_square : kroneckerMap (· * ·) (tabGamma 0) pauli3 * kroneckerMap (· * ·) (tabGamma 0) pauli3 = 1 := by
  have h := mul_kronecker_mul (tabGamma 0) (tabGamma 0) pauli3 pauli3
  rw [gamma_sq, pauli3_sq] at h
  exact h.symm.trans one_kronecker_one

theorem point_scalar : contraction pointTorus pointGreen 1 1 () 0 = 0 := by
  have h1 : kroneckerMap (· * ·) (1 : SpinMat) (1 : Mat 2) = 1 := one_kronecker_one
  have hp : trace pauli3 = 0 := by rw [pauli3, trace_diagonal]; simp
  have ht : trace (kroneckerMap (· * ·) (tabGamma 0) pauli3) = 0 := by
    have h := trace_kronecker (tabGamma 0) pauli3
    rw [hp, mul_zero] at h
    exact h
  rw [point_contraction, h1, Matrix.one_mul, Matrix.mul_one, pointGreen]
  have hsq := point_square
  generalize kroneckerMap (· * ·) (tabGamma 0) pauli3 = K at *
  have e : (2 : ℂ) • (1 - Complex.I • K) * (2 : ℂ) • (1 - Complex.I • K) = -(8 * Complex.I) • K := by
    simp only [Matrix.smul_mul, Matrix.mul_smul, Matrix.sub_mul, Matrix.mul_sub, Matrix.one_mul, Matrix.mul_one, hsq]
    ext a b
    simp only [Matrix.sub_apply, Matrix.smul_apply, smul_eq_mul]
    linear_combination (4 * (1 : Matrix (Fin 4 × Fin 2) (Fin 4 × Fin 2) ℂ) a b) * Complex.I_mul_I
  rw [e, trace_smul, ht, smul_zero]

theorem point_vector : contraction pointTorus pointGreen (tabGamma 3) (tabGamma 3) () 0 = 64 := by
  rw [point_contraction, pointGreen]
  have h30 : tabGamma 3 * tabGamma 0 * tabGamma 3 = -tabGamma 0 := by
    have h := (C32_clifford 3 0).1
    rw [if_neg (by decide)] at h
    rw [eq_neg_of_add_eq_zero_left h, Matrix.neg_mul, Matrix.mul_assoc, gamma_sq, Matrix.mul_one]
  have hK : kroneckerMap (· * ·) (tabGamma 3) (1 : Mat 2) * kroneckerMap (· * ·) (tabGamma 0) pauli3 * kroneckerMap (· * ·) (tabGamma 3) (1 : Mat 2)
      = -kroneckerMap (· * ·) (tabGamma 0) pauli3 := by
    have h1 := mul_kronecker_mul (tabGamma 3) (tabGamma 0) (1 : Mat 2) pauli3
    have h2 := mul_kronecker_mul (tabGamma 3 * tabGamma 0) (tabGamma 3) (1 * pauli3) (1 : Mat 2)
    rw [h1, h30, Matrix.one_mul, Matrix.mul_one] at h2
    refine h2.symm.trans ?_
    ext a b
    simp [kroneckerMap_apply]
  have h33 : kroneckerMap (· * ·) (tabGamma 3) (1 : Mat 2) * kroneckerMap (· * ·) (tabGamma 3) (1 : Mat 2) = 1 := by
    have h := mul_kronecker_mul (tabGamma 3) (tabGamma 3) (1 : Mat 2) (1 : Mat 2)
    rw [gamma_sq, Matrix.one_mul] at h
    exact h.symm.trans one_kronecker_one
  have hsq := point_square
  generalize kroneckerMap (· * ·) (tabGamma 0) pauli3 = K at *
  generalize kroneckerMap (· * ·) (tabGamma 3) (1 : Mat 2) = L at *
  have e : L * (2 : ℂ) • (1 - Complex.I • K) * L * (2 : ℂ) • (1 - Complex.I • K) = (8 : ℂ) • 1 := by
    have e1 : L * (2 : ℂ) • (1 - Complex.I • K) * L = (2 : ℂ) • (1 + Complex.I • K) := by
      simp only [Matrix.smul_mul, Matrix.mul_smul, Matrix.sub_mul, Matrix.mul_sub, Matrix.mul_one, hK, h33, smul_neg, sub_neg_eq_add]
    rw [e1]
    simp only [Matrix.smul_mul, Matrix.mul_smul, Matrix.add_mul, Matrix.mul_sub, Matrix.one_mul, Matrix.mul_one, hsq]
    ext a b
    simp only [Matrix.sub_apply, Matrix.add_apply, Matrix.smul_apply, smul_eq_mul]
    linear_combination (-4 * (1 : Matrix (Fin 4 × Fin 2) (Fin 4 × Fin 2) ℂ) a b) * Complex.I_mul_I
  rw [e, trace_smul, trace_one]
  simp
  norm_num

/-- **C61**: what is written for the scalar is not the correlator of the scalar density. On unitary links, with an exact inverter, at κ = 1/8 the
program writes 4 where the contraction of the scalar density vanishes. -/
theorem C61_scalar_counterexample : ∃ (T : Torus Unit) (U : GField Unit 2) (solve : GField Unit 2 → SField Unit 2 → SField Unit 2)
    (G : Unit → Unit → Matrix (Fin 4 × Fin 2) (Fin 4 × Fin 2) ℂ), (∀ x μ, U x μ ∈ unitaryGroup (Fin 2) ℂ) ∧ (∀ b, optMul T U (1 / 8) false (solve U b) = b)
      ∧ IsGreen (optMul T U (1 / 8) false) G ∧ (mesonExecute T (1 / 8) solve (fun _ => none) 0 U).scalar = [4]
      ∧ (List.range (T.ext 3)).map (fun t => 4 * (1 / 8 : ℝ) ^ 2 * (contraction T G 1 1 () t).re) = [0] := by
  have hs : ∀ b, optMul pointTorus pointLinks (1 / 8) false (pointSolve b) = b := fun b => by rw [(C33_wilson _ _ _ _ _).1]; exact point_solve b
  refine ⟨pointTorus, pointLinks, fun _ => pointSolve, pointGreen, pointLinks_unitary, hs, point_green, ?_, ?_⟩
  · have ho : IsOrigin pointTorus () := fun x => ⟨fun _ => rfl, fun _ _ => rfl⟩
    have h := (C61_wick pointTorus (κ := 1 / 8) (D := fun U => optMul pointTorus U (1 / 8) false) (Or.inl rfl) ho pointLinks 0 (fun _ => pointSolve) hs point_green).2.1
    rw [h]
    change [4 * (1 / 8 : ℝ) ^ 2 * (contraction pointTorus pointGreen (tabGamma 3) (tabGamma 3) () 0).re] = [4]
    rw [point_vector]
    norm_num
  · change [4 * (1 / 8 : ℝ) ^ 2 * (contraction pointTorus pointGreen 1 1 () 0).re] = [0]
    rw [point_scalar]
    norm_num

end Leonard
