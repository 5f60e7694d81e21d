import Verif.Gauge.ExpMap
import Verif.Gauge.UpdatesProps
import Mathlib.Analysis.Matrix.Spectrum
import Mathlib.Analysis.Complex.ExponentialBounds
import Mathlib.Analysis.SpecialFunctions.Trigonometric.Bounds

/-!
# C26 The matrix exponential used for link updates is the exponential
-/

set_option autoImplicit false

namespace Leonard

open Matrix ComplexConjugate

/-! ### Diagonalisation of Lie algebra elements -/

/-- An anti-Hermitian matrix is `V diag(iλ) V†`. -/
theorem lie_diagonal {N : ℕ} (A : Mat N) (hA : Aᴴ = -A) :
    ∃ (V : Mat N) (ev : Fin N → ℝ), V ∈ unitaryGroup (Fin N) ℂ
      ∧ A = V * Matrix.diagonal (fun i => Complex.I * ev i) * Vᴴ := by
  have hH : (-Complex.I • A).IsHermitian := by
    unfold Matrix.IsHermitian
    rw [conjTranspose_smul, hA]
    simp
  refine ⟨hH.eigenvectorUnitary, hH.eigenvalues, hH.eigenvectorUnitary.2, ?_⟩
  have h := hH.spectral_theorem
  rw [Unitary.conjStarAlgAut_apply] at h
  have e : A = Complex.I • (-Complex.I • A) := by rw [smul_smul]; simp
  conv_lhs => rw [e, h]
  rw [← Matrix.smul_mul, ← Matrix.mul_smul, ← Matrix.diagonal_smul]
  rfl

/-- `V diag(d) V†`. -/
noncomputable def conjDiag {N : ℕ} (V : Mat N) (d : Fin N → ℂ) : Mat N := V * Matrix.diagonal d * Vᴴ

section
variable {N : ℕ} {V : Mat N} (hV : V ∈ unitaryGroup (Fin N) ℂ)
include hV

theorem conjDiag_mul (d e : Fin N → ℂ) : conjDiag V d * conjDiag V e = conjDiag V (fun i => d i * e i) := by
  have h : Vᴴ * V = 1 := mem_unitaryGroup_iff'.1 hV
  unfold conjDiag
  calc _ = V * (Matrix.diagonal d * (Vᴴ * V) * Matrix.diagonal e) * Vᴴ := by simp only [Matrix.mul_assoc]
    _ = _ := by rw [h, Matrix.mul_one, Matrix.diagonal_mul_diagonal]

omit hV in
theorem conjDiag_smul (c : ℂ) (d : Fin N → ℂ) : c • conjDiag V d = conjDiag V (fun i => c * d i) := by
  unfold conjDiag
  rw [← Matrix.smul_mul, ← Matrix.mul_smul, ← Matrix.diagonal_smul]; rfl

omit hV in
theorem conjDiag_add (d e : Fin N → ℂ) : conjDiag V d + conjDiag V e = conjDiag V (fun i => d i + e i) := by
  unfold conjDiag
  rw [← Matrix.add_mul, ← Matrix.mul_add, Matrix.diagonal_add]

theorem conjDiag_one : conjDiag V (fun _ => 1) = 1 := by
  unfold conjDiag
  rw [Matrix.diagonal_one, Matrix.mul_one]; exact mem_unitaryGroup_iff.1 hV

theorem trace_conjDiag (d : Fin N → ℂ) : trace (conjDiag V d) = ∑ i, d i := by
  have h : Vᴴ * V = 1 := mem_unitaryGroup_iff'.1 hV
  unfold conjDiag
  rw [Matrix.trace_mul_comm, ← Matrix.mul_assoc, h, Matrix.one_mul, Matrix.trace_diagonal]

theorem det_conjDiag (d : Fin N → ℂ) : (conjDiag V d).det = ∏ i, d i := by
  have h : V * Vᴴ = 1 := mem_unitaryGroup_iff.1 hV
  unfold conjDiag
  rw [Matrix.det_mul, Matrix.det_mul, mul_right_comm, ← Matrix.det_mul, h, Matrix.det_one, one_mul, Matrix.det_diagonal]

theorem exp_conjDiag (d : Fin N → ℂ) : NormedSpace.exp (conjDiag V d) = conjDiag V (fun i => Complex.exp (d i)) := by
  have h1 : V * Vᴴ = 1 := mem_unitaryGroup_iff.1 hV
  have h2 : Vᴴ * V = 1 := mem_unitaryGroup_iff'.1 hV
  have hu : IsUnit V := ⟨⟨V, Vᴴ, h1, h2⟩, rfl⟩
  have hinv : V⁻¹ = Vᴴ := Matrix.inv_eq_left_inv h2
  unfold conjDiag
  rw [← hinv, Matrix.exp_conj V _ hu, Matrix.exp_diagonal]
  congr 3
  funext i
  rw [Pi.coe_exp, ← Complex.exp_eq_exp_ℂ]

/-- The entries of `V diag(d) V†` are not larger than the largest `d`. -/
theorem norm_conjDiag_le (d : Fin N → ℂ) (b : ℝ) (hb : ∀ i, ‖d i‖ ≤ b) (i j : Fin N) : ‖conjDiag V d i j‖ ≤ b := by
  have hb0 : 0 ≤ b := le_trans (norm_nonneg _) (hb i)
  have hrow : ∀ i, ∑ k, ‖V i k‖ ^ 2 = 1 := by
    intro i
    have := congrFun (congrFun (mem_unitaryGroup_iff.1 hV) i) i
    rw [Matrix.mul_apply, Matrix.one_apply_eq] at this
    have e : ∀ k, V i k * (star V) k i = ((‖V i k‖ ^ 2 : ℝ) : ℂ) := by
      intro k
      rw [Matrix.star_apply, Complex.star_def, Complex.mul_conj, Complex.normSq_eq_norm_sq]
    simp only [e] at this
    exact_mod_cast this
  have e : conjDiag V d i j = ∑ k, V i k * d k * conj (V j k) := by
    unfold conjDiag
    rw [Matrix.mul_apply]
    refine Finset.sum_congr rfl fun k _ => ?_
    rw [Matrix.mul_diagonal]; rfl
  rw [e]
  calc ‖∑ k, V i k * d k * conj (V j k)‖ ≤ ∑ k, ‖V i k * d k * conj (V j k)‖ := norm_sum_le _ _
    _ ≤ ∑ k, b * ((‖V i k‖ ^ 2 + ‖V j k‖ ^ 2) / 2) := by
        refine Finset.sum_le_sum fun k _ => ?_
        rw [norm_mul, norm_mul, RCLike.norm_conj]
        have h1 := hb k
        have h2 : ‖V i k‖ * ‖V j k‖ ≤ (‖V i k‖ ^ 2 + ‖V j k‖ ^ 2) / 2 := by nlinarith [sq_nonneg (‖V i k‖ - ‖V j k‖)]
        calc ‖V i k‖ * ‖d k‖ * ‖V j k‖ = ‖d k‖ * (‖V i k‖ * ‖V j k‖) := by ring
          _ ≤ b * (‖V i k‖ * ‖V j k‖) := by gcongr
          _ ≤ _ := by gcongr
    _ = b := by
        rw [← Finset.mul_sum, ← Finset.sum_div, Finset.sum_add_distrib, hrow, hrow]; ring

end

/-! ### Two colours -/

/-- **C26**, two colours: away from zero the closed formula is the exponential. What is missing: the formula is not defined at
zero (`C26_counterexample_zero`). -/
theorem C26_two_colours_partial (A : Mat 2) (hA : IsLie A) (h0 : A ≠ 0) : expSu2 A = some (NormedSpace.exp A) := by
  obtain ⟨V, ev, hV, hd⟩ := lie_diagonal A hA.1
  have hc : A = conjDiag V (fun i => Complex.I * ev i) := hd
  -- the entries
  have e00 := congrFun (congrFun hA.1 0) 0
  have e01 := congrFun (congrFun hA.1 1) 0
  have htr := hA.2
  simp only [Matrix.conjTranspose_apply, Matrix.neg_apply, Complex.star_def] at e00 e01
  rw [Matrix.trace_fin_two] at htr
  set a := (A 0 0).im with ha
  set b := (A 0 1).re with hb
  set c := (A 0 1).im with hc'
  have a00 : A 0 0 = ⟨0, a⟩ := by
    apply Complex.ext
    · have := congrArg Complex.re e00; simp at this; simp; linarith
    · rfl
  have a01 : A 0 1 = ⟨b, c⟩ := rfl
  have a10 : A 1 0 = ⟨-b, c⟩ := by
    rw [a01] at e01
    have : A 1 0 = -conj (⟨b, c⟩ : ℂ) := by rw [e01]; simp
    rw [this]; apply Complex.ext <;> simp
  have a11 : A 1 1 = ⟨0, -a⟩ := by
    have : A 1 1 = -A 0 0 := by linear_combination htr
    rw [this, a00]; apply Complex.ext <;> simp
  have hr0 : a * a + b * b + c * c ≠ 0 := by
    intro h
    have z1 : a = 0 := by nlinarith [mul_self_nonneg a, mul_self_nonneg b, mul_self_nonneg c]
    have z2 : b = 0 := by nlinarith [mul_self_nonneg a, mul_self_nonneg b, mul_self_nonneg c]
    have z3 : c = 0 := by nlinarith [mul_self_nonneg a, mul_self_nonneg b, mul_self_nonneg c]
    apply h0
    ext i j
    fin_cases i <;> fin_cases j <;> simp [a00, a01, a10, a11, z1, z2, z3] <;> rfl
  have hpos : 0 < a * a + b * b + c * c := 
    lt_of_le_of_ne (by nlinarith [mul_self_nonneg a, mul_self_nonneg b, mul_self_nonneg c]) (Ne.symm hr0)
  set ρ := Real.sqrt (a * a + b * b + c * c) with hρ
  have hρ0 : 0 < ρ := Real.sqrt_pos.2 hpos
  have hρ2 : ρ * ρ = a * a + b * b + c * c := Real.mul_self_sqrt hpos.le
  -- the square of the matrix
  have hsq : A * A = ((-(ρ * ρ) : ℝ) : ℂ) • 1 := by
    rw [hρ2]
    ext i j
    fin_cases i <;> fin_cases j <;>
      simp [Matrix.mul_apply, Fin.sum_univ_two, a00, a01, a10, a11] <;> apply Complex.ext <;> simp <;> ring
  have hev : ∀ i, ev i = ρ ∨ ev i = -ρ := by
    intro i
    have h1 : conjDiag V (fun i => Complex.I * ev i * (Complex.I * ev i)) = conjDiag V (fun _ => ((-(ρ * ρ) : ℝ) : ℂ) * 1) := by
      rw [← conjDiag_mul hV, ← hc, hsq, ← conjDiag_smul, conjDiag_one hV]
    have hVV : Vᴴ * V = 1 := mem_unitaryGroup_iff'.1 hV
    have h2 : ∀ d, Vᴴ * conjDiag V d * V = Matrix.diagonal d := by
      intro d
      unfold conjDiag
      calc _ = (Vᴴ * V) * Matrix.diagonal d * (Vᴴ * V) := by simp only [Matrix.mul_assoc]
        _ = _ := by rw [hVV, Matrix.one_mul, Matrix.mul_one]
    have h3 := congrArg (fun M => (Vᴴ * M * V) i i) h1
    simp only [h2, Matrix.diagonal_apply_eq] at h3
    have h4 : ev i * ev i = ρ * ρ := by
      have := congrArg Complex.re h3
      simp at this; linarith
    have h5 : (ev i - ρ) * (ev i + ρ) = 0 := by linarith
    rcases mul_eq_zero.1 h5 with h | h
    · left; linarith
    · right; linarith
  have hexp : NormedSpace.exp A = ((Real.sin ρ / ρ : ℝ) : ℂ) • A + ((Real.cos ρ : ℝ) : ℂ) • 1 := by
    rw [← conjDiag_one hV]
    conv_lhs => rw [hc]
    conv_rhs => rw [hc]
    rw [exp_conjDiag hV, conjDiag_smul, conjDiag_smul, conjDiag_add]
    congr 1
    funext i
    have hρc : (ρ : ℂ) ≠ 0 := by exact_mod_cast hρ0.ne'
    rw [mul_comm Complex.I, Complex.exp_mul_I]
    rcases hev i with h | h
    · rw [h]; push_cast; field_simp; ring
    · rw [h]; push_cast; rw [Complex.cos_neg, Complex.sin_neg]; field_simp; ring
  rw [hexp]
  unfold expSu2
  simp only [← ha, ← hb, ← hc', ← hρ]
  rw [if_neg hρ0.ne']
  congr 1
  have hρc : (ρ : ℂ) ≠ 0 := by exact_mod_cast hρ0.ne'
  have p1 : (⟨Real.cos ρ, Real.sin ρ⟩ : ℂ) = Real.cos ρ + Real.sin ρ * Complex.I := by
    apply Complex.ext <;> simp [-Complex.ofReal_cos, -Complex.ofReal_sin]
  have q1 : (⟨-c, b⟩ : ℂ) = -c + b * Complex.I := by apply Complex.ext <;> simp
  have q2 : (⟨c, -b⟩ : ℂ) = c - b * Complex.I := by apply Complex.ext <;> simp
  have q3 : (⟨b, c⟩ : ℂ) = b + c * Complex.I := by apply Complex.ext <;> simp
  have q4 : (⟨0, a⟩ : ℂ) = a * Complex.I := by apply Complex.ext <;> simp
  have q5 : (⟨0, -a⟩ : ℂ) = -a * Complex.I := by apply Complex.ext <;> simp
  have q6 : (⟨-b, c⟩ : ℂ) = -b + c * Complex.I := by apply Complex.ext <;> simp
  have I2 : Complex.I ^ 2 = -1 := Complex.I_sq
  have r00 : (-((a : ℂ) - ρ) * conj (⟨Real.cos ρ, Real.sin ρ⟩ : ℂ) + (a + ρ) * ⟨Real.cos ρ, Real.sin ρ⟩) / (2 * ρ)
      = Real.sin ρ / ρ * (a * Complex.I) + Real.cos ρ := by
    rw [p1, map_add, map_mul, Complex.conj_ofReal, Complex.conj_ofReal, Complex.conj_I]
    field_simp; ring
  have r01 : ((⟨-c, b⟩ : ℂ) * conj (⟨Real.cos ρ, Real.sin ρ⟩ : ℂ) + ⟨c, -b⟩ * ⟨Real.cos ρ, Real.sin ρ⟩) / (2 * ρ)
      = Real.sin ρ / ρ * (b + c * Complex.I) := by
    rw [p1, map_add, map_mul, Complex.conj_ofReal, Complex.conj_ofReal, Complex.conj_I, q1, q2]
    field_simp
    linear_combination (-2 * (b : ℂ) * Real.sin ρ) * I2
  rw [r00, r01]
  ext i j
  fin_cases i <;> fin_cases j
  · simp [a00, q4]
  · simp [a01, q3]
  · simp [a10, q6, -Complex.ofReal_cos, -Complex.ofReal_sin]; ring
  · simp [a11, q5, -Complex.ofReal_cos, -Complex.ofReal_sin]

/-! ### Three colours -/

/-- The interpolation formula at the root `2u`: no error, whatever `ksi`. -/
theorem su3_root0 (u w : ℝ) :
    h0 u w + h1 u w * (2 * u : ℝ) + h2 u w * ((2 * u : ℝ) * (2 * u : ℝ))
      = (9 * u * u - w * w : ℝ) * Complex.exp (Complex.I * (2 * u : ℝ)) := by
  have e : (⟨Real.cos (2 * u), Real.sin (2 * u)⟩ : ℂ) = Complex.exp (Complex.I * (2 * u : ℝ)) := by
    rw [mul_comm Complex.I, Complex.exp_mul_I, ← Complex.ofReal_cos, ← Complex.ofReal_sin]
    apply Complex.ext <;> simp [-Complex.ofReal_cos, -Complex.ofReal_sin, -Complex.ofReal_mul]
  unfold h0 h1 h2
  rw [e]
  push_cast
  ring

/-- The interpolation formula at the roots `-u ± w`. -/
theorem su3_root1 (u w : ℝ) (σ : ℝ) (hσ : σ * σ = 1) :
    h0 u w + h1 u w * (-u + σ * w : ℝ) + h2 u w * ((-u + σ * w : ℝ) * (-u + σ * w : ℝ))
      = (9 * u * u - w * w : ℝ) * (Complex.exp (Complex.I * (-u : ℝ)) * (Real.cos w + Complex.I * σ * w * ksi w)) := by
  have e : (⟨Real.cos u, -Real.sin u⟩ : ℂ) = Complex.exp (Complex.I * (-u : ℝ)) := by
    rw [mul_comm, Complex.exp_mul_I]; apply Complex.ext <;> simp [← Complex.ofReal_cos, ← Complex.ofReal_sin]
  unfold h0 h1 h2
  rw [e]
  have hσ' : (σ : ℂ) * σ = 1 := by exact_mod_cast hσ
  push_cast
  generalize Complex.exp _ = E
  generalize (⟨Real.cos (2 * u), Real.sin (2 * u)⟩ : ℂ) = F
  generalize ((ksi w : ℝ) : ℂ) = k
  generalize Complex.cos (w : ℂ) = C
  linear_combination ((F - E * (C + 3 * u * Complex.I * k)) * w * w) * hσ'

/-- The series for `sin(w)/w` close to zero. -/
theorem ksi_series (w : ℝ) (hw : |w| < 0.05) : |Real.sin w - w * ksi w| ≤ 1e-17 := by
  have hx : ‖Complex.I * (w : ℂ)‖ ≤ 1 := by
    rw [norm_mul, Complex.norm_I, one_mul, Complex.norm_real, Real.norm_eq_abs]; linarith
  have h := Complex.exp_bound hx (n := 9) (by norm_num)
  have hn : ‖Complex.I * (w : ℂ)‖ = |w| := by
    rw [norm_mul, Complex.norm_I, one_mul, Complex.norm_real, Real.norm_eq_abs]
  rw [hn] at h
  have him : (Complex.exp (Complex.I * w) - ∑ m ∈ Finset.range 9, (Complex.I * (w : ℂ)) ^ m / (m.factorial : ℂ)).im
      = Real.sin w - w * ksi w := by
    have e1 : (Complex.exp (Complex.I * w)).im = Real.sin w := by rw [mul_comm, Complex.exp_ofReal_mul_I_im]
    have e2 : ∑ m ∈ Finset.range 9, (Complex.I * (w : ℂ)) ^ m / (m.factorial : ℂ)
        = ((1 - w ^ 2 / 2 + w ^ 4 / 24 - w ^ 6 / 720 + w ^ 8 / 40320 : ℝ) : ℂ)
          + ((w - w ^ 3 / 6 + w ^ 5 / 120 - w ^ 7 / 5040 : ℝ) : ℂ) * Complex.I := by
      have I2 : Complex.I ^ 2 = -1 := Complex.I_sq
      have I3 : Complex.I ^ 3 = -Complex.I := by rw [pow_succ, I2]; ring
      have I4 : Complex.I ^ 4 = 1 := Complex.I_pow_four
      have I5 : Complex.I ^ 5 = Complex.I := by rw [pow_succ, I4]; ring
      have I6 : Complex.I ^ 6 = -1 := by rw [pow_succ, I5, ← I2]; ring
      have I7 : Complex.I ^ 7 = -Complex.I := by rw [pow_succ, I6]; ring
      have I8 : Complex.I ^ 8 = 1 := by rw [pow_succ, I7, neg_mul, ← pow_two, I2]; ring
      simp only [Finset.sum_range_succ, Finset.sum_range_zero, mul_pow, I2, I3, I4, I5, I6, I7, I8, Nat.factorial]
      push_cast
      ring
    rw [Complex.sub_im, e1, e2]
    unfold ksi
    rw [if_pos hw]
    simp only [Complex.add_im, Complex.ofReal_im, Complex.mul_im, Complex.ofReal_re, Complex.I_im, Complex.I_re]
    ring
  rw [← him]
  refine (Complex.abs_im_le_norm _).trans (h.trans ?_)
  have hw0 : 0 ≤ |w| := abs_nonneg w
  have h9 : |w| ^ 9 ≤ 0.05 ^ 9 := pow_le_pow_left₀ hw0 hw.le 9
  have : ((Nat.succ 9 : ℕ) : ℝ) * (((Nat.factorial 9 : ℕ) : ℝ) * ((9 : ℕ) : ℝ))⁻¹ = 10 / (362880 * 9) := by
    norm_num [Nat.factorial]
  rw [this]
  calc |w| ^ 9 * (10 / (362880 * 9)) ≤ 0.05 ^ 9 * (10 / (362880 * 9)) := by gcongr
    _ ≤ 1e-17 := by norm_num

/-- What the interpolation formula gives at a root of the characteristic polynomial. -/
theorem su3_interp (u w lam : ℝ) (hden : 9 * u * u - w * w ≠ 0)
    (hl : lam = 2 * u ∨ ∃ σ : ℝ, σ * σ = 1 ∧ lam = -u + σ * w) :
    ∃ δ : ℂ, h0 u w / (9 * u * u - w * w : ℝ) + h1 u w / (9 * u * u - w * w : ℝ) * lam
        + h2 u w / (9 * u * u - w * w : ℝ) * (lam * lam) = Complex.exp (Complex.I * lam) + δ
      ∧ ‖δ‖ ≤ 1e-17 ∧ (0.05 ≤ |w| → δ = 0) := by
  have hden' : ((9 * u * u - w * w : ℝ) : ℂ) ≠ 0 := by exact_mod_cast hden
  have hsplit : ∀ x : ℂ, h0 u w / (9 * u * u - w * w : ℝ) + h1 u w / (9 * u * u - w * w : ℝ) * x
        + h2 u w / (9 * u * u - w * w : ℝ) * (x * x)
      = (h0 u w + h1 u w * x + h2 u w * (x * x)) / (9 * u * u - w * w : ℝ) := by intro x; ring
  rw [hsplit]
  rcases hl with rfl | ⟨σ, hσ, rfl⟩
  · refine ⟨0, ?_, by simp; norm_num, fun _ => rfl⟩
    rw [su3_root0, mul_div_cancel_left₀ _ hden', add_zero]
  · rw [su3_root1 u w σ hσ, mul_div_cancel_left₀ _ hden']
    have hex : Complex.exp (Complex.I * (-u + σ * w : ℝ))
        = Complex.exp (Complex.I * (-u : ℝ)) * Complex.exp (Complex.I * (σ * w : ℝ)) := by
      rw [← Complex.exp_add]; congr 1; push_cast; ring
    have hσ2 : (σ : ℂ) ^ 2 = 1 := by rw [pow_two]; exact_mod_cast hσ
    have hsin : Complex.exp (Complex.I * (σ * w : ℝ)) = Real.cos w + Complex.I * σ * Real.sin w := by
      rw [mul_comm, Complex.exp_mul_I]
      have : σ = 1 ∨ σ = -1 := by
        have : (σ - 1) * (σ + 1) = 0 := by linarith
        rcases mul_eq_zero.1 this with h | h
        · left; linarith
        · right; linarith
      rcases this with rfl | rfl <;> push_cast <;> simp <;> ring
    refine ⟨Complex.exp (Complex.I * (-u : ℝ)) * (Complex.I * σ * ((w * ksi w - Real.sin w : ℝ) : ℂ)), ?_, ?_, ?_⟩
    · rw [hex, hsin]; push_cast; ring
    · rw [norm_mul, norm_mul, norm_mul, Complex.norm_I, one_mul, mul_comm Complex.I, Complex.norm_exp_ofReal_mul_I, one_mul,
        Complex.norm_real, Complex.norm_real, Real.norm_eq_abs, Real.norm_eq_abs]
      have hs : |σ| = 1 := by
        have := abs_mul σ σ
        rw [hσ, abs_one] at this
        nlinarith [abs_nonneg σ]
      rw [hs, one_mul]
      by_cases hw : |w| < 0.05
      · rw [abs_sub_comm]; exact ksi_series w hw
      · have : w * ksi w - Real.sin w = 0 := by
          unfold ksi
          rw [if_neg hw]
          have : w ≠ 0 := by rintro rfl; apply hw; norm_num
          field_simp; ring
        rw [this]; norm_num
    · intro hw
      have : w * ksi w - Real.sin w = 0 := by
        unfold ksi
        rw [if_neg (not_lt.2 hw)]
        have : w ≠ 0 := by rintro rfl; norm_num at hw
        field_simp; ring
      rw [this]; simp

/-- The roots of the characteristic polynomial: for a matrix with non-negative determinant they are `2u` and `-u ± w`. -/
theorem su3_roots (c0 c1 lam : ℝ) (h1 : 0 < c1) (h0 : 0 ≤ c0) (hle : c0 ≤ 2 * c1 / 3 * Real.sqrt (c1 / 3))
    (hroot : lam * lam * lam - c1 * lam - c0 = 0) (θ u w : ℝ) (hθ : θ = Real.arccos (c0 / (2 * c1 / 3 * Real.sqrt (c1 / 3))))
    (hu : u = Real.sqrt (c1 / 3) * Real.cos (θ / 3)) (hw : w = Real.sqrt c1 * Real.sin (θ / 3)) :
    0 < 9 * u * u - w * w ∧ (lam = 2 * u ∨ ∃ σ : ℝ, σ * σ = 1 ∧ lam = -u + σ * w) := by
  have hs : 0 < Real.sqrt (c1 / 3) := Real.sqrt_pos.2 (by positivity)
  have hs2 : Real.sqrt (c1 / 3) * Real.sqrt (c1 / 3) = c1 / 3 := Real.mul_self_sqrt (by positivity)
  have hr2 : Real.sqrt c1 * Real.sqrt c1 = c1 := Real.mul_self_sqrt h1.le
  have hm : 0 < 2 * c1 / 3 * Real.sqrt (c1 / 3) := by positivity
  have hcos : Real.cos θ = c0 / (2 * c1 / 3 * Real.sqrt (c1 / 3)) := by
    rw [hθ, Real.cos_arccos]
    · have : 0 ≤ c0 / (2 * c1 / 3 * Real.sqrt (c1 / 3)) := by positivity
      linarith
    · rw [div_le_one hm]; exact hle
  have h3 : Real.cos θ = 4 * Real.cos (θ / 3) ^ 3 - 3 * Real.cos (θ / 3) := by
    rw [← Real.cos_three_mul]; congr 1; ring
  have hsc := Real.sin_sq_add_cos_sq (θ / 3)
  have hθ0 : 0 ≤ θ := by rw [hθ]; exact Real.arccos_nonneg _
  have hθ1 : θ ≤ Real.pi / 2 := by
    rw [hθ, Real.arccos_le_pi_div_two]; positivity
  have hsin : Real.sin (θ / 3) ≤ 1 / 2 := by
    rw [← Real.sin_pi_div_six]
    exact Real.sin_le_sin_of_le_of_le_pi_div_two (by linarith [Real.pi_pos]) (by linarith [Real.pi_pos]) (by linarith)
  have hsin0 : 0 ≤ Real.sin (θ / 3) := Real.sin_nonneg_of_nonneg_of_le_pi (by linarith) (by linarith [Real.pi_pos])
  generalize Real.cos (θ / 3) = C at *
  generalize Real.sin (θ / 3) = Z at *
  have huu : u * u = c1 / 3 * C ^ 2 := by rw [hu]; linear_combination C ^ 2 * hs2
  have hww : w * w = c1 * Z ^ 2 := by rw [hw]; linear_combination Z ^ 2 * hr2
  have e1 : 3 * (u * u) + w * w = c1 := by rw [huu, hww]; linear_combination c1 * hsc
  have e0 : 2 * u * (u * u - w * w) = c0 := by
    have hc0 : c0 = (2 * c1 / 3 * Real.sqrt (c1 / 3)) * (4 * C ^ 3 - 3 * C) := by
      rw [← h3, hcos]; field_simp
    rw [huu, hww, hu, hc0]
    have : Z ^ 2 = 1 - C ^ 2 := by linarith
    rw [this]; ring
  refine ⟨?_, ?_⟩
  · have : Z ^ 2 ≤ 1 / 4 := by nlinarith
    have : 9 * u * u - w * w = c1 * (3 - 4 * Z ^ 2) := by
      have hC : C ^ 2 = 1 - Z ^ 2 := by linarith
      calc 9 * u * u - w * w = 9 * (u * u) - w * w := by ring
        _ = _ := by rw [huu, hww, hC]; ring
    rw [this]
    exact mul_pos h1 (by linarith)
  · have hf : (lam - 2 * u) * ((lam + u - w) * (lam + u + w)) = 0 := by
      have : (lam - 2 * u) * ((lam + u - w) * (lam + u + w)) = lam * lam * lam - (3 * (u * u) + w * w) * lam - 2 * u * (u * u - w * w) := by
        ring
      rw [this, e1, e0, hroot]
    rcases mul_eq_zero.1 hf with h | h
    · left; linarith
    · right
      rcases mul_eq_zero.1 h with h | h
      · exact ⟨1, by norm_num, by linarith⟩
      · exact ⟨-1, by norm_num, by linarith⟩

/-- The invariants of a Lie algebra element in terms of its eigenvalues. -/
theorem su3_invariants (A V : Mat 3) (ev : Fin 3 → ℝ) (hV : V ∈ unitaryGroup (Fin 3) ℂ)
    (hA : A = conjDiag V (fun i => Complex.I * ev i)) (htr : trace A = 0) :
    su3c0 A = ev 0 * ev 1 * ev 2 ∧ su3c1 A = (ev 0 * ev 0 + ev 1 * ev 1 + ev 2 * ev 2) / 2 ∧ ev 0 + ev 1 + ev 2 = 0 := by
  refine ⟨?_, ?_, ?_⟩
  · unfold su3c0
    rw [hA, conjDiag_smul, det_conjDiag hV, Fin.prod_univ_three]
    have : ∀ x : ℝ, -Complex.I * (Complex.I * (x : ℂ)) = x := by
      intro x; rw [← mul_assoc]; simp
    simp only [this]
    rw [← Complex.ofReal_mul, ← Complex.ofReal_mul, Complex.ofReal_re]
  · unfold su3c1
    rw [hA, conjDiag_mul hV, trace_conjDiag hV, Fin.sum_univ_three]
    have : ∀ x : ℝ, Complex.I * (x : ℂ) * (Complex.I * x) = ((-(x * x) : ℝ) : ℂ) := by
      intro x
      push_cast
      linear_combination (x * x : ℂ) * Complex.I_mul_I
    simp only [this]
    rw [← Complex.ofReal_add, ← Complex.ofReal_add, Complex.ofReal_re]
    ring
  · rw [hA, trace_conjDiag hV, Fin.sum_univ_three, ← mul_add, ← mul_add] at htr
    have := (mul_eq_zero.1 htr).resolve_left Complex.I_ne_zero
    exact_mod_cast this

/-- **C26**, three colours: for every non-zero Lie algebra element the closed formula gives a result; it is the exponential when
`|w| ≥ 0.05`, and each of its entries differs from the exponential by at most `10^-17` otherwise (the series for `sin(w)/w`).
What is missing: the formula is not defined at zero (`C26_counterexample_zero`). -/
theorem C26_three_colours_partial (A : Mat 3) (hA : IsLie A) (hne : A ≠ 0) :
    ∃ R, expSu3 A = some R ∧ (0.05 ≤ |su3w A| → R = NormedSpace.exp A)
      ∧ ∀ i j, ‖R i j - (NormedSpace.exp A : Mat 3) i j‖ ≤ 1e-17 := by
  obtain ⟨V, ev, hV, hd⟩ := lie_diagonal A hA.1
  have hc : A = conjDiag V (fun i => Complex.I * ev i) := hd
  obtain ⟨hc0, hc1, hsum⟩ := su3_invariants A V ev hV hc hA.2
  have hpos : 0 < su3c1 A := by
    rw [hc1]
    by_contra hcon
    have z : ∀ i, ev i = 0 := by
      intro i
      have q0 := mul_self_nonneg (ev 0)
      have q1 := mul_self_nonneg (ev 1)
      have q2 := mul_self_nonneg (ev 2)
      have hi : ev i * ev i = 0 := by fin_cases i <;> simp only [Fin.zero_eta, Fin.mk_one, Fin.reduceFinMk] <;> linarith
      exact mul_self_eq_zero.1 hi
    apply hne
    rw [hc]
    simp only [z]
    unfold conjDiag
    simp
  -- the sign is taken out
  obtain ⟨τ, hτ, hτ0⟩ : ∃ τ : ℝ, τ * τ = 1 ∧ (if su3c0 A < 0 then -su3c0 A else su3c0 A) = τ * su3c0 A := by
    split
    · exact ⟨-1, by norm_num, by ring⟩
    · exact ⟨1, by norm_num, by ring⟩
  have hnn : 0 ≤ (if su3c0 A < 0 then -su3c0 A else su3c0 A) := by split <;> linarith
  set c0 := (if su3c0 A < 0 then -su3c0 A else su3c0 A) with hc0d
  have hmax : 0 < su3c0max A := by
    unfold su3c0max
    have := Real.sqrt_pos.2 (show 0 < su3c1 A / 3 by positivity)
    positivity
  have hle : c0 ≤ su3c0max A := by
    have hsq : c0 ^ 2 ≤ su3c0max A ^ 2 := by
      have e1 : su3c0max A ^ 2 = 4 * su3c1 A ^ 3 / 27 := by
        unfold su3c0max
        have := Real.mul_self_sqrt (show 0 ≤ su3c1 A / 3 by positivity)
        linear_combination (2 * su3c1 A / 3) ^ 2 * this
      have e2 : c0 ^ 2 = su3c0 A ^ 2 := by rw [hτ0, mul_pow, pow_two τ, hτ, one_mul]
      rw [e1, e2, hc0, hc1]
      have e3 : ev 2 = -ev 0 - ev 1 := by linarith
      rw [e3]
      have key : 4 * ((ev 0 * ev 0 + ev 1 * ev 1 + (-ev 0 - ev 1) * (-ev 0 - ev 1)) / 2) ^ 3 / 27 - (ev 0 * ev 1 * (-ev 0 - ev 1)) ^ 2
          = ((ev 0 - ev 1) * (2 * ev 0 + ev 1) * (ev 0 + 2 * ev 1)) ^ 2 / 27 := by ring
      have := sq_nonneg ((ev 0 - ev 1) * (2 * ev 0 + ev 1) * (ev 0 + 2 * ev 1))
      linarith
    exact le_of_sq_le_sq hsq hmax.le
  have hroot : ∀ i, (τ * ev i) * (τ * ev i) * (τ * ev i) - su3c1 A * (τ * ev i) - c0 = 0 := by
    intro i
    rw [hτ0, hc0, hc1]
    have e3 : ev 2 = -ev 0 - ev 1 := by linarith
    have : (τ * ev i) * (τ * ev i) * (τ * ev i) = (τ * τ) * (τ * (ev i * ev i * ev i)) := by ring
    rw [this, hτ]
    fin_cases i <;> simp only [Fin.zero_eta, Fin.mk_one, Fin.reduceFinMk] <;> rw [e3] <;> ring
  have hall : ∀ i, 0 < 9 * su3u A * su3u A - su3w A * su3w A
      ∧ (τ * ev i = 2 * su3u A ∨ ∃ σ : ℝ, σ * σ = 1 ∧ τ * ev i = -su3u A + σ * su3w A) := fun i =>
    su3_roots c0 (su3c1 A) (τ * ev i) hpos hnn hle (hroot i) (su3theta A) _ _ rfl rfl rfl
  have hden := (hall 0).1
  have hint := fun i => su3_interp (su3u A) (su3w A) (τ * ev i) hden.ne' (hall i).2
  choose δ hδ hδn hδ0 using hint
  -- the branches
  have hcond : ¬(su3c1 A < 0 ∨ su3c0max A = 0 ∨ 1 < |c0 / su3c0max A|
      ∨ 9 * su3u A * su3u A - su3w A * su3w A = 0) := by
    rintro (h | h | h | h)
    · linarith
    · exact hmax.ne' h
    · rw [abs_of_nonneg (div_nonneg hnn hmax.le), lt_div_iff₀ hmax] at h; linarith
    · exact hden.ne' h
  have hAA : A * A = conjDiag V (fun i => ((-(ev i * ev i) : ℝ) : ℂ)) := by
    conv_lhs => rw [hc]
    rw [conjDiag_mul hV]
    congr 1
    funext i
    push_cast
    linear_combination (ev i * ev i : ℂ) * Complex.I_mul_I
  have hfin : ∀ (g0 g1 g2 : ℂ) (ε : Fin 3 → ℂ), (∀ i, g0 + g1 * ev i + g2 * (ev i * ev i) = Complex.exp (Complex.I * ev i) + ε i) →
      -g2 • (A * A) + (g1 * -Complex.I) • A + g0 • 1 = NormedSpace.exp A + conjDiag V ε := by
    intro g0 g1 g2 ε hg
    rw [hAA, ← conjDiag_one hV]
    conv_lhs => rw [hc]
    conv_rhs => rw [hc]
    rw [exp_conjDiag hV, conjDiag_smul, conjDiag_smul, conjDiag_smul, conjDiag_add, conjDiag_add, conjDiag_add]
    congr 1
    funext i
    rw [← hg i]
    push_cast
    linear_combination (-(g1 * ev i)) * Complex.I_mul_I
  have hdone : ∀ (ε : Fin 3 → ℂ), (∀ i, ‖ε i‖ ≤ 1e-17) → (0.05 ≤ |su3w A| → ∀ i, ε i = 0) →
      (0.05 ≤ |su3w A| → NormedSpace.exp A + conjDiag V ε = NormedSpace.exp A)
      ∧ ∀ i j, ‖(NormedSpace.exp A + conjDiag V ε : Mat 3) i j - (NormedSpace.exp A : Mat 3) i j‖ ≤ 1e-17 := by
    intro ε hε hz
    refine ⟨fun h => ?_, fun i j => ?_⟩
    · have : ε = fun _ => 0 := funext (hz h)
      rw [this]
      unfold conjDiag
      simp
    · rw [Matrix.add_apply, add_sub_cancel_left]
      exact norm_conjDiag_le hV ε _ hε i j
  unfold expSu3
  simp only [← hc0d]
  rw [if_neg hcond]
  by_cases hneg : su3c0 A < 0
  · have hτ1 : τ = -1 := by
      have : c0 = -su3c0 A := by rw [hc0d, if_pos hneg]
      rw [this] at hτ0
      have : (τ + 1) * su3c0 A = 0 := by linarith
      rcases mul_eq_zero.1 this with h | h
      · linarith
      · exact absurd h hneg.ne
    rw [if_pos hneg]
    have hd1 : ∀ x : ℂ, ∀ r : ℝ, conj (x / ((r : ℝ) : ℂ)) = conj x / ((r : ℝ) : ℂ) := by
      intro x r; rw [map_div₀, Complex.conj_ofReal]
    refine ⟨_, rfl, ?_⟩
    have := hfin (conj (h0 (su3u A) (su3w A) / (9 * su3u A * su3u A - su3w A * su3w A : ℝ)))
      (-conj (h1 (su3u A) (su3w A) / (9 * su3u A * su3u A - su3w A * su3w A : ℝ)))
      (conj (h2 (su3u A) (su3w A) / (9 * su3u A * su3u A - su3w A * su3w A : ℝ))) (fun i => conj (δ i)) (by
        intro i
        have h := congrArg conj (hδ i)
        rw [map_add, map_add, map_add, map_mul, map_mul, ← Complex.ofReal_mul, Complex.conj_ofReal, Complex.conj_ofReal,
          ← Complex.exp_conj, map_mul, Complex.conj_I, Complex.conj_ofReal, hτ1] at h
        have e : -Complex.I * ((-1 * ev i : ℝ) : ℂ) = Complex.I * ev i := by push_cast; ring
        rw [e] at h
        rw [← h]
        push_cast
        ring)
    rw [this]
    exact hdone _ (fun i => by rw [RCLike.norm_conj]; exact hδn i) (fun h i => by rw [hδ0 i h, map_zero])
  · have hτ1 : c0 = su3c0 A := by rw [hc0d, if_neg hneg]
    rw [if_neg hneg]
    have hτ2 : ∀ i, ∃ δ' : ℂ, h0 (su3u A) (su3w A) / (9 * su3u A * su3u A - su3w A * su3w A : ℝ)
        + h1 (su3u A) (su3w A) / (9 * su3u A * su3u A - su3w A * su3w A : ℝ) * ev i
        + h2 (su3u A) (su3w A) / (9 * su3u A * su3u A - su3w A * su3w A : ℝ) * (ev i * ev i)
          = Complex.exp (Complex.I * ev i) + δ' ∧ ‖δ'‖ ≤ 1e-17 ∧ (0.05 ≤ |su3w A| → δ' = 0) := by
      intro i
      refine su3_interp (su3u A) (su3w A) (ev i) hden.ne' ?_
      refine (su3_roots c0 (su3c1 A) (ev i) hpos hnn hle ?_ (su3theta A) _ _ rfl rfl rfl).2
      rw [hτ1, hc0, hc1]
      have e3 : ev 2 = -ev 0 - ev 1 := by linarith
      fin_cases i <;> simp only [Fin.zero_eta, Fin.mk_one, Fin.reduceFinMk] <;> rw [e3] <;> ring
    choose δ' hδ' hδn' hδ0' using hτ2
    refine ⟨_, rfl, ?_⟩
    rw [hfin _ _ _ δ' hδ']
    exact hdone δ' hδn' (fun h i => hδ0' i h)

/-- **C26 fails at zero**: for two and for three colours the formula divides zero by zero, although the exponential of the zero
matrix is the identity. -/
theorem C26_counterexample_zero : IsLie (0 : Mat 2) ∧ expSu2 0 = none ∧ IsLie (0 : Mat 3) ∧ expSu3 0 = none
    ∧ NormedSpace.exp (0 : Mat 2) = 1 ∧ NormedSpace.exp (0 : Mat 3) = 1 := by
  refine ⟨⟨by simp, by simp⟩, ?_, ⟨by simp, by simp⟩, ?_, NormedSpace.exp_zero, NormedSpace.exp_zero⟩
  · simp [expSu2]
  · have h : su3c0max 0 = 0 := by simp [su3c0max, su3c1]
    unfold expSu3
    simp only
    rw [if_pos (Or.inr (Or.inl h))]

/-! ### More colours -/

/-- **C26**, more colours: with orthonormal eigenvectors the result is the exponential; the series used when the eigenvalues are
very small differs from it by at most `10^-24` in each entry. -/
theorem C26_more_colours {N : ℕ} (A m : Mat N) (ev : Fin N → ℂ) (hm : m ∈ unitaryGroup (Fin N) ℂ)
    (hA : A = m * Matrix.diagonal ev * mᴴ) :
    expSuNArma ev m = NormedSpace.exp A
    ∧ (1e-16 ≤ ∑ i, ‖ev i‖ ^ 2 → expSuN ev m A = NormedSpace.exp A)
    ∧ ∀ i j, ‖expSuN ev m A i j - (NormedSpace.exp A : Mat N) i j‖ ≤ 1e-24 := by
  have hc : A = conjDiag m ev := hA
  have hexp : NormedSpace.exp A = conjDiag m (fun i => Complex.exp (ev i)) := by rw [hc, exp_conjDiag hm]
  have hsum : ∑ i, |(conj (ev i) * ev i).re| = ∑ i, ‖ev i‖ ^ 2 := by
    refine Finset.sum_congr rfl fun i _ => ?_
    rw [mul_comm, Complex.mul_conj, Complex.ofReal_re, Complex.normSq_eq_norm_sq, abs_of_nonneg (by positivity)]
  refine ⟨by rw [hexp]; rfl, fun h => ?_, fun i j => ?_⟩
  · unfold expSuN
    simp only [hsum]
    rw [if_neg (by push Not; refine le_trans ?_ h; norm_num), hexp]; rfl
  · unfold expSuN
    simp only [hsum]
    split
    · rename_i hlt
      have hsmall : ∀ k, ‖ev k‖ ≤ 1e-8 := by
        intro k
        have h1 : ‖ev k‖ ^ 2 ≤ ∑ i, ‖ev i‖ ^ 2 :=
          Finset.single_le_sum (f := fun i => ‖ev i‖ ^ 2) (fun i _ => by positivity) (Finset.mem_univ k)
        have h2 : ‖ev k‖ ^ 2 ≤ (1e-8) ^ 2 := by
          refine h1.trans (hlt.le.trans ?_); norm_num
        exact le_of_sq_le_sq h2 (by norm_num)
      have e : (1 + A + (0.5 : ℂ) • (A * A)) - NormedSpace.exp A
          = conjDiag m (fun k => 1 + ev k + (0.5 : ℂ) * (ev k * ev k) + (-1) * Complex.exp (ev k)) := by
        have hn : -(NormedSpace.exp A) = (-1 : ℂ) • NormedSpace.exp A := by simp
        rw [sub_eq_add_neg, hn, hexp, ← conjDiag_one hm]
        conv_lhs => rw [hc]
        rw [conjDiag_mul hm, conjDiag_smul, conjDiag_smul, conjDiag_add, conjDiag_add, conjDiag_add]
      rw [← Matrix.sub_apply, e]
      refine norm_conjDiag_le hm _ _ (fun k => ?_) i j
      have hb := Complex.exp_bound (x := ev k) ((hsmall k).trans (by norm_num)) (n := 3) (by norm_num)
      have e2 : ∑ m ∈ Finset.range 3, ev k ^ m / (m.factorial : ℂ) = 1 + ev k + (0.5 : ℂ) * (ev k * ev k) := by
        simp only [Finset.sum_range_succ, Finset.sum_range_zero, Nat.factorial]
        push_cast
        ring
      rw [e2] at hb
      have e3 : 1 + ev k + (0.5 : ℂ) * (ev k * ev k) + (-1) * Complex.exp (ev k)
          = -(Complex.exp (ev k) - (1 + ev k + (0.5 : ℂ) * (ev k * ev k))) := by ring
      rw [e3, norm_neg]
      refine hb.trans ?_
      have h3 : ‖ev k‖ ^ 3 ≤ (1e-8) ^ 3 := pow_le_pow_left₀ (norm_nonneg _) (hsmall k) 3
      have e4 : ((Nat.succ 3 : ℕ) : ℝ) * (((Nat.factorial 3 : ℕ) : ℝ) * ((3 : ℕ) : ℝ))⁻¹ = 2 / 9 := by
        norm_num [Nat.factorial]
      rw [e4]
      calc ‖ev k‖ ^ 3 * (2 / 9) ≤ (1e-8) ^ 3 * (2 / 9) := by gcongr
        _ ≤ 1e-24 := by norm_num
    · have : m * Matrix.diagonal (fun i => Complex.exp (ev i)) * mᴴ = NormedSpace.exp A := by rw [hexp]; rfl
      rw [this]; simp; norm_num

/-- The exponential of a Lie algebra element is a group element. -/
theorem exp_mem_su {N : ℕ} (A : Mat N) (hA : IsLie A) : NormedSpace.exp A ∈ specialUnitaryGroup (Fin N) ℂ := by
  obtain ⟨V, ev, hV, hd⟩ := lie_diagonal A hA.1
  have := C23_md_step 1 A 1 V _ hV hd hA (one_mem _)
  rw [one_smul, mul_one] at this
  rw [← this.1]; exact this.2

/-- **C26**: hence the results are group elements, for two colours away from zero. -/
theorem C26_group_partial (A : Mat 2) (hA : IsLie A) (h0 : A ≠ 0) :
    ∃ R ∈ specialUnitaryGroup (Fin 2) ℂ, expSu2 A = some R :=
  ⟨_, exp_mem_su A hA, C26_two_colours_partial A hA h0⟩

/-- **C26**: hence the results are group elements, for three colours when `|w| ≥ 0.05`. -/
theorem C26_group_three_partial (A : Mat 3) (hA : IsLie A) (h0 : A ≠ 0) (hw : 0.05 ≤ |su3w A|) :
    ∃ R ∈ specialUnitaryGroup (Fin 3) ℂ, expSu3 A = some R := by
  obtain ⟨R, h1, h2, _⟩ := C26_three_colours_partial A hA h0
  exact ⟨R, by rw [h2 hw]; exact exp_mem_su A hA, h1⟩

/-- Lie algebra elements with two and three colours. -/
example : ∃ (A : Mat 2) (B : Mat 3), IsLie A ∧ A ≠ 0 ∧ IsLie B ∧ B ≠ 0 := by
  refine ⟨!![0, 1; -1, 0], !![0, 1, 0; -1, 0, 0; 0, 0, 0], ⟨?_, ?_⟩, ?_, ⟨?_, ?_⟩, ?_⟩
  · ext i j; fin_cases i <;> fin_cases j <;> simp
  · simp [Matrix.trace_fin_two]
  · intro h; have := congrFun (congrFun h 0) 1; simp at this
  · ext i j; fin_cases i <;> fin_cases j <;> simp
  · simp [Matrix.trace_fin_three]
  · intro h; have := congrFun (congrFun h 0) 1; simp at this

end Leonard
