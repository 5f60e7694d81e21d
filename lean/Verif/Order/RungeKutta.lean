import Verif.Order.Flow
import Mathlib.Analysis.SpecialFunctions.Exponential
import Mathlib.Analysis.Calculus.ContDiff.FiniteDimension
import Mathlib.Analysis.Calculus.MeanValue

/-!
# Order of the integration of the flow: expansions

Everything takes place in a normed algebra `R`, which is later the algebra of all link fields.  The flow equation is `V' = Z(V) V`.
-/

set_option autoImplicit false

namespace Leonard

open Filter Asymptotics Finset
open scoped ContDiff Topology

variable {R : Type*} [NormedRing R] [NormedAlgebra ℝ R] [ProperSpace R]

/-! ### Taylor expansions with bounds on bounded sets -/

theorem bounded_on {E W : Type*} [NormedAddCommGroup E] [ProperSpace E] [NormedAddCommGroup W] {f : E → W} (hf : Continuous f) (r : ℝ) : ∃ C, 0 ≤ C ∧ ∀ x, ‖x‖ ≤ r → ‖f x‖ ≤ C := by
  obtain ⟨C, hC⟩ := (isCompact_closedBall (0 : E) r).exists_bound_of_continuousOn hf.continuousOn
  exact ⟨max C 0, le_max_right _ _, fun x hx => (hC x (by simpa using hx)).trans (le_max_left _ _)⟩

theorem continuous_exp_ring : Continuous (NormedSpace.exp : R → R) := by
  letI : NormedAlgebra ℚ R := NormedAlgebra.restrictScalars ℚ ℝ R
  exact NormedSpace.exp_continuous

theorem exp_taylor (r : ℝ) : ∃ C, 0 ≤ C ∧ ∀ x : R, ‖x‖ ≤ r →
    ‖NormedSpace.exp x - (1 + x + (1 / 2 : ℝ) • (x * x) + (1 / 6 : ℝ) • (x * x * x))‖ ≤ C * ‖x‖ ^ 4 := by
  obtain ⟨M, hM0, hM⟩ := bounded_on (continuous_exp_ring (R := R)) r
  refine ⟨M, hM0, fun x hx => ?_⟩
  have key := taylor_bound 4 (fun k s => x ^ k * NormedSpace.exp (s • x)) 1 (M * ‖x‖ ^ 4) ?_ ?_ 1 (by norm_num)
  · refine le_of_eq_of_le (congrArg norm ?_) (key.trans_eq (by simp))
    simp only [Finset.sum_range_succ, Finset.sum_range_zero, Nat.factorial, one_pow, pow_zero, one_mul, one_smul, zero_smul,
      NormedSpace.exp_zero, mul_one]
    norm_num [pow_succ]
  · intro k _ s _
    have := (hasDerivAt_exp_smul_const' x s).const_mul (x ^ k)
    rwa [← mul_assoc, ← pow_succ] at this
  · intro s hs
    refine (norm_mul_le _ _).trans ?_
    rw [mul_comm]
    refine mul_le_mul (hM _ ?_) (norm_pow_le' x (by norm_num)) (norm_nonneg _) hM0
    rw [norm_smul, Real.norm_eq_abs]
    exact (mul_le_of_le_one_left (norm_nonneg x) hs).trans hx

theorem map_taylor {E : Type*} [NormedAddCommGroup E] [NormedSpace ℝ E] [ProperSpace E] {Z : E → E} (hZ : ContDiff ℝ ∞ Z) (r : ℝ) : ∃ C, 0 ≤ C ∧ ∀ V δ : E, ‖V‖ ≤ r → ‖δ‖ ≤ r →
    ‖Z (V + δ) - (Z V + fderiv ℝ Z V δ + (1 / 2 : ℝ) • fderiv ℝ (fderiv ℝ Z) V δ δ)‖ ≤ C * ‖δ‖ ^ 3 := by
  have h1 : ContDiff ℝ ∞ (fderiv ℝ Z) := hZ.fderiv_right (by simp)
  have h2 : ContDiff ℝ ∞ (fderiv ℝ (fderiv ℝ Z)) := h1.fderiv_right (by simp)
  have h3 : ContDiff ℝ ∞ (fderiv ℝ (fderiv ℝ (fderiv ℝ Z))) := h2.fderiv_right (by simp)
  obtain ⟨M, hM0, hM⟩ := bounded_on h3.continuous (r + r)
  refine ⟨M, hM0, fun V δ hV hδ => ?_⟩
  have hl : ∀ s : ℝ, HasDerivAt (fun s : ℝ => V + s • δ) δ s := fun s => by
    simpa using ((hasDerivAt_id s).smul_const δ).const_add V
  let g : ℕ → ℝ → E := fun k s => match k with
    | 0 => Z (V + s • δ)
    | 1 => fderiv ℝ Z (V + s • δ) δ
    | 2 => fderiv ℝ (fderiv ℝ Z) (V + s • δ) δ δ
    | _ => fderiv ℝ (fderiv ℝ (fderiv ℝ Z)) (V + s • δ) δ δ δ
  have key := taylor_bound 3 g 1 (M * ‖δ‖ ^ 3) ?_ ?_ 1 (by norm_num)
  · refine le_of_eq_of_le (congrArg norm ?_) (key.trans_eq (by simp))
    simp only [Finset.sum_range_succ, Finset.sum_range_zero, Nat.factorial, g, one_smul, zero_smul, add_zero]
    norm_num
  · intro k hk s _
    interval_cases k
    · exact ((hZ.differentiable (by simp)).differentiableAt.hasFDerivAt).comp_hasDerivAt s (hl s)
    · have := ((h1.differentiable (by simp)).differentiableAt (x := V + s • δ)).hasFDerivAt.comp_hasDerivAt s (hl s)
      have h' : HasDerivAt (fun s => fderiv ℝ Z (V + s • δ) δ) (fderiv ℝ (fderiv ℝ Z) (V + s • δ) δ δ) s := by
        simpa using this.clm_apply (hasDerivAt_const s δ)
      exact h'
    · have := ((h2.differentiable (by simp)).differentiableAt (x := V + s • δ)).hasFDerivAt.comp_hasDerivAt s (hl s)
      have h' : HasDerivAt (fun s => fderiv ℝ (fderiv ℝ Z) (V + s • δ) δ δ) (fderiv ℝ (fderiv ℝ (fderiv ℝ Z)) (V + s • δ) δ δ δ) s := by
        simpa using (this.clm_apply (hasDerivAt_const s δ)).clm_apply (hasDerivAt_const s δ)
      exact h'
  · intro s hs
    have hb : ‖V + s • δ‖ ≤ r + r := by
      refine (norm_add_le _ _).trans (add_le_add hV ?_)
      rw [norm_smul, Real.norm_eq_abs]
      exact (mul_le_of_le_one_left (norm_nonneg δ) hs).trans hδ
    have h := hM _ hb
    change ‖fderiv ℝ (fderiv ℝ (fderiv ℝ Z)) (V + s • δ) δ δ δ‖ ≤ _
    generalize fderiv ℝ (fderiv ℝ (fderiv ℝ Z)) (V + s • δ) = B at h
    calc ‖B δ δ δ‖ ≤ ‖B δ δ‖ * ‖δ‖ := (B δ δ).le_opNorm δ
      _ ≤ ‖B δ‖ * ‖δ‖ * ‖δ‖ := by gcongr; exact (B δ).le_opNorm δ
      _ ≤ ‖B‖ * ‖δ‖ * ‖δ‖ * ‖δ‖ := by gcongr; exact B.le_opNorm δ
      _ ≤ M * ‖δ‖ * ‖δ‖ * ‖δ‖ := by gcongr
      _ = M * ‖δ‖ ^ 3 := by ring

/-! ### Expansions in the length of a step -/

section
variable {α : Type*} {l : Filter α} {h : α → ℝ}

/-- `f = a₀ + h a₁ + h² a₂ + O(h³)` with bounded coefficients. -/
structure Exp3 (l : Filter α) (h : α → ℝ) (f a0 a1 a2 : α → R) : Prop where
  b0 : a0 =O[l] fun _ => (1 : ℝ)
  b1 : a1 =O[l] fun _ => (1 : ℝ)
  b2 : a2 =O[l] fun _ => (1 : ℝ)
  rem : (fun p => f p - (a0 p + h p • a1 p + h p ^ 2 • a2 p)) =O[l] fun p => h p ^ 3

/-- `f = a₀ + h a₁ + h² a₂ + h³ a₃ + O(h⁴)` with bounded coefficients. -/
structure Exp4 (l : Filter α) (h : α → ℝ) (f a0 a1 a2 a3 : α → R) : Prop where
  b0 : a0 =O[l] fun _ => (1 : ℝ)
  b1 : a1 =O[l] fun _ => (1 : ℝ)
  b2 : a2 =O[l] fun _ => (1 : ℝ)
  b3 : a3 =O[l] fun _ => (1 : ℝ)
  rem : (fun p => f p - (a0 p + h p • a1 p + h p ^ 2 • a2 p + h p ^ 3 • a3 p)) =O[l] fun p => h p ^ 4

theorem bounded_mul {f g : α → R} (hf : f =O[l] fun _ => (1 : ℝ)) (hg : g =O[l] fun _ => (1 : ℝ)) :
    (fun p => f p * g p) =O[l] fun _ => (1 : ℝ) := by simpa using hf.mul hg

theorem bounded_smul {f : α → R} (c : ℝ) (hf : f =O[l] fun _ => (1 : ℝ)) : (fun p => c • f p) =O[l] fun _ => (1 : ℝ) := hf.const_smul_left c

theorem bounded_pow (hh : h =O[l] fun _ => (1 : ℝ)) (n : ℕ) : (fun p => h p ^ n) =O[l] fun _ => (1 : ℝ) := by simpa using hh.pow n

/-- A power of `h` times a bounded function is small. -/
theorem small (hh : h =O[l] fun _ => (1 : ℝ)) {f : α → R} (hf : f =O[l] fun _ => (1 : ℝ)) {m n : ℕ} (hmn : n ≤ m) :
    (fun p => h p ^ m • f p) =O[l] fun p => h p ^ n := by
  obtain ⟨k, rfl⟩ := Nat.exists_eq_add_of_le hmn
  have h1 : (fun p => h p ^ n * h p ^ k) =O[l] fun p => h p ^ n := by
    simpa using (isBigO_refl (fun p => h p ^ n) l).mul (bounded_pow hh k)
  have := (h1.congr_left fun p => (pow_add _ _ _).symm).smul hf
  simpa using this

theorem Exp3.add {f g a0 a1 a2 b0 b1 b2 : α → R} (hf : Exp3 l h f a0 a1 a2) (hg : Exp3 l h g b0 b1 b2) :
    Exp3 l h (fun p => f p + g p) (fun p => a0 p + b0 p) (fun p => a1 p + b1 p) fun p => a2 p + b2 p where
  b0 := hf.b0.add hg.b0
  b1 := hf.b1.add hg.b1
  b2 := hf.b2.add hg.b2
  rem := (hf.rem.add hg.rem).congr_left fun p => by module

theorem Exp3.smul {f a0 a1 a2 : α → R} (c : ℝ) (hf : Exp3 l h f a0 a1 a2) :
    Exp3 l h (fun p => c • f p) (fun p => c • a0 p) (fun p => c • a1 p) fun p => c • a2 p where
  b0 := bounded_smul c hf.b0
  b1 := bounded_smul c hf.b1
  b2 := bounded_smul c hf.b2
  rem := (hf.rem.const_smul_left c).congr_left fun p => by simp only [Pi.smul_apply]; module

theorem Exp3.sub {f g a0 a1 a2 b0 b1 b2 : α → R} (hf : Exp3 l h f a0 a1 a2) (hg : Exp3 l h g b0 b1 b2) :
    Exp3 l h (fun p => f p - g p) (fun p => a0 p - b0 p) (fun p => a1 p - b1 p) fun p => a2 p - b2 p where
  b0 := hf.b0.sub hg.b0
  b1 := hf.b1.sub hg.b1
  b2 := hf.b2.sub hg.b2
  rem := (hf.rem.sub hg.rem).congr_left fun p => by module

theorem Exp3.congr {f g a0 a1 a2 b0 b1 b2 : α → R} (hf : Exp3 l h f a0 a1 a2) (e : ∀ p, f p = g p) (e0 : ∀ p, a0 p = b0 p)
    (e1 : ∀ p, a1 p = b1 p) (e2 : ∀ p, a2 p = b2 p) : Exp3 l h g b0 b1 b2 := by
  obtain rfl := funext e; obtain rfl := funext e0; obtain rfl := funext e1; obtain rfl := funext e2
  exact hf

theorem Exp4.congr {f g a0 a1 a2 a3 b0 b1 b2 b3 : α → R} (hf : Exp4 l h f a0 a1 a2 a3) (e : ∀ p, f p = g p) (e0 : ∀ p, a0 p = b0 p)
    (e1 : ∀ p, a1 p = b1 p) (e2 : ∀ p, a2 p = b2 p) (e3 : ∀ p, a3 p = b3 p) : Exp4 l h g b0 b1 b2 b3 := by
  obtain rfl := funext e; obtain rfl := funext e0; obtain rfl := funext e1; obtain rfl := funext e2; obtain rfl := funext e3
  exact hf

theorem Exp3.const {a : α → R} (ha : a =O[l] fun _ => (1 : ℝ)) : Exp3 l h a a (fun _ => 0) fun _ => 0 where
  b0 := ha
  b1 := isBigO_zero _ _
  b2 := isBigO_zero _ _
  rem := by simpa using isBigO_zero _ _

theorem Exp4.const {a : α → R} (ha : a =O[l] fun _ => (1 : ℝ)) : Exp4 l h a a (fun _ => 0) (fun _ => 0) fun _ => 0 where
  b0 := ha
  b1 := isBigO_zero _ _
  b2 := isBigO_zero _ _
  b3 := isBigO_zero _ _
  rem := by simpa using isBigO_zero _ _

/-- Multiplication with the step. -/
theorem Exp3.step {f a0 a1 a2 : α → R} (hf : Exp3 l h f a0 a1 a2) : Exp4 l h (fun p => h p • f p) (fun _ => 0) a0 a1 a2 where
  b0 := isBigO_zero _ _
  b1 := hf.b0
  b2 := hf.b1
  b3 := hf.b2
  rem := by
    have := (isBigO_refl h l).smul hf.rem
    refine (this.congr_left fun p => ?_).congr_right fun p => ?_
    · module
    · rw [smul_eq_mul]; ring

variable (hh : h =O[l] fun _ => (1 : ℝ))
include hh

theorem Exp4.drop {f a0 a1 a2 a3 : α → R} (hf : Exp4 l h f a0 a1 a2 a3) : Exp3 l h f a0 a1 a2 where
  b0 := hf.b0
  b1 := hf.b1
  b2 := hf.b2
  rem := by
    have h1 : (fun p => f p - (a0 p + h p • a1 p + h p ^ 2 • a2 p + h p ^ 3 • a3 p)) =O[l] fun p => h p ^ 3 :=
      hf.rem.trans (by simpa using small (R := ℝ) hh (isBigO_refl (fun _ => (1 : ℝ)) l) (show 3 ≤ 4 by norm_num))
    refine (h1.add (small hh hf.b3 (le_refl 3))).congr_left fun p => by module

theorem Exp3.bounded {f a0 a1 a2 : α → R} (hf : Exp3 l h f a0 a1 a2) : f =O[l] fun _ => (1 : ℝ) := by
  have h1 := small hh hf.b1 (Nat.zero_le 1)
  have h2 := small hh hf.b2 (Nat.zero_le 2)
  have h3 := hf.rem.trans (bounded_pow hh 3)
  simp only [pow_zero, pow_one] at h1 h2
  exact (h3.add ((hf.b0.add h1).add h2)).congr_left fun p => by abel

theorem Exp4.bounded {f a0 a1 a2 a3 : α → R} (hf : Exp4 l h f a0 a1 a2 a3) : f =O[l] fun _ => (1 : ℝ) := (hf.drop hh).bounded hh

theorem Exp4.add {f g a0 a1 a2 a3 b0 b1 b2 b3 : α → R} (hf : Exp4 l h f a0 a1 a2 a3) (hg : Exp4 l h g b0 b1 b2 b3) :
    Exp4 l h (fun p => f p + g p) (fun p => a0 p + b0 p) (fun p => a1 p + b1 p) (fun p => a2 p + b2 p) fun p => a3 p + b3 p where
  b0 := hf.b0.add hg.b0
  b1 := hf.b1.add hg.b1
  b2 := hf.b2.add hg.b2
  b3 := hf.b3.add hg.b3
  rem := (hf.rem.add hg.rem).congr_left fun p => by module

theorem Exp4.smul {f a0 a1 a2 a3 : α → R} (c : ℝ) (hf : Exp4 l h f a0 a1 a2 a3) :
    Exp4 l h (fun p => c • f p) (fun p => c • a0 p) (fun p => c • a1 p) (fun p => c • a2 p) fun p => c • a3 p where
  b0 := bounded_smul c hf.b0
  b1 := bounded_smul c hf.b1
  b2 := bounded_smul c hf.b2
  b3 := bounded_smul c hf.b3
  rem := (hf.rem.const_smul_left c).congr_left fun p => by simp only [Pi.smul_apply]; module

theorem Exp4.mul {f g a0 a1 a2 a3 b0 b1 b2 b3 : α → R} (hf : Exp4 l h f a0 a1 a2 a3) (hg : Exp4 l h g b0 b1 b2 b3) :
    Exp4 l h (fun p => f p * g p) (fun p => a0 p * b0 p) (fun p => a0 p * b1 p + a1 p * b0 p)
      (fun p => a0 p * b2 p + a1 p * b1 p + a2 p * b0 p) fun p => a0 p * b3 p + a1 p * b2 p + a2 p * b1 p + a3 p * b0 p where
  b0 := bounded_mul hf.b0 hg.b0
  b1 := (bounded_mul hf.b0 hg.b1).add (bounded_mul hf.b1 hg.b0)
  b2 := ((bounded_mul hf.b0 hg.b2).add (bounded_mul hf.b1 hg.b1)).add (bounded_mul hf.b2 hg.b0)
  b3 := (((bounded_mul hf.b0 hg.b3).add (bounded_mul hf.b1 hg.b2)).add (bounded_mul hf.b2 hg.b1)).add (bounded_mul hf.b3 hg.b0)
  rem := by
    have hP : (fun p => a0 p + h p • a1 p + h p ^ 2 • a2 p + h p ^ 3 • a3 p) =O[l] fun _ => (1 : ℝ) := by
      refine ((hf.bounded hh).sub (hf.rem.trans (bounded_pow hh 4))).congr_left fun p => by abel
    have h1 := (hf.rem.mul (hg.bounded hh)).congr_right fun p => mul_one _
    have h2 := (hP.mul hg.rem).congr_right fun p => one_mul _
    have h3 := small hh ((bounded_mul hf.b1 hg.b3).add ((bounded_mul hf.b2 hg.b2).add (bounded_mul hf.b3 hg.b1))) (le_refl 4)
    have h4 := small hh ((bounded_mul hf.b2 hg.b3).add (bounded_mul hf.b3 hg.b2)) (show 4 ≤ 5 by norm_num)
    have h5 := small hh (bounded_mul hf.b3 hg.b3) (show 4 ≤ 6 by norm_num)
    refine ((((h1.add h2).add h3).add h4).add h5).congr_left fun p => ?_
    simp only [mul_add, add_mul, sub_mul, mul_sub, smul_mul_assoc, mul_smul_comm]
    module

/-- The exponential of a small step. -/
theorem Exp3.exp {f a0 a1 a2 : α → R} (hf : Exp3 l h f a0 a1 a2) :
    Exp4 l h (fun p => NormedSpace.exp (h p • f p)) (fun _ => 1) a0 (fun p => a1 p + (1 / 2 : ℝ) • (a0 p * a0 p))
      fun p => a2 p + (1 / 2 : ℝ) • (a0 p * a1 p + a1 p * a0 p) + (1 / 6 : ℝ) • (a0 p * a0 p * a0 p) := by
  have hx := hf.step
  have hx2 := hx.mul hh hx
  have hx3 := hx2.mul hh hx
  have hone : Exp4 l h (fun _ => (1 : R)) (fun _ => 1) (fun _ => 0) (fun _ => 0) fun _ => 0 := Exp4.const (isBigO_const_const _ one_ne_zero _)
  have hpoly := ((hone.add hh hx).add hh (hx2.smul hh (1 / 2))).add hh (hx3.smul hh (1 / 6))
  have hfb := hf.bounded hh
  obtain ⟨B, hB⟩ := (hh.smul hfb).bound
  obtain ⟨C, hC0, hC⟩ := exp_taylor (R := R) B
  have hsm : (fun p => NormedSpace.exp (h p • f p) - (1 + h p • f p + (1 / 2 : ℝ) • ((h p • f p) * (h p • f p)) +
      (1 / 6 : ℝ) • ((h p • f p) * (h p • f p) * (h p • f p)))) =O[l] fun p => h p ^ 4 := by
    have h1 : (fun p => NormedSpace.exp (h p • f p) - (1 + h p • f p + (1 / 2 : ℝ) • ((h p • f p) * (h p • f p)) +
      (1 / 6 : ℝ) • ((h p • f p) * (h p • f p) * (h p • f p)))) =O[l] fun p => ‖h p • f p‖ ^ 4 := by
      refine IsBigO.of_bound C (hB.mono fun p hp => ?_)
      rw [norm_pow, norm_norm]
      exact hC _ (by simpa using hp)
    refine h1.trans ?_
    have h2 : (fun p => h p • f p) =O[l] h := by simpa using (isBigO_refl h l).smul hfb
    exact (h2.norm_left.pow 4)
  refine Exp4.mk (isBigO_const_const _ one_ne_zero _) hf.b0 ?_ ?_ ?_
  · exact hf.b1.add (bounded_smul _ (bounded_mul hf.b0 hf.b0))
  · exact (hf.b2.add (bounded_smul _ ((bounded_mul hf.b0 hf.b1).add (bounded_mul hf.b1 hf.b0)))).add
      (bounded_smul _ (bounded_mul (bounded_mul hf.b0 hf.b0) hf.b0))
  · refine (hsm.add hpoly.rem).congr_left fun p => ?_
    simp only [mul_add, add_mul, smul_mul_assoc, mul_smul_comm, mul_zero, zero_mul, smul_zero, add_zero, zero_add]
    module

/-- A smooth function of an expansion. -/
theorem Exp3.comp {Z : R → R} (hZ : ContDiff ℝ ∞ Z) {f a0 a1 a2 : α → R} (hf : Exp3 l h f a0 a1 a2) :
    Exp3 l h (fun p => Z (f p)) (fun p => Z (a0 p)) (fun p => fderiv ℝ Z (a0 p) (a1 p))
      fun p => fderiv ℝ Z (a0 p) (a2 p) + (1 / 2 : ℝ) • fderiv ℝ (fderiv ℝ Z) (a0 p) (a1 p) (a1 p) := by
  have h1 : ContDiff ℝ ∞ (fderiv ℝ Z) := hZ.fderiv_right (by simp)
  have h2 : ContDiff ℝ ∞ (fderiv ℝ (fderiv ℝ Z)) := h1.fderiv_right (by simp)
  have bcomp : ∀ {W : Type _} [NormedAddCommGroup W] (g : R → W), Continuous g → (fun p => g (a0 p)) =O[l] fun _ => (1 : ℝ) := by
    intro W _ g hg
    obtain ⟨B, hB⟩ := hf.b0.bound
    obtain ⟨C, _, hC⟩ := bounded_on hg B
    exact IsBigO.of_bound C (hB.mono fun p hp => by simpa using hC _ (by simpa using hp))
  have bZ := bcomp Z hZ.continuous
  have bZ1 := bcomp _ h1.continuous
  have bZ2 := bcomp _ h2.continuous
  have app1 : ∀ {v : α → R} {k : α → ℝ}, v =O[l] k → (fun p => fderiv ℝ Z (a0 p) (v p)) =O[l] k := by
    intro v k hv
    refine (IsBigO.of_norm_le (g := fun p => ‖fderiv ℝ Z (a0 p)‖ * ‖v p‖) fun p => ContinuousLinearMap.le_opNorm _ _).trans ?_
    simpa using bZ1.norm_left.mul hv.norm_left
  have app2 : ∀ {v w : α → R} {k m : α → ℝ}, v =O[l] k → w =O[l] m →
      (fun p => fderiv ℝ (fderiv ℝ Z) (a0 p) (v p) (w p)) =O[l] fun p => k p * m p := by
    intro v w k m hv hw
    refine (IsBigO.of_norm_le (g := fun p => ‖fderiv ℝ (fderiv ℝ Z) (a0 p)‖ * ‖v p‖ * ‖w p‖) fun p => ?_).trans ?_
    · refine (ContinuousLinearMap.le_opNorm _ _).trans ?_
      exact mul_le_mul_of_nonneg_right (ContinuousLinearMap.le_opNorm _ _) (norm_nonneg _)
    · simpa using (bZ2.norm_left.mul hv.norm_left).mul hw.norm_left
  refine ⟨bZ, app1 hf.b1, (app1 hf.b2).add (bounded_smul _ (by simpa using app2 hf.b1 hf.b1)), ?_⟩
  -- the increment
  set d : α → R := fun p => f p - a0 p with hd
  set e : α → R := fun p => f p - (a0 p + h p • a1 p + h p ^ 2 • a2 p) with he
  have hr : e =O[l] fun p => h p ^ 3 := hf.rem
  have hd1 : d =O[l] h := by
    have s1 := small hh hf.b1 (le_refl 1)
    have s2 := small hh hf.b2 (show 1 ≤ 2 by norm_num)
    have s3 : e =O[l] fun p => h p ^ 1 := hr.trans (by simpa using small (R := ℝ) hh (isBigO_refl (fun _ => (1 : ℝ)) l) (show 1 ≤ 3 by norm_num))
    refine (((s1.add s2).add s3).congr_left fun p => ?_).congr_right fun p => pow_one _
    simp only [he, hd, pow_one]; abel
  have hd2 : (fun p => d p - h p • a1 p) =O[l] fun p => h p ^ 2 := by
    have s2 := small hh hf.b2 (le_refl 2)
    have s3 : e =O[l] fun p => h p ^ 2 := hr.trans (by simpa using small (R := ℝ) hh (isBigO_refl (fun _ => (1 : ℝ)) l) (show 2 ≤ 3 by norm_num))
    refine (s2.add s3).congr_left fun p => ?_
    simp only [he, hd]; abel
  have hdb : d =O[l] fun _ => (1 : ℝ) := hd1.trans hh
  obtain ⟨B0, hB0⟩ := hf.b0.bound
  obtain ⟨B1, hB1⟩ := hdb.bound
  obtain ⟨C, _, hC⟩ := map_taylor hZ (max B0 B1)
  have main : (fun p => Z (f p) - (Z (a0 p) + fderiv ℝ Z (a0 p) (d p) + (1 / 2 : ℝ) • fderiv ℝ (fderiv ℝ Z) (a0 p) (d p) (d p))) =O[l]
      fun p => h p ^ 3 := by
    refine (IsBigO.of_bound (g := fun p => ‖d p‖ ^ 3) C ?_).trans (hd1.norm_left.pow 3)
    filter_upwards [hB0, hB1] with p p0 p1
    have := hC (a0 p) (d p) ((by simpa using p0 : ‖a0 p‖ ≤ B0).trans (le_max_left _ _)) ((by simpa using p1 : ‖d p‖ ≤ B1).trans (le_max_right _ _))
    rw [show a0 p + d p = f p by simp [hd]] at this
    rw [norm_pow, norm_norm]
    exact this
  have t1 : (fun p => fderiv ℝ Z (a0 p) (e p)) =O[l] fun p => h p ^ 3 := app1 hr
  have t2 : (fun p => fderiv ℝ (fderiv ℝ Z) (a0 p) (d p - h p • a1 p) (d p)) =O[l] fun p => h p ^ 3 :=
    (app2 hd2 hd1).congr_right fun p => by ring
  have hha : (fun p => h p • a1 p) =O[l] h := by simpa using (isBigO_refl h l).smul hf.b1
  have t3 : (fun p => fderiv ℝ (fderiv ℝ Z) (a0 p) (h p • a1 p) (d p - h p • a1 p)) =O[l] fun p => h p ^ 3 :=
    (app2 hha hd2).congr_right fun p => by ring
  refine (((main.add t1).add (t2.const_smul_left (1 / 2 : ℝ))).add (t3.const_smul_left (1 / 2 : ℝ))).congr_left fun p => ?_
  have e1 : fderiv ℝ Z (a0 p) (e p) = fderiv ℝ Z (a0 p) (d p) - h p • fderiv ℝ Z (a0 p) (a1 p) - h p ^ 2 • fderiv ℝ Z (a0 p) (a2 p) := by
    rw [← map_smul, ← map_smul, ← map_sub, ← map_sub]
    congr 1
    simp only [he, hd]; abel
  simp only [Pi.smul_apply]
  rw [e1]
  simp only [map_sub, ContinuousLinearMap.sub_apply, map_smul, ContinuousLinearMap.smul_apply]
  module

end

end Leonard
