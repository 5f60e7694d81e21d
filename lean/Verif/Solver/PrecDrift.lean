/-
The preconditioned biconjugate gradient solver reports success for a vector that is not a solution: a run of seven steps
(for C36).
-/
import Verif.Solver.Model
import Mathlib.Tactic.Module
import Mathlib.Tactic.FieldSimp
import Mathlib.Tactic.NormNum
import Mathlib.Data.Fin.VecNotation

set_option autoImplicit false

namespace Leonard

open Vec

/-- A real vector with two components. -/
noncomputable def rv (a b : ℝ) : Fin 2 → ℂ := ![(a : ℂ), (b : ℂ)]

/-- The operator of the example, the matrix `(1 1; -1 1)`. -/
noncomputable def driftA (v : Fin 2 → ℂ) : Fin 2 → ℂ := ![v 0 + v 1, -v 0 + v 1]

/-- The preconditioner of the example, the matrix `(-7 -8; 5 4)/2`. -/
noncomputable def driftP (v : Fin 2 → ℂ) : Fin 2 → ℂ := ![(-7 * v 0 - 8 * v 1) / 2, (5 * v 0 + 4 * v 1) / 2]

theorem rv_dot (a b c d : ℝ) : dot (rv a b) (rv c d) = ((a * c + b * d : ℝ) : ℂ) := by
  show ∑ m, starRingEnd ℂ (rv a b m) * rv c d m = _
  simp [rv, Fin.sum_univ_two]

theorem rv_norm2 (a b : ℝ) : norm2 (rv a b) = a * a + b * b := by
  rw [norm2, rv_dot, Complex.ofReal_re]

theorem rv_smul (s a b : ℝ) : ((s : ℝ) : ℂ) • rv a b = rv (s * a) (s * b) := by
  ext i; fin_cases i <;> simp [rv]

theorem rv_add (a b c d : ℝ) : rv a b + rv c d = rv (a + c) (b + d) := by
  ext i; fin_cases i <;> simp [rv]

theorem rv_sub (a b c d : ℝ) : rv a b - rv c d = rv (a - c) (b - d) := by
  ext i; fin_cases i <;> simp [rv]

theorem rv_driftA (a b : ℝ) : driftA (rv a b) = rv (a + b) (-a + b) := by
  ext i; fin_cases i <;> simp [rv, driftA]

theorem rv_driftP (a b : ℝ) : driftP (rv a b) = rv ((-7 * a - 8 * b) / 2) ((5 * a + 4 * b) / 2) := by
  ext i; fin_cases i <;> simp [rv, driftP]

/-- One step of the run on real data. -/
theorem drift_step (prec : ℝ) (n step : ℕ) (x0 x1 r0 r1 p0 p1 nu0 nu1 alpha omega rhoPrev : ℝ)
    (q0 q1 rho alpha' omega' y0 y1 s0 s1 : ℝ)
    (hrho : 2 * r0 = rho) (h1 : rho ≠ 0) (h2 : step = 0 ∨ omega ≠ 0)
    (hq : (q0 = if step = 0 then r0 else r0 + rho / rhoPrev * (alpha / omega) * (p0 - omega * nu0)) ∧
      q1 = if step = 0 then r1 else r1 + rho / rhoPrev * (alpha / omega) * (p1 - omega * nu1))
    (h3 : -q0 - 2 * q1 ≠ 0) (ha : alpha' = rho / (2 * (-q0 - 2 * q1)))
    (hs : s0 = r0 - alpha' * (-q0 - 2 * q1) ∧ s1 = r1 - alpha' * (6 * q0 + 6 * q1))
    (hs0 : s0 = 0) (hs1 : s1 ≠ 0) (ho : omega' = 1 / 2)
    (hy : y0 = x0 + alpha' * ((-7 * q0 - 8 * q1) / 2) + omega' * (-4 * s1) ∧
      y1 = x1 + alpha' * ((5 * q0 + 4 * q1) / 2) + omega' * (2 * s1)) :
    bicgPrecLoop driftA driftP prec (rv 2 0) (n + 1) step (rv x0 x1) (rv r0 r1) (rv p0 p1) (rv nu0 nu1) alpha omega rhoPrev =
      if s1 * s1 / 2 < prec ∧ 5 < step then ⟨true, some (rv y0 y1), some step⟩
      else bicgPrecLoop driftA driftP prec (rv 2 0) n (step + 1) (rv y0 y1) (rv (-(s1 / 2)) (s1 / 2)) (rv q0 q1)
        (rv (-q0 - 2 * q1) (6 * q0 + 6 * q1)) alpha' omega' rho := by
  have eq : (if step = 0 then rv r0 r1 else rv r0 r1 + ((rho : ℂ) / rhoPrev * ((alpha : ℂ) / omega)) • (rv p0 p1 - (omega : ℂ) • rv nu0 nu1))
      = rv q0 q1 := by
    rw [hq.1, hq.2]
    by_cases h : step = 0
    · simp [h]
    · simp only [h, if_false]
      rw [show ((rho : ℂ) / rhoPrev * ((alpha : ℂ) / omega)) = ((rho / rhoPrev * (alpha / omega) : ℝ) : ℂ) by push_cast; rfl,
        rv_smul, rv_sub, rv_smul, rv_add]
  have e1 : dot (rv 2 0) (rv r0 r1) = (rho : ℂ) := by rw [rv_dot, ← hrho]; norm_num
  have hne : ¬ ((rho : ℂ).re * (rho : ℂ).re + (rho : ℂ).im * (rho : ℂ).im = 0) := by
    simp [h1]
  have h2' : ¬ (step ≠ 0 ∧ (omega : ℂ) = 0) := by
    rintro ⟨a, b⟩
    rcases h2 with h | h
    · exact a h
    · exact h (by exact_mod_cast b)
  have e2 : driftA (driftP (rv q0 q1)) = rv (-q0 - 2 * q1) (6 * q0 + 6 * q1) := by
    rw [rv_driftP, rv_driftA]; congr 1 <;> ring
  have e3 : dot (rv 2 0) (rv (-q0 - 2 * q1) (6 * q0 + 6 * q1)) = ((2 * (-q0 - 2 * q1) : ℝ) : ℂ) := by
    rw [rv_dot]; congr 1; ring
  have h3' : ¬ (((2 * (-q0 - 2 * q1) : ℝ) : ℂ) = 0) := by
    intro h; rw [Complex.ofReal_eq_zero] at h; exact h3 (by linarith)
  have e4 : (rho : ℂ) / ((2 * (-q0 - 2 * q1) : ℝ) : ℂ) = (alpha' : ℂ) := by rw [ha]; push_cast; rfl
  have e5 : rv r0 r1 - (alpha' : ℂ) • rv (-q0 - 2 * q1) (6 * q0 + 6 * q1) = rv 0 s1 := by
    rw [rv_smul, rv_sub, hs.2, ← hs.1, hs0]
  have e6 : driftA (rv 0 s1) = rv s1 s1 := by rw [rv_driftA]; congr 1 <;> ring
  have e7 : norm2 (rv s1 s1) = 2 * (s1 * s1) := by rw [rv_norm2]; ring
  have h7 : ¬ (2 * (s1 * s1) = 0) := by
    intro h; exact hs1 (mul_self_eq_zero.mp (by linarith))
  have e8 : dot (rv s1 s1) (rv 0 s1) / ((2 * (s1 * s1) : ℝ) : ℂ) = (omega' : ℂ) := by
    rw [rv_dot, ho, ← Complex.ofReal_div]
    congr 1
    field_simp
    ring
  have e9 : driftP (rv 0 s1) = rv (-4 * s1) (2 * s1) := by rw [rv_driftP]; congr 1 <;> ring
  have e10 : rv 0 s1 - (omega' : ℂ) • rv s1 s1 = rv (-(s1 / 2)) (s1 / 2) := by
    rw [rv_smul, rv_sub, ho]; congr 1 <;> ring
  have e11 : rv x0 x1 + (alpha' : ℂ) • driftP (rv q0 q1) + (omega' : ℂ) • rv (-4 * s1) (2 * s1) = rv y0 y1 := by
    rw [rv_driftP, rv_smul, rv_smul, rv_add, rv_add, hy.1, hy.2]
  have e12 : norm2 (rv (-(s1 / 2)) (s1 / 2)) = s1 * s1 / 2 := by rw [rv_norm2]; ring
  simp only [bicgPrecLoop]
  rw [e1, if_neg hne, if_neg h2', eq, e2, e3, if_neg h3', e4, e5, e6, e7, if_neg h7, e8, e9, e10, e11, e12]

/-- The run: source `(0, 1)`, guess `(3/2, 1/2)`, precision `1/100000`. -/
theorem drift_run (n : ℕ) : ∃ y0 y1 : ℝ,
    bicgPrecSolve driftA driftP (1 / 100000) (n + 7) (rv 0 1) 0 (some (rv (3 / 2) (1 / 2))) = ⟨true, some (rv y0 y1), some 6⟩
      ∧ 1 / 100000 < norm2 (rv 0 1 - driftA (rv y0 y1)) := by
  refine ⟨-1621/512, 597/512, ?_, ?_⟩
  rotate_left
  · rw [rv_driftA, rv_sub, rv_norm2]; norm_num
  have s0 := fun n => drift_step (1 / 100000) n 0 (3/2) (1/2) (-2) (2) (0) (0) (0) (0) (0) (0) (0)
    (-2) (2) (-4) (1) (1/2) (-7/2) (3/2) (0) (2)
    (by norm_num) (by norm_num) (by norm_num) (by norm_num) (by norm_num) (by norm_num) (by norm_num) (by norm_num)
    (by norm_num) (by norm_num) (by norm_num)
  norm_num at s0
  have s1 := fun n => drift_step (1 / 100000) n 1 (-7/2) (3/2) (-1) (1) (-2) (2) (-2) (0) (1) (1/2) (-4)
    (-2) (3) (-2) (1/4) (1/2) (-15/4) (5/4) (0) (-1/2)
    (by norm_num) (by norm_num) (by norm_num) (by norm_num) (by norm_num) (by norm_num) (by norm_num) (by norm_num)
    (by norm_num) (by norm_num) (by norm_num)
  norm_num at s1
  have s2 := fun n => drift_step (1 / 100000) n 2 (-15/4) (5/4) (1/4) (-1/4) (-2) (3) (-4) (6) (1/4) (1/2) (-2)
    (1/4) (-1/4) (1/2) (1) (1/2) (-25/8) (9/8) (0) (-1/4)
    (by norm_num) (by norm_num) (by norm_num) (by norm_num) (by norm_num) (by norm_num) (by norm_num) (by norm_num)
    (by norm_num) (by norm_num) (by norm_num)
  norm_num at s2
  have s3 := fun n => drift_step (1 / 100000) n 3 (-25/8) (9/8) (1/8) (-1/8) (1/4) (-1/4) (1/4) (0) (1) (1/2) (1/2)
    (1/4) (-3/8) (1/4) (1/4) (1/2) (-99/32) (37/32) (0) (1/16)
    (by norm_num) (by norm_num) (by norm_num) (by norm_num) (by norm_num) (by norm_num) (by norm_num) (by norm_num)
    (by norm_num) (by norm_num) (by norm_num)
  norm_num at s3
  have s4 := fun n => drift_step (1 / 100000) n 4 (-99/32) (37/32) (-1/32) (1/32) (1/4) (-3/8) (1/2) (-3/4) (1/4) (1/2) (1/4)
    (-1/32) (1/32) (-1/16) (1) (1/2) (-203/64) (75/64) (0) (1/32)
    (by norm_num) (by norm_num) (by norm_num) (by norm_num) (by norm_num) (by norm_num) (by norm_num) (by norm_num)
    (by norm_num) (by norm_num) (by norm_num)
  norm_num at s4
  have s5 := fun n => drift_step (1 / 100000) n 5 (-203/64) (75/64) (-1/64) (1/64) (-1/32) (1/32) (-1/32) (0) (1) (1/2) (-1/16)
    (-1/32) (3/64) (-1/32) (1/4) (1/2) (-813/256) (299/256) (0) (-1/128)
    (by norm_num) (by norm_num) (by norm_num) (by norm_num) (by norm_num) (by norm_num) (by norm_num) (by norm_num)
    (by norm_num) (by norm_num) (by norm_num)
  norm_num at s5
  have s6 := fun n => drift_step (1 / 100000) n 6 (-813/256) (299/256) (1/256) (-1/256) (-1/32) (3/64) (-1/16) (3/32) (1/4) (1/2) (-1/32)
    (1/256) (-1/256) (1/128) (1) (1/2) (-1621/512) (597/512) (0) (-1/256)
    (by norm_num) (by norm_num) (by norm_num) (by norm_num) (by norm_num) (by norm_num) (by norm_num) (by norm_num)
    (by norm_num) (by norm_num) (by norm_num)
  norm_num at s6
  have h0 : rv 0 1 - driftA (rv (3 / 2) (1 / 2)) = rv (-2) 2 := by rw [rv_driftA, rv_sub]; norm_num
  have h1 : rv 0 1 + driftA (rv (3 / 2) (1 / 2)) = rv 2 0 := by rw [rv_driftA, rv_add]; norm_num
  have hz : (0 : Fin 2 → ℂ) = rv 0 0 := by ext i; fin_cases i <;> simp [rv]
  simp only [bicgPrecSolve, startVector]
  rw [h0, h1, hz]
  norm_num
  rw [s0 (n + 6), s1 (n + 5), s2 (n + 4), s3 (n + 3), s4 (n + 2), s5 (n + 1), s6 n]

end Leonard
