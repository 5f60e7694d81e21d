/-
Concrete cases for the theorems of C82.
-/
import Verif.Shiftmg.Props

set_option autoImplicit false

namespace Leonard

open Vec

variable {S : Type} {N : ℕ} [Fintype S]

theorem improved_zero_kappa (T : Torus S) (U : GField S N) (v : SField S N) : (improvedOp T U 0 0 false).mul v = v := by
  simp only [improvedOp, C33_improved, withGamma5, Bool.false_eq_true, if_false, improvedSpec_zero]
  funext x
  simp [wilsonSpec]

/-- Hopping parameter zero, one large and one small shift: the hypotheses of `C82_shifts_partial` are met with `L = 4`. -/
example (T : Torus S) (U : GField S N) :
    (∀ s ∈ [(1 : ℝ)], s < 0 ∨ s > 0.001) ∧ (∀ s ∈ [(1 / 10000 : ℝ)], s = 0 ∨ s > 1e-34) ∧
    (∀ s ∈ [(1 / 10000 : ℝ)], ∀ v : SField S N,
      norm2 ((twistedOp (-Real.sqrt s) (improvedOp T U 0 0 false)).mul v) ≤ 4 * norm2 v) ∧
    ∃ B : ℂ → SField S N → SField S N,
      ∀ o v σ, (squareOp (improvedOp T U 0 0 true)).mulAdd o v v σ = .ok (B σ v) := by
  refine ⟨fun s hs => ?_, fun s hs => ?_, fun s hs v => ?_, ?_⟩
  · rw [List.mem_singleton.1 hs]; norm_num
  · rw [List.mem_singleton.1 hs]; norm_num
  · rw [List.mem_singleton.1 hs, C33_twist, improved_zero_kappa]
    have hq : Real.sqrt (1 / 10000) = 1 / 100 := by
      rw [show (1 / 10000 : ℝ) = (1 / 100) ^ 2 by norm_num]; exact Real.sqrt_sq (by norm_num)
    rw [hq, if_pos (by rw [abs_neg, abs_of_pos] <;> norm_num)]
    refine (norm2_add_le _ _).trans ?_
    rw [norm2_smul, norm2_gamma5Field]
    have e : Complex.normSq (Complex.I * ((-(1 / 100) : ℝ) : ℂ)) = 1 / 10000 := by
      rw [map_mul, Complex.normSq_I, Complex.normSq_ofReal]; norm_num
    rw [e]
    have := norm2_nonneg v
    linarith
  · refine ⟨fun σ v => (squareOp (improvedOp T U 0 0 true)).mul v + σ • v, fun o v σ => ?_⟩
    exact (C33_add_composed _ ((C33_add T U 0 0 0 true id).2.2.1) 0).1 o v v σ

/-- In the same case the loop for the large shift ends because of a small residual after one step. -/
example (b : SField S N) (hb : b ≠ 0) (A : ℝ → SField S N → SField S N) (P : ℝ → ℕ → SField S N → SField S N) (G : SField S N → SField S N)
    (prec eps : ℝ) (he : 0 < eps) (c u : ℕ → SField S N) (junk : ℕ → Option (SField S N)) (limit : ℕ) :
    (shiftTrace (fun σ v => v + σ • v) A P G eps prec c u junk 1 limit b [1]).map (·.reached) = [true] := by
  have hn := norm2_pos hb
  have h2 : b + ((1 : ℝ) : ℂ) • b = (2 : ℂ) • b := by push_cast; module
  have hd : (dot b ((2 : ℂ) • b)).re = 2 * norm2 b := by
    rw [dot_smul, dot_self, ← Complex.ofReal_ofNat, ← Complex.ofReal_mul, Complex.ofReal_re]
  have ha : norm2 b / (2 * norm2 b) = 1 / 2 := by field_simp
  have hr : b - (((1 / 2 : ℝ)) : ℂ) • (2 : ℂ) • b = 0 := by push_cast; module
  have h0 : ¬ (2 * norm2 b = 0) := by positivity
  have hs : (1 : ℝ) < 0 ∨ (1 : ℝ) > 0.001 := by norm_num
  simp only [shiftTrace, if_pos hs, shiftCgLoop, h2, hd, ha, hr, if_neg h0, norm2_zero, if_pos he, List.map_cons, List.map_nil]
  rfl

/-- Two small shifts: the hypothesis of `C82_limit` is met. -/
example : ∀ s ∈ [(1 / 10000 : ℝ), 1 / 100000], 0 ≤ s ∧ s ≤ 0.001 := by
  intro s hs
  simp only [List.mem_cons, List.not_mem_nil, or_false] at hs
  rcases hs with rfl | rfl <;> norm_num

/-- A source of squared norm one and the precision `1e-11`: the hypotheses of `C82_flag_counterexample` are met on every lattice. -/
example [DecidableEq S] (x : S) : ∃ b : SField S 2, 4 * (1e-11 : ℝ) ≤ norm2 b := by
  refine ⟨fun y => if y = x then Matrix.of fun c i => if c = 0 ∧ i = 0 then 1 else 0 else 0, ?_⟩
  have hb : (fun y => if y = x then Matrix.of fun c i => if c = 0 ∧ i = 0 then (1 : ℂ) else 0 else 0 : SField S 2) ≠ 0 := fun h => by
    have := congrFun (congrFun (congrFun h x) 0) 0
    simp at this
  rw [norm2_eq_latticeNorm2, latticeNorm2]
  have e : ∀ y, (∑ mu : Fin 4, (∑ n : Fin 2, starRingEnd ℂ ((if y = x then Matrix.of fun (c : Fin 4) (i : Fin 2) => if c = 0 ∧ i = 0 then (1 : ℂ) else 0 else 0 : Matrix (Fin 4) (Fin 2) ℂ) mu n) *
      (if y = x then Matrix.of fun (c : Fin 4) (i : Fin 2) => if c = 0 ∧ i = 0 then (1 : ℂ) else 0 else 0 : Matrix (Fin 4) (Fin 2) ℂ) mu n).re) = if y = x then 1 else 0 := fun y => by
    split <;> simp [Fin.sum_univ_four]
  simp only [e, Finset.sum_ite_eq', Finset.mem_univ, if_true]
  norm_num

end Leonard
