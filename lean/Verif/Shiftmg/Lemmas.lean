/-
Lemmas for C82: residuals of the two twisted systems, and the step limit.
-/
import Verif.Shiftmg.Model
import Verif.Solver.SettingsProps
import Verif.Solver.ShiftLemmas

set_option autoImplicit false

namespace Leonard

open Vec

variable {V : Type} [AddCommGroup V] [Module ℂ V] [Vec V]

theorem norm2_add_le (v w : V) : norm2 (v + w) ≤ 2 * norm2 v + 2 * norm2 w := by
  have h := norm2_nonneg (v - w)
  have e : norm2 (v + w) + norm2 (v - w) = 2 * norm2 v + 2 * norm2 w := by
    have c := dot_conj v w
    have c' : (dot w v).re = (dot v w).re := by rw [← c]; simp
    have a : ∀ x y z : V, dot (x + y) z = dot x z + dot y z := fun x y z => by
      rw [← dot_conj z, dot_add, map_add, dot_conj, dot_conj]
    have n : ∀ x z : V, dot (-x) z = -dot x z := fun x z => by
      rw [← dot_conj z, dot_neg, map_neg, dot_conj]
    unfold norm2
    rw [sub_eq_add_neg]
    simp only [a, dot_add, n, dot_neg, Complex.add_re, Complex.neg_re]
    linarith
  linarith

theorem limitedSolve_le {A : V → V} (hA : Linear A) (P : ℕ → V → V) (prec : ℝ) (limit : ℕ) (c u : ℕ → V) (b : Option V)
    (g : Option (Option V)) : (limitedSolve A P prec limit c u b g).2 ≤ limit := by
  cases b with
  | none => simp [limitedSolve]
  | some b =>
    rcases g with _ | _ | g
    · exact (C38_multigrid_partial A hA P prec limit b none c u c u).2.1
    · simp [limitedSolve]
    · exact (C38_multigrid_partial A hA P prec limit b (some g) c u c u).2.1

theorem limitedSolve_reached {A : V → V} (hA : Linear A) (P : ℕ → V → V) (prec : ℝ) (limit : ℕ) (c u : ℕ → V)
    (b : Option V) (g : Option (Option V)) (h : (limitedSolve A P prec limit c u b g).2 ≠ limit) :
    ∃ s, b = some s ∧ SolvesTo A s prec (limitedSolve A P prec limit c u b g).1 := by
  cases b with
  | none => simp [limitedSolve] at h
  | some b =>
    refine ⟨b, rfl, ?_⟩
    rcases g with _ | _ | g
    · exact (C38_multigrid_partial A hA P prec limit b none c u c u).2.2 h
    · simp [limitedSolve] at h
    · exact (C38_multigrid_partial A hA P prec limit b (some g) c u c u).2.2 h

/-- Two residuals of the factors give the residual of the product. -/
theorem pair_residual {G M₁ M₂ : V → V} (hG : Linear G) (hGG : ∀ v, G (G v) = v) (hn : ∀ v, norm2 (G v) = norm2 v)
    (h₁ : Linear M₁) {L prec : ℝ} (hL : ∀ v, norm2 (M₁ v) ≤ L * norm2 v) (hL0 : 0 ≤ L) {b x y : V}
    (e₁ : norm2 (G b - M₁ y) < prec) (e₂ : norm2 (G y - M₂ x) < prec) :
    norm2 (b - G (M₁ (G (M₂ x)))) ≤ 2 * (1 + L) * prec := by
  have hsub : ∀ {M : V → V}, Linear M → ∀ v w, M (v - w) = M v - M w := fun {M} hM v w => by
    rw [sub_eq_add_neg, hM.add, ← neg_one_smul ℂ w, hM.smul, neg_one_smul, ← sub_eq_add_neg]
  have key : b - G (M₁ (G (M₂ x))) = G (G b - M₁ y) + G (M₁ (G (G y - M₂ x))) := by
    rw [hsub hG (G b), hGG, hsub hG (G y), hGG, hsub h₁, hsub hG (M₁ y)]
    abel
  rw [key]
  refine (norm2_add_le _ _).trans ?_
  rw [hn, hn]
  have h3 := hL (G (G y - M₂ x))
  rw [hn] at h3
  have h4 : L * norm2 (G y - M₂ x) ≤ L * prec := mul_le_mul_of_nonneg_left e₂.le hL0
  linarith

theorem twistPair_le {A : ℝ → V → V} (hA : ∀ τ, Linear (A τ)) (P : ℝ → ℕ → V → V) (G : V → V) (prec : ℝ) (c u : ℕ → V)
    (limit : ℕ) (b : V) (gy gx : Option (Option V)) (s : ℝ) :
    (twistPair A P G prec c u limit b gy gx s).2 + (if (twistPair A P G prec c u limit b gy gx s).1.reached then 2 else 0) ≤
      limit := by
  unfold twistPair
  split
  · simp
  · simp only
    have h1 := limitedSolve_le (hA (-Real.sqrt s)) (P (-Real.sqrt s)) prec limit c u (some b) gy
    have h2 := limitedSolve_le (hA (Real.sqrt s)) (P (Real.sqrt s)) prec
      (limitedSolve (A (-Real.sqrt s)) (P (-Real.sqrt s)) prec limit c u (some b) gy).2 c u
      ((limitedSolve (A (-Real.sqrt s)) (P (-Real.sqrt s)) prec limit c u (some b) gy).1.map G) gx
    split
    · rename_i h
      have h' := of_decide_eq_true h
      omega
    · omega

theorem twistPair_reached {A : ℝ → V → V} (hA : ∀ τ, Linear (A τ)) (P : ℝ → ℕ → V → V) {G : V → V} (prec : ℝ) (c u : ℕ → V)
    (limit : ℕ) (b : V) (gy gx : Option (Option V)) (s : ℝ)
    (h : (twistPair A P G prec c u limit b gy gx s).1.reached = true) :
    ∃ y x, (twistPair A P G prec c u limit b gy gx s).1.x = some x ∧ norm2 (b - A (-Real.sqrt s) y) < prec ∧
      norm2 (G y - A (Real.sqrt s) x) < prec := by
  unfold twistPair at h ⊢
  split at h
  · simp at h
  · rename_i hs
    rw [if_neg hs]
    simp only at h ⊢
    obtain ⟨h1, h2⟩ := of_decide_eq_true h
    obtain ⟨b', hb', y, hy, ey⟩ := limitedSolve_reached (hA _) _ _ _ _ _ _ _ h1
    obtain ⟨z, hz, x, hx, ex⟩ := limitedSolve_reached (hA _) _ _ _ _ _ _ _ h2
    cases hb'
    rw [hy] at hz
    simp only [Option.map_some, Option.some.injEq] at hz
    subst hz
    exact ⟨y, x, hx, ey, ex⟩

/-- A preconditioner that inverts the operator: one step, and the step limit is zero afterwards. -/
theorem mgSolve_exact {A : V → V} (P : ℕ → V → V) {prec : ℝ} (hp : 0 < prec) (limit : ℕ) (b : V) (c u : ℕ → V)
    (hb : norm2 b > prec) (hr : b - A b ≠ 0) (hP : A (P 0 (b - A b)) = b - A b) :
    mgSolve A P prec (limit + 1) b none c u = (⟨true, some (b + P 0 (b - A b)), none⟩, 0) := by
  have hn : norm2 (b - A b) ≠ 0 := (norm2_pos hr).ne'
  have hs : Real.sqrt (norm2 (b - A b)) ≠ 0 := Real.sqrt_ne_zero'.2 (norm2_pos hr)
  have hd : dot ((((Real.sqrt (norm2 (b - A b)))⁻¹ : ℝ) : ℂ) • (b - A b)) (b - A b) = ((Real.sqrt (norm2 (b - A b)) : ℝ) : ℂ) := by
    rw [← dot_conj, dot_smul, map_mul, Complex.conj_ofReal, dot_conj, dot_self, ← Complex.ofReal_mul]
    congr 1
    rw [inv_mul_eq_div, div_eq_iff hs, Real.mul_self_sqrt (norm2_nonneg _)]
  have hc : ((Real.sqrt (norm2 (b - A b)) : ℝ) : ℂ) * (((Real.sqrt (norm2 (b - A b)))⁻¹ : ℝ) : ℂ) = 1 := by
    rw [← Complex.ofReal_mul, mul_inv_cancel₀ hs, Complex.ofReal_one]
  simp only [mgSolve, startVector, if_pos hb]
  rw [mgLoop]
  simp only [gmresStep, Nat.zero_mod, gmresOrtho, hP, if_neg hn, hd, smul_smul, hc, one_smul, sub_self, norm2_zero, if_pos hp]

end Leonard
