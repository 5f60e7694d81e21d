import Verif.Solver.Terminate
import Verif.Solver.Props

/-!
# C36: the rate of convergence of GMRESR with restarts
-/

set_option autoImplicit false

namespace Leonard

open Vec

variable {V : Type} [AddCommGroup V] [Module ℂ V] [Vec V]

theorem gmresOrtho_norm (c u : ℕ → V) (cj uj : V) : ∀ j, (∀ i < j, norm2 (c i) = 1) → norm2 (gmresOrtho c u cj uj j).1 ≤ norm2 cj := by
  intro j
  induction j with
  | zero => intro _; exact le_rfl
  | succ i ih =>
    intro h
    simp only [gmresOrtho]
    rw [norm2_sub_proj _ _ (h i (by omega))]
    have := Complex.normSq_nonneg (dot (c i) (gmresOrtho c u cj uj i).1)
    linarith [ih fun l hl => h l (by omega)]

/-- One step reduces the squared residual by the part of it in the direction `A w`. -/
theorem gmresStep_reduces {A : V → V} {k : ℕ} {w : V} {st : GmresState V} (h : GmresOrth st.c st.r k) (hw : dot (A w) st.r ≠ 0) :
    ∃ st', gmresStep A k w st = some st' ∧ GmresOrth st'.c st'.r (k + 1) ∧
      norm2 st'.r ≤ norm2 st.r - Complex.normSq (dot (A w) st.r) / norm2 (A w) := by
  obtain ⟨st', hs, ho⟩ := gmresStep_orth h hw
  refine ⟨st', hs, ho, ?_⟩
  obtain ⟨-, h2⟩ := gmresOrtho_perp st.c st.u (A w) w st.r k h k le_rfl
  have hle := gmresOrtho_norm st.c st.u (A w) w k h.unit
  simp only [gmresStep] at hs
  have hne : (gmresOrtho st.c st.u (A w) w k).1 ≠ 0 := by
    intro h0
    rw [h0, zero_dot] at h2
    exact hw h2.symm
  have hpos := norm2_pos hne
  rw [if_neg hpos.ne', Option.some.injEq] at hs
  have hn := normalize_norm2 _ hpos.ne'
  rw [← hs]
  change norm2 (st.r - dot _ st.r • _) ≤ _
  rw [norm2_sub_proj _ _ hn, smul_dot, Complex.normSq_mul, Complex.normSq_conj, h2, Complex.normSq_ofReal]
  have e : (√(norm2 (gmresOrtho st.c st.u (A w) w k).1))⁻¹ * (√(norm2 (gmresOrtho st.c st.u (A w) w k).1))⁻¹ =
      (norm2 (gmresOrtho st.c st.u (A w) w k).1)⁻¹ := by
    rw [← mul_inv, Real.mul_self_sqrt hpos.le]
  rw [e, inv_mul_eq_div]
  have := div_le_div_of_nonneg_left (Complex.normSq_nonneg (dot (A w) st.r)) hpos hle
  linarith

theorem gmresLoop_rate {A : V → V} {P : ℕ → V → V} {α β : ℝ} (hα : 0 < α) (hβ : 0 < β)
    (hlow : ∀ k v, α * norm2 v ≤ ‖dot v (A (P k v))‖) (hup : ∀ k v, norm2 (A (P k v)) ≤ β ^ 2 * norm2 v) {dim : ℕ} (hd : 0 < dim)
    {prec : ℝ} (hprec : 0 < prec) : ∀ (n k : ℕ) (st : GmresState V), GmresOrth st.c st.r (k % dim) → st.r ≠ 0 → 0 < n →
      (1 - α ^ 2 / β ^ 2) ^ n * norm2 st.r < prec → (gmresLoop A P dim prec n k st).ok = true := by
  intro n
  induction n with
  | zero => intro _ _ _ _ h0; omega
  | succ n ih =>
    intro k st h hr _ hn
    have hr0 := norm2_pos hr
    have hb : 0 < ‖dot st.r (A (P k st.r))‖ := lt_of_lt_of_le (mul_pos hα hr0) (hlow k st.r)
    have hw : dot (A (P k st.r)) st.r ≠ 0 := by
      rw [← dot_conj]
      exact (map_ne_zero _).mpr (norm_pos_iff.mp hb)
    obtain ⟨st', hs, ho, hred⟩ := gmresStep_reduces h hw
    have hA0 : 0 < norm2 (A (P k st.r)) := norm2_pos (fun h0 => hw (by rw [h0, zero_dot]))
    have hsq : α ^ 2 / β ^ 2 * norm2 st.r ≤ Complex.normSq (dot (A (P k st.r)) st.r) / norm2 (A (P k st.r)) := by
      rw [← dot_conj, Complex.normSq_conj, Complex.normSq_eq_norm_sq, le_div_iff₀ hA0]
      calc α ^ 2 / β ^ 2 * norm2 st.r * norm2 (A (P k st.r)) ≤ α ^ 2 / β ^ 2 * norm2 st.r * (β ^ 2 * norm2 st.r) :=
            mul_le_mul_of_nonneg_left (hup k st.r) (by positivity)
        _ = (α * norm2 st.r) ^ 2 := by field_simp
        _ ≤ _ := pow_le_pow_left₀ (by positivity) (hlow k st.r) 2
    have hfac : norm2 st'.r ≤ (1 - α ^ 2 / β ^ 2) * norm2 st.r := by linarith
    have hq0 : 0 ≤ 1 - α ^ 2 / β ^ 2 := by
      by_contra hc
      have := mul_neg_of_neg_of_pos (not_le.mp hc) hr0
      linarith [norm2_nonneg st'.r]
    simp only [gmresLoop]
    rw [hs]
    by_cases hp : norm2 st'.r < prec
    · simp [hp]
    · simp only [hp, if_false]
      have hn0 : 0 < n := by
        rcases Nat.eq_zero_or_pos n with h0 | h0
        · subst h0
          exact absurd (lt_of_le_of_lt hfac (by simpa using hn)) hp
        · exact h0
      refine ih (k + 1) st' ?_ ?_ hn0 ?_
      · by_cases hm : k % dim + 1 = dim
        · have : (k + 1) % dim = 0 := by rw [← Nat.mod_add_mod, hm, Nat.mod_self]
          rw [this]
          exact ⟨fun i hi => absurd hi (by omega), fun i hi => absurd hi (by omega), fun i hi => absurd hi (by omega)⟩
        · have hlt := Nat.mod_lt k hd
          have : (k + 1) % dim = k % dim + 1 := by rw [← Nat.mod_add_mod, Nat.mod_eq_of_lt (by omega)]
          rw [this]; exact ho
      · intro h0
        rw [h0, norm2_zero] at hp
        exact hp hprec
      · refine lt_of_le_of_lt ?_ hn
        rw [pow_succ (1 - α ^ 2 / β ^ 2) n, mul_assoc]
        exact mul_le_mul_of_nonneg_left hfac (pow_nonneg hq0 n)

/-- **C36, rate of GMRESR.** With any number of remembered directions, so with restarts as in the program, the solver succeeds as soon as the number
of steps `n` allowed fulfils `(1 - α²/β²)ⁿ ‖b - A x₀‖² < precision`, where `|⟨v, A P v⟩| ≥ α ‖v‖²` and `‖A P v‖ ≤ β ‖v‖` for the operator with its
preconditioner, which may be another one in every step; unless the start vector `x₀` is already the exact solution. -/
theorem C36_gmres_rate {A : V → V} {P : ℕ → V → V} {α β : ℝ} (hα : 0 < α) (hβ : 0 < β)
    (hlow : ∀ k v, α * norm2 v ≤ ‖dot v (A (P k v))‖) (hup : ∀ k v, norm2 (A (P k v)) ≤ β ^ 2 * norm2 v) {allocated dim : ℕ}
    {prec : ℝ} (hprec : 0 < prec) {maxSteps : ℕ} (hm : 0 < maxSteps) (b rnd : V) (guess : Option V)
    (hg : ¬ ExactGuess A b (startVector prec b rnd guess))
    (hn : (1 - α ^ 2 / β ^ 2) ^ maxSteps * norm2 (b - A (startVector prec b rnd guess)) < prec) (c u : ℕ → V) (res : SolveResult V)
    (h : gmresSolve A P allocated dim prec maxSteps b rnd guess c u = .ok res) : res.ok = true := by
  unfold gmresSolve at h
  split_ifs at h with h1 h2
  cases h
  have hd : 0 < dim := Nat.pos_of_ne_zero fun h0 => h1 ⟨hm.ne', h0⟩
  refine gmresLoop_rate hα hβ hlow hup hd hprec maxSteps 0 _ ?_ ?_ hm hn
  · rw [Nat.zero_mod]
    exact ⟨fun i hi => absurd hi (by omega), fun i hi => absurd hi (by omega), fun i hi => absurd hi (by omega)⟩
  · intro h0
    exact hg (sub_eq_zero.mp h0).symm

/-- The hypotheses on the operator hold for a multiple of the identity, with `α = β`: one step is enough. -/
example : (∀ (_ : ℕ) (v : Fin 2 → ℂ), (2 : ℝ) * norm2 v ≤ ‖dot v ((2 : ℂ) • v)‖) ∧
    (∀ (_ : ℕ) (v : Fin 2 → ℂ), norm2 ((2 : ℂ) • v) ≤ (2 : ℝ) ^ 2 * norm2 v) ∧
    (1 - (2 : ℝ) ^ 2 / (2 : ℝ) ^ 2) ^ 1 * norm2 ((1 : Fin 2 → ℂ) - (2 : ℂ) • (1 : Fin 2 → ℂ)) < 1 := by
  refine ⟨fun _ v => ?_, fun _ v => ?_, by norm_num⟩
  · rw [dot_smul, dot_self, norm_mul, Complex.norm_real, Real.norm_eq_abs, abs_of_nonneg (norm2_nonneg v)]
    simp
  · rw [norm2_smul]
    have : Complex.normSq 2 = (2 : ℝ) ^ 2 := by rw [Complex.normSq_eq_norm_sq]; simp
    rw [this]

end Leonard
