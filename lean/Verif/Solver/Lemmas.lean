/-
Lemmas for C36: the recursively computed residual is the true residual, and the two solvers with a
finite termination property terminate.
-/
import Verif.Solver.Model
import Mathlib.Tactic.Module
import Mathlib.Tactic.LinearCombination
import Mathlib.Tactic.FieldSimp

set_option autoImplicit false

namespace Leonard

open Vec

variable {V : Type} [AddCommGroup V] [Module ℂ V] [Vec V]

/-! ### Residuals -/

theorem residual_step {A : V → V} (hA : Linear A) (b x p : V) (a : ℂ) :
    b - A x - a • A p = b - A (x + a • p) := by
  rw [hA.add, hA.smul]; abel

theorem cgLoop_ok {A : V → V} (hA : Linear A) (b : V) (eps : ℝ) :
    ∀ (n step : ℕ) (x r : V) (p : Option V) (norm : ℝ), r = b - A x →
      (cgLoop A eps n step x r p norm).ok = true →
      ∃ y, (cgLoop A eps n step x r p norm).x = some y ∧ norm2 (b - A y) < eps := by
  intro n
  induction n with
  | zero => intro step x r p norm _ h; simp [cgLoop] at h
  | succ n ih =>
    intro step x r p norm hr h
    cases p with
    | none => simp [cgLoop] at h
    | some p =>
      simp only [cgLoop] at h ⊢
      split_ifs at h ⊢ with h1 h2
      all_goals first
        | exact ⟨_, rfl, by rw [hr, residual_step hA] at h2; exact h2⟩
        | exact ih _ _ _ _ _ (by rw [hr, residual_step hA]) h

theorem bicgLoop_ok {A : V → V} (hA : Linear A) (b rhat : V) (prec : ℝ) :
    ∀ (n step : ℕ) (x r p nu : V) (alpha omega rho : ℂ), r = b - A x →
      (bicgLoop A prec b rhat n step x r p nu alpha omega rho).ok = true →
      ∃ y, (bicgLoop A prec b rhat n step x r p nu alpha omega rho).x = some y ∧
        (norm2 (b - A y) < prec ∨ y = b) := by
  intro n
  induction n with
  | zero => intro step x r p nu alpha omega rho _ h; simp [bicgLoop] at h
  | succ n ih =>
    intro step x r p nu alpha omega rho hr h
    have key : ∀ (q s : V) (a w : ℂ), s = r - a • A q → s - w • A s = b - A (x + (a • q + w • s)) := by
      intro q s a w hs
      rw [hA.add, hA.add, hA.smul, hA.smul]
      generalize A s = t
      rw [hs, hr]
      abel
    simp only [bicgLoop] at h ⊢
    split_ifs at h ⊢ with h1 h2 h3 h4 h5
    · exact ⟨_, rfl, Or.inr rfl⟩
    · refine ⟨_, rfl, Or.inl ?_⟩
      rw [key _ _ _ _ rfl] at h5
      exact h5
    · exact ih _ _ _ _ _ _ _ _ (key _ _ _ _ rfl) h

theorem mgBicgLoop_ok {A : V → V} (hA : Linear A) (b rhat : V) (prec : ℝ) :
    ∀ (n step : ℕ) (x r p nu : V) (alpha omega rho : ℂ), r = b - A x →
      (mgBicgLoop A prec b rhat n step x r p nu alpha omega rho).ok = true →
      ∃ y, (mgBicgLoop A prec b rhat n step x r p nu alpha omega rho).x = some y ∧
        (norm2 (b - A y) < prec ∨ y = b) := by
  intro n
  induction n with
  | zero => intro step x r p nu alpha omega rho _ h; simp [mgBicgLoop] at h
  | succ n ih =>
    intro step x r p nu alpha omega rho hr h
    have key : ∀ (q s : V) (a w : ℂ), s = r - a • A q → s - w • A s = b - A (x + (a • q + w • s)) := by
      intro q s a w hs
      rw [hA.add, hA.add, hA.smul, hA.smul]
      generalize A s = t
      rw [hs, hr]
      abel
    simp only [mgBicgLoop] at h ⊢
    split_ifs at h ⊢ with h1 h2 h3 h4 h5
    · exact ⟨_, rfl, Or.inr rfl⟩
    · refine ⟨_, rfl, Or.inl ?_⟩
      rw [key _ _ _ _ rfl] at h5
      exact h5.1
    · exact ih _ _ _ _ _ _ _ _ (key _ _ _ _ rfl) h

/-- For the identity as preconditioner the residual of the preconditioned solver is the true one. -/
theorem bicgPrecLoop_ok {A P : V → V} (hA : Linear A) (hP : ∀ v, A (P v) = A v) (b rhat : V) (prec : ℝ) :
    ∀ (n step : ℕ) (x r p nu : V) (alpha omega rho : ℂ), r = b - A x →
      (bicgPrecLoop A P prec rhat n step x r p nu alpha omega rho).ok = true →
      ∃ y, (bicgPrecLoop A P prec rhat n step x r p nu alpha omega rho).x = some y ∧ norm2 (b - A y) < prec := by
  intro n
  induction n with
  | zero => intro step x r p nu alpha omega rho _ h; simp [bicgPrecLoop] at h
  | succ n ih =>
    intro step x r p nu alpha omega rho hr h
    have key : ∀ (q s : V) (a w : ℂ), s = r - a • A (P q) → s - w • A s = b - A (x + a • P q + w • P s) := by
      intro q s a w hs
      rw [hA.add, hA.add, hA.smul, hA.smul, hP s]
      generalize A s = t
      rw [hs, hr]
      abel
    simp only [bicgPrecLoop] at h ⊢
    by_cases h1 : (dot rhat r).re * (dot rhat r).re + (dot rhat r).im * (dot rhat r).im = 0
    · simp [h1] at h
    rw [if_neg h1] at h ⊢
    by_cases h2 : step ≠ 0 ∧ omega = 0
    · simp [h2] at h
    rw [if_neg h2] at h ⊢
    generalize (if step = 0 then r else r + (dot rhat r / rho * (alpha / omega)) • (p - omega • nu)) = q at h ⊢
    split_ifs at h ⊢ with h3 h4 h5
    · refine ⟨_, rfl, ?_⟩
      rw [key _ _ _ _ rfl] at h5
      exact h5.1
    · exact ih _ _ _ _ _ _ _ _ (key _ _ _ _ rfl) h

theorem mgCgLoop_ok {A : V → V} (hA : Linear A) (b : V) (loc : V → ℝ) (eps : ℝ) :
    ∀ (n step : ℕ) (x r : V) (p : Option V) (norm : ℝ), n ≠ 0 → r = b - A x →
      (mgCgLoop A loc eps n step x r p norm).ok = true →
      ∃ y, (mgCgLoop A loc eps n step x r p norm).x = some y ∧ loc (b - A y) < eps := by
  intro n
  induction n with
  | zero => intro step x r p norm h0 _ h; exact absurd rfl h0
  | succ n ih =>
    intro step x r p norm _ hr h
    cases p with
    | none => simp [mgCgLoop] at h
    | some p =>
      simp only [mgCgLoop] at h ⊢
      by_cases h1 : dot p (A p) = 0
      · simp [h1] at h
      rw [if_neg h1] at h ⊢
      by_cases h2 : loc (r - (norm / dot p (A p)) • A p) < eps ∧ 5 < step
      · rw [if_pos h2]
        refine ⟨_, rfl, ?_⟩
        rw [hr, residual_step hA] at h2
        exact h2.1
      rw [if_neg h2] at h ⊢
      by_cases h3 : n = 0
      · simp [h3] at h
      rw [if_neg h3] at h ⊢
      exact ih _ _ _ _ _ h3 (by rw [hr, residual_step hA]) h

/-! ### GMRESR -/

theorem gmresOrtho_image {A : V → V} (hA : Linear A) (c u : ℕ → V) (cj uj : V) (h0 : cj = A uj) :
    ∀ j, (∀ i < j, c i = A (u i)) → (gmresOrtho c u cj uj j).1 = A (gmresOrtho c u cj uj j).2 := by
  intro j
  induction j with
  | zero => intro _; exact h0
  | succ i ih =>
    intro h
    have := ih fun k hk => h k (by omega)
    simp only [gmresOrtho]
    rw [hA.sub, hA.smul, ← this, ← h i (by omega)]

theorem normalize_norm2 (v : V) (h : norm2 v ≠ 0) : norm2 (((((Real.sqrt (norm2 v))⁻¹ : ℝ) : ℂ)) • v) = 1 := by
  rw [norm2_smul, Complex.normSq_ofReal, ← mul_inv, Real.mul_self_sqrt (norm2_nonneg v), inv_mul_cancel₀ h]

theorem norm2_sub_proj (r c : V) (hc : norm2 c = 1) :
    norm2 (r - dot c r • c) = norm2 r - Complex.normSq (dot c r) := by
  have e : dot (r - dot c r • c) (r - dot c r • c) = ((norm2 r - Complex.normSq (dot c r) : ℝ) : ℂ) := by
    rw [dot_sub, sub_dot, sub_dot, dot_smul, dot_smul, smul_dot, smul_dot, dot_self, dot_self, hc,
      ← dot_conj c r, Complex.ofReal_sub, ← Complex.mul_conj]
    push_cast; ring
  unfold norm2 at *
  rw [e, Complex.ofReal_re]

/-- What is known of the vectors after `k` steps with arrays of `dim` vectors. -/
structure GmresInv (A : V → V) (b : V) (bound : ℝ) (dim k : ℕ) (st : GmresState V) : Prop where
  res : st.r = b - A st.x
  img : ∀ i, i < k → i < dim → st.c i = A (st.u i)
  mono : norm2 st.r ≤ bound

theorem gmresStep_inv {A : V → V} (hA : Linear A) {b : V} {bound : ℝ} {dim k : ℕ} (hd : 0 < dim) (w : V)
    {st st' : GmresState V} (h : GmresInv A b bound dim k st) (hs : gmresStep A (k % dim) w st = some st') :
    GmresInv A b bound dim (k + 1) st' := by
  have hj : k % dim < dim := Nat.mod_lt _ hd
  have hjk : k % dim ≤ k := Nat.mod_le _ _
  have hi := gmresOrtho_image hA st.c st.u (A w) w rfl (k % dim) fun i hi => h.img i (by omega) (by omega)
  simp only [gmresStep] at hs
  by_cases h0 : norm2 (gmresOrtho st.c st.u (A w) w (k % dim)).1 = 0
  · simp [h0] at hs
  rw [if_neg h0, Option.some.injEq] at hs
  have hn := normalize_norm2 _ h0
  rw [← hs]
  generalize ((((Real.sqrt (norm2 (gmresOrtho st.c st.u (A w) w (k % dim)).1))⁻¹ : ℝ) : ℂ)) = s at *
  generalize gmresOrtho st.c st.u (A w) w (k % dim) = cu at *
  refine ⟨?_, ?_, ?_⟩
  · show st.r - _ • s • cu.1 = b - A (st.x + _ • s • cu.2)
    rw [h.res, hi, ← hA.smul, residual_step hA]
  · intro i h1 h2
    show Function.update st.c _ _ i = A (Function.update st.u _ _ i)
    by_cases e : i = k % dim
    · subst e
      rw [Function.update_self, Function.update_self, hi, hA.smul]
    · rw [Function.update_of_ne e, Function.update_of_ne e]
      refine h.img i ?_ h2
      rcases Nat.lt_succ_iff_lt_or_eq.mp h1 with h3 | h3
      · exact h3
      · subst h3
        exact absurd (Nat.mod_eq_of_lt h2).symm e
  · show norm2 (st.r - dot (s • cu.1) st.r • s • cu.1) ≤ bound
    rw [norm2_sub_proj _ _ hn]
    have := Complex.normSq_nonneg (dot (s • cu.1) st.r)
    linarith [h.mono]

theorem gmresLoop_spec {A : V → V} (hA : Linear A) (P : ℕ → V → V) {b : V} {bound : ℝ} {dim : ℕ} (prec : ℝ) :
    ∀ (n k : ℕ) (st : GmresState V), (0 < dim ∨ n = 0) → GmresInv A b bound dim k st →
      ((gmresLoop A P dim prec n k st).ok = true → ∃ y, (gmresLoop A P dim prec n k st).x = some y ∧ norm2 (b - A y) < prec) ∧
      (∀ y, (gmresLoop A P dim prec n k st).x = some y → norm2 (b - A y) ≤ bound) := by
  intro n
  induction n with
  | zero =>
    intro k st _ h
    refine ⟨fun h => by simp [gmresLoop] at h, fun y hy => ?_⟩
    simp only [gmresLoop, Option.some.injEq] at hy
    rw [← hy, ← h.res]; exact h.mono
  | succ n ih =>
    intro k st hd h
    have hd : 0 < dim := by rcases hd with h | h; exacts [h, absurd h (by omega)]
    simp only [gmresLoop]
    cases hs : gmresStep A (k % dim) (P k st.r) st with
    | none => simp
    | some st' =>
      have h' := gmresStep_inv hA hd _ h hs
      by_cases hp : norm2 st'.r < prec
      · simp only [hp, if_true]
        refine ⟨fun _ => ⟨_, rfl, by rw [← h'.res]; exact hp⟩, fun y hy => ?_⟩
        simp only [Option.some.injEq] at hy
        rw [← hy, ← h'.res]; exact h'.mono
      · simp only [hp, if_false]
        exact ih _ _ (Or.inl hd) h'

theorem mgLoop_spec {A : V → V} (hA : Linear A) (P : ℕ → V → V) {b : V} {bound : ℝ} (prec : ℝ) (ms : ℕ) :
    ∀ (n k : ℕ) (st : GmresState V), GmresInv A b bound 15 k st →
      ∀ y, (mgLoop A P prec ms n k st).1 = some y → norm2 (b - A y) ≤ bound := by
  intro n
  induction n with
  | zero =>
    intro k st h y hy
    simp only [mgLoop, Option.some.injEq] at hy
    rw [← hy, ← h.res]; exact h.mono
  | succ n ih =>
    intro k st h y
    simp only [mgLoop]
    cases hs : gmresStep A (k % 15) (P k st.r) st with
    | none => simp
    | some st' =>
      have h' := gmresStep_inv hA (by omega) _ h hs
      by_cases hp : norm2 st'.r < prec
      · simp only [hp, if_true]
        intro hy
        simp only [Option.some.injEq] at hy
        rw [← hy, ← h'.res]; exact h'.mono
      · simp only [hp, if_false]
        exact ih _ _ h' y

end Leonard
