import Mathlib.Analysis.ODE.ExistUnique
import Mathlib.Analysis.Calculus.ContDiff.FiniteDimension
import Mathlib.Analysis.Calculus.MeanValue

/-!
# Existence of the flow

A smooth vector field whose solutions do not leave a bounded set has solutions for all times.
-/

set_option autoImplicit false

namespace Leonard

open scoped ContDiff Topology

variable {E : Type*} [NormedAddCommGroup E] [NormedSpace ℝ E] [ProperSpace E]

/-- `γ` solves `γ' = f(γ)` between `0` and `t`. -/
def Solves (f : E → E) (t : ℝ) (γ : ℝ → E) : Prop := ∀ s ∈ Set.Icc 0 t, HasDerivWithinAt γ (f (γ s)) (Set.Icc 0 t) s

theorem Solves.mono {f : E → E} {t t' : ℝ} {γ : ℝ → E} (h : Solves f t γ) (ht : t' ≤ t) : Solves f t' γ :=
  fun s hs => (h s ⟨hs.1, hs.2.trans ht⟩).mono (Set.Icc_subset_Icc_right ht)

theorem solve_short {f : E → E} (hf : ContDiff ℝ ∞ f) (B : ℝ) : ∃ ε : ℝ, 0 < ε ∧ ∀ x, ‖x‖ ≤ B → ∃ γ : ℝ → E, γ 0 = x ∧ Solves f ε γ := by
  have hc := isCompact_closedBall (0 : E) (B + 1)
  obtain ⟨L, hL⟩ := hc.exists_bound_of_continuousOn hf.continuous.continuousOn
  obtain ⟨K, hK⟩ := hc.exists_bound_of_continuousOn (hf.continuous_fderiv (by simp)).continuousOn
  have hpos : (0 : ℝ) < max L 0 + 1 := by positivity
  refine ⟨1 / (max L 0 + 1), by positivity, fun x hx => ?_⟩
  have hsub : Metric.closedBall x ((1 : NNReal) : ℝ) ⊆ Metric.closedBall 0 (B + 1) := by
    refine Metric.closedBall_subset_closedBall' ?_
    rw [dist_zero_right, NNReal.coe_one]; linarith
  have h0 : (0 : ℝ) ∈ Set.Icc 0 (1 / (max L 0 + 1)) := ⟨le_rfl, by positivity⟩
  have hp : IsPicardLindelof (fun _ => f) (⟨0, h0⟩ : Set.Icc (0 : ℝ) (1 / (max L 0 + 1))) x 1 0 ⟨max L 0, le_max_right _ _⟩
      ⟨max K 0, le_max_right _ _⟩ := by
    refine IsPicardLindelof.of_time_independent (fun y hy => (hL y (hsub hy)).trans (le_max_left _ _)) ?_ ?_
    · refine Convex.lipschitzOnWith_of_nnnorm_fderiv_le (𝕜 := ℝ) (fun y _ => (hf.differentiable (by simp)).differentiableAt) (fun y hy => ?_)
        (convex_closedBall _ _)
      exact NNReal.coe_le_coe.1 ((hK y (hsub hy)).trans (le_max_left K 0))
    · change max L 0 * max (1 / (max L 0 + 1) - 0) (0 - 0) ≤ ((1 : NNReal) : ℝ) - ((0 : NNReal) : ℝ)
      rw [sub_zero, sub_zero, max_eq_left (a := 1 / (max L 0 + 1)) (by positivity), NNReal.coe_one, NNReal.coe_zero, sub_zero, mul_one_div, div_le_one hpos]
      linarith
  exact hp.exists_eq_forall_mem_Icc_hasDerivWithinAt₀

theorem Solves.append {f : E → E} {a b : ℝ} (ha : 0 ≤ a) {α β : ℝ → E} (hα : Solves f a α) (hβ : Solves f b β) (h : β 0 = α a) :
    Solves f (a + b) fun s => if s ≤ a then α s else β (s - a) := by
  set γ : ℝ → E := fun s => if s ≤ a then α s else β (s - a) with hγ
  have e1 : ∀ s ≤ a, γ s = α s := fun s hs => if_pos hs
  have e2 : ∀ s, a ≤ s → γ s = β (s - a) := fun s hs => by
    rcases eq_or_lt_of_le hs with rfl | hs
    · rw [e1 _ le_rfl, sub_self, h]
    · exact if_neg (not_le.2 hs)
  intro s hs
  have hu : Set.Icc 0 (a + b) ⊆ Set.Icc 0 a ∪ Set.Icc a (a + b) := fun x hx => (le_total x a).imp (fun h => ⟨hx.1, h⟩) fun h => ⟨h, hx.2⟩
  refine HasDerivWithinAt.mono (HasDerivWithinAt.union ?_ ?_) hu
  · by_cases hsa : s ≤ a
    · rw [e1 s hsa]
      exact (hα s ⟨hs.1, hsa⟩).congr (fun x hx => e1 x hx.2) (e1 s hsa)
    · refine HasFDerivWithinAt.of_notMem_closure fun hc => hsa ?_
      rw [isClosed_Icc.closure_eq] at hc
      exact hc.2
  · by_cases hsa : a ≤ s
    · have hm : s - a ∈ Set.Icc 0 b := ⟨by linarith, by linarith [hs.2]⟩
      have h1 := (hβ (s - a) hm).scomp s (h := fun x => x - a) (((hasDerivAt_id s).sub_const a).hasDerivWithinAt (s := Set.Icc a (a + b)))
        fun x hx => ⟨by linarith [hx.1], by linarith [hx.2]⟩
      rw [one_smul] at h1
      rw [e2 s hsa]
      exact h1.congr (fun x hx => e2 x hx.1) (e2 s hsa)
    · refine HasFDerivWithinAt.of_notMem_closure fun hc => hsa ?_
      rw [isClosed_Icc.closure_eq] at hc
      exact hc.1

/-- Solutions exist for all times if they stay in a bounded set. -/
theorem solve_long {f : E → E} (hf : ContDiff ℝ ∞ f) (A : Set E) (B : ℝ) (hA : ∀ x ∈ A, ‖x‖ ≤ B)
    (hinv : ∀ (γ : ℝ → E) (t : ℝ), 0 ≤ t → γ 0 ∈ A → Solves f t γ → γ t ∈ A) (x : E) (hx : x ∈ A) (t : ℝ) : ∃ γ : ℝ → E, γ 0 = x ∧ Solves f t γ := by
  obtain ⟨ε, hε, hs⟩ := solve_short hf B
  have hm : ∀ m : ℕ, ∃ γ : ℝ → E, γ 0 = x ∧ Solves f (m * ε) γ := by
    intro m
    induction m with
    | zero =>
      obtain ⟨γ, h0, h1⟩ := hs x (hA x hx)
      exact ⟨γ, h0, h1.mono (by simpa using hε.le)⟩
    | succ m ih =>
      obtain ⟨α, h0, h1⟩ := ih
      have hnn : 0 ≤ (m : ℝ) * ε := by positivity
      obtain ⟨β, h2, h3⟩ := hs (α (m * ε)) (hA _ (hinv α _ hnn (h0 ▸ hx) h1))
      refine ⟨fun s => if s ≤ m * ε then α s else β (s - m * ε), ?_, ?_⟩
      · simp only [if_pos hnn, h0]
      · have := Solves.append hnn h1 h3 h2
        rwa [show ((m + 1 : ℕ) : ℝ) * ε = m * ε + ε by push_cast; ring]
  obtain ⟨m, hm'⟩ := exists_nat_ge (t / ε)
  obtain ⟨γ, h0, h1⟩ := hm m
  exact ⟨γ, h0, h1.mono (by rwa [div_le_iff₀ hε] at hm')⟩

end Leonard
