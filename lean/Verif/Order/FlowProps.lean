import Verif.Order.RungeKuttaOrder
import Verif.Order.FlowExist
import Verif.Order.Steps

/-!
# C28 Wilson flow: accuracy of the integration and smoothing
-/

set_option autoImplicit false

namespace Leonard

open Filter Asymptotics Finset Matrix
open scoped ContDiff Topology Matrix.Norms.Operator

variable {S : Type} [Fintype S] {N : ℕ}

instance : ProperSpace (GField S N) := FiniteDimensional.proper ℝ _

/-! ### The integration as a sequence of steps in the algebra of all link fields -/

theorem exp_field (X : GField S N) (s : S) (μ : Fin 4) : NormedSpace.exp X s μ = NormedSpace.exp (X s μ) := by
  letI : NormedAlgebra ℚ (Mat N) := NormedAlgebra.restrictScalars ℚ ℝ (Mat N)
  exact (congrFun (Pi.coe_exp X s) μ).trans (Pi.coe_exp (X s) μ)

section
variable (hN : 0 < N) (eig : EigenSolver N) (he : eig.Correct) (β : ℝ) (staple : GField S N → S → Fin 4 → Mat N)
include hN he

theorem flowStep_eq (dt : ℝ) (X : GField S N) : flowStep eig (flowForce β staple) dt X = rkStep (flowForce β staple) dt X := by
  have hl := flowForce_lie hN β staple
  have hst : ∀ (Y Z : GField S N), (∀ s μ, IsLie (Z s μ)) → flowStage eig dt Y Z = NormedSpace.exp (dt • Z) * Y := by
    intro Y Z hZ
    funext s μ
    rw [Pi.mul_apply, Pi.mul_apply, exp_field]
    exact flowExponential_eq eig he _ _ dt (hZ s μ).1
  have e1 : ∀ (c : ℂ) (r : ℝ), c = r → ∀ A : GField S N, (fun s μ => c • A s μ) = r • A := by
    rintro c r rfl A
    funext s μ
    exact (Complex.coe_smul r (A s μ))
  have a1 : (fun s μ => (1 / 4 : ℂ) • flowForce β staple X s μ) = (1 / 4 : ℝ) • flowForce β staple X := e1 _ _ (by norm_num) _
  have a2 : ∀ X1, (fun s μ => (8 / 9 : ℂ) • flowForce β staple X1 s μ - (17 / 36 : ℂ) • flowForce β staple X s μ) =
      (8 / 9 : ℝ) • flowForce β staple X1 - (17 / 36 : ℝ) • flowForce β staple X := fun X1 => by
    rw [← e1 (8 / 9) (8 / 9) (by norm_num), ← e1 (17 / 36) (17 / 36) (by norm_num)]
    rfl
  have a3 : ∀ X1 X2, (fun s μ => (3 / 4 : ℂ) • flowForce β staple X2 s μ - (8 / 9 : ℂ) • flowForce β staple X1 s μ +
        (17 / 36 : ℂ) • flowForce β staple X s μ) =
      (3 / 4 : ℝ) • flowForce β staple X2 - (8 / 9 : ℝ) • flowForce β staple X1 + (17 / 36 : ℝ) • flowForce β staple X := fun X1 X2 => by
    rw [← e1 (8 / 9) (8 / 9) (by norm_num), ← e1 (17 / 36) (17 / 36) (by norm_num), ← e1 (3 / 4) (3 / 4) (by norm_num)]
    rfl
  unfold flowStep
  simp only []
  rw [hst X _ fun s μ => isLie_stage1 (hl _ s μ), a1]
  rw [hst _ (fun s μ => (8 / 9 : ℂ) • _ - _) fun s μ => isLie_stage2 (hl _ s μ) (hl _ s μ), a2]
  rw [hst _ _ fun s μ => isLie_stage3 (hl _ s μ) (hl _ s μ) (hl _ s μ), a3]
  rfl

theorem flowIntegrate_eq (t : ℝ) (n : ℕ) (U : GField S N) :
    flowIntegrate eig (flowForce β staple) t n U = (rkStep (flowForce β staple) (t / n))^[n] U := by
  unfold flowIntegrate
  rw [show flowStep eig (flowForce β staple) (t / n) = rkStep (flowForce β staple) (t / n) from funext (flowStep_eq hN eig he β staple _)]

theorem rkStep_su (dt : ℝ) (k : ℕ) (U : GField S N) (hU : U ∈ suFields S N) : (rkStep (flowForce β staple) dt)^[k] U ∈ suFields S N := by
  induction k generalizing U with
  | zero => exact hU
  | succ k ih =>
    rw [Function.iterate_succ_apply]
    refine ih _ ?_
    have := C28_group hN eig he β staple dt 1 U hU
    rw [flowIntegrate_eq hN eig he] at this
    have e : (rkStep (flowForce β staple) (dt / ((1 : ℕ) : ℝ)))^[1] U = rkStep (flowForce β staple) dt U := by simp
    rw [e] at this
    exact this

/-- The error of the integration against a solution starting in the group, in the norm of the fields. -/
theorem flow_error (hs : ContDiff ℝ ∞ (flowForce β staple)) (γ : ℝ → GField S N) (t : ℝ) (ht : 0 ≤ t) (h0 : γ 0 ∈ suFields S N)
    (hγ : Solves (fun V => flowForce β staple V * V) t γ) :
    ∃ C : ℝ, ∀ n : ℕ, n ≠ 0 → ‖flowIntegrate eig (flowForce β staple) t n (γ 0) - γ t‖ ≤ C / n ^ 3 := by
  obtain ⟨r, hr⟩ := isCompact_suFields.exists_bound_of_continuousOn (continuousOn_id (s := suFields S N))
  obtain ⟨C, hC⟩ := rk_global hs γ t ht hγ r fun n _ k _ => hr _ (rkStep_su hN eig he β staple _ k _ h0)
  exact ⟨C, fun n hn => by rw [flowIntegrate_eq hN eig he]; exact hC n hn⟩

/-- Solutions stay in the group. -/
theorem flow_su (hs : ContDiff ℝ ∞ (flowForce β staple)) (γ : ℝ → GField S N) (t : ℝ) (ht : 0 ≤ t) (h0 : γ 0 ∈ suFields S N)
    (hγ : Solves (fun V => flowForce β staple V * V) t γ) : γ t ∈ suFields S N := by
  obtain ⟨C, hC⟩ := flow_error hN eig he β staple hs γ t ht h0 hγ
  have hlim : Tendsto (fun n : ℕ => flowIntegrate eig (flowForce β staple) t n (γ 0)) atTop (𝓝 (γ t)) := by
    refine tendsto_iff_norm_sub_tendsto_zero.2 ?_
    refine squeeze_zero' (Eventually.of_forall fun n => norm_nonneg _) ((eventually_ne_atTop 0).mono hC) ?_
    have h3 : Tendsto (fun n : ℕ => (n : ℝ) ^ 3) atTop atTop := (tendsto_pow_atTop (by norm_num)).comp tendsto_natCast_atTop_atTop
    exact h3.const_div_atTop C
  exact isCompact_suFields.isClosed.mem_of_tendsto hlim (Eventually.of_forall fun n => C28_group hN eig he β staple t n _ h0)

theorem flow_exists (hs : ContDiff ℝ ∞ (flowForce β staple)) (U : GField S N) (hU : U ∈ suFields S N) (t : ℝ) :
    ∃ γ : ℝ → GField S N, γ 0 = U ∧ Solves (fun V => flowForce β staple V * V) t γ := by
  obtain ⟨r, hr⟩ := isCompact_suFields.exists_bound_of_continuousOn (continuousOn_id (s := suFields S N))
  exact solve_long (hs.mul contDiff_id) (suFields S N) r hr (fun γ t ht h0 hγ => flow_su hN eig he β staple hs γ t ht h0 hγ) U hU t

end

theorem contDiff_flowWilson (β : ℝ) (T : Torus S) : ContDiff ℝ ∞ (flowForce (N := N) β (wilsonStaple T)) :=
  contDiff_pi.2 fun s => contDiff_pi.2 fun μ => (contDiff_gaugeForce β (contDiff_wilsonStaple T s μ) s μ).neg

theorem contDiff_flowImproved (u0 β : ℝ) (T : Torus S) : ContDiff ℝ ∞ (flowForce (N := N) β (improvedStaple u0 T)) :=
  contDiff_pi.2 fun s => contDiff_pi.2 fun μ => (contDiff_gaugeForce β (contDiff_improvedStaple u0 T s μ) s μ).neg

/-! ### Statement in terms of the entries of the links -/

/-- **Specification.** The curve `V` of configurations solves the flow equation `dV(s,μ)/dτ = -F(s,μ) V(s,μ)` up to time `t`, where `F` is the
molecular dynamics force of the action with coupling `β` and the given staples.  The equation is stated for each entry of each link. -/
def FlowEquation (β : ℝ) (staple : GField S N → S → Fin 4 → Mat N) (t : ℝ) (V : ℝ → GField S N) : Prop :=
  ∀ τ ∈ Set.Icc 0 t, ∀ s μ i j,
    HasDerivWithinAt (fun τ => V τ s μ i j) (-(gaugeForce β (V τ) (staple (V τ) s μ) s μ * V τ s μ) i j) (Set.Icc 0 t) τ

theorem hasDerivWithinAt_entries {V : ℝ → GField S N} {V' : GField S N} {A : Set ℝ} {τ : ℝ} :
    HasDerivWithinAt V V' A τ ↔ ∀ s μ i j, HasDerivWithinAt (fun τ => V τ s μ i j) (V' s μ i j) A τ := by
  have hm : ∀ (f : ℝ → Mat N) (f' : Mat N), HasDerivWithinAt f f' A τ ↔ ∀ i j, HasDerivWithinAt (fun τ => f τ i j) (f' i j) A τ := by
    intro f f'
    constructor
    · intro h i j
      let e : Mat N →ₗ[ℝ] ℂ := { toFun := fun A => A i j, map_add' := fun _ _ => rfl, map_smul' := fun _ _ => rfl }
      exact (LinearMap.toContinuousLinearMap e).hasFDerivAt.comp_hasDerivWithinAt τ h
    · intro h
      let e : (Fin N → Fin N → ℂ) →ₗ[ℝ] Mat N := { toFun := fun g => Matrix.of g, map_add' := fun _ _ => rfl, map_smul' := fun _ _ => rfl }
      have h1 : HasDerivWithinAt (fun τ i j => f τ i j) (fun i j => f' i j) A τ :=
        hasDerivWithinAt_pi.2 fun i => hasDerivWithinAt_pi.2 fun j => h i j
      exact (LinearMap.toContinuousLinearMap e).hasFDerivAt.comp_hasDerivWithinAt τ h1
  refine hasDerivWithinAt_pi.trans (forall_congr' fun s => ?_)
  exact hasDerivWithinAt_pi.trans (forall_congr' fun μ => hm _ _)

theorem flowEquation_iff (β : ℝ) (staple : GField S N → S → Fin 4 → Mat N) (t : ℝ) (V : ℝ → GField S N) :
    FlowEquation β staple t V ↔ Solves (fun V => flowForce β staple V * V) t V := by
  refine forall_congr' fun τ => forall_congr' fun _ => ?_
  refine Iff.trans ?_ hasDerivWithinAt_entries.symm
  refine forall_congr' fun s => forall_congr' fun μ => forall_congr' fun i => forall_congr' fun j => ?_
  have e : (flowForce β staple (V τ) * V τ) s μ i j = -(gaugeForce β (V τ) (staple (V τ) s μ) s μ * V τ s μ) i j := by
    rw [Pi.mul_apply, Pi.mul_apply, flowForce, Matrix.neg_mul, Matrix.neg_apply]
  exact ⟨fun h => h.congr_deriv e.symm, fun h => h.congr_deriv e⟩

theorem entry_le_field (X : GField S N) (s : S) (μ : Fin 4) (i j : Fin N) : ‖X s μ i j‖ ≤ ‖X‖ := by
  have h1 : ‖X s μ i j‖ ≤ ‖X s μ‖ := by
    rw [Matrix.linfty_opNorm_def]
    have a : ‖X s μ i j‖₊ ≤ ∑ j, ‖X s μ i j‖₊ := Finset.single_le_sum (f := fun j => ‖X s μ i j‖₊) (fun _ _ => zero_le) (mem_univ j)
    have b : ∑ j, ‖X s μ i j‖₊ ≤ univ.sup fun i => ∑ j, ‖X s μ i j‖₊ := Finset.le_sup (f := fun i => ∑ j, ‖X s μ i j‖₊) (mem_univ i)
    exact_mod_cast a.trans b
  exact h1.trans ((norm_le_pi_norm (X s) μ).trans (norm_le_pi_norm X s))

/-- The actions which the program offers for the flow, with their energy. -/
def IsFlowAction (β : ℝ) (T : Torus S) (staple : GField S N → S → Fin 4 → Mat N) (energy : GField S N → ℝ) : Prop :=
  (staple = wilsonStaple T ∧ energy = wilsonEnergy β T) ∨ ∃ u0, staple = improvedStaple u0 T ∧ energy = improvedEnergy u0 β T

theorem IsFlowAction.smooth {β : ℝ} {T : Torus S} {staple : GField S N → S → Fin 4 → Mat N} {energy : GField S N → ℝ}
    (h : IsFlowAction β T staple energy) : ContDiff ℝ ∞ (flowForce β staple) ∧ ContDiff ℝ ∞ energy := by
  rcases h with ⟨rfl, rfl⟩ | ⟨u0, rfl, rfl⟩
  · exact ⟨contDiff_flowWilson β T, contDiff_wilsonEnergy β T⟩
  · exact ⟨contDiff_flowImproved u0 β T, contDiff_improvedEnergy u0 β T⟩

section
variable (hN : 0 < N) (eig : EigenSolver N) (he : eig.Correct) (β : ℝ) (T : Torus S) {staple : GField S N → S → Fin 4 → Mat N}
  {energy : GField S N → ℝ} (hact : IsFlowAction β T staple energy)
include hN he hact

/-- **C28**, accuracy: the flow equation has a solution through every configuration and for every time, the solution stays in the group, and the
integration with `n` steps differs from it by at most a constant over `n³` in every entry of every link. -/
theorem C28_third_order (U : GField S N) (hU : ∀ s μ, U s μ ∈ specialUnitaryGroup (Fin N) ℂ) (t : ℝ) (ht : 0 ≤ t) :
    (∃ V : ℝ → GField S N, V 0 = U ∧ FlowEquation β staple t V) ∧
    ∀ V : ℝ → GField S N, V 0 = U → FlowEquation β staple t V →
      (∀ s μ, V t s μ ∈ specialUnitaryGroup (Fin N) ℂ) ∧
      ∃ C : ℝ, ∀ n : ℕ, n ≠ 0 → ∀ s μ i j, ‖flowIntegrate eig (flowForce β staple) t n U s μ i j - V t s μ i j‖ ≤ C / n ^ 3 := by
  have hs := hact.smooth.1
  refine ⟨?_, ?_⟩
  · obtain ⟨V, h0, hV⟩ := flow_exists hN eig he β staple hs U hU t
    exact ⟨V, h0, (flowEquation_iff β staple t V).2 hV⟩
  · rintro V rfl hV
    have hV := (flowEquation_iff β staple t V).1 hV
    refine ⟨flow_su hN eig he β staple hs V t ht hU hV, ?_⟩
    obtain ⟨C, hC⟩ := flow_error hN eig he β staple hs V t ht hU hV
    exact ⟨C, fun n hn s μ i j => (entry_le_field (flowIntegrate eig (flowForce β staple) t n (V 0) - V t) s μ i j).trans (hC n hn)⟩

omit he in
theorem energy_slope (V : GField S N) : fderiv ℝ energy V (flowForce β staple V * V) =
    -2 * ∑ s, ∑ μ, ∑ i, ∑ j, ‖gaugeForce β V (staple V s μ) s μ i j‖ ^ 2 := by
  have hm : HasDerivAt (moveLinks (flowForce β staple V) V) (flowForce β staple V * V) 0 :=
    hasDerivAt_pi.2 fun s => hasDerivAt_pi.2 fun μ => hasDerivAt_moveLinks _ V s μ
  have h1 : HasDerivAt (fun t => energy (moveLinks (flowForce β staple V) V t)) (fderiv ℝ energy V (flowForce β staple V * V)) 0 := by
    have hd := ((hact.smooth.2.differentiable (by simp)).differentiableAt (x := moveLinks (flowForce β staple V) V 0)).hasFDerivAt
    have := hd.comp_hasDerivAt (0 : ℝ) hm
    rw [moveLinks_zero] at this
    exact this
  have hl := flowForce_lie hN β staple V
  have h2 : HasDerivAt (fun t => energy (moveLinks (flowForce β staple V) V t))
      (∑ s, ∑ μ, -(β / N) * (trace (flowForce β staple V s μ * (V s μ * staple V s μ))).re) 0 := by
    rcases hact with ⟨rfl, rfl⟩ | ⟨u0, rfl, rfl⟩
    · exact hasDerivAt_wilsonEnergy β T _ V
    · exact hasDerivAt_improvedEnergy u0 β T _ V
  rw [h1.unique h2, Finset.mul_sum]
  refine Finset.sum_congr rfl fun s _ => ?_
  rw [Finset.mul_sum]
  refine Finset.sum_congr rfl fun μ _ => ?_
  rw [← re_trace_mul_force β V (staple V s μ) _ s μ (hl s μ).1 (hl s μ).2]
  congr 1
  unfold flowForce
  have hF := (C21_lie_algebra hN β V (staple V s μ) s μ).1
  generalize gaugeForce β V (staple V s μ) s μ = F at hF ⊢
  rw [← hF]
  simp only [Matrix.trace, Matrix.diag, Matrix.mul_apply, conjTranspose_apply, Complex.re_sum]
  rw [Finset.sum_comm]
  refine Finset.sum_congr rfl fun i _ => Finset.sum_congr rfl fun j _ => ?_
  rw [Complex.star_def, ← Complex.normSq_eq_conj_mul_self, Complex.ofReal_re, Complex.normSq_eq_norm_sq]

/-- **C28**, smoothing: along the exact flow the action falls with twice the square of the force, so that it never increases, and the action of the
integrated configuration exceeds the one of the start by no more than a constant over `n³`. -/
theorem C28_smoothing (U : GField S N) (hU : ∀ s μ, U s μ ∈ specialUnitaryGroup (Fin N) ℂ) (t : ℝ) (ht : 0 ≤ t) :
    (∀ V : ℝ → GField S N, FlowEquation β staple t V →
      (∀ τ ∈ Set.Icc 0 t, HasDerivWithinAt (fun τ => energy (V τ)) (-2 * ∑ s, ∑ μ, ∑ i, ∑ j, ‖gaugeForce β (V τ) (staple (V τ) s μ) s μ i j‖ ^ 2)
        (Set.Icc 0 t) τ) ∧
      ∀ τ₁ τ₂, 0 ≤ τ₁ → τ₁ ≤ τ₂ → τ₂ ≤ t → energy (V τ₂) ≤ energy (V τ₁)) ∧
    ∃ C : ℝ, ∀ n : ℕ, n ≠ 0 → energy (flowIntegrate eig (flowForce β staple) t n U) ≤ energy U + C / n ^ 3 := by
  have hfirst : ∀ V : ℝ → GField S N, FlowEquation β staple t V →
      (∀ τ ∈ Set.Icc 0 t, HasDerivWithinAt (fun τ => energy (V τ)) (-2 * ∑ s, ∑ μ, ∑ i, ∑ j, ‖gaugeForce β (V τ) (staple (V τ) s μ) s μ i j‖ ^ 2)
        (Set.Icc 0 t) τ) ∧
      ∀ τ₁ τ₂, 0 ≤ τ₁ → τ₁ ≤ τ₂ → τ₂ ≤ t → energy (V τ₂) ≤ energy (V τ₁) := by
    intro V hV
    have hV := (flowEquation_iff β staple t V).1 hV
    have hd : ∀ τ ∈ Set.Icc 0 t, HasDerivWithinAt (fun τ => energy (V τ)) (-2 * ∑ s, ∑ μ, ∑ i, ∑ j, ‖gaugeForce β (V τ) (staple (V τ) s μ) s μ i j‖ ^ 2)
        (Set.Icc 0 t) τ := by
      intro τ hτ
      rw [← energy_slope hN β T hact]
      exact ((hact.smooth.2.differentiable (by simp)).differentiableAt (x := V τ)).hasFDerivAt.comp_hasDerivWithinAt τ (hV τ hτ)
    refine ⟨hd, fun τ₁ τ₂ h1 h2 h3 => ?_⟩
    refine antitoneOn_of_hasDerivWithinAt_nonpos (convex_Icc 0 t) (fun τ hτ => (hd τ hτ).continuousWithinAt)
      (fun τ hτ => (hd τ (interior_subset hτ)).mono interior_subset) (fun τ _ => ?_) ⟨h1, h2.trans h3⟩ ⟨h1.trans h2, h3⟩ h2
    have : 0 ≤ ∑ s, ∑ μ, ∑ i, ∑ j, ‖gaugeForce β (V τ) (staple (V τ) s μ) s μ i j‖ ^ 2 := by positivity
    linarith
  refine ⟨hfirst, ?_⟩
  obtain ⟨hs, hsE⟩ := hact.smooth
  obtain ⟨V, rfl, hV⟩ := flow_exists hN eig he β staple hs U hU t
  obtain ⟨C, hC⟩ := flow_error hN eig he β staple hs V t ht hU hV
  obtain ⟨r, hr⟩ := isCompact_suFields.exists_bound_of_continuousOn (continuousOn_id (s := suFields S N))
  obtain ⟨L, hL⟩ := (isCompact_closedBall (0 : GField S N) r).exists_bound_of_continuousOn (hsE.continuous_fderiv (by simp)).continuousOn
  refine ⟨max L 0 * C, fun n hn => ?_⟩
  have m1 : flowIntegrate eig (flowForce β staple) t n (V 0) ∈ Metric.closedBall (0 : GField S N) r := by
    have := hr _ (C28_group hN eig he β staple t n (V 0) hU)
    simpa using this
  have m2 : V t ∈ Metric.closedBall (0 : GField S N) r := by
    have := hr _ (flow_su hN eig he β staple hs V t ht hU hV)
    simpa using this
  have hlip := (convex_closedBall (0 : GField S N) r).norm_image_sub_le_of_norm_fderiv_le (𝕜 := ℝ) (f := energy) (C := max L 0)
    (fun x _ => (hsE.differentiable (by simp)).differentiableAt) (fun x hx => (hL x hx).trans (le_max_left _ _)) m2 m1
  have h1 := (hfirst V ((flowEquation_iff β staple t V).2 hV)).2 0 t le_rfl ht le_rfl
  have h2 : ‖energy (flowIntegrate eig (flowForce β staple) t n (V 0)) - energy (V t)‖ ≤ max L 0 * (C / n ^ 3) :=
    hlip.trans (mul_le_mul_of_nonneg_left (hC n hn) (le_max_right _ _))
  have h3 := (le_abs_self _).trans h2
  rw [mul_div_assoc]
  linarith

end

/-- The hypotheses are met on a lattice with different extents, for a configuration with links different from the identity. -/
example : ∃ (eig : EigenSolver 2) (U : GField (BoxSite exExt3) 2), eig.Correct ∧ (∀ s μ, U s μ ∈ specialUnitaryGroup (Fin 2) ℂ) ∧
    (∃ s μ, U s μ ≠ 1) ∧ IsFlowAction 1 (boxTorus exExt3 exExt3_pos) (improvedStaple (N := 2) 1 (boxTorus exExt3 exExt3_pos))
      (improvedEnergy 1 1 (boxTorus exExt3 exExt3_pos)) := by
  obtain ⟨eig, he⟩ := exists_correct_eigenSolver (N := 2)
  refine ⟨eig, fun _ μ => if μ = 0 then !![0, 1; -1, 0] else 1, he, fun s μ => ?_, ⟨⟨⟨0, 0, 0, 0⟩, by simp [InBox, exExt3]⟩, 0, fun h => ?_⟩,
    Or.inr ⟨1, rfl, rfl⟩⟩
  · dsimp only
    split
    · rw [mem_specialUnitaryGroup_iff, mem_unitaryGroup_iff]
      refine ⟨?_, by simp [det_fin_two]⟩
      ext i j
      fin_cases i <;> fin_cases j <;> simp [Matrix.mul_apply, Fin.sum_univ_two, star_apply]
    · exact one_mem _
  · have := congrFun (congrFun h 0) 0
    simp at this

end Leonard
