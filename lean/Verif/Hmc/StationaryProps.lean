/-
C42 (conservation of the volume of phase space) and C44 (the accept/reject step and the stationary distribution).
-/
import Verif.Hmc.Stationary

set_option autoImplicit false

namespace Leonard

open Matrix MeasureTheory ProbabilityTheory
open scoped ENNReal

variable {N : ℕ} {S ι : Type} [Fintype S]

/-- **C42.** For every integrator, list of forces, numbers of steps and length, the map of links and momenta is a map of the phase space
`SU(N)^links × su(N)^links` that preserves the product of an invariant measure for each link and the Lebesgue measure of the momenta.
`phaseMat` are the matrices of a point of phase space.  Missing: eigenvectors that are not orthonormal.  The forces are measurable with values in the Lie algebra. -/
theorem C42_volume_partial (eig : EigenSolver N) (he : eig.Correct) (F : ι → GField S N → GField S N)
    (hL : ∀ i (Q : LinkSU S N) s μ, IsLie (F i (linkMat Q) s μ)) (hF : ∀ i, MeasurableForce (F i))
    (haar : Measure (SU N)) [IsFiniteMeasure haar] [haar.IsMulLeftInvariant]
    (name : String) (forces : List ι) (steps : List ℕ) (t : ℝ) (l : List (MdOp ι)) (_h : mdIntegrate name forces steps t = .ok l) :
    ∃ Φ : LinkSU S N × Draws S N → LinkSU S N × Draws S N,
      (∀ z, phaseMat (Φ z) = mdRun (eigenLink eig) F l (phaseMat z)) ∧ MeasurePreserving Φ (phaseVolume S haar) (phaseVolume S haar) :=
  ⟨phaseRun F l, phaseRun_mat eig he F hL l, phaseRun_preserving haar F hF l⟩

/-- Points of phase space are determined by their matrices, so the map of `C42_volume_partial` is the only one. -/
theorem C42_unique (z w : LinkSU S N × Draws S N) (h : phaseMat z = phaseMat w) : z = w := by
  refine Prod.ext ?_ ?_
  · funext s μ
    exact Subtype.ext (congrFun (congrFun (congrArg Prod.fst h) s) μ)
  · funext s μ
    exact momentumOf_injective (congrFun (congrFun (congrArg Prod.snd h) s) μ)

/-- **C44, probability.** For a random number uniform in `[0,1)` the proposal is accepted with probability `min(1, exp(-ΔH))`. -/
theorem C44_probability (a b : ℝ) :
    (volume.restrict (Set.Ico (0 : ℝ) 1)) {u | metropolisLocal (some a) (some b) u = true} = ENNReal.ofReal (min 1 (Real.exp (-(b - a)))) :=
  accept_probability a b

/-- **C44, given ratio.** The variant for a given ratio `v` of probabilities accepts with probability `min(1, v)` (none for `v ≤ 0`). -/
theorem C44_value (v : ℝ) :
    (volume.restrict (Set.Ico (0 : ℝ) 1)) {u | metropolisValue (some v) u = true} = ENNReal.ofReal (min 1 v) := by
  have hset : {u | metropolisValue (some v) u = true} ∩ Set.Ico (0 : ℝ) 1 = Set.Ico 0 (min 1 v) := by
    ext u
    simp only [metropolisValue, Set.mem_inter_iff, Set.mem_setOf_eq, Set.mem_Ico, lt_min_iff]
    by_cases h : 1 < v
    · rw [if_pos h]
      constructor
      · rintro ⟨-, h2, h3⟩; exact ⟨h2, h3, h3.trans h⟩
      · rintro ⟨h2, h3, -⟩; exact ⟨rfl, h2, h3⟩
    · rw [if_neg h]
      by_cases h2 : u < v
      · simp [h2]
      · simp [h2]
  rw [Measure.restrict_apply' measurableSet_Ico, hset, Real.volume_Ico, sub_zero]

/-- **C44, not a number.** An energy that is not a number is rejected. -/
theorem C44_nan (a b : Option ℝ) (h : a = none ∨ b = none) (u : ℝ) : metropolisLocal a b u = false ∧ metropolisValue none u = false := by
  refine ⟨?_, rfl⟩
  rcases h with h | h
  · subst h; rfl
  · subst h; cases a <;> rfl

/-- **C44, processes.** All processes take the decision of the output process, whatever their energies and random numbers. -/
theorem C44_ranks {R : Type} [DecidableEq R] (root : R) (energyOld energyNew : R → Option ℝ) (u : R → ℝ) (rank : R) :
    metropolisRank root energyOld energyNew u rank = metropolisLocal (energyOld root) (energyNew root) (u root) := by
  simp [metropolisRank]

/-- **C44, the stationary distribution.** One sweep of the hybrid Monte Carlo algorithm: independent standard normal numbers `X` give the
momenta, the links and momenta are integrated, and a number `u` uniform in `[0,1)` decides between the old and the new links.  If the
links are distributed with density `exp(-energy)` with respect to the invariant measure, then so are the links after the sweep: expectation
values of all functions agree.  For every integrator, every length and number of steps for which it is defined, every energy and every
force (measurable and with values in the Lie algebra; it need not even be the derivative of the energy). -/
theorem C44_stationary (eig : EigenSolver N) (he : eig.Correct) (energy : GField S N → ℝ) (force : GField S N → GField S N)
    (hE : Measurable fun Q : LinkSU S N => energy (linkMat Q)) (hF : MeasurableForce force) (hL : ∀ (Q : LinkSU S N) s μ, IsLie (force (linkMat Q) s μ))
    (haar : Measure (SU N)) [IsFiniteMeasure haar] [haar.IsMulLeftInvariant] (integrator : String) (steps : List ℕ) (t : ℝ)
    (hd : ∃ l, mdIntegrate integrator [()] [steps.headD 0] t = .ok l) :
    ∃ sweep : LinkSU S N → Draws S N → ℝ → LinkSU S N,
      (∀ Q X u, pureGaugeExecute (eigenLink eig) energy force integrator steps t (momMat X) (linkMat Q) u = .ok (linkMat (sweep Q X u))) ∧
      ∀ f : LinkSU S N → ℝ≥0∞, Measurable f →
        ∫⁻ Q, (∫⁻ X, (∫⁻ u in Set.Ico (0 : ℝ) 1, f (sweep Q X u)) ∂gaussianDraws S N) * ENNReal.ofReal (Real.exp (-energy (linkMat Q)))
          ∂linkMeasure S haar = ∫⁻ Q, f Q * ENNReal.ofReal (Real.exp (-energy (linkMat Q))) ∂linkMeasure S haar := by
  obtain ⟨l, hl⟩ := hd
  let F : Unit → GField S N → GField S N := fun _ => force
  have hrun : ∀ z, phaseMat (phaseRun F l z) = mdRun (eigenLink eig) F l (phaseMat z) := phaseRun_mat eig he F (fun _ Q => hL Q) l
  refine ⟨hmcSweep F l fun Q => energy (linkMat Q), ?_, ?_⟩
  · intro Q X u
    unfold pureGaugeExecute
    rw [hl, ok_bind]
    have h1 := hrun (Q, X)
    change _ = mdRun (eigenLink eig) (fun _ => force) l (linkMat Q, momMat X) at h1
    simp only [← h1]
    refine congrArg Outcome.ok ?_
    unfold hmcSweep
    rw [apply_ite linkMat]
    rfl
  · intro f hf
    exact hmc_stationary F (fun _ => hF) _ hE haar integrator [()] [steps.headD 0] t l hl f hf

/-! ### The gauge actions of the program -/

theorem continuous_linkMat : Continuous (linkMat (S := S) (N := N)) :=
  continuous_pi fun s => continuous_pi fun μ => continuous_subtype_val.comp ((continuous_apply μ).comp (continuous_apply s))

theorem continuous_link (s : S) (μ : Fin 4) : Continuous fun U : GField S N => U s μ := (continuous_apply μ).comp (continuous_apply s)

theorem continuous_ite_zero {X Y : Type} [TopologicalSpace X] [TopologicalSpace Y] [Zero Y] (p : Prop) [Decidable p] (f : X → Y) (hf : Continuous f) :
    Continuous fun x => if p then f x else 0 := by
  split
  · exact hf
  · exact continuous_const

theorem continuous_mk {X : Type} [TopologicalSpace X] (f g : X → ℝ) (hf : Continuous f) (hg : Continuous g) : Continuous fun x => (⟨f x, g x⟩ : ℂ) :=
  Complex.equivRealProdCLM.symm.continuous.comp (hf.prodMk hg)

theorem continuous_wilsonStaple (T : Torus S) (s : S) (μ : Fin 4) : Continuous fun U : GField S N => wilsonStaple T U s μ := by
  unfold wilsonStaple stapleUp stapleDown
  refine continuous_finsetSum _ fun ν _ => continuous_ite_zero _ _ ?_
  fun_prop

theorem continuous_improvedStaple (u0 : ℝ) (T : Torus S) (s : S) (μ : Fin 4) : Continuous fun U : GField S N => improvedStaple u0 T U s μ := by
  unfold improvedStaple stapleUp stapleDown rectStaple
  refine continuous_finsetSum _ fun ν _ => continuous_ite_zero _ _ ?_
  fun_prop

theorem continuous_gaugeForce (β : ℝ) (st : GField S N → Mat N) (hst : Continuous st) (s : S) (μ : Fin 4) :
    Continuous fun U : GField S N => gaugeForce β U (st U) s μ := by
  unfold gaugeForce
  have h1 : Continuous fun U : GField S N => (-((0.25 * β / N : ℝ) : ℂ)) • ((U s μ * st U)ᴴ - U s μ * st U) := by fun_prop
  exact h1.sub ((continuous_mk _ _ (by fun_prop) (by fun_prop)).smul continuous_const)

theorem continuous_wilsonEnergy (β : ℝ) (T : Torus S) : Continuous fun U : GField S N => wilsonEnergy β T U := by
  unfold wilsonEnergy stapleUp
  refine continuous_finsetSum _ fun s _ => continuous_finsetSum _ fun μ _ => continuous_const.mul (Complex.continuous_re.comp (Continuous.matrix_trace ?_))
  refine (continuous_link s μ).matrix_mul (continuous_finsetSum _ fun ν _ => continuous_ite_zero _ _ ?_)
  fun_prop

theorem continuous_improvedEnergy (u0 β : ℝ) (T : Torus S) : Continuous fun U : GField S N => improvedEnergy u0 β T U := by
  unfold improvedEnergy stapleUp
  refine continuous_finsetSum _ fun s _ => continuous_finsetSum _ fun μ _ => continuous_const.mul (Complex.continuous_re.comp (Continuous.matrix_trace ?_))
  refine (continuous_link s μ).matrix_mul (continuous_finsetSum _ fun ν _ => continuous_ite_zero _ _ ?_)
  fun_prop

theorem measurable_of_continuous_link (g : GField S N → ℝ) (hg : Continuous g) : Measurable fun Q : LinkSU S N => g (linkMat Q) :=
  (hg.comp continuous_linkMat).measurable

theorem measurableForce_of_continuous (F : GField S N → GField S N) (h : ∀ s μ, Continuous fun U => F U s μ) : MeasurableForce F := by
  intro s μ k l
  have : Continuous fun Q : LinkSU S N => F (linkMat Q) s μ k l := ((h s μ).comp continuous_linkMat).matrix_elem k l
  exact this.measurable

/-- **C44, Wilson and improved gauge action.** The hybrid Monte Carlo sweep of the pure gauge program leaves the distribution
`exp(-S(U)) dU` on `SU(N)` configurations unchanged, `dU` being the Haar measure of the links: for both gauge actions, every coupling,
lattice, integrator, length and number of steps (at least one). -/
theorem C44_gauge_actions (eig : EigenSolver N) (he : eig.Correct) (hN : 0 < N) (T : Torus S) (β : ℝ) (integrator : String)
    (hi : integrator ∈ ["second_order", "fourth_order", "sixth_order", "omelyan", "fourth_omelyan"]) (n : ℕ) (hn : n ≠ 0) (rest : List ℕ) (t : ℝ)
    (energy : GField S N → ℝ) (force : GField S N → GField S N)
    (hact : (energy = wilsonEnergy β T ∧ force = fun U s μ => gaugeForce β U (wilsonStaple T U s μ) s μ) ∨
      ∃ u0, energy = improvedEnergy u0 β T ∧ force = fun U s μ => gaugeForce β U (improvedStaple u0 T U s μ) s μ) :
    ∃ sweep : LinkSU S N → Draws S N → ℝ → LinkSU S N,
      (∀ Q X u, pureGaugeExecute (eigenLink eig) energy force integrator (n :: rest) t (momMat X) (linkMat Q) u = .ok (linkMat (sweep Q X u))) ∧
      ∀ f : LinkSU S N → ℝ≥0∞, Measurable f →
        ∫⁻ Q, (∫⁻ X, (∫⁻ u in Set.Ico (0 : ℝ) 1, f (sweep Q X u)) ∂gaussianDraws S N) * ENNReal.ofReal (Real.exp (-energy (linkMat Q)))
          ∂linkMeasure S Measure.haar = ∫⁻ Q, f Q * ENNReal.ofReal (Real.exp (-energy (linkMat Q))) ∂linkMeasure S Measure.haar := by
  have hd : ∃ l, mdIntegrate (ι := Unit) integrator [()] [(n :: rest).headD 0] t = .ok l :=
    (C43_defined integrator [()] [n] t).mpr ⟨by simpa using hi, by simp, by simp [StepsFor, hn]⟩
  rcases hact with ⟨rfl, rfl⟩ | ⟨u0, rfl, rfl⟩
  · exact C44_stationary eig he _ _ (measurable_of_continuous_link _ (continuous_wilsonEnergy β T))
      (measurableForce_of_continuous _ fun s μ => continuous_gaugeForce β _ (continuous_wilsonStaple T s μ) s μ)
      (fun Q s μ => C21_lie_algebra hN β _ _ s μ) Measure.haar integrator (n :: rest) t hd
  · exact C44_stationary eig he _ _ (measurable_of_continuous_link _ (continuous_improvedEnergy u0 β T))
      (measurableForce_of_continuous _ fun s μ => continuous_gaugeForce β _ (continuous_improvedStaple u0 T s μ) s μ)
      (fun Q s μ => C21_lie_algebra hN β _ _ s μ) Measure.haar integrator (n :: rest) t hd

/-- The hypotheses hold on the `3 x 3 x 4 x 5` lattice with three colours for the Wilson action. -/
example : ∃ eig : EigenSolver 3, eig.Correct ∧ ∃ sweep : LinkSU _ 3 → Draws _ 3 → ℝ → LinkSU _ 3, ∀ Q X u, pureGaugeExecute (eigenLink eig) (wilsonEnergy 6 (boxTorus exExt3 exExt3_pos))
    (fun U s μ => gaugeForce 6 U (wilsonStaple (boxTorus exExt3 exExt3_pos) U s μ) s μ) "omelyan" [10] 1 (momMat X) (linkMat Q) u
      = .ok (linkMat (sweep Q X u)) := by
  obtain ⟨eig, he⟩ := exists_correct_eigenSolver (N := 3)
  obtain ⟨sweep, h, -⟩ := C44_gauge_actions eig he (by norm_num) (boxTorus exExt3 exExt3_pos) 6 "omelyan" (by simp) 10 (by norm_num) [] 1 _ _
    (Or.inl ⟨rfl, rfl⟩)
  exact ⟨eig, he, sweep, h⟩

example : (Measure.haar : Measure (SU 3)).IsMulLeftInvariant ∧ IsFiniteMeasure (Measure.haar : Measure (SU 3)) ∧ (Measure.haar : Measure (SU 3)) ≠ 0 :=
  ⟨inferInstance, inferInstance, NeZero.ne _⟩

end Leonard
