/-
C86: hybrid Monte Carlo with fermions and scalars.
-/
import Verif.Rhmc.Props
import Verif.Force.OrderProps
import Verif.Scalar.HiggsProps

set_option autoImplicit false

namespace Leonard

open Matrix MeasureTheory ProbabilityTheory Topology Asymptotics
open scoped ENNReal NNReal ContDiff Matrix.Norms.Operator

variable {N M n nA nF : ℕ} {S κ : Type} [Fintype S] [Fintype κ] [DecidableEq κ]

/-- The number of levels of the fermion force in use. -/
def scalarLevelsUsed : ℕ → ℕ
  | 4 => 2
  | 5 => 3
  | _ => 1

/-- **C86, which settings work.** The integration is defined exactly for known integrators, between two and five numbers of steps, none of them zero,
and as many levels of the force as are used: two levels for four and three for five numbers of steps. -/
theorem C86_defined (integrator : String) (levels : ℕ) (steps : List ℕ) (t : ℝ) :
    (∃ fs, scalarFermionForces levels steps = .ok fs ∧ ∃ l, mdIntegrate integrator fs.1 fs.2 t = .ok l) ↔
      integrator ∈ ["second_order", "fourth_order", "sixth_order", "omelyan", "fourth_omelyan"] ∧ 2 ≤ steps.length ∧ steps.length ≤ 5 ∧ 0 ∉ steps ∧
        scalarLevelsUsed steps.length ≤ levels := by
  unfold scalarFermionForces
  by_cases h0 : levels = 0
  · rw [if_pos h0]
    constructor
    · rintro ⟨fs, h, -⟩; exact absurd h (by simp)
    · rintro ⟨-, -, -, -, h⟩
      subst h0
      have : scalarLevelsUsed steps.length ≠ 0 := by unfold scalarLevelsUsed; split <;> simp
      omega
  · rw [if_neg h0]
    have h1 : 1 ≤ levels := Nat.one_le_iff_ne_zero.mpr h0
    match steps with
    | [] => simp [C43_defined]
    | [a] => simp [C43_defined]
    | [a, b] => simp [C43_defined, scalarLevelsUsed, h1]; tauto
    | [a, b, c] => simp [C43_defined, scalarLevelsUsed, h1]; tauto
    | [a, b, c, d] =>
      by_cases h2 : 2 ≤ levels
      · simp [C43_defined, scalarLevelsUsed, h2]; tauto
      · simp [scalarLevelsUsed, h2]
    | [a, b, c, d, e] =>
      by_cases h2 : 3 ≤ levels
      · simp [C43_defined, scalarLevelsUsed, h2]; tauto
      · simp [scalarLevelsUsed, h2]
    | a :: b :: c :: d :: e :: f :: rest => simp [C43_defined]

/-- **C86, a single number of steps.** With one number of steps, which is enough for the other updaters, or with more than five, a warning is printed
and then the list of steps is read past its end: the sweep has no defined result. -/
theorem C86_single_counterexample (E : ℝ → Mat N → Mat N → Mat N) (c : ScalarCouplings) (T : Torus S) (Φ : Scalars S N nA nF)
    (solveShift : GField S N → ℝ → (κ → ℂ) → κ → ℂ) (gaugeEnergy : GField S N → ℝ) (fermionForce : (Fin n → κ → ℂ) → ℕ → GField S N → GField S N)
    (gaugeForce : GField S N → GField S N) (heat metro : Fin n → List (ℝ × ℝ)) (levels : ℕ) (integrator : String) (steps : List ℕ)
    (hs : steps.length ≤ 1 ∨ 6 ≤ steps.length) (t : ℝ) (P : GField S N) (η : Fin n → κ → ℂ) (U V : GField S N) (u : ℝ) :
    scalarFermionExecute E nA nF c T Φ solveShift gaugeEnergy fermionForce gaugeForce heat metro levels integrator steps t P η U u ≠ .ok V := by
  intro h
  unfold scalarFermionExecute at h
  rw [if_neg (not_not.2 rfl), if_neg (not_not.2 rfl)] at h
  cases hf : scalarFermionForces levels steps with
  | ok fs =>
    rw [hf, ok_bind] at h
    unfold rationalExecute at h
    cases hm : mdIntegrate integrator fs.1 fs.2 t with
    | ok l =>
      have := (C86_defined integrator levels steps t).mp ⟨fs, hf, l, hm⟩
      omega
    | exit k => simp only [hm, Outcome.bind_exit, Outcome.bind_ub] at h; cases h
    | ub => simp only [hm, Outcome.bind_exit, Outcome.bind_ub] at h; cases h
  | exit k => simp only [hf, Outcome.bind_exit, Outcome.bind_ub] at h; cases h
  | ub => simp only [hf, Outcome.bind_exit, Outcome.bind_ub] at h; cases h

/-- **C86, the numbers of fields.** If the numbers of scalar fields of the options are not those of the configuration, the program stops. -/
theorem C86_fields (E : ℝ → Mat N → Mat N → Mat N) (optA optF : ℕ) (c : ScalarCouplings) (T : Torus S) (Φ : Scalars S N nA nF)
    (solveShift : GField S N → ℝ → (κ → ℂ) → κ → ℂ) (gaugeEnergy : GField S N → ℝ) (fermionForce : (Fin n → κ → ℂ) → ℕ → GField S N → GField S N)
    (gaugeForce : GField S N → GField S N) (heat metro : Fin n → List (ℝ × ℝ)) (levels : ℕ) (integrator : String) (steps : List ℕ) (t : ℝ)
    (P : GField S N) (η : Fin n → κ → ℂ) (U : GField S N) (u : ℝ) (h : ¬(optA = nA ∧ optF = nF)) :
    scalarFermionExecute E optA optF c T Φ solveShift gaugeEnergy fermionForce gaugeForce heat metro levels integrator steps t P η U u = .exit 97 := by
  unfold scalarFermionExecute
  by_cases h1 : optA = nA
  · rw [if_neg (not_not.2 h1), if_pos fun h2 => h ⟨h1, h2⟩]
  · rw [if_pos h1]

/-- **C86.** Many sweeps with fermions and scalars, for the scalars of the configuration: expectation values with the
weight `exp(-(gauge energy + scalar energy)) ∏ heat(λ)²` change in `m` sweeps at most by `m` times `(1-ε)⁻ᵈ - 1` times the largest value of
the observable, as for C85. -/
theorem C86_bias (eig : EigenSolver N) (he : eig.Correct) (hN : 0 < N) (T : Torus S) (β : ℝ) (c : ScalarCouplings) (Φ : Scalars S N nA nF)
    (solveShift : GField S N → ℝ → (κ → ℂ) → κ → ℂ) (A : LinkSU S N → Matrix κ κ ℂ)
    (hA : ∀ Q, (A Q).IsHermitian) (hAm : ∀ i j, Measurable fun Q => A Q i j) (heat metro : Fin n → List (ℝ × ℝ))
    (hsolve : ∀ Q j, ∀ p ∈ heat j ++ metro j, ∀ v,
      A Q *ᵥ solveShift (linkMat Q) p.2 v + (p.2 : ℂ) • solveShift (linkMat Q) p.2 v = v)
    (ε : ℝ) (hε0 : 0 ≤ ε) (hε1 : ε < 1)
    (hε : ∀ Q j, ∀ x ∈ spectrum ℝ (A Q), |fractionValue (heat j) x ^ 2 * fractionValue (metro j) x - 1| ≤ ε)
    (gaugeEnergy : GField S N → ℝ) (gaugeForce : GField S N → GField S N) (hG : IsGaugeAction T β gaugeEnergy gaugeForce)
    (fermionForce : (Fin n → κ → ℂ) → ℕ → GField S N → GField S N)
    (hLf : ∀ φ k (Q : LinkSU S N) s μ, IsLie (fermionForce φ k (linkMat Q) s μ))
    (hFf : ∀ k s μ a b, Measurable fun p : (Fin n → κ → ℂ) × LinkSU S N => fermionForce p.1 k (linkMat p.2) s μ a b)
    (levels : ℕ) (integrator : String) (steps : List ℕ) (t : ℝ)
    (hi : integrator ∈ ["second_order", "fourth_order", "sixth_order", "omelyan", "fourth_omelyan"]) (h2 : 2 ≤ steps.length) (h5 : steps.length ≤ 5)
    (h0 : 0 ∉ steps) (hlev : scalarLevelsUsed steps.length ≤ levels) :
    ∃ sweep : LinkSU S N → (κ × Fin n → ℝ × ℝ) → Draws S N → ℝ → LinkSU S N,
      (∀ Q Y X u, scalarFermionExecute (eigenLink eig) nA nF c T Φ solveShift gaugeEnergy fermionForce gaugeForce heat metro levels integrator steps t
        (momMat X) (flavourPart (fermionField Y)) (linkMat Q) u = .ok (linkMat (sweep Q Y X u))) ∧
      let mean : (LinkSU S N → ℝ≥0∞) → LinkSU S N → ℝ≥0∞ := fun f Q =>
        ∫⁻ Y, (∫⁻ X, (∫⁻ u in Set.Ico (0 : ℝ) 1, f (sweep Q Y X u)) ∂gaussianDraws S N) ∂fermionDraws (κ × Fin n)
      let w : LinkSU S N → ℝ≥0∞ := fun Q => ENNReal.ofReal (Real.exp (-(gaugeEnergy (linkMat Q) + scalarEnergy c T (linkMat Q) Φ)) *
        ∏ j, ∏ i, fractionValue (heat j) ((hA Q).eigenvalues i) ^ 2)
      ∀ f : LinkSU S N → ℝ≥0∞, Measurable f → ∀ C : ℝ≥0∞, (∀ Q, f Q ≤ C) → ∀ m : ℕ,
        let b := m * (C * (ENNReal.ofReal (((1 - ε) ^ (Fintype.card κ * n))⁻¹ - 1) * ∫⁻ Q, w Q ∂linkMeasure S Measure.haar))
        ∫⁻ Q, (mean^[m] f) Q * w Q ∂linkMeasure S Measure.haar ≤ ∫⁻ Q, f Q * w Q ∂linkMeasure S Measure.haar + b ∧
        ∫⁻ Q, f Q * w Q ∂linkMeasure S Measure.haar ≤ ∫⁻ Q, (mean^[m] f) Q * w Q ∂linkMeasure S Measure.haar + b := by
  obtain ⟨fs, hfs, hd⟩ := (C86_defined integrator levels steps t).mpr ⟨hi, h2, h5, h0, hlev⟩
  obtain ⟨gE, gF, gL⟩ := gaugeAction_measurable hN hG
  have hs := C56_force c T Φ
  have sE : Continuous fun U : GField S N => scalarEnergy c T U Φ := (contDiffOn_univ.1 hs.smooth_energy).continuous
  have hsE : Measurable fun Q : LinkSU S N => gaugeEnergy (linkMat Q) + scalarEnergy c T (linkMat Q) Φ :=
    gE.add (measurable_of_continuous_link _ sE)
  have hsF : MeasurableForce (scalarUpdateForce T Φ) := measurableForce_of_continuous _ fun s μ =>
    (continuous_link s μ).comp (contDiffOn_univ.1 hs.smooth_force).continuous
  obtain ⟨sweep, h1, h2⟩ := rational_bias eig he solveShift A hA hAm heat metro hsolve ε hε0 hε1 hε
    (fun U => gaugeEnergy U + scalarEnergy c T U Φ) hsE
    (fun φ => scalarFermionForce (fermionForce φ) (scalarUpdateForce T Φ) gaugeForce)
    (fun φ i Q s μ => by
      cases i with
      | action => exact isLie_add (hLf _ 0 Q s μ) (gL Q s μ)
      | fermion k => exact hLf _ k Q s μ
      | scalar => exact hs.lie _ s μ
      | gauge => exact gL Q s μ)
    (fun i s μ k l => by
      cases i with
      | action => exact (hFf 0 s μ k l).add ((gF s μ k l).comp measurable_snd)
      | fermion j => exact hFf j s μ k l
      | scalar => exact (hsF s μ k l).comp measurable_snd
      | gauge => exact (gF s μ k l).comp measurable_snd)
    Measure.haar integrator fs.1 fs.2 t hd
  refine ⟨sweep, fun Q Y X u => ?_, h2⟩
  unfold scalarFermionExecute
  rw [if_neg (not_not.2 rfl), if_neg (not_not.2 rfl), hfs, ok_bind]
  exact h1 Q Y X u

/-! ### The order of the integrator -/

/-- The forces of the updater add up to the sum of all parts. -/
theorem scalarFermionForces_sum {levels : ℕ} {steps : List ℕ} {fs : List ScalarFermionForce × List ℕ} (h : scalarFermionForces levels steps = .ok fs)
    (fermionForce : ℕ → GField S N → GField S N) (scalarForce gaugeForce : GField S N → GField S N) (U : GField S N) (s : S) (μ : Fin 4) :
    (fs.1.map fun i => scalarFermionForce fermionForce scalarForce gaugeForce i U s μ).sum =
      (gaugeForce U s μ + scalarForce U s μ) + ∑ k ∈ Finset.range (scalarLevelsUsed steps.length), fermionForce k U s μ := by
  unfold scalarFermionForces at h
  split at h
  · exact absurd h (by simp)
  · split at h
    · injection h with h; subst h
      simp [scalarFermionForce, scalarLevelsUsed]; abel
    · injection h with h; subst h
      simp [scalarFermionForce, scalarLevelsUsed]; abel
    · split at h
      · injection h with h; subst h
        simp [scalarFermionForce, scalarLevelsUsed, Finset.sum_range_succ]; abel
      · exact absurd h (by simp)
    · split at h
      · injection h with h; subst h
        simp [scalarFermionForce, scalarLevelsUsed, Finset.sum_range_succ]; abel
      · exact absurd h (by simp)
    · rename_i h4 h5 h6 h7
      injection h with h; subst h
      have : scalarLevelsUsed steps.length = 1 := by
        match steps with
        | [] => rfl
        | [_] => rfl
        | [_, _] => rfl
        | [_, _, _] => rfl
        | [a, b, c, d] => exact absurd rfl (h6 a b c d)
        | [a, b, c, d, e] => exact absurd rfl (h7 a b c d e)
        | a :: b :: c :: d :: e :: f :: rest => rfl
      rw [this]
      simp [scalarFermionForce]; abel

section
variable {mul : GField S M → SField S M → SField S M} {A : GField S M → Op (SField S M)}
  {deriv : GField S M → SField S M → SField S M → S → Fin 4 → Mat M}

/-- **C86, energy conservation.** The forces of the updater are those of gauge energy, scalar energy and the levels of the fermion energy in use:
the energy that an integrator of order `p` adds to a trajectory of length `t` is of the order `t ^ (p + 1)`.  For any Dirac operator with
its force.  Missing: the integrator `fourth_omelyan` (`C52_fourth_omelyan_counterexample`). -/
theorem C86_order_partial (eig : EigenSolver N) (he : eig.Correct) (hN : 0 < N) (ρ : FermionRep N M) (hρ : ρ.Lawful) (T : Torus S) (hA : IsDirac mul A)
    (hd : IsLinkDerivative A deriv) (bc : String) (solveShift : GField S M → ℝ → SField S M → SField S M) (ps : ℕ → List (PseudoFermion S M))
    (hs : ∀ k, ∀ p ∈ ps k, ∀ β ∈ p.betas, 0 < β ∧
      ∀ L, mul L (mul L (solveShift L β p.φ)) + β • solveShift L β p.φ = p.φ)
    (β : ℝ) (c : ScalarCouplings) (Φ : Scalars S N nA nF)
    (gaugeEnergy : GField S N → ℝ) (gaugeForce : GField S N → GField S N) (hG : IsGaugeAction T β gaugeEnergy gaugeForce)
    (name : String) (p : ℕ) (hname : integratorOrder name = some p) (h4 : name ≠ "fourth_omelyan") (levels : ℕ) (steps : List ℕ)
    (fs : List ScalarFermionForce × List ℕ) (hfs : scalarFermionForces levels steps = .ok fs) (l : ℝ → List (MdOp ScalarFermionForce))
    (hl : ∀ t, mdIntegrate name fs.1 fs.2 t = .ok (l t)) (U P : GField S N) (hU : ∀ s μ, U s μ * (U s μ)ᴴ = 1 ∨ U s μ = 0)
    (hopen : bc = "open" → switchOpenBc T.ext T.coord U = U) (hP : ∀ s μ, IsLie (P s μ)) :
    let energy := fun U => gaugeEnergy U + scalarEnergy c T U Φ + ∑ k ∈ Finset.range (scalarLevelsUsed steps.length),
      nFlavorFermionEnergy solveShift (fermionLinks ρ T bc U) (ps k)
    let force := scalarFermionForce (fun k U => nFlavorUpdateForce ρ T mul deriv solveShift bc
      (fermionLinks ρ T bc U) U (ps k)) (scalarUpdateForce T Φ) gaugeForce
    (fun t : ℝ => totalEnergy energy (mdRun (eigenLink eig) force (l t) (U, P)) - totalEnergy energy (U, P)) =O[𝓝 0] fun t => t ^ (p + 1) := by
  intro energy force
  have hg := gaugeAction_isGrad hN hG
  have hS := C56_force c T Φ
  have hG := hg.add hS
  rw [Set.univ_inter] at hG
  have hK := fun k => nFlavor_isGrad ρ hρ T bc hA solveShift (ps k) (hs k) (N := N)
  have hsum := IsGrad.sum hK hG (scalarLevelsUsed steps.length)
  have hc : Conservative Set.univ energy (scalarFermionForce (fun k U => gradField ρ (fermionLinks ρ T bc U)
      (nFlavorForm A (shiftTerms (ps k)) (fermionLinks ρ T bc U))) (scalarUpdateForce T Φ) gaugeForce) fs.1 := by
    refine hsum.conservative fs.1 ?_ ?_ fun U s μ => scalarFermionForces_sum hfs _ _ _ U s μ
    · intro i
      cases i with
      | action => exact (hK 0).smooth_force.add hg.smooth_force
      | fermion k => exact (hK k).smooth_force
      | scalar => exact hS.smooth_force
      | gauge => exact hg.smooth_force
    · intro i U s μ
      cases i with
      | action => exact isLie_add ((hK 0).lie U s μ) (hg.lie U s μ)
      | fermion k => exact (hK k).lie U s μ
      | scalar => exact hS.lie U s μ
      | gauge => exact hg.lie U s μ
  refine energy_order_valid eig he hc (validLinks_stable T bc) ?_ (fun _ _ _ => rfl) hname h4 l hl U P trivial ⟨hU, hopen⟩ hP
  intro i U _ hU
  have e := fun k => nFlavor_force_eq ρ hρ T bc hA hd solveShift (ps k) (hs k) U hU.1 hU.2
  cases i with
  | action =>
    funext s μ
    change nFlavorUpdateForce _ _ _ _ _ _ _ _ _ s μ + _ = _
    rw [e 0]; rfl
  | fermion k => funext s μ; exact e k s μ
  | scalar => rfl
  | gauge => rfl

end

/-- The settings of C86: three time scales with one level. -/
example : ∃ fs, scalarFermionForces 1 [4, 3, 2] = .ok fs ∧ ∃ l, mdIntegrate "omelyan" fs.1 fs.2 1 = .ok l :=
  (C86_defined _ _ _ _).mpr (by simp [scalarLevelsUsed])

end Leonard
