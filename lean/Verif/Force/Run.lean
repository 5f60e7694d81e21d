import Verif.Order.Props

/-!
# Trajectories that stay among valid links

The order of the integrators for forces that agree with smooth forces only on some links, those that a trajectory can reach.
-/

set_option autoImplicit false

namespace Leonard

open Filter Asymptotics Matrix
open scoped ContDiff Topology Matrix.Norms.Operator

variable {ι S : Type} [Fintype S] {N : ℕ}

/-- A set of links that motions along momenta do not leave. -/
def MotionStable (V : Set (GField S N)) : Prop :=
  ∀ U ∈ V, ∀ P : GField S N, (∀ s μ, IsLie (P s μ)) → ∀ ε : ℝ, (fun s μ => NormedSpace.exp (ε • P s μ) * U s μ) ∈ V

/-- Links in `V`, momenta in the Lie algebra. -/
def ValidPhase (V : Set (GField S N)) (y : Phase S N) : Prop := y.1 ∈ V ∧ ∀ s μ, IsLie (y.2 s μ)

theorem opFlow_valid {V : Set (GField S N)} (hV : MotionStable V) {F : ι → GField S N → GField S N} (hF : ∀ i U s μ, IsLie (F i U s μ))
    (o : MdOp ι) (t : ℝ) (y : Phase S N) (hy : ValidPhase V y) : ValidPhase V (opFlow F o t y) := by
  cases o with
  | link ε =>
    refine ⟨?_, hy.2⟩
    have e : (opFlow F (.link ε) t y).1 = fun s μ => NormedSpace.exp ((t * ε) • y.2 s μ) * y.1 s μ := by
      funext s μ
      change NormedSpace.exp ((t * ε) • lieProj (y.2 s μ)) * y.1 s μ = _
      rw [lieProj_eq (hy.2 s μ)]
    rw [e]
    exact hV y.1 hy.1 y.2 hy.2 _
  | mom i ε =>
    refine ⟨hy.1, ?_⟩
    intro s μ
    have hFi := hF i y.1 s μ
    constructor
    · change (y.2 s μ - (t * ε) • F i y.1 s μ)ᴴ = -(y.2 s μ - (t * ε) • F i y.1 s μ)
      rw [conjTranspose_sub, conjTranspose_smul, (hy.2 s μ).1, hFi.1, star_trivial, smul_neg]; abel
    · change trace (y.2 s μ - (t * ε) • F i y.1 s μ) = 0
      rw [trace_sub, trace_smul, (hy.2 s μ).2, hFi.2, smul_zero, sub_zero]

variable {O V : Set (GField S N)} {F F' : ι → GField S N → GField S N}

theorem opFlow_tendsto (hO : IsOpen O) (hF' : ∀ i, ContDiffOn ℝ ∞ (F' i) O) (o : MdOp ι) (x : Phase S N) (hx : x.1 ∈ O) :
    Tendsto (fun q : ℝ × Phase S N => (q.1, opFlow F' o q.1 q.2)) (𝓝 (0, x)) (𝓝 (0, x)) := by
  have h := (opFlow_flow hO hF' o).cont x ⟨hx, trivial⟩
  have h0 : opFlow F' o 0 x = x := (opFlow_flow hO hF' o).zero x
  have h1 : Tendsto (fun q : ℝ × Phase S N => opFlow F' o q.1 q.2) (𝓝 (0, x)) (𝓝 x) := by
    have h2 : Tendsto (fun q : ℝ × Phase S N => opFlow F' o q.1 q.2) (𝓝 (0, x)) (𝓝 (opFlow F' o 0 x)) := h
    rwa [h0] at h2
  rw [nhds_prod_eq] at h1 ⊢
  exact tendsto_fst.prodMk h1

/-- Near the start the run with the forces of the program is the flow of the smooth forces; it stays valid and near the start. -/
theorem mdRun_eventually (eig : EigenSolver N) (he : eig.Correct) (hO : IsOpen O) (hF' : ∀ i, ContDiffOn ℝ ∞ (F' i) O)
    (hlie : ∀ i U s μ, IsLie (F' i U s μ)) (hV : MotionStable V) (hF : ∀ i, ∀ U ∈ O, U ∈ V → F i U = F' i U) (l : List (MdOp ι))
    (x : Phase S N) (hx : x.1 ∈ O) :
    ∀ᶠ q in 𝓝 ((0 : ℝ), x), ValidPhase V q.2 → mdRun (eigenLink eig) F (l.map (MdOp.scale q.1)) q.2 = flowRun (opFlow F') l q.1 q.2 ∧
      ValidPhase V (flowRun (opFlow F') l q.1 q.2) ∧ (flowRun (opFlow F') l q.1 q.2).1 ∈ O := by
  have hin : ∀ᶠ q in 𝓝 ((0 : ℝ), x), (q : ℝ × Phase S N).2.1 ∈ O := by
    have hc : ContinuousAt (fun q : ℝ × Phase S N => q.2.1) (0, x) := by fun_prop
    exact hc.eventually_mem (hO.mem_nhds hx)
  induction l with
  | nil =>
    filter_upwards [hin] with q hq hv
    exact ⟨rfl, hv, hq⟩
  | cons o l ih =>
    have h1 := (opFlow_tendsto hO hF' o x hx).eventually ih
    filter_upwards [hin, h1] with q hq h2 hv
    have h3 := h2 (opFlow_valid hV hlie o q.1 q.2 hv)
    have e : mdStep (eigenLink eig) F (o.scale q.1) q.2 = opFlow F' o q.1 q.2 := by
      cases o with
      | link ε =>
        refine Prod.ext ?_ rfl
        funext s μ
        change eigenLink eig (q.1 * ε) (q.2.2 s μ) (q.2.1 s μ) = NormedSpace.exp ((q.1 * ε) • lieProj (q.2.2 s μ)) * q.2.1 s μ
        rw [eigenLink_eq eig he _ _ _ (hv.2 s μ).1, lieProj_eq (hv.2 s μ)]
      | mom i ε =>
        refine Prod.ext rfl ?_
        funext s μ
        change q.2.2 s μ - ((q.1 * ε : ℝ) : ℂ) • F i q.2.1 s μ = q.2.2 s μ - (q.1 * ε) • F' i q.2.1 s μ
        rw [Complex.coe_smul, hF i q.2.1 hq hv.1]
    refine ⟨?_, h3.2⟩
    change mdRun (eigenLink eig) F (l.map (MdOp.scale q.1)) (mdStep (eigenLink eig) F (o.scale q.1) q.2) = _
    rw [e]
    exact h3.1

/-- The order of the integrators for forces and energies that agree with smooth ones on valid links. -/
theorem energy_order_valid (eig : EigenSolver N) (he : eig.Correct) {energy energy' : GField S N → ℝ} {forces : List ι}
    (h : Conservative O energy' F' forces) (hV : MotionStable V) (hF : ∀ i, ∀ U ∈ O, U ∈ V → F i U = F' i U)
    (hE : ∀ U ∈ O, U ∈ V → energy U = energy' U) {name : String} {p : ℕ} (hname : integratorOrder name = some p) (h4 : name ≠ "fourth_omelyan")
    {steps : List ℕ} (l : ℝ → List (MdOp ι)) (hl : ∀ t, mdIntegrate name forces steps t = .ok (l t)) (U P : GField S N) (hU : U ∈ O)
    (hUV : U ∈ V) (hP : ∀ s μ, IsLie (P s μ)) :
    (fun t : ℝ => totalEnergy energy (mdRun (eigenLink eig) F (l t) (U, P)) - totalEnergy energy (U, P)) =O[𝓝 0] fun t => t ^ (p + 1) := by
  have hlt : ∀ t, l t = (l 1).map (MdOp.scale t) := by
    intro t
    have h1 := mdIntegrate_scale t name forces steps 1
    rw [mul_one, hl, hl] at h1
    exact Outcome.ok.inj h1
  refine (C52_energy_partial eig he O energy' F' forces h name p hname h4 steps l hl U P hU hP).congr' ?_ (EventuallyEq.refl _ _)
  have ht : Tendsto (fun t : ℝ => (t, ((U, P) : Phase S N))) (𝓝 0) (𝓝 (0, (U, P))) := by
    rw [nhds_prod_eq]; exact tendsto_id.prodMk tendsto_const_nhds
  filter_upwards [ht.eventually (mdRun_eventually eig he h.isOpen h.smooth_force h.lie hV hF (l 1) (U, P) hU)] with t h1
  obtain ⟨e1, hv, ho⟩ := h1 ⟨hUV, hP⟩
  have e2 := (mdRun_eq_flowRun eig he h.lie (l 1) t (U, P) hP).1
  rw [hlt t]
  rw [e1, e2]
  unfold totalEnergy
  rw [hE _ ho hv.1, hE U hU hUV]

/-! ### Sums of energies -/

/-- An energy and its force. -/
structure IsGrad (O : Set (GField S N)) (E : GField S N → ℝ) (G : GField S N → GField S N) : Prop where
  isOpen : IsOpen O
  smooth_energy : ContDiffOn ℝ ∞ E O
  smooth_force : ContDiffOn ℝ ∞ G O
  lie : ∀ U s μ, IsLie (G U s μ)
  deriv : ∀ U ∈ O, ∀ P : GField S N, (∀ s μ, IsLie (P s μ)) →
    HasDerivAt (fun t : ℝ => E (moveLinks P U t)) (-∑ s, ∑ μ, 2 * (trace (P s μ * G U s μ)).re) 0

theorem Conservative.isGrad {E : GField S N → ℝ} {G : GField S N → GField S N} (h : Conservative O E (fun _ : Unit => G) [()]) : IsGrad O E G where
  isOpen := h.isOpen
  smooth_energy := h.smooth_energy
  smooth_force := h.smooth_force ()
  lie := h.lie ()
  deriv U hU P hP := by
    have h1 := (h.conserved U hU P hP).sub (hasDerivAt_momentaEnergy P (G U))
    refine HasDerivAt.congr_deriv (h1.congr_of_eventuallyEq (Filter.Eventually.of_forall fun t => ?_)) (zero_sub _)
    simp only [totalEnergy, List.map_cons, List.map_nil, List.sum_cons, List.sum_nil, add_zero, Pi.sub_apply, add_sub_cancel_left]
    rfl

theorem IsGrad.add {O' : Set (GField S N)} {E E' : GField S N → ℝ} {G G' : GField S N → GField S N} (h : IsGrad O E G) (h' : IsGrad O' E' G') :
    IsGrad (O ∩ O') (fun U => E U + E' U) (fun U s μ => G U s μ + G' U s μ) where
  isOpen := h.isOpen.inter h'.isOpen
  smooth_energy := (h.smooth_energy.mono Set.inter_subset_left).add (h'.smooth_energy.mono Set.inter_subset_right)
  smooth_force := (h.smooth_force.mono Set.inter_subset_left).add (h'.smooth_force.mono Set.inter_subset_right)
  lie U s μ := by
    have h1 := h.lie U s μ
    have h2 := h'.lie U s μ
    exact ⟨by rw [conjTranspose_add, h1.1, h2.1, neg_add], by rw [trace_add, h1.2, h2.2, add_zero]⟩
  deriv U hU P hP := by
    refine HasDerivAt.congr_deriv ((h.deriv U hU.1 P hP).add (h'.deriv U hU.2 P hP)) ?_
    rw [← neg_add, ← Finset.sum_add_distrib]
    congr 1
    refine Finset.sum_congr rfl fun s _ => ?_
    rw [← Finset.sum_add_distrib]
    refine Finset.sum_congr rfl fun μ _ => ?_
    rw [Matrix.mul_add, trace_add, Complex.add_re, mul_add]

/-- Forces on several time scales whose sum is the force of the energy. -/
theorem IsGrad.conservative {E : GField S N → ℝ} {G : GField S N → GField S N} (h : IsGrad O E G) (forces : List ι)
    (hF : ∀ i, ContDiffOn ℝ ∞ (F i) O) (hlie : ∀ i U s μ, IsLie (F i U s μ)) (hs : ∀ U s μ, (forces.map fun i => F i U s μ).sum = G U s μ) :
    Conservative O E F forces where
  isOpen := h.isOpen
  smooth_energy := h.smooth_energy
  smooth_force := hF
  lie := hlie
  conserved U hU P hP := by
    simp only [hs]
    refine HasDerivAt.congr_deriv ((hasDerivAt_momentaEnergy P (G U)).add (h.deriv U hU P hP)) (add_neg_cancel _)

end Leonard
