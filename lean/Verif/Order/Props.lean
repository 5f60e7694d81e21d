import Verif.Order.Smooth
import Verif.Order.Spec

/-!
# C52: order of the integrators
-/

set_option autoImplicit false

namespace Leonard

open Filter Asymptotics Finset Matrix
open scoped ContDiff Topology Matrix.Norms.Operator

variable {ι S : Type} [Fintype S] {N : ℕ}

/-- Formal statement for all integrators. -/
theorem mdIntegrate_agree {R : Type*} [Ring R] [Algebra ℝ R] (A : R) (B : ι → R) {name : String} {p : ℕ} (hname : integratorOrder name = some p)
    (h4 : name ≠ "fourth_omelyan") {fs : List ι} {ns : List ℕ} {l : List (MdOp ι)} (h : mdIntegrate name fs ns 1 = .ok l) :
    AgreeS (p + 1) (runS A B l) (expS (A + (fs.map B).sum)) := by
  unfold integratorOrder at hname
  split at hname <;> cases hname
  · exact (leapFrog_order A B (by simpa [mdIntegrate] using h)).2
  · exact (agree_three A B (mdIntegrate_palindrome _ _ _ _ _ h) fun w a c hw => by simpa using mdIntegrate_time hw _ _ _ _ _ h).2
  · exact (fourthOrder_order A B (by simpa [mdIntegrate] using h)).2
  · exact absurd rfl h4
  · exact (sixthOrder_order A B (by simpa [mdIntegrate] using h)).2

/-- Every integrator is at least of second order. -/
theorem mdIntegrate_agree_two {R : Type*} [Ring R] [Algebra ℝ R] (A : R) (B : ι → R) {name : String}
    {fs : List ι} {ns : List ℕ} {l : List (MdOp ι)} (h : mdIntegrate name fs ns 1 = .ok l) :
    AgreeS (2 + 1) (runS A B l) (expS (A + (fs.map B).sum)) :=
  (agree_three A B (mdIntegrate_palindrome _ _ _ _ _ h) fun w a c hw => by simpa using mdIntegrate_time hw _ _ _ _ _ h).2

/-- Energies and forces that belong together: smooth near the links in `O`, forces in the Lie algebra, and the energy does not change along
the equations of motion. -/
structure Conservative (O : Set (GField S N)) (energy : GField S N → ℝ) (F : ι → GField S N → GField S N) (forces : List ι) : Prop where
  isOpen : IsOpen O
  smooth_energy : ContDiffOn ℝ ∞ energy O
  smooth_force : ∀ i, ContDiffOn ℝ ∞ (F i) O
  lie : ∀ i U s μ, IsLie (F i U s μ)
  conserved : ∀ U ∈ O, ∀ P : GField S N, (∀ s μ, IsLie (P s μ)) → HasDerivAt (fun t : ℝ =>
    totalEnergy energy (fun s μ => NormedSpace.exp (t • P s μ) * U s μ, fun s μ => P s μ - (t : ℂ) • (forces.map fun i => F i U s μ).sum)) 0 0

/-- The energy on all fields. -/
noncomputable def bigEnergy (energy : GField S N → ℝ) (y : Phase S N) : ℝ := momentaEnergy (fun s μ => lieProj (y.2 s μ)) + energy y.1

theorem bigEnergy_eq (energy : GField S N → ℝ) (y : Phase S N) (hy : ∀ s μ, IsLie (y.2 s μ)) : bigEnergy energy y = totalEnergy energy y := by
  have : (fun s μ => lieProj (y.2 s μ)) = y.2 := by funext s μ; exact lieProj_eq (hy s μ)
  unfold bigEnergy totalEnergy
  rw [this]

theorem contDiffOn_bigEnergy {O : Set (GField S N)} {energy : GField S N → ℝ} (h : ContDiffOn ℝ ∞ energy O) :
    ContDiffOn ℝ ∞ (bigEnergy energy) (O ×ˢ Set.univ) := by
  refine ContDiffOn.add ?_ (h.comp contDiff_fst.contDiffOn fun y hy => hy.1)
  have h1 : ContDiff ℝ ∞ fun y : Phase S N => (fun s μ => lieProj (y.2 s μ) : GField S N) :=
    contDiff_pi.2 fun s => contDiff_pi.2 fun μ => contDiff_lieProj.comp (contDiff_comp2 s μ)
  exact (contDiff_momentaEnergy.comp h1).contDiffOn

theorem sum_lie (l : List (Mat N)) (h : ∀ A ∈ l, IsLie A) : IsLie l.sum := by
  induction l with
  | nil => exact ⟨by simp, by simp⟩
  | cons A l ih =>
    have h1 := h A (by simp)
    have h2 := ih fun B hB => h B (by simp [hB])
    rw [List.sum_cons]
    exact ⟨by rw [conjTranspose_add, h1.1, h2.1, neg_add], by rw [trace_add, h1.2, h2.2, add_zero]⟩

theorem listSum_apply (l : List (GField S N)) (s : S) (μ : Fin 4) : l.sum s μ = (l.map fun f => f s μ).sum := by
  induction l with
  | nil => rfl
  | cons a l ih => rw [List.sum_cons, List.map_cons, List.sum_cons, ← ih]; rfl

theorem momDir_sum (F : ι → GField S N → GField S N) (forces : List ι) (y : Phase S N) :
    (forces.map fun i => momDir F i y).sum = (0, -(forces.map fun i => F i y.1).sum) := by
  induction forces with
  | nil => exact Prod.ext rfl neg_zero.symm
  | cons a l ih => rw [List.map_cons, List.sum_cons, ih, List.map_cons, List.sum_cons]; simp [momDir, neg_add, add_comm]

theorem Conservative.direction {O : Set (GField S N)} {energy : GField S N → ℝ} {F : ι → GField S N → GField S N} {forces : List ι}
    (h : Conservative O energy F forces) (y : Phase S N) (hy : y ∈ O ×ˢ (Set.univ : Set (GField S N))) :
    fderiv ℝ (bigEnergy energy) y (linkDir y + (forces.map fun i => momDir F i y).sum) = 0 := by
  set FF : GField S N := (forces.map fun i => F i y.1).sum with hFF
  have hsum : ∀ s μ, FF s μ = (forces.map fun i => F i y.1 s μ).sum := by
    intro s μ; rw [hFF, listSum_apply, List.map_map]; rfl
  have hFl : ∀ s μ, IsLie (FF s μ) := by
    intro s μ
    rw [hsum]
    refine sum_lie _ fun A hA => ?_
    obtain ⟨i, _, rfl⟩ := List.mem_map.1 hA
    exact h.lie i _ s μ
  have hd : DifferentiableAt ℝ (bigEnergy energy) y :=
    ((contDiffOn_bigEnergy h.smooth_energy).contDiffAt ((h.isOpen.prod isOpen_univ).mem_nhds hy)).differentiableAt (by simp)
  have hcurve : HasDerivAt (fun t : ℝ => ((linkFlow t y).1, y.2 - t • FF)) (linkDir y + (forces.map fun i => momDir F i y).sum) 0 := by
    have e : linkDir y + (forces.map fun i => momDir F i y).sum = ((linkDir y).1, -FF) := by rw [momDir_sum]; simp [linkDir, hFF]
    rw [e]
    refine HasDerivAt.prodMk ?_ ?_
    · have := ((linkFlow_flow (Set.univ : Set (Phase S N))).deriv y 0)
      have h1 := (hasFDerivAt_fst (𝕜 := ℝ) (p := linkFlow 0 y)).comp_hasDerivAt (0 : ℝ) this
      rw [(linkFlow_flow (Set.univ : Set (Phase S N))).zero y] at h1
      exact h1
    · have := ((hasDerivAt_id (0 : ℝ)).smul_const FF).const_sub y.2
      simpa using this
  have e0 : (fun t : ℝ => ((linkFlow t y).1, y.2 - t • FF)) 0 = y := by
    refine Prod.ext ?_ ?_
    · change (linkFlow 0 y).1 = y.1
      rw [(linkFlow_flow (Set.univ : Set (Phase S N))).zero y]
    · simp
  have h1 := (show HasFDerivAt (bigEnergy energy) (fderiv ℝ (bigEnergy energy) y) ((fun t : ℝ => ((linkFlow t y).1, y.2 - t • FF)) 0) by
    rw [e0]; exact hd.hasFDerivAt).comp_hasDerivAt (0 : ℝ) hcurve
  have h2 := h.conserved y.1 hy.1 (fun s μ => lieProj (y.2 s μ)) fun s μ => lieProj_lie _
  have e1 : (bigEnergy energy ∘ fun t : ℝ => ((linkFlow t y).1, y.2 - t • FF)) = fun t : ℝ =>
      totalEnergy energy (fun s μ => NormedSpace.exp (t • lieProj (y.2 s μ)) * y.1 s μ,
        fun s μ => lieProj (y.2 s μ) - (t : ℂ) • (forces.map fun i => F i y.1 s μ).sum) := by
    funext t
    change momentaEnergy _ + energy _ = momentaEnergy _ + energy _
    congr 2
    funext s μ
    change lieProj (y.2 s μ - t • FF s μ) = lieProj (y.2 s μ) - (t : ℂ) • (forces.map fun i => F i y.1 s μ).sum
    rw [map_sub, map_smul, lieProj_eq (hFl s μ), hsum, Complex.coe_smul]
  rw [e1] at h1
  exact h1.unique h2

/-- Common part of the theorems, uniform in the starting point. -/
theorem energy_uniform {O : Set (GField S N)} {energy : GField S N → ℝ} {F : ι → GField S N → GField S N} {forces : List ι}
    (h : Conservative O energy F forces) {l : List (MdOp ι)} {p : ℕ}
    (hp : ∀ {R : Type} [Ring R] [Algebra ℝ R] (A : R) (B : ι → R), AgreeS (p + 1) (runS A B l) (expS (A + (forces.map B).sum)))
    (x : Phase S N) (hx : x.1 ∈ O) :
    (fun q : ℝ × Phase S N => bigEnergy energy (flowRun (opFlow F) l q.1 q.2) - bigEnergy energy q.2) =O[𝓝 (0, x)] fun q => q.1 ^ (p + 1) :=
  run_conserve (W := ℝ) (h.isOpen.prod isOpen_univ) contDiff_linkDir.contDiffOn (fun i => contDiffOn_momDir (h.smooth_force i))
    (opFlow_flow h.isOpen h.smooth_force) ⟨bigEnergy energy, contDiffOn_bigEnergy h.smooth_energy⟩ (fun A B => hp A B) h.direction
    (show x ∈ O ×ˢ Set.univ from ⟨hx, trivial⟩)

theorem energy_order (eig : EigenSolver N) (he : eig.Correct) {O : Set (GField S N)} {energy : GField S N → ℝ}
    {F : ι → GField S N → GField S N} {forces : List ι} (h : Conservative O energy F forces) {name : String} {steps : List ℕ} {p : ℕ}
    (hp : ∀ l, mdIntegrate name forces steps 1 = .ok l → ∀ {R : Type} [Ring R] [Algebra ℝ R] (A : R) (B : ι → R),
      AgreeS (p + 1) (runS A B l) (expS (A + (forces.map B).sum)))
    (l : ℝ → List (MdOp ι)) (hl : ∀ t, mdIntegrate name forces steps t = .ok (l t)) (x : GField S N × GField S N) (hx : x.1 ∈ O)
    (hP : ∀ s μ, IsLie (x.2 s μ)) :
    (fun t : ℝ => totalEnergy energy (mdRun (eigenLink eig) F (l t) x) - totalEnergy energy x) =O[𝓝 0] fun t => t ^ (p + 1) := by
  have hlt : ∀ t, l t = (l 1).map (MdOp.scale t) := by
    intro t
    have h1 := mdIntegrate_scale t name forces steps 1
    rw [mul_one, hl, hl] at h1
    exact Outcome.ok.inj h1
  have h1 := energy_uniform h (hp (l 1) (hl 1)) x hx
  have ht : Tendsto (fun t : ℝ => (t, x)) (𝓝 0) (𝓝 (0, x)) := by
    rw [nhds_prod_eq]; exact tendsto_id.prodMk tendsto_const_nhds
  refine (h1.comp_tendsto ht).congr_left fun t => ?_
  have h2 := mdRun_eq_flowRun eig he h.lie (l 1) t x hP
  change bigEnergy energy (flowRun (opFlow F) (l 1) t x) - bigEnergy energy x = _
  rw [hlt t, h2.1, bigEnergy_eq energy _ h2.2, bigEnergy_eq energy x hP]

/-- **C52.** With fixed numbers of steps the energy that an integrator of order `p` adds to a trajectory of length `t` is of the order
`t ^ (p + 1)`, for every energy and its forces. -/
theorem C52_energy_partial (eig : EigenSolver N) (he : eig.Correct) (O : Set (GField S N)) (energy : GField S N → ℝ)
    (F : ι → GField S N → GField S N) (forces : List ι) (h : Conservative O energy F forces) (name : String) (p : ℕ)
    (hname : integratorOrder name = some p) (h4 : name ≠ "fourth_omelyan") (steps : List ℕ) (l : ℝ → List (MdOp ι))
    (hl : ∀ t, mdIntegrate name forces steps t = .ok (l t)) (U P : GField S N) (hU : U ∈ O) (hP : ∀ s μ, IsLie (P s μ)) :
    (fun t : ℝ => totalEnergy energy (mdRun (eigenLink eig) F (l t) (U, P)) - totalEnergy energy (U, P)) =O[𝓝 0] fun t => t ^ (p + 1) :=
  energy_order eig he h (fun _ hl _ _ _ A B => mdIntegrate_agree A B hname h4 hl) l hl (U, P) hU hP

theorem hasDerivAt_matrix {f : ℝ → Mat N} {f' : Mat N} {t : ℝ} (h : ∀ i j, HasDerivAt (fun t => f t i j) (f' i j) t) : HasDerivAt f f' t := by
  let e : (Fin N → Fin N → ℂ) →ₗ[ℝ] Mat N := { toFun := fun A => A, map_add' := fun _ _ => rfl, map_smul' := fun _ _ => rfl }
  have h1 : HasDerivAt (fun t => (fun i j => f t i j : Fin N → Fin N → ℂ)) (fun i j => f' i j) t :=
    hasDerivAt_pi.2 fun i => hasDerivAt_pi.2 fun j => h i j
  exact (LinearMap.toContinuousLinearMap e).hasFDerivAt.comp_hasDerivAt t h1

theorem contDiff_entry (i j : Fin N) : ContDiff ℝ ∞ fun A : Mat N => A i j :=
  contDiff_linear ({ toFun := fun A => A i j, map_add' := fun _ _ => rfl, map_smul' := fun _ _ => rfl } : Mat N →ₗ[ℝ] ℂ)

theorem motion_order (eig : EigenSolver N) (he : eig.Correct) {O : Set (GField S N)} (hO : IsOpen O)
    {F : ι → GField S N → GField S N} (hF : ∀ i, ContDiffOn ℝ ∞ (F i) O) (hlie : ∀ i U s μ, IsLie (F i U s μ)) {forces : List ι}
    {name : String} {steps : List ℕ} {p : ℕ}
    (hp : ∀ l, mdIntegrate name forces steps 1 = .ok l → ∀ {R : Type} [Ring R] [Algebra ℝ R] (A : R) (B : ι → R),
      AgreeS (p + 1) (runS A B l) (expS (A + (forces.map B).sum)))
    (l : ℝ → List (MdOp ι)) (hl : ∀ t, mdIntegrate name forces steps t = .ok (l t)) (U P : ℝ → GField S N) (hU : U 0 ∈ O)
    (hs : SolvesMotion (fun U s μ => (forces.map fun i => F i U s μ).sum) U P)
    {W : Type} [NormedAddCommGroup W] [NormedSpace ℝ W] (f : Phase S N → W) (hf : ContDiff ℝ ∞ f) :
    (fun t : ℝ => f (mdRun (eigenLink eig) F (l t) (U 0, P 0)) - f (U t, P t)) =O[𝓝 0] fun t => t ^ (p + 1) := by
  have hlt : ∀ t, l t = (l 1).map (MdOp.scale t) := by
    intro t
    have h1 := mdIntegrate_scale t name forces steps 1
    rw [mul_one, hl, hl] at h1
    exact Outcome.ok.inj h1
  have hP0 : ∀ s μ, IsLie (P 0 s μ) := fun s μ => ⟨(hs.self_of_nhds s μ).1, (hs.self_of_nhds s μ).2.1⟩
  have hγ : ∀ᶠ t in 𝓝 (0 : ℝ), HasDerivAt (fun t => ((U t, P t) : Phase S N))
      (linkDir (U t, P t) + (forces.map fun i => momDir F i (U t, P t)).sum) t := by
    filter_upwards [hs] with t ht
    have e : linkDir (U t, P t) + (forces.map fun i => momDir F i (U t, P t)).sum =
        ((fun s μ => P t s μ * U t s μ), fun s μ => -(forces.map fun i => F i (U t) s μ).sum) := by
      rw [momDir_sum]
      refine Prod.ext ?_ ?_
      · funext s μ
        simp [linkDir, lieProj_eq (show IsLie (P t s μ) from ⟨(ht s μ).1, (ht s μ).2.1⟩)]
      · funext s μ
        simp only [linkDir, Prod.snd_add, zero_add, Pi.neg_apply]
        rw [listSum_apply, List.map_map]
        rfl
    rw [e]
    refine HasDerivAt.prodMk ?_ ?_
    · exact hasDerivAt_pi.2 fun s => hasDerivAt_pi.2 fun μ => hasDerivAt_matrix fun i j => ((ht s μ).2.2 i j).1
    · exact hasDerivAt_pi.2 fun s => hasDerivAt_pi.2 fun μ => hasDerivAt_matrix fun i j => ((ht s μ).2.2 i j).2
  have h1 := run_compare (W := W) (hO.prod isOpen_univ) contDiff_linkDir.contDiffOn (fun i => contDiffOn_momDir (hF i))
    (opFlow_flow hO hF) ⟨f, hf.contDiffOn⟩ (l := l 1) (fs := forces) (p := p) (fun A B => ?_) hγ ⟨hU, trivial⟩
  · refine h1.congr_left fun t => ?_
    rw [hlt t, (mdRun_eq_flowRun eig he hlie (l 1) t (U 0, P 0) hP0).1]
  · exact hp (l 1) (hl 1) A B

/-- **C52**, comparison with the solution of the equations of motion: every entry of every link and momentum after a trajectory of length `t`
differs from the solution by the order `t ^ (p + 1)`. -/
theorem C52_motion_partial (eig : EigenSolver N) (he : eig.Correct) (O : Set (GField S N)) (hO : IsOpen O)
    (F : ι → GField S N → GField S N) (hF : ∀ i, ContDiffOn ℝ ∞ (F i) O) (hlie : ∀ i U s μ, IsLie (F i U s μ)) (forces : List ι)
    (name : String) (p : ℕ) (hname : integratorOrder name = some p) (h4 : name ≠ "fourth_omelyan") (steps : List ℕ) (l : ℝ → List (MdOp ι))
    (hl : ∀ t, mdIntegrate name forces steps t = .ok (l t)) (U P : ℝ → GField S N) (hU : U 0 ∈ O)
    (hs : SolvesMotion (fun U s μ => (forces.map fun i => F i U s μ).sum) U P) (s : S) (μ : Fin 4) (i j : Fin N) :
    ((fun t : ℝ => (mdRun (eigenLink eig) F (l t) (U 0, P 0)).1 s μ i j - U t s μ i j) =O[𝓝 0] fun t => t ^ (p + 1)) ∧
      (fun t : ℝ => (mdRun (eigenLink eig) F (l t) (U 0, P 0)).2 s μ i j - P t s μ i j) =O[𝓝 0] fun t => t ^ (p + 1) :=
  ⟨motion_order eig he hO hF hlie (fun _ hl _ _ _ A B => mdIntegrate_agree A B hname h4 hl) l hl U P hU hs (fun y => y.1 s μ i j)
      ((contDiff_entry i j).comp (contDiff_comp1 s μ)),
    motion_order eig he hO hF hlie (fun _ hl _ _ _ A B => mdIntegrate_agree A B hname h4 hl) l hl U P hU hs (fun y => y.2 s μ i j)
      ((contDiff_entry i j).comp (contDiff_comp2 s μ))⟩

/-- The Wilson gauge energy and its force. -/
theorem conservative_wilson (hN : 0 < N) (β : ℝ) (T : Torus S) :
    Conservative (Set.univ : Set (GField S N)) (wilsonEnergy β T) (fun (_ : Unit) U s μ => gaugeForce β U (wilsonStaple T U s μ) s μ) [()] where
  isOpen := isOpen_univ
  smooth_energy := (contDiff_wilsonEnergy β T).contDiffOn
  smooth_force _ := (contDiff_wilsonForce β T).contDiffOn
  lie _ U s μ := C21_lie_algebra hN β U _ s μ
  conserved U _ P hP := by simpa [totalEnergy] using C21_wilson_conserves T β U P hP

/-- The improved gauge energy and its force. -/
theorem conservative_improved (hN : 0 < N) (u0 β : ℝ) (T : Torus S) :
    Conservative (Set.univ : Set (GField S N)) (improvedEnergy u0 β T)
      (fun (_ : Unit) U s μ => gaugeForce β U (improvedStaple u0 T U s μ) s μ) [()] where
  isOpen := isOpen_univ
  smooth_energy := (contDiff_improvedEnergy u0 β T).contDiffOn
  smooth_force _ := (contDiff_improvedForce u0 β T).contDiffOn
  lie _ U s μ := C21_lie_algebra hN β U _ s μ
  conserved U _ P hP := by simpa [totalEnergy] using C21_improved_conserves T u0 β U P hP

/-- **C52**, pure gauge hybrid Monte Carlo with the Wilson action, from every configuration and all momenta. -/
theorem C52_wilson_partial (eig : EigenSolver N) (he : eig.Correct) (hN : 0 < N) (β : ℝ) (T : Torus S) (name : String) (p : ℕ)
    (hname : integratorOrder name = some p) (h4 : name ≠ "fourth_omelyan") (n : ℕ) (l : ℝ → List (MdOp Unit))
    (hl : ∀ t, mdIntegrate name [()] [n] t = .ok (l t)) (U P : GField S N) (hP : ∀ s μ, IsLie (P s μ)) :
    (fun t : ℝ => totalEnergy (wilsonEnergy β T)
      (mdRun (eigenLink eig) (fun _ U s μ => gaugeForce β U (wilsonStaple T U s μ) s μ) (l t) (U, P)) - totalEnergy (wilsonEnergy β T) (U, P))
      =O[𝓝 0] fun t => t ^ (p + 1) :=
  C52_energy_partial eig he _ _ _ [()] (conservative_wilson hN β T) name p hname h4 [n] l hl U P trivial hP

/-- **C52**, pure gauge hybrid Monte Carlo with the improved action. -/
theorem C52_improved_partial (eig : EigenSolver N) (he : eig.Correct) (hN : 0 < N) (u0 β : ℝ) (T : Torus S) (name : String) (p : ℕ)
    (hname : integratorOrder name = some p) (h4 : name ≠ "fourth_omelyan") (n : ℕ) (l : ℝ → List (MdOp Unit))
    (hl : ∀ t, mdIntegrate name [()] [n] t = .ok (l t)) (U P : GField S N) (hP : ∀ s μ, IsLie (P s μ)) :
    (fun t : ℝ => totalEnergy (improvedEnergy u0 β T)
      (mdRun (eigenLink eig) (fun _ U s μ => gaugeForce β U (improvedStaple u0 T U s μ) s μ) (l t) (U, P)) -
        totalEnergy (improvedEnergy u0 β T) (U, P)) =O[𝓝 0] fun t => t ^ (p + 1) :=
  C52_energy_partial eig he _ _ _ [()] (conservative_improved hN u0 β T) name p hname h4 [n] l hl U P trivial hP

/-- **C52**, hybrid Monte Carlo with two flavours: if the fermion force and the gauge force belong together to the energies, then the forces
and numbers of steps chosen for the integrator, whatever the list of numbers, give the order of the integrator. -/
theorem C52_two_flavor_partial (eig : EigenSolver N) (he : eig.Correct) {V : Type} (O : Set (GField S N)) (energy : GField S N → ℝ)
    (fermionForce : V → GField S N → GField S N) (gaugeForce : GField S N → GField S N) (φ : V)
    (h : Conservative O energy (fun (b : Bool) => if b then fermionForce φ else gaugeForce) [true, false])
    (name : String) (p : ℕ) (hname : integratorOrder name = some p) (h4 : name ≠ "fourth_omelyan") (steps : List ℕ)
    (l : ℝ → List (MdOp TwoFlavorForce)) (hl : ∀ t, mdIntegrate name (twoFlavorForces steps).1 (twoFlavorForces steps).2 t = .ok (l t))
    (U P : GField S N) (hU : U ∈ O) (hP : ∀ s μ, IsLie (P s μ)) :
    (fun t : ℝ => totalEnergy energy (mdRun (eigenLink eig) (twoFlavorForce fermionForce gaugeForce φ) (l t) (U, P)) -
      totalEnergy energy (U, P)) =O[𝓝 0] fun t => t ^ (p + 1) := by
  have hf : ContDiffOn ℝ ∞ (fermionForce φ) O := by simpa using h.smooth_force true
  have hg : ContDiffOn ℝ ∞ gaugeForce O := by simpa using h.smooth_force false
  have lf : ∀ U s μ, IsLie (fermionForce φ U s μ) := fun U s μ => by simpa using h.lie true U s μ
  have lg : ∀ U s μ, IsLie (gaugeForce U s μ) := fun U s μ => by simpa using h.lie false U s μ
  have hs : ∀ U s μ, ((twoFlavorForces steps).1.map fun i => twoFlavorForce fermionForce gaugeForce φ i U s μ).sum =
      fermionForce φ U s μ + gaugeForce U s μ := by
    intro U s μ
    unfold twoFlavorForces
    split <;> simp [twoFlavorForce]
  refine C52_energy_partial eig he O energy _ (twoFlavorForces steps).1 ⟨h.isOpen, h.smooth_energy, ?_, ?_, ?_⟩ name p hname h4 _ l hl U P hU hP
  · intro i
    cases i with
    | action => exact hf.add hg
    | fermion => exact hf
    | gauge => exact hg
  · intro i U s μ
    cases i with
    | action =>
      have := sum_lie [fermionForce φ U s μ, gaugeForce U s μ] (by
        intro A hA
        rcases List.mem_cons.1 hA with rfl | hA
        · exact lf U s μ
        · rw [List.mem_singleton.1 hA]; exact lg U s μ)
      simpa [twoFlavorForce] using this
    | fermion => exact lf U s μ
    | gauge => exact lg U s μ
  · intro U hU P hP
    have := h.conserved U hU P hP
    simp only [hs]
    simpa using this

/-- **C52**, all integrators: at least second order. -/
theorem C52_second_order (eig : EigenSolver N) (he : eig.Correct) (O : Set (GField S N)) (energy : GField S N → ℝ)
    (F : ι → GField S N → GField S N) (forces : List ι) (h : Conservative O energy F forces) (name : String) (steps : List ℕ)
    (l : ℝ → List (MdOp ι)) (hl : ∀ t, mdIntegrate name forces steps t = .ok (l t)) (U P : GField S N) (hU : U ∈ O)
    (hP : ∀ s μ, IsLie (P s μ)) :
    (fun t : ℝ => totalEnergy energy (mdRun (eigenLink eig) F (l t) (U, P)) - totalEnergy energy (U, P)) =O[𝓝 0] fun t => t ^ 3 :=
  energy_order (p := 2) eig he h (fun _ hl _ _ _ A B => mdIntegrate_agree_two A B hl) l hl (U, P) hU hP

/-- The hypotheses are met: the fourth order integrator with two steps, and a momentum of the group with two colours. -/
example : integratorOrder "fourth_order" = some 4 ∧ "fourth_order" ≠ "fourth_omelyan" ∧
    (∃ l : ℝ → List (MdOp Unit), ∀ t, mdIntegrate "fourth_order" [()] [2] t = .ok (l t)) ∧
    IsLie (!![Complex.I, 1; -1, -Complex.I] : Mat 2) ∧ ∃ eig : EigenSolver 2, eig.Correct := by
  refine ⟨rfl, by decide, ?_, ⟨?_, ?_⟩, exists_correct_eigenSolver⟩
  · have := fun t => (C43_defined "fourth_order" [()] [2] t).2 (by simp)
    exact ⟨fun t => (this t).choose, fun t => (this t).choose_spec⟩
  · ext i j; fin_cases i <;> fin_cases j <;> simp
  · simp [Matrix.trace, Fin.sum_univ_two]

/-- Energies and forces that belong together exist: without links the free motion. -/
example : Conservative (Set.univ : Set (GField Unit 2)) (fun _ => 0) (fun (_ : Bool) _ _ _ => 0) [true, false] where
  isOpen := isOpen_univ
  smooth_energy := contDiffOn_const
  smooth_force _ := contDiffOn_const
  lie _ _ _ _ := ⟨by simp, by simp⟩
  conserved U _ P _ := by simpa [totalEnergy] using hasDerivAt_const (0 : ℝ) _

/-- A solution of the equations of motion without forces. -/
example (U P : Mat 2) (hP : IsLie P) : SolvesMotion (S := Unit) (fun _ _ _ => 0) (fun t _ _ => NormedSpace.exp (t • P) * U) (fun _ _ _ => P) := by
  refine Filter.Eventually.of_forall fun t s μ => ⟨hP.1, hP.2, fun i j => ⟨?_, ?_⟩⟩
  · have := (hasDerivAt_exp_smul_const' (𝕂 := ℝ) P t).mul_const U
    rw [mul_assoc] at this
    exact (LinearMap.toContinuousLinearMap ({ toFun := fun A => A i j, map_add' := fun _ _ => rfl, map_smul' := fun _ _ => rfl } : Mat 2 →ₗ[ℝ] ℂ)).hasFDerivAt.comp_hasDerivAt t this
  · simpa using hasDerivAt_const t (P i j)

end Leonard
