import Verif.Stout.Accuracy
import Verif.Force.CloverProps

/-!
# C69: the force of fermions with stout smeared links
-/

set_option autoImplicit false

namespace Leonard

open Matrix Filter Asymptotics
open scoped ContDiff Topology Matrix.Norms.Operator

variable {S : Type} [Fintype S] {N M : ℕ}

/-! ### The numerical derivative and the sum over smeared links -/

/-- **C69**, numerical derivative: the extrapolation of the program, started with the step `h`, differs from the derivative at zero by at most
`4 K h²` when the third derivative of the function is at most `K` between `-h` and `h`. -/
theorem C69_derivative (f f' f'' f''' : ℝ → ℝ) (h1 : ∀ x, HasDerivAt f (f' x) x) (h2 : ∀ x, HasDerivAt f' (f'' x) x)
    (h3 : ∀ x, HasDerivAt f'' (f''' x) x) (K h : ℝ) (h0 : 0 < h) (hK : ∀ x, -h ≤ x → x ≤ h → |f''' x| ≤ K) : |ridder f h - f' 0| ≤ 4 * K * h ^ 2 :=
  ridder_bound h1 h2 h3 h0 fun x hx => hK x (abs_le.1 hx).1 (abs_le.1 hx).2

/-- **C69**, the sum: on a lattice with at least three sites in each direction, the force of the program on a link is the sum over all smeared
links of the lattice, each taken once, of the numerical derivatives of `Re tr(D V)`, `V` being the smeared link in the representation of the
fermions. -/
theorem C69_once_partial [DecidableEq S] (ρ : FermionRep N M) (T : Torus S) (hT : ∀ μ, 3 ≤ T.ext μ) (r h : ℝ) (h0 : 0 < h) (D : GField S M)
    (U : GField S N) (s : S) (μ : Fin 4) :
    smearingForce (fun f => ridder f h) ρ T r D U s μ = ∑ c, (Complex.I * ((∑ s', ∑ μ', ridder (fun ε => (trace (D s' μ' * ρ.link (stoutLinks T r
      (setLink U s μ (NormedSpace.exp (ε • (Complex.I • gens N c)) * U s μ)) s' μ'))).re) h : ℝ) : ℂ)) • gens N c :=
  smearingForce_sum (fun c => ridder_const c h h0) ρ T hT r D U s μ

/-! ### Energy conservation -/

section
variable {mul : GField S M → SField S M → SField S M} {A : GField S M → Op (SField S M)}
  {deriv' : GField S M → SField S M → SField S M → S → Fin 4 → Mat M}

theorem trace_expand (P : Mat N) (x : Fin (lieGenerators N).length → ℝ) :
    2 * (trace (P * ∑ c, (Complex.I * (x c : ℂ)) • gens N c)).re = ∑ c, x c * (2 * (Complex.I * trace (P * gens N c)).re) := by
  rw [Finset.mul_sum, trace_sum, Complex.re_sum, Finset.mul_sum]
  refine Finset.sum_congr rfl fun c _ => ?_
  rw [Matrix.mul_smul, trace_smul, smul_eq_mul]
  simp only [Complex.mul_re, Complex.mul_im, Complex.I_re, Complex.I_im, Complex.ofReal_re, Complex.ofReal_im]
  ring

theorem smeared_isGrad (ρ : FermionRep N M) (hρ : ρ.Lawful) (T : Torus S) (bc : String) (r : ℝ) (hA : IsDirac mul A)
    (solveShift : GField S M → ℝ → SField S M → SField S M) (ps : List (PseudoFermion S M)) (hs : SolvesShifts mul solveShift ps) :
    IsGrad (Set.univ : Set (GField S N)) (fun U => nFlavorFermionEnergy solveShift (smearedFermionLinks ρ T bc 1 r U) ps)
      (fun U => gradField (fundamentalRep N) U (fderiv ℝ (smearedEnergy A (shiftTerms ps) ρ T bc r) U : GField S N →ₗ[ℝ] ℝ)) := by
  have e : (fun U : GField S N => nFlavorFermionEnergy solveShift (smearedFermionLinks ρ T bc 1 r U) ps) = smearedEnergy A (shiftTerms ps) ρ T bc r := by
    funext U; exact nFlavor_energy_eq hA solveShift ps hs _
  rw [e]
  exact isGrad_of_contDiff (contDiff_smearedEnergy ρ hρ T bc r hA (shiftTerms ps) (shift_units hA hs))

variable [DecidableEq S]

theorem smeared_rate (ρ : FermionRep N M) (hρ : ρ.Lawful) (T : Torus S) (hT : T.Wide 2) (bc : String) (r : ℝ) (hA : IsDirac mul A)
    (hd : IsLinkDerivative A deriv') (solveShift : GField S M → ℝ → SField S M → SField S M) (ps : List (PseudoFermion S M))
    (hs : SolvesShifts mul solveShift ps) (U P : GField S N) (hU : U ∈ validLinks T bc) (hP : ∀ s μ, IsLie (P s μ)) :
    ∃ C : ℝ, ∀ h, 0 < h → h ≤ 1 → ∃ F, nFlavorSmearedForce (fun f => ridder f h) ρ T mul deriv' solveShift bc 1 r
        (smearedFermionLinks ρ T bc 1 r U) U ps = some F ∧ (∀ s μ, IsLie (F s μ)) ∧ ∃ rate : ℝ, |rate| ≤ C * h ^ 2 ∧
      HasDerivAt (fun t : ℝ => totalEnergy (fun U => nFlavorFermionEnergy solveShift (smearedFermionLinks ρ T bc 1 r U) ps)
        (fun s μ => NormedSpace.exp (t • P s μ) * U s μ, fun s μ => P s μ - (t : ℂ) • F s μ)) rate 0 := by
  obtain ⟨D, hD⟩ : ∃ D, D = nFlavorBc T.ext T.coord (some bc) fun s μ => (ps.map fun p => nFlavorTerm mul deriv' solveShift
        (fermionLinks ρ T bc (stoutLinks T r U)) p s μ).sum := ⟨_, rfl⟩
  obtain ⟨f, hf⟩ : ∃ f : Fin (lieGenerators N).length → S → Fin 4 → S → Fin 4 → ℝ → ℝ, f = fun c s μ s' μ' h => (trace (D s' μ' * ρ.link (stoutLinks T r
      (setLink U s μ (NormedSpace.exp (h • (Complex.I • gens N c)) * U s μ)) s' μ'))).re := ⟨_, rfl⟩
  have hsm : ∀ c s μ s' μ', ContDiff ℝ ∞ (f c s μ s' μ') := by
    intro c s μ s' μ'
    rw [hf]
    simp only [setLink_move]
    exact contDiff_smearTerm ρ hρ T r _ _ _ _ _
  choose C hC using fun c s μ s' μ' => ridder_smooth (hsm c s μ s' μ')
  refine ⟨∑ s, ∑ μ, ∑ c, (∑ s', ∑ μ', C c s μ s' μ') * |2 * (Complex.I * trace (P s μ * gens N c)).re|, fun h h0 h1 => ?_⟩
  have hF : ∀ s μ, smearingForce (fun f => ridder f h) ρ T r D U s μ =
      ∑ c, (Complex.I * ((∑ s', ∑ μ', ridder (f c s μ s' μ') h : ℝ) : ℂ)) • gens N c := by
    intro s μ
    rw [hf]
    exact smearingForce_sum (fun c => ridder_const c h h0) ρ T hT r D U s μ
  have hG : ∀ s μ, gradField (fundamentalRep N) U (fderiv ℝ (smearedEnergy A (shiftTerms ps) ρ T bc r) U : GField S N →ₗ[ℝ] ℝ) s μ =
      ∑ c, (Complex.I * ((∑ s', ∑ μ', deriv (f c s μ s' μ') 0 : ℝ) : ℂ)) • gens N c := by
    intro s μ
    rw [← smearingForce_eq ρ hρ T hT bc r hA hd solveShift ps hs U hU s μ, hf, hD]
    exact smearingForce_sum (fun c => by simp) ρ T hT r _ U s μ
  refine ⟨smearingForce (fun f => ridder f h) ρ T r D U, by rw [hD]; rfl, fun s μ => by rw [hF]; exact isLie_gens_sum _, _, ?_,
    (hasDerivAt_momentaEnergy P _).add ((smeared_isGrad ρ hρ T bc r hA solveShift ps hs).deriv U trivial P hP)⟩
  rw [← sub_eq_add_neg, ← Finset.sum_sub_distrib, Finset.sum_mul]
  refine (Finset.abs_sum_le_sum_abs _ _).trans (Finset.sum_le_sum fun s _ => ?_)
  rw [← Finset.sum_sub_distrib, Finset.sum_mul]
  refine (Finset.abs_sum_le_sum_abs _ _).trans (Finset.sum_le_sum fun μ _ => ?_)
  rw [hF, hG, trace_expand, trace_expand, ← Finset.sum_sub_distrib, Finset.sum_mul]
  refine (Finset.abs_sum_le_sum_abs _ _).trans (Finset.sum_le_sum fun c _ => ?_)
  rw [← sub_mul, abs_mul, mul_right_comm]
  refine mul_le_mul_of_nonneg_right ?_ (abs_nonneg _)
  rw [← Finset.sum_sub_distrib, Finset.sum_mul]
  refine (Finset.abs_sum_le_sum_abs _ _).trans (Finset.sum_le_sum fun s' _ => ?_)
  rw [← Finset.sum_sub_distrib, Finset.sum_mul]
  exact (Finset.abs_sum_le_sum_abs _ _).trans (Finset.sum_le_sum fun μ' _ => hC c s μ s' μ' h h0 h1)

theorem smeared_order (eig : EigenSolver N) (he : eig.Correct) (ρ : FermionRep N M) (hρ : ρ.Lawful) (T : Torus S) (hT : T.Wide 2)
    (hA : IsDirac mul A) (hd : IsLinkDerivative A deriv') (bc : String) (r : ℝ)
    (solveShift : GField S M → ℝ → SField S M → SField S M) (ps : ℕ → List (PseudoFermion S M)) (hs : ∀ k, SolvesShifts mul solveShift (ps k))
    (gaugeEnergy : GField S N → ℝ) (gaugeForce : GField S N → GField S N)
    (hg : Conservative Set.univ gaugeEnergy (fun _ : Unit => gaugeForce) [()])
    (name : String) (p : ℕ) (hname : integratorOrder name = some p) (h4 : name ≠ "fourth_omelyan") (levels : ℕ) (steps : List ℕ)
    (fs : List NFlavorForce × List ℕ) (hfs : nFlavorForces levels steps = .ok fs) (l : ℝ → List (MdOp NFlavorForce))
    (hl : ∀ t, mdIntegrate name fs.1 fs.2 t = .ok (l t)) (U P : GField S N) (hU : U ∈ validLinks T bc) (hP : ∀ s μ, IsLie (P s μ)) :
    let energy := fun U => gaugeEnergy U + ∑ k ∈ Finset.range (levelsUsed steps.length),
      nFlavorFermionEnergy solveShift (smearedFermionLinks ρ T bc 1 r U) (ps k)
    let force := nFlavorForce (fun k U => (nFlavorSmearedForce (fun f => deriv f 0) ρ T mul deriv' solveShift bc 1 r
      (smearedFermionLinks ρ T bc 1 r U) U (ps k)).getD 0) gaugeForce
    (fun t : ℝ => totalEnergy energy (mdRun (eigenLink eig) force (l t) (U, P)) - totalEnergy energy (U, P)) =O[𝓝 0] fun t => t ^ (p + 1) := by
  intro energy force
  have hG := hg.isGrad
  have hK := fun k => smeared_isGrad ρ hρ T bc r hA solveShift (ps k) (hs k) (N := N)
  have hsum := IsGrad.sum hK hG (levelsUsed steps.length)
  have hc : Conservative Set.univ energy (nFlavorForce (fun k U => gradField (fundamentalRep N) U
      (fderiv ℝ (smearedEnergy A (shiftTerms (ps k)) ρ T bc r) U : GField S N →ₗ[ℝ] ℝ)) gaugeForce) fs.1 := by
    refine hsum.conservative fs.1 ?_ ?_ fun U s μ => nFlavorForces_sum hfs _ _ U s μ
    · intro i
      cases i with
      | action => exact (hK 0).smooth_force.add hG.smooth_force
      | fermion k => exact (hK k).smooth_force
      | gauge => exact hG.smooth_force
    · intro i U s μ
      cases i with
      | action => exact isLie_add ((hK 0).lie U s μ) (hG.lie U s μ)
      | fermion k => exact (hK k).lie U s μ
      | gauge => exact hG.lie U s μ
  refine energy_order_valid eig he hc (validLinks_stable T bc) ?_ (fun _ _ _ => rfl) hname h4 l hl U P trivial hU hP
  intro i U _ hU
  have e := fun k s μ => smearingForce_eq ρ hρ T hT bc r hA hd solveShift (ps k) (hs k) U hU s μ
  cases i with
  | action =>
    funext s μ
    change smearingForce _ _ _ _ _ _ s μ + _ = _
    exact congrArg (· + gaugeForce U s μ) (e 0 s μ)
  | fermion k => funext s μ; exact e k s μ
  | gauge => rfl

end

variable [DecidableEq S]

/-- **C69**, Wilson fermions: with one level of stout smearing, exact solutions of the shifted equations and positive shifts, on lattices with at
least three sites in each direction, the rate at which the energy of the pseudofermions on the smeared links plus that of the momenta changes
along the force of the program is of the second order in the step of the numerical derivative, for all boundary conditions, all links that are
unitary or cut and all momenta; and the force is in the Lie algebra.  Missing: lattices with two sites in a direction
(`C69_extent_counterexample`) and more levels of smearing (`C69_levels_counterexample`). -/
theorem C69_wilson_partial (ρ : FermionRep N M) (hρ : ρ.Lawful) (T : Torus S) (hT : ∀ μ, 3 ≤ T.ext μ) (κ : ℝ) (bc : String) (r : ℝ)
    (solveShift : GField S M → ℝ → SField S M → SField S M) (ps : List (PseudoFermion S M))
    (hs : ∀ p ∈ ps, ∀ β ∈ p.betas, 0 < β ∧ ∀ L, optMul T L κ true (optMul T L κ true (solveShift L β p.φ)) + β • solveShift L β p.φ = p.φ)
    (U P : GField S N) (hU : ∀ s μ, U s μ * (U s μ)ᴴ = 1 ∨ U s μ = 0) (hopen : bc = "open" → switchOpenBc T.ext T.coord U = U)
    (hP : ∀ s μ, IsLie (P s μ)) :
    ∃ C : ℝ, ∀ h, 0 < h → h ≤ 1 → ∃ F, nFlavorSmearedForce (fun f => ridder f h) ρ T (fun L => optMul T L κ true) (wilsonDerivative T κ) solveShift bc 1 r
        (smearedFermionLinks ρ T bc 1 r U) U ps = some F ∧ (∀ s μ, IsLie (F s μ)) ∧ ∃ rate : ℝ, |rate| ≤ C * h ^ 2 ∧
      HasDerivAt (fun t : ℝ => totalEnergy (fun U => nFlavorFermionEnergy solveShift (smearedFermionLinks ρ T bc 1 r U) ps)
        (fun s μ => NormedSpace.exp (t • P s μ) * U s μ, fun s μ => P s μ - (t : ℂ) • F s μ)) rate 0 :=
  smeared_rate ρ hρ T hT bc r (wilson_isDirac T κ) (wilson_isLinkDerivative T κ) solveShift ps hs U P ⟨hU, hopen⟩ hP

/-- **C69**, clover improved fermions, likewise. -/
theorem C69_clover_partial (ρ : FermionRep N M) (hρ : ρ.Lawful) (T : Torus S) (hT : ∀ μ, 3 ≤ T.ext μ) (κ csw : ℝ) (bc : String) (r : ℝ)
    (solveShift : GField S M → ℝ → SField S M → SField S M) (ps : List (PseudoFermion S M))
    (hs : ∀ p ∈ ps, ∀ β ∈ p.betas, 0 < β ∧
      ∀ L, improvedMul T L κ csw true (improvedMul T L κ csw true (solveShift L β p.φ)) + β • solveShift L β p.φ = p.φ)
    (U P : GField S N) (hU : ∀ s μ, U s μ * (U s μ)ᴴ = 1 ∨ U s μ = 0) (hopen : bc = "open" → switchOpenBc T.ext T.coord U = U)
    (hP : ∀ s μ, IsLie (P s μ)) :
    ∃ C : ℝ, ∀ h, 0 < h → h ≤ 1 → ∃ F, nFlavorSmearedForce (fun f => ridder f h) ρ T (fun L => improvedMul T L κ csw true) (improvedDerivative T κ csw)
        solveShift bc 1 r (smearedFermionLinks ρ T bc 1 r U) U ps = some F ∧ (∀ s μ, IsLie (F s μ)) ∧ ∃ rate : ℝ, |rate| ≤ C * h ^ 2 ∧
      HasDerivAt (fun t : ℝ => totalEnergy (fun U => nFlavorFermionEnergy solveShift (smearedFermionLinks ρ T bc 1 r U) ps)
        (fun s μ => NormedSpace.exp (t • P s μ) * U s μ, fun s μ => P s μ - (t : ℂ) • F s μ)) rate 0 :=
  smeared_rate ρ hρ T hT bc r (clover_isDirac T κ csw) (clover_isLinkDerivative T κ csw) solveShift ps hs U P ⟨hU, hopen⟩ hP

/-- **C69**, the order of the integrator with one level of smearing, clover improved fermions (with the coefficient zero: Wilson fermions) and an
exact derivative in the place of the numerical one.  Missing, besides what is missing in `C69_clover_partial`: the numerical derivative, whose
error does not become smaller with the step of the trajectory. -/
theorem C69_order_partial (eig : EigenSolver N) (he : eig.Correct) (ρ : FermionRep N M) (hρ : ρ.Lawful) (T : Torus S) (hT : ∀ μ, 3 ≤ T.ext μ)
    (κ csw : ℝ) (bc : String) (r : ℝ) (solveShift : GField S M → ℝ → SField S M → SField S M) (ps : ℕ → List (PseudoFermion S M))
    (hs : ∀ k, ∀ p ∈ ps k, ∀ β ∈ p.betas, 0 < β ∧
      ∀ L, improvedMul T L κ csw true (improvedMul T L κ csw true (solveShift L β p.φ)) + β • solveShift L β p.φ = p.φ)
    (gaugeEnergy : GField S N → ℝ) (gaugeForce : GField S N → GField S N)
    (hg : Conservative Set.univ gaugeEnergy (fun _ : Unit => gaugeForce) [()])
    (name : String) (p : ℕ) (hname : integratorOrder name = some p) (h4 : name ≠ "fourth_omelyan") (levels : ℕ) (steps : List ℕ)
    (fs : List NFlavorForce × List ℕ) (hfs : nFlavorForces levels steps = .ok fs) (l : ℝ → List (MdOp NFlavorForce))
    (hl : ∀ t, mdIntegrate name fs.1 fs.2 t = .ok (l t)) (U P : GField S N) (hU : ∀ s μ, U s μ * (U s μ)ᴴ = 1 ∨ U s μ = 0)
    (hopen : bc = "open" → switchOpenBc T.ext T.coord U = U) (hP : ∀ s μ, IsLie (P s μ)) :
    let energy := fun U => gaugeEnergy U + ∑ k ∈ Finset.range (levelsUsed steps.length),
      nFlavorFermionEnergy solveShift (smearedFermionLinks ρ T bc 1 r U) (ps k)
    let force := nFlavorForce (fun k U => (nFlavorSmearedForce (fun f => deriv f 0) ρ T (fun L => improvedMul T L κ csw true)
      (improvedDerivative T κ csw) solveShift bc 1 r (smearedFermionLinks ρ T bc 1 r U) U (ps k)).getD 0) gaugeForce
    (fun t : ℝ => totalEnergy energy (mdRun (eigenLink eig) force (l t) (U, P)) - totalEnergy energy (U, P)) =O[𝓝 0] fun t => t ^ (p + 1) :=
  smeared_order eig he ρ hρ T hT (clover_isDirac T κ csw) (clover_isLinkDerivative T κ csw) bc r solveShift ps hs gaugeEnergy gaugeForce hg name p hname h4
    levels steps fs hfs l hl U P ⟨hU, hopen⟩ hP

omit [Fintype S] in
/-- **C69**, counterexample: with two or more levels of smearing, which the configuration accepts, the program ends at the first force. -/
theorem C69_levels_counterexample (diff : (ℝ → ℝ) → ℝ) (ρ : FermionRep N M) (T : Torus S) (mul : GField S M → SField S M → SField S M)
    (deriv' : GField S M → SField S M → SField S M → S → Fin 4 → Mat M) (solveShift : GField S M → ℝ → SField S M → SField S M) (bc : String)
    (levels : ℕ) (hl : 2 ≤ levels) (r : ℝ) (L : GField S M) (U : GField S N) (ps : List (PseudoFermion S M)) :
    nFlavorSmearedForce diff ρ T mul deriv' solveShift bc levels r L U ps = none := by
  obtain ⟨k, rfl⟩ : ∃ k, levels = k + 2 := ⟨levels - 2, by omega⟩
  rfl

end Leonard
