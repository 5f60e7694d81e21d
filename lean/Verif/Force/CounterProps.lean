import Verif.Force.Props

/-!
# C55: the force of two flavours with antiperiodic boundary conditions
-/

set_option autoImplicit false

namespace Leonard

open Matrix Filter
open scoped ContDiff Topology Matrix.Norms.Operator

variable {S : Type} [Fintype S] {N M : ℕ}

theorem hopLin_kappa (T : Torus S) (κ : ℝ) (L : GField S M) (v : SField S M) : hopLin T κ L v = κ • hopLin T 1 L v := by
  rw [hopLin_apply, hopLin_apply, smul_smul]
  congr 1
  ring

theorem gamma5_gammas (μ : Fin 4) : tabGamma5Minus μ * tabGamma5 = 1 + tabGamma μ ∧ tabGamma5Plus μ * tabGamma5 = 1 - tabGamma μ := by
  have h := C32_gamma5.2.2.2.1 μ
  have h5 := C32_gamma5.2.2.1
  have h2 : tabGamma μ * tabGamma5 = -(tabGamma5 * tabGamma μ) := by rw [h, neg_neg]
  rw [(C32_derived μ μ).1, (C32_derived μ μ).2.1, Matrix.mul_assoc, Matrix.mul_assoc, Matrix.sub_mul, Matrix.add_mul, h2, one_mul,
    Matrix.mul_sub, Matrix.mul_add, Matrix.mul_neg, ← Matrix.mul_assoc, h5, one_mul, sub_neg_eq_add, ← sub_eq_add_neg]
  exact ⟨rfl, rfl⟩

/-- The first order in the hopping parameter. -/
theorem hop_first_order (T : Torus S) (X : SField S M) (s : S) (μ : Fin 4) (V : Mat M) :
    rdot X (hopLin T 1 (oneLink s μ V) (gamma5Field X)) = -2 * (trace ((X s)ᴴ * (X (T.sup μ s) * Vᵀ))).re := by
  rw [rdot_hop_oneLink]
  have g := gamma5_gammas μ
  have h1 : (X s)ᴴ * (tabGamma5Minus μ * (gamma5Field X (T.sup μ s) * Vᵀ)) = (X s)ᴴ * ((1 + tabGamma μ) * (X (T.sup μ s) * Vᵀ)) := by
    simp only [gamma5Field, ← Matrix.mul_assoc]
    rw [Matrix.mul_assoc (X s)ᴴ, g.1]
  have h2 : starRingEnd ℂ (trace ((X (T.sup μ s))ᴴ * (tabGamma5Plus μ * (gamma5Field X s * (Vᴴ)ᵀ)))) =
      trace ((X s)ᴴ * ((1 - tabGamma μ) * (X (T.sup μ s) * Vᵀ))) := by
    have e : (X (T.sup μ s))ᴴ * (tabGamma5Plus μ * (gamma5Field X s * (Vᴴ)ᵀ)) = (X (T.sup μ s))ᴴ * ((1 - tabGamma μ) * (X s * (Vᴴ)ᵀ)) := by
      simp only [gamma5Field, ← Matrix.mul_assoc]
      rw [Matrix.mul_assoc (X (T.sup μ s))ᴴ, g.2]
    rw [e, conj_trace]
    simp only [conjTranspose_mul, conjTranspose_conjTranspose, conjTranspose_sub, conjTranspose_one, (C32_clifford μ μ).2]
    rw [show ((Vᴴ)ᵀ)ᴴ = Vᵀ from by ext i j; simp [conjTranspose_apply, transpose_apply], Matrix.mul_assoc, Matrix.mul_assoc, trace_mul_comm]
    simp only [Matrix.mul_assoc]
  rw [Complex.add_re, ← Complex.conj_re (trace ((X (T.sup μ s))ᴴ * _)), h2, h1, ← Complex.add_re, ← trace_add, ← Matrix.mul_add, ← Matrix.add_mul]
  rw [show (1 + tabGamma μ + (1 - tabGamma μ) : SpinMat) = (2 : ℂ) • 1 by rw [two_smul]; abel, Matrix.smul_mul, Matrix.one_mul, Matrix.mul_smul, trace_smul]
  simp only [smul_eq_mul, Complex.mul_re, Complex.re_ofNat, Complex.im_ofNat]
  ring

open Classical in
/-- A field on two sites. -/
noncomputable def twoSites (s s' : S) (a b : Fin M) (z : ℂ) : SField S M := fun x =>
  if x = s then Matrix.single 0 a 1 else if x = s' then Matrix.single 0 b z else 0

theorem hop_two_sites_ne (T : Torus S) (s : S) (μ : Fin 4) (hs : T.sup μ s ≠ s) (V : Mat M) (a b : Fin M) (hab : V a b ≠ 0) :
    rdot (twoSites s (T.sup μ s) a b (starRingEnd ℂ (V a b))) (hopLin T 1 (oneLink s μ V)
      (gamma5Field (twoSites s (T.sup μ s) a b (starRingEnd ℂ (V a b))))) ≠ 0 := by
  rw [hop_first_order]
  have h1 : twoSites s (T.sup μ s) a b (starRingEnd ℂ (V a b)) s = Matrix.single 0 a 1 := if_pos rfl
  have h2 : twoSites s (T.sup μ s) a b (starRingEnd ℂ (V a b)) (T.sup μ s) = Matrix.single 0 b (starRingEnd ℂ (V a b)) := by
    unfold twoSites
    rw [if_neg hs, if_pos rfl]
  rw [h1, h2, Matrix.conjTranspose_single, ← Matrix.mul_assoc, Matrix.single_mul_single_same, Matrix.trace_single_mul]
  simp only [star_one, one_mul, transpose_apply]
  change -2 * (starRingEnd ℂ (V a b) * V a b).re ≠ 0
  rw [← Complex.normSq_eq_conj_mul_self]
  simpa using hab

theorem hop_first_order_ne (T : Torus S) (s : S) (μ : Fin 4) (hs : T.sup μ s ≠ s) (V : Mat M) (hV : V ≠ 0) :
    ∃ X : SField S M, rdot X (hopLin T 1 (oneLink s μ V) (gamma5Field X)) ≠ 0 := by
  obtain ⟨a, b, hab⟩ : ∃ a b, V a b ≠ 0 := by
    by_contra h
    push Not at h
    exact hV (by ext a b; simpa using h a b)
  exact ⟨_, hop_two_sites_ne T s μ hs V a b hab⟩

/-- Operators near one that is invertible. -/
theorem eventually_isUnit (T : Torus S) (L : GField S M) : ∀ᶠ κ in 𝓝 (0 : ℝ), IsUnit (wilsonFamily T κ L) := by
  have h0 : IsUnit (wilsonFamily T 0 L) := by
    refine isUnit_of_injective _ fun v w e => ?_
    have h : ∀ v : SField S M, wilsonFamily T 0 L v = gamma5Field v := by
      intro v
      change gamma5Field v + hopLin T 0 L v = gamma5Field v
      rw [hopLin_kappa, zero_smul, add_zero]
    rw [h, h] at e
    have h5 : ∀ v : SField S M, gamma5Field (gamma5Field v) = v := by
      intro v; funext x
      simp only [gamma5Field, ← Matrix.mul_assoc, C32_gamma5.2.2.1, Matrix.one_mul]
    rw [← h5 v, e, h5]
  have hc : Continuous fun κ : ℝ => wilsonFamily T κ L := by
    have e : (fun κ : ℝ => wilsonFamily T κ L) = fun κ => wilsonFamily T 0 L + κ • linOp (hopLin T 1) L := by
      funext κ
      refine ContinuousLinearMap.ext fun v => ?_
      change gamma5Field v + hopLin T κ L v = (gamma5Field v + hopLin T 0 L v) + κ • hopLin T 1 L v
      rw [hopLin_kappa T κ, hopLin_kappa T 0, zero_smul, add_zero]
    rw [e]
    exact continuous_const.add (continuous_id.smul continuous_const)
  exact hc.continuousAt.eventually_mem (Units.isOpen.mem_nhds h0)

/-- A change of the energy that is not zero, for small hopping parameters. -/
theorem normForm_ne (T : Torus S) (L V : GField S M) (X : SField S M) (hX : rdot X (hopLin T 1 V (gamma5Field X)) ≠ 0) :
    ∃ κ : ℝ, κ ≠ 0 ∧ IsUnit (wilsonFamily T κ L) ∧ ∃ φ : SField S M, normForm rdotB (wilsonFamily T κ) φ L V ≠ 0 := by
  have h1 : ∀ᶠ κ : ℝ in 𝓝 0, rdot X (hopLin T 1 V (gamma5Field X)) + κ * rdot X (hopLin T 1 V (hopLin T 1 L X)) ≠ 0 := by
    have hc : Continuous fun κ : ℝ => rdot X (hopLin T 1 V (gamma5Field X)) + κ * rdot X (hopLin T 1 V (hopLin T 1 L X)) := by
      fun_prop
    refine hc.continuousAt.eventually_ne ?_
    rw [zero_mul, add_zero]
    exact hX
  have h2 : ∀ᶠ κ : ℝ in 𝓝[≠] 0, κ ≠ 0 := eventually_mem_nhdsWithin
  obtain ⟨κ, h0, hu, hne⟩ := (h2.and (((eventually_isUnit T L).and h1).filter_mono nhdsWithin_le_nhds)).exists
  refine ⟨κ, h0, hu, wilsonFamily T κ L (wilsonFamily T κ L X), ?_⟩
  have e : normForm rdotB (wilsonFamily T κ) (wilsonFamily T κ L (wilsonFamily T κ L X)) L V =
      -2 * (κ * (rdot X (hopLin T 1 V (gamma5Field X)) + κ * rdot X (hopLin T 1 V (hopLin T 1 L X)))) := by
    have hf : ∀ v, fderiv ℝ (wilsonFamily T κ) L V v = hopLin T κ V v := fun v => fderiv_affineOp _ _ _ _ _
    change -2 * rdot (Ring.inverse (wilsonFamily T κ L) (Ring.inverse (wilsonFamily T κ L) (wilsonFamily T κ L (wilsonFamily T κ L X))))
      (fderiv ℝ (wilsonFamily T κ) L V (Ring.inverse (wilsonFamily T κ L) (wilsonFamily T κ L (wilsonFamily T κ L X)))) = _
    rw [apply_isUnit hu, apply_isUnit hu, hf]
    change -2 * rdot X (hopLin T κ V (gamma5Field X + hopLin T κ L X)) = _
    rw [map_add, hopLin_kappa T κ, hopLin_kappa T κ, hopLin_kappa T κ L, map_smul, rdot_add, rdot_smul, rdot_smul, rdot_smul]
    ring
  rw [e]
  exact mul_ne_zero (by norm_num) (mul_ne_zero h0 hne)

/-- A gradient that is not zero, for small hopping parameters. -/
theorem gradField_ne (T : Torus S) (L : GField S M) (s : S) (μ : Fin 4) (hs : T.sup μ s ≠ s) (V : Mat M) (hV : V ≠ 0) :
    ∃ κ : ℝ, κ ≠ 0 ∧ IsUnit (wilsonFamily T κ L) ∧ ∃ φ : SField S M, normForm rdotB (wilsonFamily T κ) φ L (oneLink s μ V) ≠ 0 := by
  obtain ⟨X, hX⟩ := hop_first_order_ne T s μ hs V hV
  exact normForm_ne T L _ X hX

theorem trace_gens_sum (f : Fin (lieGenerators N).length → ℝ) :
    (trace ((∑ i, (Complex.I * (f i : ℂ)) • gens N i) * ∑ i, (Complex.I * (f i : ℂ)) • gens N i)).re = -(1 / 2) * ∑ i, f i ^ 2 := by
  have hg := C30_generators N
  simp only [Finset.sum_mul, Finset.mul_sum, trace_sum, Matrix.smul_mul, Matrix.mul_smul, trace_smul, hg.orthonormal]
  rw [Complex.re_sum]
  refine Finset.sum_congr rfl fun i _ => ?_
  rw [Finset.sum_eq_single i]
  · simp only [if_true, smul_eq_mul]
    rw [show Complex.I * (f i : ℂ) * (Complex.I * (f i : ℂ) * (1 / 2)) = ((-(1 / 2) * f i ^ 2 : ℝ) : ℂ) by
      push_cast
      rw [show Complex.I * (f i : ℂ) * (Complex.I * (f i : ℂ) * (1 / 2)) = Complex.I * Complex.I * ((f i : ℂ) ^ 2 / 2) by ring, Complex.I_mul_I]
      ring]
    exact Complex.ofReal_re _
  · intro j _ hj
    simp [hj, Ne.symm hj]
  · simp

/-- **C55**, two flavours, counterexample: with antiperiodic boundary conditions (the default) the force on the links that cross the boundary
has the wrong sign.  On every lattice with a site in the last time slice that is not its own neighbour in time, for every number of colours
greater than one, there are a hopping parameter, a pseudofermion field and momenta for which, at the identity links, with an invertible
Dirac operator and an exact solver, the total energy changes along the motion at a rate that is not zero. -/
theorem C55_two_flavor_counterexample (T : Torus S) (s : S) (hs : T.coord s 3 + 1 = T.ext 3) (hn : T.sup 3 s ≠ s) (hN : 2 ≤ N) :
    ∃ (κ : ℝ) (φ : SField S N) (P : GField S N), (∀ s μ, IsLie (P s μ)) ∧
      Function.Injective (optMul T (fermionLinks (fundamentalRep N) T "fermion_antiperiodic" fun _ _ => 1) κ true) ∧
      ∀ solve : GField S N → SField S N → SField S N,
        (∀ L v, Function.Injective (optMul T L κ true) → optMul T L κ true (solve L v) = v) →
        ∃ rate : ℝ, rate ≠ 0 ∧ HasDerivAt (fun t : ℝ => totalEnergy
          (fun U => twoFlavorFermionEnergy solve (fermionLinks (fundamentalRep N) T "fermion_antiperiodic" U) φ)
          (fun s μ => NormedSpace.exp (t • P s μ) * 1, fun s μ => P s μ - (t : ℂ) •
            twoFlavorUpdateForce (fundamentalRep N) (wilsonDerivative T κ) solve
              (fermionLinks (fundamentalRep N) T "fermion_antiperiodic" fun _ _ => 1) (fun _ _ => 1) φ s μ)) rate 0 := by
  classical
  have hlen : 0 < (lieGenerators N).length := by
    rw [C30_number N (by omega)]
    have : 2 ^ 2 ≤ N ^ 2 := Nat.pow_le_pow_left hN 2
    omega
  set i0 : Fin (lieGenerators N).length := ⟨0, hlen⟩
  set L := fermionLinks (fundamentalRep N) T "fermion_antiperiodic" fun _ _ => (1 : Mat N) with hL
  have hb : bcFactor T "fermion_antiperiodic" s 3 = -1 := by
    change switchAntiperiodicBc T.ext T.coord (fun _ _ => (1 : ℝ)) s 3 = -1
    unfold switchAntiperiodicBc
    rw [if_pos (by omega), if_pos rfl]
  have hLs : L s 3 = -1 := by
    rw [hL, fermionLinks_eq, hb]
    change (-1 : ℝ) • (1 : Mat N) = -1
    simp
  have hV : Complex.I • (gens N i0 * L s 3) ≠ 0 := by
    intro h
    rw [hLs, Matrix.mul_neg, mul_one, smul_neg, neg_eq_zero] at h
    have h0 : gens N i0 = 0 := (smul_eq_zero.1 h).resolve_left Complex.I_ne_zero
    have := (C30_generators N).orthonormal i0 i0
    rw [h0] at this
    simp at this
  obtain ⟨κ, _, hu, φ, hφ⟩ := gradField_ne T L s 3 hn _ hV
  set g := gradField (fundamentalRep N) L (normForm rdotB (wilsonFamily T κ) φ L) with hg
  refine ⟨κ, φ, fun s' μ' => if s' = s ∧ μ' = 3 then g s 3 else 0, ?_, ?_, ?_⟩
  · intro s' μ'
    dsimp only
    split
    · exact isLie_gradField _ _ _ _ _
    · exact ⟨by simp, by simp⟩
  · exact (injective_iff_isUnit (wilson_isDirac T κ) L).2 hu
  · intro solve hsol
    have h := twoFlavor_deriv (fundamentalRep N) (fundamental_lawful N) T "fermion_antiperiodic" (wilson_isDirac T κ) (wilson_isLinkDerivative T κ)
      solve hsol φ (fun _ _ => 1) (fun s' μ' => if s' = s ∧ μ' = 3 then g s 3 else 0)
      ⟨fun _ _ => Or.inl (by simp), fun h => by simp at h⟩ ((injective_iff_isUnit (wilson_isDirac T κ) L).2 hu) (by
        intro s' μ'
        split
        · exact isLie_gradField _ _ _ _ _
        · exact ⟨by simp, by simp⟩)
    refine ⟨_, ?_, h⟩
    rw [Finset.sum_eq_single s, Finset.sum_eq_single 3]
    · have hf : forceFactor T "fermion_antiperiodic" s 3 = -1 := hb
      rw [hf, if_pos ⟨rfl, rfl⟩, ← hL, ← hg]
      have e : trace (g s 3 * g s 3) = trace ((∑ i, (Complex.I * (normForm rdotB (wilsonFamily T κ) φ L
        (oneLink s 3 (Complex.I • (gens N i * L s 3))) : ℂ)) • gens N i) * ∑ i, (Complex.I * (normForm rdotB (wilsonFamily T κ) φ L
        (oneLink s 3 (Complex.I • (gens N i * L s 3))) : ℂ)) • gens N i) := rfl
      rw [e, trace_gens_sum]
      have hpos : 0 < ∑ i, (normForm rdotB (wilsonFamily T κ) φ L (oneLink s 3 (Complex.I • (gens N i * L s 3)))) ^ 2 :=
        Finset.sum_pos' (fun i _ => sq_nonneg _) ⟨i0, Finset.mem_univ _, by positivity⟩
      nlinarith
    · intro μ' _ h'
      rw [if_neg fun e => h' e.2]; simp
    · simp
    · intro s' _ h'
      exact Finset.sum_eq_zero fun μ' _ => by rw [if_neg fun e => h' e.1]; simp
    · simp

/-- A lattice with two sites in each direction. -/
example : ∃ s, (boxTorus exExt exExt_pos).coord s 3 + 1 = (boxTorus exExt exExt_pos).ext 3 ∧ (boxTorus exExt exExt_pos).sup 3 s ≠ s := by
  decide

end Leonard
