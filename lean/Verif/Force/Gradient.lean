import Verif.Force.Wilson

/-!
# The force is the gradient
-/

set_option autoImplicit false

namespace Leonard

open Matrix
open scoped ContDiff Topology Matrix.Norms.Operator

variable {S : Type} [Fintype S] {N M : ℕ}

/-! ### Boundary conditions -/

/-- With open boundary conditions, `Environment::synchronize` has cut the gauge links. -/
def Synchronized (T : Torus S) (bc : String) (U : GField S N) : Prop := bc = "open" → switchOpenBc T.ext T.coord U = U

theorem bcFactor_cases (T : Torus S) (bc : String) (s : S) (μ : Fin 4) :
    bcFactor T bc s μ = 1 ∨ bcFactor T bc s μ = -1 ∨ (bc = "open" ∧ bcFactor T bc s μ = 0) := by
  unfold bcFactor synchronizeBc
  split
  · unfold switchAntiperiodicBc; split_ifs <;> simp
  · unfold switchSpatialAntiperiodicBc; split_ifs <;> simp
  · simp
  · unfold switchOpenBc; split_ifs <;> simp
  · unfold switchAntiperiodicBc; split_ifs <;> simp

theorem bcFactor_periodic (T : Torus S) (s : S) (μ : Fin 4) : bcFactor T "fermion_periodic" s μ = 1 := rfl

/-- With open boundary conditions the fermions see the representation of the gauge links. -/
theorem fermionLinks_open (ρ : FermionRep N M) (hρ : ρ.Lawful) (T : Torus S) (U : GField S N) (hU : Synchronized T "open" U) :
    fermionLinks ρ T "open" U = fun s μ => ρ.link (U s μ) := by
  funext s μ
  have h : switchOpenBc T.ext T.coord U s μ = U s μ := by rw [hU rfl]
  change switchOpenBc T.ext T.coord (fun s μ => ρ.link (U s μ)) s μ = ρ.link (U s μ)
  unfold switchOpenBc at h ⊢
  split_ifs at h ⊢
  · rw [← h, hρ.zero]
  · rw [← h, hρ.zero]
  · rfl
  · rfl

theorem unitaryOrCut_links (ρ : FermionRep N M) (hρ : ρ.Lawful) (T : Torus S) (bc : String) (U : GField S N)
    (hU : ∀ s μ, UnitaryOrCut (U s μ)) (s : S) (μ : Fin 4) : UnitaryOrCut (fermionLinks ρ T bc U s μ) := by
  rw [fermionLinks_eq]
  rcases hU s μ with h | h
  · have h1 := hρ.unitary _ h
    rcases bcFactor_cases T bc s μ with e | e | ⟨_, e⟩
    · rw [e, one_smul]; exact Or.inl h1
    · rw [e]; left
      rw [conjTranspose_smul, Matrix.smul_mul, Matrix.mul_smul, h1, smul_smul]
      simp
    · rw [e, zero_smul]; exact Or.inr rfl
  · rw [h, hρ.zero, smul_zero]; exact Or.inr rfl

/-- The sign that the action of any number of flavours puts on the link derivative. -/
noncomputable def forceFactor (T : Torus S) (bc : String) (s : S) (μ : Fin 4) : ℝ := if bc = "open" then 1 else bcFactor T bc s μ

theorem nFlavorBc_eq (T : Torus S) (bc : String) (F : GField S M) (s : S) (μ : Fin 4) :
    nFlavorBc T.ext T.coord (some bc) F s μ = forceFactor T bc s μ • F s μ := by
  have ha : ∀ G : GField S M, switchAntiperiodicBc T.ext T.coord G s μ = switchAntiperiodicBc T.ext T.coord (fun _ _ => (1 : ℝ)) s μ • G s μ := by
    intro G
    unfold switchAntiperiodicBc
    split_ifs with h1 h2 <;> simp [*]
  by_cases g1 : bc = "fermion_antiperiodic"
  · subst g1; exact ha F
  by_cases g2 : bc = "fermion_spatial_antiperiodic"
  · subst g2
    change switchSpatialAntiperiodicBc T.ext T.coord F s μ = switchSpatialAntiperiodicBc T.ext T.coord (fun _ _ => (1 : ℝ)) s μ • F s μ
    unfold switchSpatialAntiperiodicBc
    split_ifs with h1 h2 <;> simp [*]
  by_cases g3 : bc = "fermion_periodic"
  · subst g3; exact (one_smul ℝ (F s μ)).symm
  by_cases g4 : bc = "open"
  · subst g4; exact (one_smul ℝ (F s μ)).symm
  have e1 : nFlavorBc T.ext T.coord (some bc) F = switchAntiperiodicBc T.ext T.coord F := by
    unfold nFlavorBc
    split <;> simp_all
  have e2 : forceFactor T bc s μ = switchAntiperiodicBc T.ext T.coord (fun _ _ => (1 : ℝ)) s μ := by
    unfold forceFactor bcFactor synchronizeBc
    rw [if_neg g4]
    split <;> simp_all
  rw [e1, e2, ha]

theorem forceFactor_link (ρ : FermionRep N M) (hρ : ρ.Lawful) (T : Torus S) (bc : String) (U : GField S N) (hU : Synchronized T bc U)
    (s : S) (μ : Fin 4) : forceFactor T bc s μ • ρ.link (U s μ) = fermionLinks ρ T bc U s μ := by
  unfold forceFactor
  split
  · rename_i h; subst h
    rw [fermionLinks_open ρ hρ T U hU, one_smul]
  · rw [fermionLinks_eq]

/-! ### Forces -/

theorem linkForce_smul (ρ : FermionRep N M) (U : GField S N) (D : Mat M) (s : S) (μ : Fin 4) (c : ℝ) :
    linkForce ρ U (c • D) s μ = ∑ i, (-Complex.I * ((trace (D * ρ.gen i * (c • ρ.link (U s μ)))).im : ℂ)) • gens N i := by
  unfold linkForce
  refine Finset.sum_congr rfl fun i _ => ?_
  rw [Matrix.smul_mul, Matrix.smul_mul, Matrix.mul_smul]

variable {mul : GField S M → SField S M → SField S M} {A : GField S M → Op (SField S M)}
  {deriv : GField S M → SField S M → SField S M → S → Fin 4 → Mat M}

theorem norm_pos_form {v : SField S M} (h : rdot v v = 0) : v = 0 := by
  rw [rdot_self] at h
  exact (C34_dot v v).2.2.1.1 h

theorem rdot_nonneg (v : SField S M) : 0 ≤ rdot v v := by
  rw [rdot_self]; exact (C34_dot v v).2.1

/-- The squared operator with a positive shift is invertible. -/
theorem isUnit_shift (hA : SmoothSymm rdotB A) (L : GField S M) {β : ℝ} (hβ : 0 < β) : IsUnit (shiftOp (A L) β) := by
  refine isUnit_of_injective _ ?_
  refine (injective_iff_map_eq_zero _).2 fun v hv => ?_
  rw [shiftOp_apply] at hv
  have h1 : rdot v (A L (A L v) + β • v) = rdot (A L v) (A L v) + β * rdot v v := by
    rw [rdot_add, rdot_smul]
    congr 1
    exact hA.symm L v (A L v)
  rw [hv] at h1
  have h0 : rdot v (0 : SField S M) = 0 := by
    have := rdot_smul 0 v v
    rwa [zero_smul, zero_mul] at this
  rw [h0] at h1
  have h2 := rdot_nonneg (A L v)
  have h3 := rdot_nonneg v
  refine norm_pos_form ?_
  nlinarith [mul_nonneg hβ.le h3]

/-- What the multishift solver returns, when it solves exactly. -/
theorem solveShift_eq (hA : IsDirac mul A) {L : GField S M} {β : ℝ} (hβ : 0 < β) {x φ : SField S M} (h : mul L (mul L x) + β • x = φ) :
    x = Ring.inverse (shiftOp (A L) β) φ := by
  have hu := isUnit_shift hA.family L hβ
  have h1 : shiftOp (A L) β x = φ := by rw [shiftOp_apply, hA.apply, hA.apply, h]
  rw [← h1, apply_isUnit hu]

theorem solve_eq (hA : IsDirac mul A) {L : GField S M} (hL : Function.Injective (mul L)) {x φ : SField S M} (h : mul L x = φ) :
    IsUnit (A L) ∧ x = Ring.inverse (A L) φ := by
  have hu : IsUnit (A L) := isUnit_of_injective _ fun v w e => hL (by rw [← hA.apply, ← hA.apply, e])
  refine ⟨hu, ?_⟩
  rw [← h, ← hA.apply, apply_isUnit hu]

/-- The force of two flavours is the gradient, up to the sign of the boundary conditions. -/
theorem twoFlavor_force_eq (ρ : FermionRep N M) (hρ : ρ.Lawful) (T : Torus S) (bc : String) (hA : IsDirac mul A) (hd : IsLinkDerivative A deriv)
    (solve : GField S M → SField S M → SField S M) (φ : SField S M) (U : GField S N) (hU : ∀ s μ, UnitaryOrCut (U s μ))
    (hsync : Synchronized T bc U) (hinj : Function.Injective (mul (fermionLinks ρ T bc U)))
    (hsolve : ∀ v, mul (fermionLinks ρ T bc U) (solve (fermionLinks ρ T bc U) v) = v) (s : S) (μ : Fin 4) :
    twoFlavorUpdateForce ρ deriv solve (fermionLinks ρ T bc U) U φ s μ =
      forceFactor T bc s μ • gradField ρ (fermionLinks ρ T bc U) (normForm rdotB A φ (fermionLinks ρ T bc U)) s μ := by
  have hl := forceFactor_link ρ hρ T bc U hsync s μ
  have hv := unitaryOrCut_links ρ hρ T bc U hU
  generalize fermionLinks ρ T bc U = L at *
  have hs : ∀ v, solve L v = Ring.inverse (A L) v := fun v => (solve_eq hA hinj (hsolve v)).2
  have hc : forceFactor T bc s μ * forceFactor T bc s μ = 1 := by
    unfold forceFactor
    split
    · norm_num
    · rename_i h
      rcases bcFactor_cases T bc s μ with e | e | ⟨h2, _⟩
      · rw [e]; norm_num
      · rw [e]; norm_num
      · exact absurd h2 h
  have hl2 : ρ.link (U s μ) = forceFactor T bc s μ • L s μ := by rw [← hl, smul_smul, hc, one_smul]
  unfold twoFlavorUpdateForce linkForce gradField
  simp only [hs]
  rw [← Finset.sum_neg_distrib, Finset.smul_sum]
  refine Finset.sum_congr rfl fun i _ => ?_
  rw [hl2, Matrix.mul_smul, trace_smul, ← neg_smul, ← Complex.coe_smul (forceFactor T bc s μ) (_ • gens N i), smul_smul]
  congr 1
  have h1 := hd L (Ring.inverse (A L) (Ring.inverse (A L) φ)) (Ring.inverse (A L) φ) s μ (ρ.gen i) hv (hρ.hermitian i)
  have h2 : normForm rdotB A φ L (oneLink s μ (Complex.I • (ρ.gen i * L s μ))) =
    -2 * rdot (Ring.inverse (A L) (Ring.inverse (A L) φ)) (fderiv ℝ A L (oneLink s μ (Complex.I • (ρ.gen i * L s μ))) (Ring.inverse (A L) φ)) := rfl
  rw [← h2] at h1
  rw [Complex.smul_im, h1, smul_eq_mul]
  push_cast
  ring

theorem nFlavorTerm_sum (solveShift : GField S M → ℝ → SField S M → SField S M) (L : GField S M) (ps : List (PseudoFermion S M)) (s : S)
    (μ : Fin 4) : (ps.map fun p => nFlavorTerm mul deriv solveShift L p s μ).sum =
      ((shiftTerms ps).map fun t => -((t.2.1 : ℂ) • deriv L (solveShift L t.2.2 t.1) (mul L (solveShift L t.2.2 t.1)) s μ)).sum := by
  unfold shiftTerms
  induction ps with
  | nil => rfl
  | cons p ps ih =>
    rw [List.map_cons, List.sum_cons, ih, List.flatMap_cons, List.map_append, List.sum_append]
    congr 1
    unfold nFlavorTerm
    rw [List.map_map]
    rfl

theorem mem_shiftTerms {ps : List (PseudoFermion S M)} {t : SField S M × ℝ × ℝ} (h : t ∈ shiftTerms ps) :
    ∃ p ∈ ps, t.1 = p.φ ∧ t.2.2 ∈ p.betas := by
  unfold shiftTerms at h
  rw [List.mem_flatMap] at h
  obtain ⟨p, hp, h⟩ := h
  rw [List.mem_map] at h
  obtain ⟨ab, hab, e⟩ := h
  refine ⟨p, hp, by rw [← e], ?_⟩
  rw [← e]
  exact (List.of_mem_zip hab).2

/-- The solver solves the shifted equations of all pseudofermions, and the shifts are positive. -/
def SolvesShifts (mul : GField S M → SField S M → SField S M) (solveShift : GField S M → ℝ → SField S M → SField S M)
    (ps : List (PseudoFermion S M)) : Prop :=
  ∀ p ∈ ps, ∀ β ∈ p.betas, 0 < β ∧ ∀ L, mul L (mul L (solveShift L β p.φ)) + β • solveShift L β p.φ = p.φ

/-- The link derivative of any number of flavours is the change of the energy. -/
theorem nFlavor_component (ρ : FermionRep N M) (hρ : ρ.Lawful) (T : Torus S) (bc : String) (hA : IsDirac mul A) (hd : IsLinkDerivative A deriv)
    (solveShift : GField S M → ℝ → SField S M → SField S M) (ps : List (PseudoFermion S M)) (hs : SolvesShifts mul solveShift ps)
    (U : GField S N) (hU : ∀ s μ, UnitaryOrCut (U s μ)) (hsync : Synchronized T bc U) (s : S) (μ : Fin 4) (i : Fin (lieGenerators N).length) :
    (trace (nFlavorBc T.ext T.coord (some bc) (fun s μ => (ps.map fun p => nFlavorTerm mul deriv solveShift (fermionLinks ρ T bc U) p s μ).sum) s μ
      * ρ.gen i * ρ.link (U s μ))).im =
      -nFlavorForm A (shiftTerms ps) (fermionLinks ρ T bc U) (oneLink s μ (Complex.I • (ρ.gen i * fermionLinks ρ T bc U s μ))) := by
  have hl := forceFactor_link ρ hρ T bc U hsync s μ
  have hv := unitaryOrCut_links ρ hρ T bc U hU
  generalize fermionLinks ρ T bc U = L at *
  rw [nFlavorBc_eq, Matrix.smul_mul, Matrix.smul_mul, ← Matrix.mul_smul, hl, nFlavorTerm_sum, nFlavorForm_apply]
  have ht : ∀ t ∈ shiftTerms ps, 0 < t.2.2 ∧ solveShift L t.2.2 t.1 = Ring.inverse (shiftOp (A L) t.2.2) t.1 := by
    intro t ht
    obtain ⟨p, hp, e, hb⟩ := mem_shiftTerms ht
    obtain ⟨h0, h1⟩ := hs p hp _ hb
    refine ⟨h0, ?_⟩
    rw [e]
    exact solveShift_eq hA h0 (h1 L)
  have key : ∀ l : List (SField S M × ℝ × ℝ), (∀ t ∈ l, 0 < t.2.2 ∧ solveShift L t.2.2 t.1 = Ring.inverse (shiftOp (A L) t.2.2) t.1) →
      (trace ((l.map fun t => -((t.2.1 : ℂ) • deriv L (solveShift L t.2.2 t.1) (mul L (solveShift L t.2.2 t.1)) s μ)).sum * ρ.gen i * L s μ)).im =
        -(l.map fun t => t.2.1 * shiftForm rdotB A t.1 t.2.2 L (oneLink s μ (Complex.I • (ρ.gen i * L s μ)))).sum := by
    intro l hl
    induction l with
    | nil => simp
    | cons t l ih =>
      rw [List.map_cons, List.sum_cons, List.map_cons, List.sum_cons, Matrix.add_mul, Matrix.add_mul, trace_add, Complex.add_im,
        ih fun t ht => hl t (by simp [ht])]
      rw [Matrix.neg_mul, Matrix.neg_mul, trace_neg, Complex.neg_im, Matrix.smul_mul, Matrix.smul_mul, trace_smul, smul_eq_mul, Complex.im_ofReal_mul,
        hd L _ _ s μ (ρ.gen i) hv (hρ.hermitian i), (hl t (by simp)).2, ← hA.apply]
      have h2 : shiftForm rdotB A t.1 t.2.2 L (oneLink s μ (Complex.I • (ρ.gen i * L s μ))) =
        -2 * rdot (Ring.inverse (shiftOp (A L) t.2.2) t.1)
          (fderiv ℝ A L (oneLink s μ (Complex.I • (ρ.gen i * L s μ))) (A L (Ring.inverse (shiftOp (A L) t.2.2) t.1))) := rfl
      rw [← h2]
      ring
  exact key _ ht

/-- The force of any number of flavours is the gradient. -/
theorem nFlavor_force_eq (ρ : FermionRep N M) (hρ : ρ.Lawful) (T : Torus S) (bc : String) (hA : IsDirac mul A) (hd : IsLinkDerivative A deriv)
    (solveShift : GField S M → ℝ → SField S M → SField S M) (ps : List (PseudoFermion S M)) (hs : SolvesShifts mul solveShift ps)
    (U : GField S N) (hU : ∀ s μ, UnitaryOrCut (U s μ)) (hsync : Synchronized T bc U) (s : S) (μ : Fin 4) :
    nFlavorUpdateForce ρ T mul deriv solveShift bc (fermionLinks ρ T bc U) U ps s μ =
      gradField ρ (fermionLinks ρ T bc U) (nFlavorForm A (shiftTerms ps) (fermionLinks ρ T bc U)) s μ := by
  unfold nFlavorUpdateForce gradField linkForce
  refine Finset.sum_congr rfl fun i _ => ?_
  congr 1
  rw [nFlavor_component ρ hρ T bc hA hd solveShift ps hs U hU hsync s μ i]
  push_cast
  ring

theorem latticeDot_list (φ : SField S M) (l : List (ℝ × SField S M)) :
    (latticeDot φ (l.map fun t => (t.1 : ℂ) • t.2).sum).re = (l.map fun t => t.1 * rdot φ t.2).sum := by
  change rdot φ _ = _
  induction l with
  | nil =>
    have := rdot_smul 0 φ φ
    rwa [zero_smul, zero_mul] at this
  | cons t l ih =>
    rw [List.map_cons, List.sum_cons, List.map_cons, List.sum_cons, rdot_add, ih]
    congr 1
    exact rdot_smul t.1 φ t.2

/-- The energy of any number of flavours. -/
theorem nFlavor_energy_eq (hA : IsDirac mul A) (solveShift : GField S M → ℝ → SField S M → SField S M) (ps : List (PseudoFermion S M))
    (hs : SolvesShifts mul solveShift ps) (L : GField S M) : nFlavorFermionEnergy solveShift L ps = shiftEnergy A (shiftTerms ps) L := by
  unfold nFlavorFermionEnergy shiftEnergy shiftTerms
  induction ps with
  | nil => rfl
  | cons p ps ih =>
    rw [List.map_cons, List.sum_cons, ih fun p hp => hs p (by simp [hp]), List.flatMap_cons, List.map_append, List.sum_append]
    congr 1
    have h1 := latticeDot_list p.φ ((p.alphas.zip p.betas).map fun ab => (ab.1, solveShift L ab.2 p.φ))
    rw [List.map_map, List.map_map] at h1
    rw [List.map_map]
    refine h1.trans ?_
    congr 1
    refine List.map_congr_left fun ab hab => ?_
    obtain ⟨h0, h2⟩ := hs p (by simp) ab.2 (List.of_mem_zip hab).2
    change ab.1 * rdot p.φ (solveShift L ab.2 p.φ) = ab.1 * rdotB p.φ (Ring.inverse (shiftOp (A L) ab.2) p.φ)
    rw [← solveShift_eq hA h0 (h2 L), rdotB_apply]

end Leonard
