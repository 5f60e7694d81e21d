import Verif.Force.Fields
import Verif.Order.Props

/-!
# Pseudofermion energies and their gradients
-/

set_option autoImplicit false

namespace Leonard

open Matrix
open scoped ContDiff Topology Matrix.Norms.Operator

variable {S : Type} [Fintype S] {N M : ℕ}

/-! ### The links seen by the fermions -/

/-- The factor that the boundary conditions put on a link. -/
def bcFactor (T : Torus S) (bc : String) (s : S) (μ : Fin 4) : ℝ := synchronizeBc T.ext T.coord bc (fun _ _ => (1 : ℝ)) s μ

theorem synchronizeBc_eq (T : Torus S) (bc : String) (F : GField S M) (s : S) (μ : Fin 4) :
    synchronizeBc T.ext T.coord bc F s μ = bcFactor T bc s μ • F s μ := by
  have ha : ∀ G : GField S M, switchAntiperiodicBc T.ext T.coord G s μ = switchAntiperiodicBc T.ext T.coord (fun _ _ => (1 : ℝ)) s μ • G s μ := by
    intro G
    unfold switchAntiperiodicBc
    split_ifs with h1 h2 <;> simp [*]
  unfold bcFactor synchronizeBc
  split
  · exact ha F
  · unfold switchSpatialAntiperiodicBc
    split_ifs with h1 h2 <;> simp [*]
  · simp
  · unfold switchOpenBc
    split_ifs <;> simp
  · exact ha F

theorem fermionLinks_eq (ρ : FermionRep N M) (T : Torus S) (bc : String) (U : GField S N) (s : S) (μ : Fin 4) :
    fermionLinks ρ T bc U s μ = bcFactor T bc s μ • ρ.link (U s μ) := synchronizeBc_eq T bc _ s μ

theorem contDiff_fermionLinks (ρ : FermionRep N M) (hρ : ρ.Lawful) (T : Torus S) (bc : String) :
    ContDiff ℝ ∞ fun U : GField S N => fermionLinks ρ T bc U := by
  refine contDiff_pi.2 fun s => contDiff_pi.2 fun μ => ?_
  simp only [fermionLinks_eq]
  exact (hρ.smooth.comp (contDiff_link s μ)).const_smul (bcFactor T bc s μ)

theorem hasDerivAt_fermionLinks (ρ : FermionRep N M) (hρ : ρ.Lawful) (T : Torus S) (bc : String) (U P : GField S N)
    (hP : ∀ s μ, IsLie (P s μ)) : HasDerivAt (fun t : ℝ => fermionLinks ρ T bc (moveLinks P U t))
      (linkVelocity ρ P (fermionLinks ρ T bc U)) 0 := by
  refine hasDerivAt_pi.2 fun s => hasDerivAt_pi.2 fun μ => ?_
  simp only [fermionLinks_eq, linkVelocity]
  refine HasDerivAt.congr_deriv ((hρ.deriv (P s μ) (U s μ) (hP s μ)).const_smul (bcFactor T bc s μ)) ?_
  generalize bcFactor T bc s μ = c
  rw [Finset.smul_sum]
  refine Finset.sum_congr rfl fun i _ => ?_
  rw [Matrix.mul_smul, smul_comm c]

/-! ### Dirac operators -/

/-- A Dirac operator as a function of the links: the operators `A` are `mul`, smooth and symmetric. -/
structure IsDirac (mul : GField S M → SField S M → SField S M) (A : GField S M → Op (SField S M)) : Prop where
  family : SmoothSymm rdotB A
  apply : ∀ L v, A L v = mul L v

variable {mul : GField S M → SField S M → SField S M} {A : GField S M → Op (SField S M)}

/-- All partial fractions: pseudofermion field, coefficient, shift. -/
def shiftTerms (ps : List (PseudoFermion S M)) : List (SField S M × ℝ × ℝ) :=
  ps.flatMap fun p => (p.alphas.zip p.betas).map fun ab => (p.φ, ab)

/-- The change of the energy of all pseudofermions with the links. -/
noncomputable def nFlavorForm (A : GField S M → Op (SField S M)) (l : List (SField S M × ℝ × ℝ)) (L : GField S M) : GField S M →ₗ[ℝ] ℝ :=
  (l.map fun t => t.2.1 • shiftForm rdotB A t.1 t.2.2 L).sum

theorem nFlavorForm_apply (l : List (SField S M × ℝ × ℝ)) (L V : GField S M) :
    nFlavorForm A l L V = (l.map fun t => t.2.1 * shiftForm rdotB A t.1 t.2.2 L V).sum := by
  unfold nFlavorForm
  induction l with
  | nil => rfl
  | cons t l ih => rw [List.map_cons, List.sum_cons, List.map_cons, List.sum_cons, ← ih]; rfl

/-- The energy of all pseudofermions. -/
noncomputable def shiftEnergy (A : GField S M → Op (SField S M)) (l : List (SField S M × ℝ × ℝ)) (L : GField S M) : ℝ :=
  (l.map fun t => t.2.1 * rdotB t.1 (Ring.inverse (shiftOp (A L) t.2.2) t.1)).sum

theorem hasDerivAt_list {ι : Type*} (l : List ι) (f : ι → ℝ → ℝ) (f' : ι → ℝ) (h : ∀ t ∈ l, HasDerivAt (f t) (f' t) 0) :
    HasDerivAt (fun x => (l.map fun t => f t x).sum) (l.map f').sum 0 := by
  induction l with
  | nil => exact hasDerivAt_const _ _
  | cons t l ih =>
    simp only [List.map_cons, List.sum_cons]
    exact (h t (by simp)).add (ih fun t ht => h t (by simp [ht]))

theorem contDiffAt_list {E : Type*} [NormedAddCommGroup E] [NormedSpace ℝ E] {ι : Type*} (l : List ι) (f : ι → E → ℝ) (x : E)
    (h : ∀ t ∈ l, ContDiffAt ℝ ∞ (f t) x) : ContDiffAt ℝ ∞ (fun x => (l.map fun t => f t x).sum) x := by
  induction l with
  | nil => exact contDiffAt_const
  | cons t l ih =>
    simp only [List.map_cons, List.sum_cons]
    exact (h t (by simp)).add (ih fun t ht => h t (by simp [ht]))

/-- Energy and momenta when the energy changes as the form says. -/
theorem conserved_of_form (ρ : FermionRep N M) (L : GField S M) (dE : GField S M →ₗ[ℝ] ℝ) (energy : GField S N → ℝ) (U P : GField S N)
    (hP : ∀ s μ, IsLie (P s μ)) (h : HasDerivAt (fun t : ℝ => energy (moveLinks P U t)) (dE (linkVelocity ρ P L)) 0) :
    HasDerivAt (fun t : ℝ => totalEnergy energy (fun s μ => NormedSpace.exp (t • P s μ) * U s μ,
      fun s μ => P s μ - (t : ℂ) • gradField ρ L dE s μ)) 0 0 :=
  HasDerivAt.congr_deriv ((hasDerivAt_momentaEnergy P (gradField ρ L dE)).add h) (gradField_conserves ρ L dE P hP)

/-- The gradient is smooth if the form is. -/
theorem contDiffOn_gradField {O : Set (GField S N)} (ρ : FermionRep N M) (L : GField S N → GField S M) (hL : ContDiff ℝ ∞ L)
    (dE : GField S N → GField S M →ₗ[ℝ] ℝ)
    (hd : ∀ V : GField S N → GField S M, ContDiff ℝ ∞ V → ContDiffOn ℝ ∞ (fun U => dE U (V U)) O) :
    ContDiffOn ℝ ∞ (fun U => gradField ρ (L U) (dE U)) O := by
  refine contDiffOn_pi.2 fun s => contDiffOn_pi.2 fun μ => ?_
  refine ContDiffOn.sum fun i _ => ?_
  have h1 : ContDiff ℝ ∞ fun U => Complex.I • (ρ.gen i * L U s μ) := contDiff_csmul _ (contDiff_const.mul ((contDiff_link s μ).comp hL))
  have h2 : ContDiffOn ℝ ∞ (fun U => dE U (oneLink s μ (Complex.I • (ρ.gen i * L U s μ)))) O := hd _ ((contDiff_linear (oneLink s μ)).comp h1)
  have h3 : ContDiffOn ℝ ∞ (fun U => dE U (oneLink s μ (Complex.I • (ρ.gen i * L U s μ))) • (Complex.I • gens N i)) O :=
    h2.smul contDiffOn_const
  refine h3.congr fun x _ => ?_
  change _ = (dE x (oneLink s μ (Complex.I • (ρ.gen i * L x s μ)))) • (Complex.I • gens N i)
  rw [← Complex.coe_smul, smul_smul, mul_comm]

/-- Two flavours: the energy `|A⁻¹φ|²` and its gradient belong together where the operator is invertible. -/
theorem conservative_norm (ρ : FermionRep N M) (hρ : ρ.Lawful) (T : Torus S) (bc : String) (hA : SmoothSymm rdotB A) (φ : SField S M) :
    Conservative {U : GField S N | IsUnit (A (fermionLinks ρ T bc U))}
      (fun U => rdotB (Ring.inverse (A (fermionLinks ρ T bc U)) φ) (Ring.inverse (A (fermionLinks ρ T bc U)) φ))
      (fun (_ : Unit) U => gradField ρ (fermionLinks ρ T bc U) (normForm rdotB A φ (fermionLinks ρ T bc U))) [()] where
  isOpen := hA.isOpen_norm (contDiff_fermionLinks ρ hρ T bc)
  smooth_energy U hU := (hA.contDiffAt_norm φ (contDiff_fermionLinks ρ hρ T bc) U hU).contDiffWithinAt
  smooth_force _ := contDiffOn_gradField ρ _ (contDiff_fermionLinks ρ hρ T bc) _ fun V hV U hU =>
    (hA.contDiffAt_normForm φ (contDiff_fermionLinks ρ hρ T bc) hV U hU).contDiffWithinAt
  lie _ U s μ := isLie_gradField ρ _ _ s μ
  conserved U hU P hP := by
    have h1 := hA.hasDerivAt_norm φ (hasDerivAt_fermionLinks ρ hρ T bc U P hP) (by rw [moveLinks_zero]; exact hU)
    rw [moveLinks_zero] at h1
    simpa using conserved_of_form ρ _ _ _ U P hP h1

/-- Any number of pseudofermions with partial fractions. -/
theorem conservative_shift (ρ : FermionRep N M) (hρ : ρ.Lawful) (T : Torus S) (bc : String) (hA : SmoothSymm rdotB A)
    (l : List (SField S M × ℝ × ℝ)) :
    Conservative {U : GField S N | ∀ t ∈ l, IsUnit (shiftOp (A (fermionLinks ρ T bc U)) t.2.2)}
      (fun U => shiftEnergy A l (fermionLinks ρ T bc U))
      (fun (_ : Unit) U => gradField ρ (fermionLinks ρ T bc U) (nFlavorForm A l (fermionLinks ρ T bc U))) [()] where
  isOpen := by
    have h1 : {U : GField S N | ∀ t ∈ l, IsUnit (shiftOp (A (fermionLinks ρ T bc U)) t.2.2)} =
        ⋂ t ∈ {t | t ∈ l}, {U | IsUnit (shiftOp (A (fermionLinks ρ T bc U)) t.2.2)} := by
      ext U; simp
    rw [h1]
    exact (List.finite_toSet l).isOpen_biInter fun t _ => hA.isOpen_shift (contDiff_fermionLinks ρ hρ T bc) t.2.2
  smooth_energy U hU := by
    refine ContDiffAt.contDiffWithinAt ?_
    exact contDiffAt_list l _ U fun t ht => contDiffAt_const.mul
      (hA.contDiffAt_shiftEnergy t.1 t.2.2 (contDiff_fermionLinks ρ hρ T bc) U (hU t ht))
  smooth_force _ := contDiffOn_gradField ρ _ (contDiff_fermionLinks ρ hρ T bc) _ fun V hV U hU => by
    refine ContDiffAt.contDiffWithinAt ?_
    simp only [nFlavorForm_apply]
    exact contDiffAt_list l _ U fun t ht => contDiffAt_const.mul
      (hA.contDiffAt_shiftForm t.1 t.2.2 (contDiff_fermionLinks ρ hρ T bc) hV U (hU t ht))
  lie _ U s μ := isLie_gradField ρ _ _ s μ
  conserved U hU P hP := by
    have h1 : HasDerivAt (fun t : ℝ => shiftEnergy A l (fermionLinks ρ T bc (moveLinks P U t)))
        (nFlavorForm A l (fermionLinks ρ T bc U) (linkVelocity ρ P (fermionLinks ρ T bc U))) 0 := by
      rw [nFlavorForm_apply]
      refine hasDerivAt_list l _ _ fun t ht => ?_
      have h2 := hA.hasDerivAt_shift t.1 t.2.2 (hasDerivAt_fermionLinks ρ hρ T bc U P hP) (by rw [moveLinks_zero]; exact hU t ht)
      rw [moveLinks_zero] at h2
      exact h2.const_mul t.2.1
    simpa using conserved_of_form ρ _ _ _ U P hP h1

end Leonard
