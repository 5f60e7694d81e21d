import Verif.Order.Flow
import Verif.Hmc.Props
import Mathlib.Analysis.Matrix.Normed
import Mathlib.Analysis.SpecialFunctions.Exponential
import Mathlib.Topology.Algebra.Module.FiniteDimension
import Mathlib.Analysis.Calculus.ContDiff.FiniteDimension
import Mathlib.Analysis.Calculus.Deriv.Prod

/-!
# Order of the integrators: links and momenta

The updates of `Hmc.Model` as flows on the space of all fields.
-/

set_option autoImplicit false

namespace Leonard

open Filter Asymptotics Finset Matrix
open scoped ContDiff Topology Matrix.Norms.Operator

variable {ι S : Type} [Fintype S] {N : ℕ}

theorem contDiff_linear {E F : Type*} [NormedAddCommGroup E] [NormedSpace ℝ E] [FiniteDimensional ℝ E] [NormedAddCommGroup F]
    [NormedSpace ℝ F] (f : E →ₗ[ℝ] F) : ContDiff ℝ ∞ f := (LinearMap.toContinuousLinearMap f).contDiff

/-- The part of a matrix in the Lie algebra. -/
noncomputable def lieProj : Mat N →ₗ[ℝ] Mat N where
  toFun P := (1 / 2 : ℝ) • (P - Pᴴ) - ((1 / 2 : ℝ) • trace (P - Pᴴ) / N) • (1 : Mat N)
  map_add' P Q := by
    rw [conjTranspose_add, show P + Q - (Pᴴ + Qᴴ) = (P - Pᴴ) + (Q - Qᴴ) by abel, trace_add, smul_add, smul_add, add_div, add_smul]
    abel
  map_smul' c P := by
    have h : c • P - (c • P)ᴴ = c • (P - Pᴴ) := by rw [conjTranspose_smul]; simp [smul_sub]
    rw [h, trace_smul, RingHom.id_apply]
    generalize P - Pᴴ = Q
    generalize trace Q = q
    ext i j
    simp only [Matrix.sub_apply, Matrix.smul_apply, Complex.real_smul, smul_eq_mul]
    ring

theorem lieProj_lie (P : Mat N) : IsLie (lieProj P) := by
  have hN : (N : ℂ) = 0 → IsEmpty (Fin N) := fun h => by
    have : N = 0 := by exact_mod_cast h
    subst this; infer_instance
  constructor
  · change ((1 / 2 : ℝ) • (P - Pᴴ) - ((1 / 2 : ℝ) • trace (P - Pᴴ) / N) • (1 : Mat N))ᴴ = -((1 / 2 : ℝ) • (P - Pᴴ) - ((1 / 2 : ℝ) • trace (P - Pᴴ) / N) • (1 : Mat N))
    have ht : star (trace (P - Pᴴ)) = -trace (P - Pᴴ) := by
      rw [← trace_conjTranspose, conjTranspose_sub, conjTranspose_conjTranspose, ← trace_neg, neg_sub]
    rw [conjTranspose_sub, conjTranspose_smul, conjTranspose_smul, conjTranspose_sub, conjTranspose_conjTranspose, conjTranspose_one,
      star_trivial, star_div₀ (_ • _ : ℂ), star_smul, ht, star_trivial]
    simp only [star_natCast, smul_neg, neg_div, neg_smul]
    rw [show Pᴴ - P = -(P - Pᴴ) by abel, smul_neg]
    abel
  · change trace ((1 / 2 : ℝ) • (P - Pᴴ) - ((1 / 2 : ℝ) • trace (P - Pᴴ) / N) • (1 : Mat N)) = 0
    rw [trace_sub, trace_smul, trace_smul, trace_one, Fintype.card_fin]
    by_cases h : (N : ℂ) = 0
    · have := hN h
      simp [Matrix.trace]
    · rw [smul_eq_mul, div_mul_cancel₀ _ h, sub_self]

theorem lieProj_eq {P : Mat N} (hP : IsLie P) : lieProj P = P := by
  change (1 / 2 : ℝ) • (P - Pᴴ) - ((1 / 2 : ℝ) • trace (P - Pᴴ) / N) • (1 : Mat N) = P
  rw [hP.1, sub_neg_eq_add, trace_add, hP.2]
  simp only [add_zero, smul_zero, zero_div, zero_smul, sub_zero]
  rw [← two_smul ℝ P, smul_smul]
  norm_num

/-- Links and momenta. -/
abbrev Phase (S : Type) (N : ℕ) := GField S N × GField S N

/-- The motion of the links. -/
noncomputable def linkDir (y : Phase S N) : Phase S N := (fun s μ => lieProj (y.2 s μ) * y.1 s μ, 0)

/-- The change of the momenta. -/
def momDir (F : ι → GField S N → GField S N) (i : ι) (y : Phase S N) : Phase S N := (0, -F i y.1)

/-- The flow of the links. -/
noncomputable def linkFlow (t : ℝ) (y : Phase S N) : Phase S N := (fun s μ => NormedSpace.exp (t • lieProj (y.2 s μ)) * y.1 s μ, y.2)

/-- The flow of the momenta. -/
noncomputable def momFlow (F : ι → GField S N → GField S N) (i : ι) (t : ℝ) (y : Phase S N) : Phase S N := (y.1, y.2 - t • F i y.1)

theorem contDiff_lieProj : ContDiff ℝ ∞ (lieProj : Mat N → Mat N) := contDiff_linear _

theorem contDiff_comp1 (s : S) (μ : Fin 4) : ContDiff ℝ ∞ fun y : Phase S N => y.1 s μ :=
  (contDiff_apply_apply ℝ (Mat N) s μ).comp contDiff_fst

theorem contDiff_comp2 (s : S) (μ : Fin 4) : ContDiff ℝ ∞ fun y : Phase S N => y.2 s μ :=
  (contDiff_apply_apply ℝ (Mat N) s μ).comp contDiff_snd

theorem contDiff_linkDir : ContDiff ℝ ∞ (linkDir : Phase S N → Phase S N) := by
  refine ContDiff.prodMk ?_ contDiff_const
  exact contDiff_pi.2 fun s => contDiff_pi.2 fun μ => (contDiff_lieProj.comp (contDiff_comp2 s μ)).mul (contDiff_comp1 s μ)

theorem contDiffOn_momDir {O : Set (GField S N)} {F : ι → GField S N → GField S N} {i : ι} (hF : ContDiffOn ℝ ∞ (F i) O) :
    ContDiffOn ℝ ∞ (momDir F i) (O ×ˢ Set.univ) := by
  refine ContDiffOn.prodMk contDiffOn_const (ContDiffOn.neg ?_)
  exact hF.comp contDiff_fst.contDiffOn fun y hy => hy.1

theorem linkFlow_flow (Ω : Set (Phase S N)) : FlowOn Ω linkDir linkFlow where
  zero y := by
    refine Prod.ext ?_ rfl
    funext s μ
    simp [linkFlow]
  deriv y t := by
    refine HasDerivAt.prodMk ?_ (hasDerivAt_const t _)
    refine hasDerivAt_pi.2 fun s => hasDerivAt_pi.2 fun μ => ?_
    have := (hasDerivAt_exp_smul_const' (𝕂 := ℝ) (lieProj (y.2 s μ)) t).mul_const (y.1 s μ)
    rw [mul_assoc] at this
    exact this
  cont x _ := by
    refine Continuous.continuousAt ?_
    have hl : Continuous (lieProj : Mat N → Mat N) := contDiff_lieProj.continuous
    refine Continuous.prodMk ?_ (by fun_prop)
    refine continuous_pi fun s => continuous_pi fun μ => ?_
    have h1 : Continuous fun p : ℝ × Phase S N => p.1 • lieProj (p.2.2 s μ) :=
      continuous_fst.smul (hl.comp ((contDiff_comp2 s μ).continuous.comp continuous_snd))
    exact (NormedSpace.exp_continuous.comp h1).mul ((contDiff_comp1 s μ).continuous.comp continuous_snd)

theorem momFlow_flow {O : Set (GField S N)} (hO : IsOpen O) {F : ι → GField S N → GField S N} {i : ι} (hF : ContDiffOn ℝ ∞ (F i) O) :
    FlowOn (O ×ˢ Set.univ) (momDir F i) (momFlow F i) where
  zero y := by
    refine Prod.ext rfl ?_
    simp [momFlow]
  deriv y t := by
    refine HasDerivAt.prodMk (hasDerivAt_const t _) ?_
    have := ((hasDerivAt_id t).smul_const (F i y.1)).const_sub y.2
    simpa [momFlow, one_smul] using this
  cont x hx := by
    have h1 : ContinuousAt (F i) x.1 := hF.continuousOn.continuousAt (hO.mem_nhds hx.1)
    have h2 : ContinuousAt (fun p : ℝ × Phase S N => F i p.2.1) (0, x) :=
      ContinuousAt.comp (f := fun p : ℝ × Phase S N => p.2.1) (g := F i) (x := (0, x)) h1 (by fun_prop)
    refine ContinuousAt.prodMk (by fun_prop) ?_
    refine ContinuousAt.sub (f := fun p : ℝ × Phase S N => p.2.2) (by fun_prop) ?_
    exact ContinuousAt.smul (f := fun p : ℝ × Phase S N => p.1) (by fun_prop) h2

/-- The update of length `t` times its step. -/
noncomputable def opFlow (F : ι → GField S N → GField S N) : MdOp ι → ℝ → Phase S N → Phase S N
  | .link ε => fun t => linkFlow (t * ε)
  | .mom i ε => fun t => momFlow F i (t * ε)

theorem opFlow_flow {O : Set (GField S N)} (hO : IsOpen O) {F : ι → GField S N → GField S N} (hF : ∀ i, ContDiffOn ℝ ∞ (F i) O) (o : MdOp ι) :
    FlowOn (O ×ˢ Set.univ) (o.dir linkDir (momDir F)) (opFlow F o) := by
  cases o with
  | link ε => exact (linkFlow_flow _).smul ε
  | mom i ε => exact (momFlow_flow hO (hF i)).smul ε

/-- On momenta in the Lie algebra the updates of the program are these flows. -/
theorem mdRun_eq_flowRun (eig : EigenSolver N) (he : eig.Correct) {F : ι → GField S N → GField S N} (hF : ∀ i U s μ, IsLie (F i U s μ))
    (l : List (MdOp ι)) (t : ℝ) (x : Phase S N) (hx : ∀ s μ, IsLie (x.2 s μ)) :
    mdRun (eigenLink eig) F (l.map (MdOp.scale t)) x = flowRun (opFlow F) l t x ∧ ∀ s μ, IsLie ((flowRun (opFlow F) l t x).2 s μ) := by
  induction l generalizing x with
  | nil => exact ⟨rfl, hx⟩
  | cons o l ih =>
    have h1 : mdStep (eigenLink eig) F (o.scale t) x = opFlow F o t x := by
      cases o with
      | link ε =>
        refine Prod.ext ?_ rfl
        funext s μ
        change eigenLink eig (t * ε) (x.2 s μ) (x.1 s μ) = NormedSpace.exp ((t * ε) • lieProj (x.2 s μ)) * x.1 s μ
        rw [eigenLink_eq eig he _ _ _ (hx s μ).1, lieProj_eq (hx s μ)]
      | mom i ε =>
        refine Prod.ext rfl ?_
        funext s μ
        change x.2 s μ - ((t * ε : ℝ) : ℂ) • F i x.1 s μ = x.2 s μ - (t * ε) • F i x.1 s μ
        rw [Complex.coe_smul]
    have h2 : ∀ s μ, IsLie ((opFlow F o t x).2 s μ) := by
      cases o with
      | link ε => exact hx
      | mom i ε =>
        intro s μ
        have hFi := hF i x.1 s μ
        constructor
        · change (x.2 s μ - (t * ε) • F i x.1 s μ)ᴴ = -(x.2 s μ - (t * ε) • F i x.1 s μ)
          rw [conjTranspose_sub, conjTranspose_smul, (hx s μ).1, hFi.1, star_trivial, smul_neg]; abel
        · change trace (x.2 s μ - (t * ε) • F i x.1 s μ) = 0
          rw [trace_sub, trace_smul, (hx s μ).2, hFi.2, smul_zero, sub_zero]
    have h3 := ih (opFlow F o t x) h2
    refine ⟨?_, h3.2⟩
    change mdRun (eigenLink eig) F (l.map (MdOp.scale t)) (mdStep (eigenLink eig) F (o.scale t) x) = flowRun (opFlow F) l t (opFlow F o t x)
    rw [h1, h3.1]

end Leonard
