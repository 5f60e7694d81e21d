/-
Measures on the phase space of molecular dynamics: the special unitary group as a compact topological group, coordinates of the momenta,
and the integrators as maps of the phase space.
-/
import Mathlib.MeasureTheory.Constructions.Pi
import Mathlib.MeasureTheory.Measure.Haar.Basic
import Mathlib.MeasureTheory.Constructions.BorelSpace.Complex
import Mathlib.MeasureTheory.Measure.Lebesgue.EqHaar
import Mathlib.MeasureTheory.Function.SpecialFunctions.Basic
import Mathlib.Analysis.CStarAlgebra.Matrix
import Mathlib.Topology.Instances.Matrix
import Verif.Hmc.MomentaProps
import Verif.Hmc.Props

set_option autoImplicit false

namespace Leonard

open Matrix MeasureTheory

/-! ### The group -/

/-- The special unitary group of `N` colours. -/
abbrev SU (N : ℕ) := specialUnitaryGroup (Fin N) ℂ

variable {N : ℕ} {S ι : Type}

instance : ContinuousMul (SU N) := Submonoid.continuousMul _

instance : ContinuousInv (SU N) where
  continuous_inv := by
    refine Continuous.subtype_mk (f := fun x : SU N => star x.1) ?_ _
    exact (continuous_subtype_val (p := fun x : Mat N => x ∈ SU N)).matrix_conjTranspose

instance : IsTopologicalGroup (SU N) where

instance : SecondCountableTopology (Mat N) := inferInstanceAs (SecondCountableTopology (Fin N → Fin N → ℂ))
instance : T2Space (Mat N) := inferInstanceAs (T2Space (Fin N → Fin N → ℂ))

theorem isCompact_SU (N : ℕ) : IsCompact (SU N : Set (Mat N)) := by
  have hc : IsClosed (SU N : Set (Mat N)) := by
    have : (SU N : Set (Mat N)) = {A : Mat N | A * Aᴴ = 1} ∩ {A : Mat N | A.det = 1} := by
      ext A
      exact mem_specialUnitaryGroup_iff.trans (and_congr_left' mem_unitaryGroup_iff)
    rw [this]
    exact (isClosed_eq (continuous_id.matrix_mul continuous_id.matrix_conjTranspose) continuous_const).inter
      (isClosed_eq continuous_id.matrix_det continuous_const)
  have hb : IsCompact (Set.univ.pi fun _ : Fin N => Set.univ.pi fun _ : Fin N => Metric.closedBall (0 : ℂ) 1) :=
    isCompact_univ_pi fun _ => isCompact_univ_pi fun _ => isCompact_closedBall 0 1
  refine IsCompact.of_isClosed_subset (X := Fin N → Fin N → ℂ) hb hc ?_
  intro A hA i _ j _
  rw [mem_closedBall_zero_iff]
  exact entry_norm_bound_of_unitary (specialUnitaryGroup_le_unitaryGroup hA) i j

instance : CompactSpace (SU N) := isCompact_iff_compactSpace.mp (isCompact_SU N)

noncomputable instance : MeasurableSpace (SU N) := borel _
instance : BorelSpace (SU N) := ⟨rfl⟩
instance : SecondCountableTopology (SU N) := TopologicalSpace.Subtype.secondCountableTopology (α := Mat N) (SU N : Set (Mat N))
instance : MeasurableMul₂ (SU N) := ContinuousMul.measurableMul₂
instance : MeasurableMul (SU N) := ContinuousMul.measurableMul
instance {S : Type} : MeasurableMul₂ (S → Fin 4 → SU N) where
  measurable_mul := measurable_pi_lambda _ fun s => measurable_pi_lambda _ fun μ =>
    Measurable.mul (f := fun c : (S → Fin 4 → SU N) × (S → Fin 4 → SU N) => c.1 s μ) (g := fun c => c.2 s μ)
      ((measurable_pi_apply μ).comp ((measurable_pi_apply s).comp measurable_fst))
      ((measurable_pi_apply μ).comp ((measurable_pi_apply s).comp measurable_snd))

/-! ### Coordinates of the momenta -/

theorem C45_polar (x y : DrawIndex N → ℝ) : -(trace (momentumOf x * momentumOf y)).re = (∑ p, x p * y p) / 2 := by
  have hxy := C45_energy (x + y)
  have hx := C45_energy x
  have hy := C45_energy y
  have hadd : momentumOf (x + y) = momentumOf x + momentumOf y := (momentumLin N).map_add x y
  rw [hadd, Matrix.add_mul, Matrix.mul_add, Matrix.mul_add, trace_add, trace_add, trace_add, trace_mul_comm (momentumOf y) (momentumOf x)] at hxy
  simp only [Complex.add_re, Pi.add_apply, add_sq, Finset.sum_add_distrib] at hxy
  have e : ∑ p, 2 * x p * y p = 2 * ∑ p, x p * y p := by
    rw [Finset.mul_sum]
    exact Finset.sum_congr rfl fun p _ => by ring
  rw [e] at hxy
  linarith

/-- The coordinates of an element of the Lie algebra: the numbers whose momentum it is. -/
noncomputable def momentumCoords (A : Mat N) (p : DrawIndex N) : ℝ := -2 * (trace (A * momentumOf (Pi.single p 1))).re

theorem momentumCoords_momentumOf (x : DrawIndex N → ℝ) : momentumCoords (momentumOf x) = x := by
  funext p
  have := C45_polar x (Pi.single p 1)
  simp only [Pi.single_apply, mul_ite, mul_one, mul_zero, Finset.sum_ite_eq', Finset.mem_univ, if_true] at this
  unfold momentumCoords
  linarith

theorem momentumOf_coords {A : Mat N} (hA : IsLie A) : momentumOf (momentumCoords A) = A := by
  obtain ⟨x, hx, _⟩ := C45_bijective A hA
  rw [← hx, momentumCoords_momentumOf]

theorem momentumOf_sub_smul (x : DrawIndex N → ℝ) (ε : ℝ) {A : Mat N} (hA : IsLie A) :
    momentumOf (x - ε • momentumCoords A) = momentumOf x - (ε : ℂ) • A := by
  change momentumLin N _ = _
  rw [map_sub, map_smul]
  change momentumOf x - ε • momentumOf (momentumCoords A) = _
  rw [momentumOf_coords hA]
  rfl

theorem momentumOf_neg (x : DrawIndex N → ℝ) : momentumOf (-x) = -momentumOf x := (momentumLin N).map_neg x

theorem continuous_momentumOf : Continuous (momentumOf (N := N)) := (momentumLin N).continuous_of_finiteDimensional

/-! ### The phase space -/

/-- Link fields with values in the group. -/
abbrev LinkSU (S : Type) (N : ℕ) := S → Fin 4 → SU N

/-- The numbers drawn for all links. -/
abbrev Draws (S : Type) (N : ℕ) := S → Fin 4 → DrawIndex N → ℝ

/-- The matrices of a link field. -/
def linkMat (Q : LinkSU S N) : GField S N := fun s μ => (Q s μ).1

/-- The momenta belonging to the numbers drawn. -/
noncomputable def momMat (X : Draws S N) : GField S N := fun s μ => momentumOf (X s μ)

theorem continuous_matrix_exp : Continuous (NormedSpace.exp : Mat N → Mat N) := by
  letI : NormedRing (Mat N) := Matrix.linftyOpNormedRing
  letI : NormedAlgebra ℚ (Mat N) := Matrix.linftyOpNormedAlgebra
  letI : NormedAlgebra ℂ (Mat N) := Matrix.linftyOpNormedAlgebra
  haveI : CompleteSpace (Mat N) := FiniteDimensional.complete ℂ (Mat N)
  exact NormedSpace.exp_continuous

/-- `exp(ε P)` for the momentum `P` with coordinates `x`. -/
noncomputable def expSU (ε : ℝ) (x : DrawIndex N → ℝ) : SU N :=
  ⟨NormedSpace.exp (ε • momentumOf x), exp_mem_su _ (isLie_smul ε (C45_lie _ _ _))⟩

theorem continuous_expSU (ε : ℝ) : Continuous (expSU (N := N) ε) := by
  refine Continuous.subtype_mk ?_ _
  exact (continuous_matrix_exp).comp (continuous_momentumOf.const_smul ε)

/-- One update of an integrator in phase space. -/
noncomputable def phaseStep (F : ι → GField S N → GField S N) : MdOp ι → LinkSU S N × Draws S N → LinkSU S N × Draws S N
  | .link ε, z => ((fun s μ => expSU ε (z.2 s μ)) * z.1, z.2)
  | .mom i ε, z => (z.1, z.2 - fun s μ => ε • momentumCoords (F i (linkMat z.1) s μ))

/-- All updates. -/
noncomputable def phaseRun (F : ι → GField S N → GField S N) (l : List (MdOp ι)) (z : LinkSU S N × Draws S N) : LinkSU S N × Draws S N :=
  l.foldl (fun z o => phaseStep F o z) z

/-- The links and momenta of a point of phase space. -/
noncomputable def phaseMat (z : LinkSU S N × Draws S N) : GField S N × GField S N := (linkMat z.1, momMat z.2)

theorem momMat_lie (X : Draws S N) (s : S) (μ : Fin 4) : IsLie (momMat X s μ) := C45_lie _ _ _

theorem phaseStep_mat (eig : EigenSolver N) (he : eig.Correct) (F : ι → GField S N → GField S N)
    (hF : ∀ i (Q : LinkSU S N) s μ, IsLie (F i (linkMat Q) s μ)) (o : MdOp ι) (z : LinkSU S N × Draws S N) :
    phaseMat (phaseStep F o z) = mdStep (eigenLink eig) F o (phaseMat z) := by
  cases o with
  | link ε =>
    refine Prod.ext ?_ rfl
    funext s μ
    exact (eigenLink_eq eig he ε _ _ (momMat_lie z.2 s μ).1).symm
  | mom i ε =>
    refine Prod.ext rfl ?_
    funext s μ
    exact momentumOf_sub_smul (z.2 s μ) ε (hF i z.1 s μ)

theorem phaseRun_mat (eig : EigenSolver N) (he : eig.Correct) (F : ι → GField S N → GField S N)
    (hF : ∀ i (Q : LinkSU S N) s μ, IsLie (F i (linkMat Q) s μ)) (l : List (MdOp ι)) (z : LinkSU S N × Draws S N) :
    phaseMat (phaseRun F l z) = mdRun (eigenLink eig) F l (phaseMat z) := by
  induction l generalizing z with
  | nil => rfl
  | cons o l ih =>
    have := ih (phaseStep F o z)
    rw [phaseStep_mat eig he F hF] at this
    exact this

/-- A force is measurable as a function of the link field. -/
def MeasurableForce (f : GField S N → GField S N) : Prop :=
  ∀ s μ k l, Measurable fun Q : LinkSU S N => f (linkMat Q) s μ k l

theorem measurable_coords {Ω : Type} [MeasurableSpace Ω] (f : Ω → Mat N) (hf : ∀ k l, Measurable fun ω => f ω k l) :
    Measurable fun ω => momentumCoords (f ω) := by
  refine measurable_pi_lambda _ fun p => ?_
  unfold momentumCoords
  simp only [Matrix.trace, Matrix.diag_apply, Matrix.mul_apply]
  refine Measurable.const_mul (Complex.measurable_re.comp ?_) _
  refine Finset.measurable_fun_sum _ fun k _ => Finset.measurable_fun_sum _ fun l _ => ?_
  exact (hf k l).mul_const _

variable [Fintype S]

/-- The product of an invariant measure for every link. -/
noncomputable def linkMeasure (S : Type) [Fintype S] (μ : Measure (SU N)) : Measure (LinkSU S N) := Measure.pi fun _ => Measure.pi fun _ => μ

/-- The volume of phase space: invariant measure for the links and Lebesgue measure for the momenta. -/
noncomputable def phaseVolume (S : Type) [Fintype S] (μ : Measure (SU N)) : Measure (LinkSU S N × Draws S N) := (linkMeasure S μ).prod volume

theorem mul_preserving {Γ V : Type} [Group Γ] [MeasurableSpace Γ] [MeasurableMul₂ Γ] (ν : Measure Γ) [SFinite ν] [ν.IsMulLeftInvariant]
    [MeasurableSpace V] (τ : Measure V) [SFinite τ] (g : V → Γ) (hg : Measurable g) :
    MeasurePreserving (fun z : Γ × V => (g z.2 * z.1, z.2)) (ν.prod τ) (ν.prod τ) := by
  have hm : Measurable (Function.uncurry fun (x : V) (q : Γ) => g x * q) := (hg.comp measurable_fst).mul measurable_snd
  have hsk := (MeasurePreserving.id τ).skew_product hm (Filter.Eventually.of_forall fun X => map_mul_left_eq_self ν (g X))
  exact (Measure.measurePreserving_swap.comp hsk).comp Measure.measurePreserving_swap

theorem sub_preserving {Γ V : Type} [AddCommGroup V] [MeasurableSpace V] [MeasurableAdd V] [MeasurableSub₂ V] (τ : Measure V) [SFinite τ]
    [τ.IsAddLeftInvariant] [MeasurableSpace Γ] (ν : Measure Γ) [SFinite ν] (g : Γ → V) (hg : Measurable g) :
    MeasurePreserving (fun z : Γ × V => (z.1, z.2 - g z.1)) (ν.prod τ) (ν.prod τ) := by
  have hm : Measurable (Function.uncurry fun (q : Γ) (x : V) => x - g q) := measurable_snd.sub (hg.comp measurable_fst)
  exact (MeasurePreserving.id ν).skew_product hm (Filter.Eventually.of_forall fun Q => map_sub_right_eq_self τ (g Q))

instance (μ : Measure (SU N)) [IsFiniteMeasure μ] [μ.IsMulLeftInvariant] : (linkMeasure S μ).IsMulLeftInvariant := by
  unfold linkMeasure; infer_instance
instance (μ : Measure (SU N)) [IsFiniteMeasure μ] : IsFiniteMeasure (linkMeasure S μ) := by unfold linkMeasure; infer_instance

theorem phaseStep_preserving (μ : Measure (SU N)) [IsFiniteMeasure μ] [μ.IsMulLeftInvariant] (F : ι → GField S N → GField S N)
    (hF : ∀ i, MeasurableForce (F i)) (o : MdOp ι) : MeasurePreserving (phaseStep F o) (phaseVolume S μ) (phaseVolume S μ) := by
  cases o with
  | link ε =>
    have hg : Measurable fun X : Draws S N => (fun s μ => expSU ε (X s μ) : LinkSU S N) :=
      measurable_pi_lambda _ fun s => measurable_pi_lambda _ fun ν =>
        (continuous_expSU ε).measurable.comp ((measurable_pi_apply ν).comp (measurable_pi_apply s))
    exact mul_preserving (linkMeasure S μ) volume _ hg
  | mom i ε =>
    have hg : Measurable fun Q : LinkSU S N => (fun s μ => ε • momentumCoords (F i (linkMat Q) s μ) : Draws S N) :=
      measurable_pi_lambda _ fun s => measurable_pi_lambda _ fun ν => (measurable_coords _ (hF i s ν)).const_smul ε
    haveI h1 : (volume : Measure (DrawIndex N → ℝ)).IsAddLeftInvariant := Pi.isAddLeftInvariant_volume
    haveI h2 : (volume : Measure (Fin 4 → DrawIndex N → ℝ)).IsAddLeftInvariant := Measure.pi.isAddLeftInvariant _
    haveI h3 : (volume : Measure (Draws S N)).IsAddLeftInvariant := Measure.pi.isAddLeftInvariant _
    exact sub_preserving volume (linkMeasure S μ) _ hg

theorem phaseRun_preserving (μ : Measure (SU N)) [IsFiniteMeasure μ] [μ.IsMulLeftInvariant] (F : ι → GField S N → GField S N)
    (hF : ∀ i, MeasurableForce (F i)) (l : List (MdOp ι)) : MeasurePreserving (phaseRun F l) (phaseVolume S μ) (phaseVolume S μ) := by
  induction l with
  | nil => exact MeasurePreserving.id _
  | cons o l ih => exact ih.comp (phaseStep_preserving μ F hF o)

end Leonard
