/-
Lemmas for the Metropolis updater of the scalar fields: accept/reject with shifts, independent random numbers along a list, the sweep as a list of hits.
-/
import Mathlib.MeasureTheory.Constructions.Pi
import Mathlib.MeasureTheory.Measure.Lebesgue.Complex
import Mathlib.Data.List.Nodup
import Verif.Hmc.Stationary
import Verif.Scalar.Props

set_option autoImplicit false

namespace Leonard

open Matrix MeasureTheory ProbabilityTheory
open scoped ENNReal

/-! ### Accept/reject with shifts -/

/-- One hit on a general space: a shift is proposed. -/
noncomputable def shiftStep {X : Type} [Add X] (E : X → ℝ) (v : ℝ × ℝ → X) (d : HitDraw) (x : X) : X :=
  if metropolisLocal (some (E x)) (some (E (x + v d.1))) d.2 = true then x + v d.1 else x

theorem metropolisLocal_iff (a b u : ℝ) : metropolisLocal (some a) (some b) u = true ↔ b - a < 0 ∨ u < Real.exp (-(b - a)) := by
  unfold metropolisLocal
  by_cases h : b - a < 0
  · simp [h]
  · simp [h]

theorem measurable_shiftStep {X : Type} [AddCommGroup X] [MeasurableSpace X] [MeasurableAdd₂ X] (E : X → ℝ) (hE : Measurable E) (v : ℝ × ℝ → X)
    (hv : Measurable v) : Measurable fun z : HitDraw × X => shiftStep E v z.1 z.2 := by
  have hs : Measurable fun z : HitDraw × X => z.2 + v z.1.1 := measurable_snd.add (hv.comp (measurable_fst.comp measurable_fst))
  have hd : Measurable fun z : HitDraw × X => E (z.2 + v z.1.1) - E z.2 := (hE.comp hs).sub (hE.comp measurable_snd)
  unfold shiftStep
  refine Measurable.ite ?_ hs measurable_snd
  simp only [metropolisLocal_iff]
  exact (measurableSet_lt hd measurable_const).union (measurableSet_lt (measurable_snd.comp measurable_fst) (Real.measurable_exp.comp hd.neg))

theorem shiftStep_stationary {X : Type} [AddCommGroup X] [MeasurableSpace X] [MeasurableAdd₂ X] [MeasurableSub₂ X] (ν : Measure X) [SigmaFinite ν]
    [ν.IsAddLeftInvariant] (γ : Measure (ℝ × ℝ)) [IsProbabilityMeasure γ] (hγ : MeasurePreserving (fun g : ℝ × ℝ => -g) γ γ) (E : X → ℝ)
    (hE : Measurable E) (v : ℝ × ℝ → X) (hv : Measurable v) (hodd : ∀ g, v (-g) = -v g) (f : X → ℝ≥0∞) (hf : Measurable f) :
    ∫⁻ x, (∫⁻ d, f (shiftStep E v d x) ∂(γ.prod (volume.restrict (Set.Ico (0 : ℝ) 1)))) * ENNReal.ofReal (Real.exp (-E x)) ∂ν =
      ∫⁻ x, f x * ENNReal.ofReal (Real.exp (-E x)) ∂ν := by
  have hn : Measurable fun g => -v g := by
    have h : (fun g => -v g) = fun g => 0 - v g := by funext g; rw [zero_sub]
    rw [h]; exact measurable_const.sub hv
  let T : (ℝ × ℝ) × X → (ℝ × ℝ) × X := fun z => (-z.1, z.2 - -v z.1)
  have hT : MeasurePreserving T (γ.prod ν) (γ.prod ν) := by
    have h1 := sub_preserving ν γ (fun g => -v g) hn
    have h2 : MeasurePreserving (Prod.map (fun g : ℝ × ℝ => -g) (id : X → X)) (γ.prod ν) (γ.prod ν) := hγ.prod (MeasurePreserving.id ν)
    exact h2.comp h1
  have hTT : ∀ z, T (T z) = z := by
    rintro ⟨g, x⟩
    refine Prod.ext (neg_neg g) ?_
    change x - -v g - -v (-g) = x
    rw [hodd]; abel
  have hw : Measurable fun x => ENNReal.ofReal (Real.exp (-E x)) := (Real.measurable_exp.comp hE.neg).ennreal_ofReal
  have hst := metropolis_stationary (γ.prod ν) T hT hTT (fun z => E z.2) (hE.comp measurable_snd) (fun z => f z.2) (hf.comp measurable_snd)
  have hTm : Measurable fun z : (ℝ × ℝ) × X => (T z).2 := measurable_snd.comp hT.measurable
  have hA : Measurable fun z : (ℝ × ℝ) × X => ENNReal.ofReal (min 1 (Real.exp (-(E (T z).2 - E z.2)))) :=
    (measurable_const.min (Real.measurable_exp.comp ((hE.comp hTm).sub (hE.comp measurable_snd)).neg)).ennreal_ofReal
  have hG : Measurable fun z : (ℝ × ℝ) × X => ENNReal.ofReal (min 1 (Real.exp (-(E (T z).2 - E z.2)))) * f (T z).2
      + (1 - ENNReal.ofReal (min 1 (Real.exp (-(E (T z).2 - E z.2))))) * f z.2 :=
    (hA.mul (hf.comp hTm)).add ((measurable_const.sub hA).mul (hf.comp measurable_snd))
  have hGw : Measurable fun z : (ℝ × ℝ) × X => (ENNReal.ofReal (min 1 (Real.exp (-(E (T z).2 - E z.2)))) * f (T z).2
      + (1 - ENNReal.ofReal (min 1 (Real.exp (-(E (T z).2 - E z.2))))) * f z.2) * ENNReal.ofReal (Real.exp (-E z.2)) :=
    hG.mul (hw.comp measurable_snd)
  have hfw : Measurable fun z : (ℝ × ℝ) × X => f z.2 * ENNReal.ofReal (Real.exp (-E z.2)) := (hf.comp measurable_snd).mul (hw.comp measurable_snd)
  rw [lintegral_prod_symm _ hGw.aemeasurable, lintegral_prod_symm _ hfw.aemeasurable] at hst
  have hr : ∀ x : X, ∫⁻ _ : ℝ × ℝ, f x * ENNReal.ofReal (Real.exp (-E x)) ∂γ = f x * ENNReal.ofReal (Real.exp (-E x)) := fun x => by
    rw [lintegral_const, measure_univ, mul_one]
  simp only [hr] at hst
  rw [← hst]
  refine lintegral_congr fun x => ?_
  have hx : Measurable fun d : HitDraw => f (shiftStep E v d x) :=
    hf.comp ((measurable_shiftStep E hE v hv).comp (measurable_id.prodMk measurable_const))
  have hGx : Measurable fun g : ℝ × ℝ => ENNReal.ofReal (min 1 (Real.exp (-(E (T (g, x)).2 - E x)))) * f (T (g, x)).2
      + (1 - ENNReal.ofReal (min 1 (Real.exp (-(E (T (g, x)).2 - E x))))) * f x := hG.comp (measurable_id.prodMk measurable_const)
  rw [lintegral_mul_const _ hGx, lintegral_prod _ hx.aemeasurable]
  congr 1
  refine lintegral_congr fun g => ?_
  have e : (T (g, x)).2 = x + v g := sub_neg_eq_add _ _
  rw [e, ← lintegral_accept (E x) (E (x + v g)) (f (x + v g)) (f x)]
  refine lintegral_congr fun u => ?_
  unfold shiftStep
  rw [apply_ite f]

/-! ### Independent random numbers along a list -/

theorem update_preserving {ι D : Type} [Fintype ι] [DecidableEq ι] [MeasurableSpace D] (m : Measure D) [IsProbabilityMeasure m] (h : ι) :
    MeasurePreserving (fun z : (ι → D) × D => Function.update z.1 h z.2) ((Measure.pi fun _ : ι => m).prod m) (Measure.pi fun _ : ι => m) := by
  have hm : Measurable fun z : (ι → D) × D => Function.update z.1 h z.2 := by
    rw [measurable_pi_iff]
    intro i
    by_cases hi : i = h
    · subst hi; simp only [Function.update_self]; exact measurable_snd
    · simp only [Function.update_of_ne hi]; exact (measurable_pi_apply i).comp measurable_fst
  refine ⟨hm, (Measure.pi_eq fun s hs => ?_).symm⟩
  rw [Measure.map_apply hm (MeasurableSet.univ_pi hs)]
  have e : (fun z : (ι → D) × D => Function.update z.1 h z.2) ⁻¹' Set.univ.pi s = (Set.univ.pi (Function.update s h Set.univ)) ×ˢ s h := by
    ext ⟨d, x⟩
    simp only [Set.mem_preimage, Set.mem_univ_pi, Set.mem_prod]
    constructor
    · intro H
      refine ⟨fun i => ?_, by simpa using H h⟩
      by_cases hi : i = h
      · subst hi; simp
      · have := H i; rwa [Function.update_of_ne hi] at this ⊢
    · rintro ⟨H1, H2⟩ i
      by_cases hi : i = h
      · subst hi; simpa using H2
      · have := H1 i; rwa [Function.update_of_ne hi] at this ⊢
  rw [e, Measure.prod_prod, Measure.pi_pi]
  rw [← Finset.mul_prod_erase Finset.univ _ (Finset.mem_univ h), ← Finset.mul_prod_erase Finset.univ (fun i => m (s i)) (Finset.mem_univ h)]
  rw [Function.update_self, measure_univ, one_mul, mul_comm]
  congr 1
  refine Finset.prod_congr rfl fun i hi => ?_
  rw [Function.update_of_ne (Finset.ne_of_mem_erase hi)]

theorem foldl_update {ι D X : Type} [DecidableEq ι] (st : ι → D → X → X) (l : List ι) (h : ι) (hl : h ∉ l) (d : ι → D) (d0 : D) (x : X) :
    l.foldl (fun x i => st i (Function.update d h d0 i) x) x = l.foldl (fun x i => st i (d i) x) x := by
  induction l generalizing x with
  | nil => rfl
  | cons a l ih =>
    rw [List.mem_cons, not_or] at hl
    simp only [List.foldl_cons]
    rw [Function.update_of_ne (Ne.symm hl.1), ih hl.2]

theorem measurable_foldl {ι D X : Type} [MeasurableSpace D] [MeasurableSpace X] (st : ι → D → X → X)
    (hst : ∀ i, Measurable fun z : D × X => st i z.1 z.2) (l : List ι) :
    Measurable fun z : (ι → D) × X => l.foldl (fun x i => st i (z.1 i) x) z.2 := by
  induction l with
  | nil => exact measurable_snd
  | cons a l ih =>
    have h0 : Measurable fun z : (ι → D) × X => (z.1 a, z.2) := ((measurable_pi_apply a).comp measurable_fst).prodMk measurable_snd
    have h1 : Measurable fun z : (ι → D) × X => st a (z.1 a) z.2 := (hst a).comp h0
    have h : Measurable fun z : (ι → D) × X => (z.1, st a (z.1 a) z.2) := measurable_fst.prodMk h1
    exact ih.comp h

/-- Steps with independent random numbers, each of which keeps the weight `w`, keep it together. -/
theorem foldl_stationary {ι D X : Type} [Fintype ι] [DecidableEq ι] [MeasurableSpace D] [MeasurableSpace X] (m : Measure D) [IsProbabilityMeasure m]
    (ν : Measure X) [SigmaFinite ν] (w : X → ℝ≥0∞) (st : ι → D → X → X) (hm : ∀ i, Measurable fun z : D × X => st i z.1 z.2)
    (hst : ∀ i (f : X → ℝ≥0∞), Measurable f → ∫⁻ x, (∫⁻ d, f (st i d x) ∂m) * w x ∂ν = ∫⁻ x, f x * w x ∂ν) (l : List ι) (hl : l.Nodup)
    (f : X → ℝ≥0∞) (hf : Measurable f) :
    ∫⁻ x, (∫⁻ d, f (l.foldl (fun x i => st i (d i) x) x) ∂(Measure.pi fun _ : ι => m)) * w x ∂ν = ∫⁻ x, f x * w x ∂ν := by
  induction l with
  | nil => simp
  | cons a l ih =>
    rw [List.nodup_cons] at hl
    let F : X → ℝ≥0∞ := fun x => ∫⁻ d, f (l.foldl (fun x i => st i (d i) x) x) ∂(Measure.pi fun _ : ι => m)
    have hF : Measurable F := by
      have : Measurable fun z : X × (ι → D) => f (l.foldl (fun x i => st i (z.2 i) x) z.1) :=
        hf.comp ((measurable_foldl st hm l).comp (measurable_snd.prodMk measurable_fst))
      exact this.lintegral_prod_right'
    have key : ∀ x, ∫⁻ d, f ((a :: l).foldl (fun x i => st i (d i) x) x) ∂(Measure.pi fun _ : ι => m) = ∫⁻ d0, F (st a d0 x) ∂m := by
      intro x
      have h1 : Measurable fun d : ι → D => f ((a :: l).foldl (fun x i => st i (d i) x) x) :=
        hf.comp ((measurable_foldl st hm (a :: l)).comp (measurable_id.prodMk measurable_const))
      have h2 : Measurable fun z : (ι → D) × D => f ((a :: l).foldl (fun x i => st i (Function.update z.1 a z.2 i) x) x) :=
        h1.comp (update_preserving m a).measurable
      rw [← (update_preserving m a).lintegral_comp h1, lintegral_prod_symm _ h2.aemeasurable]
      refine lintegral_congr fun d0 => lintegral_congr fun d => ?_
      simp only [List.foldl_cons, Function.update_self]
      rw [foldl_update st l a hl.1]
    simp only [key]
    rw [hst a F hF]
    exact ih hl.2

/-! ### The sweep as a list of hits -/

variable {S : Type} {N nA nF trials : ℕ}

theorem addAdjoint_set [DecidableEq S] (Φ : Scalars S N nA nF) (i : Fin nA) (s : S) (k : Fin (lieGenerators N).length) (x : ℝ) :
    addAdjoint Φ i s k x = setAdjoint Φ i s (fun k' => if k' = k then Φ.1 i s k' + x else Φ.1 i s k') := by
  refine Prod.ext ?_ rfl
  funext i' s' k'
  change (if i' = i ∧ s' = s ∧ k' = k then _ else _) = Function.update Φ.1 i (Function.update (Φ.1 i) s _) i' s' k'
  by_cases hi : i' = i
  · subst hi
    by_cases hs : s' = s
    · subst hs; simp
    · simp [hs]
  · simp [hi]

theorem addFundamental_set [DecidableEq S] (Φ : Scalars S N nA nF) (i : Fin nF) (s : S) (k : Fin N) (x : ℂ) :
    addFundamental Φ i s k x = setFundamental Φ i s (fun k' => if k' = k then Φ.2 i s k' + x else Φ.2 i s k') := by
  refine Prod.ext rfl ?_
  funext i' s' k'
  change (if i' = i ∧ s' = s ∧ k' = k then _ else _) = Function.update Φ.2 i (Function.update (Φ.2 i) s _) i' s' k'
  by_cases hi : i' = i
  · subst hi
    by_cases hs : s' = s
    · subst hs; simp
    · simp [hs]
  · simp [hi]

theorem addAdjoint_add [DecidableEq S] (Φ : Scalars S N nA nF) (i : Fin nA) (s : S) (k : Fin (lieGenerators N).length) (x : ℝ) :
    addAdjoint Φ i s k x = Φ + addAdjoint 0 i s k x := by
  refine Prod.ext ?_ (by simp [addAdjoint])
  funext i' s' k'
  simp only [addAdjoint, Prod.fst_add, Pi.add_apply, Prod.fst_zero, Pi.zero_apply]
  split <;> simp

theorem addFundamental_add [DecidableEq S] (Φ : Scalars S N nA nF) (i : Fin nF) (s : S) (k : Fin N) (x : ℂ) :
    addFundamental Φ i s k x = Φ + addFundamental 0 i s k x := by
  refine Prod.ext (by simp [addFundamental]) ?_
  funext i' s' k'
  simp only [addFundamental, Prod.snd_add, Pi.add_apply, Prod.snd_zero, Pi.zero_apply]
  split <;> simp

theorem addAdjoint_neg [DecidableEq S] (i : Fin nA) (s : S) (k : Fin (lieGenerators N).length) (x : ℝ) :
    addAdjoint (0 : Scalars S N nA nF) i s k (-x) = -addAdjoint 0 i s k x := by
  refine Prod.ext ?_ (by simp [addAdjoint])
  funext i' s' k'
  simp only [addAdjoint, Prod.fst_neg, Pi.neg_apply, Prod.fst_zero, Pi.zero_apply]
  split <;> simp

theorem addFundamental_neg [DecidableEq S] (i : Fin nF) (s : S) (k : Fin N) (x : ℂ) :
    addFundamental (0 : Scalars S N nA nF) i s k (-x) = -addFundamental 0 i s k x := by
  refine Prod.ext (by simp [addFundamental]) ?_
  funext i' s' k'
  simp only [addFundamental, Prod.snd_neg, Pi.neg_apply, Prod.snd_zero, Pi.zero_apply]
  split <;> simp

/-- One hit, with the coupling computed for it. -/
noncomputable def hitStep [DecidableEq S] (c : ScalarCouplings) (ε : ℝ) (T : Torus S) (U : GField S N) :
    Hit S N nA nF trials → HitDraw → Scalars S N nA nF → Scalars S N nA nF
  | .adjoint s i _ k, d, Φ => adjointHit c ε (adjointCoupling T U (Φ.1 i) s) s i k d Φ
  | .fundamental s i _ k, d, Φ => fundamentalHit c ε (fundamentalCoupling T U (Φ.2 i) s) s i k d Φ

/-- The shift of a hit. -/
noncomputable def hitShift [DecidableEq S] (ε : ℝ) : Hit S N nA nF trials → ℝ × ℝ → Scalars S N nA nF
  | .adjoint s i _ k, g => addAdjoint 0 i s k (ε * g.1)
  | .fundamental s i _ k, g => addFundamental 0 i s k ((ε : ℂ) * ⟨g.1, g.2⟩)

theorem hitStep_eq [Fintype S] [DecidableEq S] (c : ScalarCouplings) (ε : ℝ) (T : Torus S) (hT : ∀ μ s, T.sup μ s ≠ s) (U : GField S N)
    (h : Hit S N nA nF trials) (d : HitDraw) (Φ : Scalars S N nA nF) :
    hitStep c ε T U h d Φ = shiftStep (scalarEnergy c T U) (hitShift ε h) d Φ := by
  cases h with
  | adjoint s i t k =>
    change adjointHit c ε (adjointCoupling T U (Φ.1 i) s) s i k d Φ = _
    unfold adjointHit shiftStep hitShift
    have e := (C56_local T hT c U Φ s).1 i (fun k' => if k' = k then Φ.1 i s k' + ε * d.1.1 else Φ.1 i s k')
    simp only [← addAdjoint_set] at e
    simp only [metropolisLocal_iff, e]
    rw [← addAdjoint_add, addAdjoint_add _ i s k (-(ε * d.1.1)), addAdjoint_neg, addAdjoint_add Φ, add_neg_cancel_right, ← addAdjoint_add]
    by_cases h1 : scalarEnergy c T U (addAdjoint Φ i s k (ε * d.1.1)) - scalarEnergy c T U Φ < 0
    · rw [if_pos h1, if_pos (Or.inl h1)]
    · rw [if_neg h1]
      simp only [h1, false_or]
  | fundamental s i t k =>
    change fundamentalHit c ε (fundamentalCoupling T U (Φ.2 i) s) s i k d Φ = _
    unfold fundamentalHit shiftStep hitShift
    have e := (C56_local T hT c U Φ s).2 i (fun k' => if k' = k then Φ.2 i s k' + (ε : ℂ) * ⟨d.1.1, d.1.2⟩ else Φ.2 i s k')
    simp only [← addFundamental_set] at e
    simp only [metropolisLocal_iff, e]
    rw [← addFundamental_add, addFundamental_add _ i s k (-((ε : ℂ) * ⟨d.1.1, d.1.2⟩)), addFundamental_neg, addFundamental_add Φ,
      add_neg_cancel_right, ← addFundamental_add]
    by_cases h1 : scalarEnergy c T U (addFundamental Φ i s k ((ε : ℂ) * ⟨d.1.1, d.1.2⟩)) - scalarEnergy c T U Φ < 0
    · rw [if_pos h1, if_pos (Or.inl h1)]
    · rw [if_neg h1]
      simp only [h1, false_or]

theorem foldl_congr_inv {α β : Type} (P : β → Prop) (g g' : β → α → β) (l : List α) (hg : ∀ x, ∀ a ∈ l, P x → g x a = g' x a ∧ P (g' x a)) (x : β)
    (hx : P x) : l.foldl g x = l.foldl g' x ∧ P (l.foldl g' x) := by
  induction l generalizing x with
  | nil => exact ⟨rfl, hx⟩
  | cons a l ih =>
    obtain ⟨h1, h2⟩ := hg x a (List.mem_cons_self) hx
    simp only [List.foldl_cons]
    rw [h1]
    exact ih (fun x b hb => hg x b (List.mem_cons_of_mem _ hb)) _ h2

/-- A hit changes nothing at other sites. -/
theorem adjointHit_other [DecidableEq S] (c : ScalarCouplings) (ε : ℝ) (K : AdjVec N) (s : S) (i : Fin nA) (k : Fin (lieGenerators N).length)
    (d : HitDraw) (Φ : Scalars S N nA nF) : (∀ j s', s' ≠ s → (adjointHit c ε K s i k d Φ).1 j s' = Φ.1 j s') ∧
      (adjointHit c ε K s i k d Φ).2 = Φ.2 := by
  have h : ∀ (Ψ : Scalars S N nA nF) x j s', s' ≠ s → (addAdjoint Ψ i s k x).1 j s' = Ψ.1 j s' := by
    intro Ψ x j s' hs
    funext k'
    simp [addAdjoint, hs]
  unfold adjointHit
  dsimp only
  split
  · exact ⟨fun j s' hs => h _ _ _ _ hs, rfl⟩
  · split
    · exact ⟨fun j s' hs => h _ _ _ _ hs, rfl⟩
    · exact ⟨fun j s' hs => (h _ _ _ _ hs).trans (h _ _ _ _ hs), rfl⟩

theorem fundamentalHit_other [DecidableEq S] (c : ScalarCouplings) (ε : ℝ) (K : FundVec N) (s : S) (i : Fin nF) (k : Fin N)
    (d : HitDraw) (Φ : Scalars S N nA nF) : (∀ j s', s' ≠ s → (fundamentalHit c ε K s i k d Φ).2 j s' = Φ.2 j s') ∧
      (fundamentalHit c ε K s i k d Φ).1 = Φ.1 := by
  have h : ∀ (Ψ : Scalars S N nA nF) x j s', s' ≠ s → (addFundamental Ψ i s k x).2 j s' = Ψ.2 j s' := by
    intro Ψ x j s' hs
    funext k'
    simp [addFundamental, hs]
  unfold fundamentalHit
  dsimp only
  split
  · exact ⟨fun j s' hs => h _ _ _ _ hs, rfl⟩
  · split
    · exact ⟨fun j s' hs => h _ _ _ _ hs, rfl⟩
    · exact ⟨fun j s' hs => (h _ _ _ _ hs).trans (h _ _ _ _ hs), rfl⟩

theorem sdn_ne (T : Torus S) (hT : ∀ μ s, T.sup μ s ≠ s) (μ : Fin 4) (s : S) : T.sdn μ s ≠ s := fun e =>
  hT μ s (by conv_lhs => rw [← e]; exact T.sup_sdn μ s)

theorem adjointCoupling_congr (T : Torus S) (U : GField S N) (φ ψ : S → AdjVec N) (s : S)
    (h : ∀ μ, φ (T.sup μ s) = ψ (T.sup μ s) ∧ φ (T.sdn μ s) = ψ (T.sdn μ s)) : adjointCoupling T U φ s = adjointCoupling T U ψ s := by
  unfold adjointCoupling
  exact Finset.sum_congr rfl fun μ _ => by rw [(h μ).1, (h μ).2]

theorem fundamentalCoupling_congr (T : Torus S) (U : GField S N) (φ ψ : S → FundVec N) (s : S)
    (h : ∀ μ, φ (T.sup μ s) = ψ (T.sup μ s) ∧ φ (T.sdn μ s) = ψ (T.sdn μ s)) : fundamentalCoupling T U φ s = fundamentalCoupling T U ψ s := by
  unfold fundamentalCoupling
  exact Finset.sum_congr rfl fun μ _ => by rw [(h μ).1, (h μ).2]

/-- The hits of an adjoint field at a site. -/
noncomputable def adjointHits (N nA nF trials : ℕ) (s : S) (i : Fin nA) : List (Hit S N nA nF trials) :=
  (List.finRange trials).flatMap fun t => (List.finRange (lieGenerators N).length).map fun k => .adjoint s i t k

/-- The hits of a fundamental field at a site. -/
noncomputable def fundamentalHits (N nA nF trials : ℕ) (s : S) (i : Fin nF) : List (Hit S N nA nF trials) :=
  (List.finRange trials).flatMap fun t => (List.finRange N).map fun k => .fundamental s i t k

/-- The hits at a site. -/
noncomputable def siteHits (N nA nF trials : ℕ) (s : S) : List (Hit S N nA nF trials) :=
  ((List.finRange nA).flatMap fun i => adjointHits N nA nF trials s i) ++ (List.finRange nF).flatMap fun i => fundamentalHits N nA nF trials s i

/-- The sites of the sweep, in the order of the visits. -/
def sweepSites (T : Torus S) (sites : List S) : List S :=
  (sites.filter fun s => coordSum T s % 2 = 0) ++ sites.filter fun s => coordSum T s % 2 = 1

/-- All hits of a sweep, in their order. -/
noncomputable def sweepHits (N nA nF trials : ℕ) (T : Torus S) (sites : List S) : List (Hit S N nA nF trials) :=
  (sweepSites T sites).flatMap (siteHits N nA nF trials)

section
variable [DecidableEq S] (c : ScalarCouplings) (ε : ℝ) (T : Torus S) (hT : ∀ μ s, T.sup μ s ≠ s) (U : GField S N)
  (d : Hit S N nA nF trials → HitDraw)
include hT

theorem updateAdjointAt_hits (s : S) (i : Fin nA) (Φ : Scalars S N nA nF) :
    updateAdjointAt c ε T U d s i Φ = (adjointHits N nA nF trials s i).foldl (fun Φ h => hitStep c ε T U h (d h) Φ) Φ := by
  unfold updateAdjointAt adjointHits
  rw [List.foldl_flatMap]
  refine (foldl_congr_inv (fun Ψ : Scalars S N nA nF => adjointCoupling T U (Ψ.1 i) s = adjointCoupling T U (Φ.1 i) s) _ _ _ ?_ Φ rfl).1
  intro Ψ t _ hΨ
  rw [List.foldl_map]
  refine foldl_congr_inv (fun Ψ : Scalars S N nA nF => adjointCoupling T U (Ψ.1 i) s = adjointCoupling T U (Φ.1 i) s) _ _ _ ?_ Ψ hΨ
  intro X k _ hX
  have e : hitStep c ε T U (.adjoint s i t k) (d (.adjoint s i t k)) X =
      adjointHit c ε (adjointCoupling T U (X.1 i) s) s i k (d (.adjoint s i t k)) X := rfl
  rw [e, hX]
  refine ⟨rfl, ?_⟩
  rw [← hX]
  exact adjointCoupling_congr T U _ _ s fun μ => ⟨(adjointHit_other c ε _ s i k _ X).1 i _ (hT μ s), (adjointHit_other c ε _ s i k _ X).1 i _ (sdn_ne T hT μ s)⟩

theorem updateFundamentalAt_hits (s : S) (i : Fin nF) (Φ : Scalars S N nA nF) :
    updateFundamentalAt c ε T U d s i Φ = (fundamentalHits N nA nF trials s i).foldl (fun Φ h => hitStep c ε T U h (d h) Φ) Φ := by
  unfold updateFundamentalAt fundamentalHits
  rw [List.foldl_flatMap]
  refine (foldl_congr_inv (fun Ψ : Scalars S N nA nF => fundamentalCoupling T U (Ψ.2 i) s = fundamentalCoupling T U (Φ.2 i) s) _ _ _ ?_ Φ rfl).1
  intro Ψ t _ hΨ
  rw [List.foldl_map]
  refine foldl_congr_inv (fun Ψ : Scalars S N nA nF => fundamentalCoupling T U (Ψ.2 i) s = fundamentalCoupling T U (Φ.2 i) s) _ _ _ ?_ Ψ hΨ
  intro X k _ hX
  have e : hitStep c ε T U (.fundamental s i t k) (d (.fundamental s i t k)) X =
      fundamentalHit c ε (fundamentalCoupling T U (X.2 i) s) s i k (d (.fundamental s i t k)) X := rfl
  rw [e, hX]
  refine ⟨rfl, ?_⟩
  rw [← hX]
  exact fundamentalCoupling_congr T U _ _ s fun μ =>
    ⟨(fundamentalHit_other c ε _ s i k _ X).1 i _ (hT μ s), (fundamentalHit_other c ε _ s i k _ X).1 i _ (sdn_ne T hT μ s)⟩

theorem updateSite_hits (s : S) (Φ : Scalars S N nA nF) :
    updateSite c ε T U d Φ s = (siteHits N nA nF trials s).foldl (fun Φ h => hitStep c ε T U h (d h) Φ) Φ := by
  unfold updateSite siteHits
  rw [List.foldl_append, List.foldl_flatMap, List.foldl_flatMap]
  simp only [updateAdjointAt_hits c ε T hT U d, updateFundamentalAt_hits c ε T hT U d]

end

theorem foldl_if {α β : Type} (p : α → Prop) [DecidablePred p] (g : β → α → β) (l : List α) (x : β) :
    l.foldl (fun x a => if p a then g x a else x) x = (l.filter fun a => p a).foldl g x := by
  induction l generalizing x with
  | nil => rfl
  | cons a l ih =>
    simp only [List.foldl_cons, List.filter_cons]
    by_cases h : p a
    · simp [h, ih]
    · simp [h, ih]

theorem scalarSweep_sites [DecidableEq S] (c : ScalarCouplings) (ε : ℝ) (T : Torus S) (U : GField S N) (sites : List S)
    (d : Hit S N nA nF trials → HitDraw) (Φ : Scalars S N nA nF) :
    scalarSweep c ε T U sites d Φ = (sweepSites T sites).foldl (fun Φ s => updateSite c ε T U d Φ s) Φ := by
  unfold scalarSweep sweepSites
  simp only [List.foldl_cons, List.foldl_nil, List.foldl_append, foldl_if]

theorem scalarSweep_hits [DecidableEq S] (c : ScalarCouplings) (ε : ℝ) (T : Torus S) (hT : ∀ μ s, T.sup μ s ≠ s) (U : GField S N) (sites : List S)
    (d : Hit S N nA nF trials → HitDraw) (Φ : Scalars S N nA nF) :
    scalarSweep c ε T U sites d Φ = (sweepHits N nA nF trials T sites).foldl (fun Φ h => hitStep c ε T U h (d h) Φ) Φ := by
  rw [scalarSweep_sites]
  unfold sweepHits
  rw [List.foldl_flatMap]
  simp only [updateSite_hits c ε T hT U d]

theorem nodup_flatMap_key {α β κ : Type} (l : List α) (hl : l.Nodup) (f : α → List β) (hf : ∀ a, (f a).Nodup) (key : β → κ) (g : α → κ)
    (hg : Function.Injective g) (h : ∀ a, ∀ b ∈ f a, key b = g a) : (l.flatMap f).Nodup := by
  rw [List.nodup_flatMap]
  refine ⟨fun a _ => hf a, hl.imp fun {a b} hab => ?_⟩
  intro x hx hy
  exact hab (hg ((h a x hx).symm.trans (h b x hy)))

/-- The site of a hit. -/
def Hit.site : Hit S N nA nF trials → S
  | .adjoint s _ _ _ => s
  | .fundamental s _ _ _ => s

/-- The field of a hit, adjoint fields first. -/
def Hit.field : Hit S N nA nF trials → ℕ ⊕ ℕ
  | .adjoint _ i _ _ => .inl i.1
  | .fundamental _ i _ _ => .inr i.1

/-- The trial of a hit. -/
def Hit.trial : Hit S N nA nF trials → Fin trials
  | .adjoint _ _ t _ => t
  | .fundamental _ _ t _ => t

theorem mem_adjointHits (s : S) (i : Fin nA) (h : Hit S N nA nF trials) (hh : h ∈ adjointHits N nA nF trials s i) :
    h.site = s ∧ h.field = .inl i.1 := by
  unfold adjointHits at hh
  simp only [List.mem_flatMap, List.mem_map] at hh
  obtain ⟨t, _, k, _, rfl⟩ := hh
  exact ⟨rfl, rfl⟩

theorem mem_fundamentalHits (s : S) (i : Fin nF) (h : Hit S N nA nF trials) (hh : h ∈ fundamentalHits N nA nF trials s i) :
    h.site = s ∧ h.field = .inr i.1 := by
  unfold fundamentalHits at hh
  simp only [List.mem_flatMap, List.mem_map] at hh
  obtain ⟨t, _, k, _, rfl⟩ := hh
  exact ⟨rfl, rfl⟩

theorem nodup_adjointHits (s : S) (i : Fin nA) : (adjointHits N nA nF trials s i).Nodup := by
  refine nodup_flatMap_key _ (List.nodup_finRange _) _ (fun t => ?_) Hit.trial id Function.injective_id ?_
  · refine (List.nodup_finRange _).map fun k k' e => ?_
    injection e
  · intro t h hh
    rw [List.mem_map] at hh
    obtain ⟨k, _, rfl⟩ := hh
    rfl

theorem nodup_fundamentalHits (s : S) (i : Fin nF) : (fundamentalHits N nA nF trials s i).Nodup := by
  refine nodup_flatMap_key _ (List.nodup_finRange _) _ (fun t => ?_) Hit.trial id Function.injective_id ?_
  · refine (List.nodup_finRange _).map fun k k' e => ?_
    injection e
  · intro t h hh
    rw [List.mem_map] at hh
    obtain ⟨k, _, rfl⟩ := hh
    rfl

theorem mem_siteHits (s : S) (h : Hit S N nA nF trials) (hh : h ∈ siteHits N nA nF trials s) : h.site = s := by
  unfold siteHits at hh
  rw [List.mem_append, List.mem_flatMap, List.mem_flatMap] at hh
  rcases hh with ⟨i, _, hi⟩ | ⟨i, _, hi⟩
  · exact (mem_adjointHits s i h hi).1
  · exact (mem_fundamentalHits s i h hi).1

theorem nodup_siteHits (s : S) : (siteHits N nA nF trials s).Nodup := by
  unfold siteHits
  refine List.Nodup.append ?_ ?_ ?_
  · exact nodup_flatMap_key _ (List.nodup_finRange _) _ (fun i => nodup_adjointHits s i) Hit.field (fun i => .inl i.1)
      (fun i j e => Fin.ext (Sum.inl.inj e)) fun i h hh => (mem_adjointHits s i h hh).2
  · exact nodup_flatMap_key _ (List.nodup_finRange _) _ (fun i => nodup_fundamentalHits s i) Hit.field (fun i => .inr i.1)
      (fun i j e => Fin.ext (Sum.inr.inj e)) fun i h hh => (mem_fundamentalHits s i h hh).2
  · intro h h1 h2
    rw [List.mem_flatMap] at h1 h2
    obtain ⟨i, _, hi⟩ := h1
    obtain ⟨j, _, hj⟩ := h2
    have := (mem_adjointHits s i h hi).2.symm.trans (mem_fundamentalHits s j h hj).2
    exact Sum.inl_ne_inr this

theorem nodup_sweepSites (T : Torus S) (sites : List S) (h : sites.Nodup) : (sweepSites T sites).Nodup := by
  unfold sweepSites
  refine List.Nodup.append (h.filter _) (h.filter _) ?_
  intro s h1 h2
  rw [List.mem_filter] at h1 h2
  have e1 := of_decide_eq_true h1.2
  have e2 := of_decide_eq_true h2.2
  omega

theorem nodup_sweepHits (T : Torus S) (sites : List S) (h : sites.Nodup) : (sweepHits N nA nF trials T sites).Nodup :=
  nodup_flatMap_key _ (nodup_sweepSites T sites h) _ (fun s => nodup_siteHits s) Hit.site id Function.injective_id fun s h hh => mem_siteHits s h hh

end Leonard
