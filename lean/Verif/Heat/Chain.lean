import Verif.Scalar.Metropolis

/-!
Almost every run of a list of random steps meets only typical states.
-/

set_option autoImplicit false

namespace Leonard

open MeasureTheory Set
open scoped ENNReal

variable {ι D X : Type}

/-- Every step of the run meets the condition. -/
def AllGood (st : ι → D → X → X) (Good : ι → D → X → Prop) : List ι → (ι → D) → X → Prop
  | [], _, _ => True
  | i :: l, d, x => Good i (d i) x ∧ AllGood st Good l d (st i (d i) x)

theorem allGood_append (st : ι → D → X → X) (Good : ι → D → X → Prop) (l l' : List ι) (d : ι → D) (x : X) :
    AllGood st Good (l ++ l') d x ↔ AllGood st Good l d x ∧ AllGood st Good l' d (l.foldl (fun x i => st i (d i) x) x) := by
  induction l generalizing x with
  | nil => simp [AllGood]
  | cons i l ih => simp [AllGood, ih, and_assoc]

theorem allGood_update [DecidableEq ι] (st : ι → D → X → X) (Good : ι → D → X → Prop) (l : List ι) (h : ι) (hl : h ∉ l) (d : ι → D) (d0 : D) (x : X) :
    AllGood st Good l (Function.update d h d0) x ↔ AllGood st Good l d x := by
  induction l generalizing x with
  | nil => rfl
  | cons a l ih =>
    rw [List.mem_cons, not_or] at hl
    simp only [AllGood, Function.update_of_ne (Ne.symm hl.1)]
    rw [ih hl.2]

variable [MeasurableSpace D] [MeasurableSpace X]

theorem measurableSet_allGood (st : ι → D → X → X) (hm : ∀ i, Measurable fun z : D × X => st i z.1 z.2) (Good : ι → D → X → Prop)
    (hG : ∀ i, MeasurableSet {z : D × X | Good i z.1 z.2}) (l : List ι) : MeasurableSet {z : (ι → D) × X | AllGood st Good l z.1 z.2} := by
  induction l with
  | nil => exact MeasurableSet.univ
  | cons a l ih =>
    have h0 : Measurable fun z : (ι → D) × X => (z.1 a, z.2) := ((measurable_pi_apply a).comp measurable_fst).prodMk measurable_snd
    have h1 : Measurable fun z : (ι → D) × X => st a (z.1 a) z.2 := (hm a).comp h0
    have h2 : Measurable fun z : (ι → D) × X => (z.1, st a (z.1 a) z.2) := measurable_fst.prodMk h1
    exact (h0 (hG a)).inter (h2 ih)

/-- When every step keeps a weight and meets its condition from almost every state, almost every run meets all conditions. -/
theorem ae_allGood [Fintype ι] [DecidableEq ι] (m : Measure D) [IsProbabilityMeasure m] (ν : Measure X) [SigmaFinite ν] (w : X → ℝ≥0∞) (hw : Measurable w)
    (hw0 : ∀ x, w x ≠ 0) (st : ι → D → X → X) (hm : ∀ i, Measurable fun z : D × X => st i z.1 z.2)
    (hst : ∀ i (f : X → ℝ≥0∞), Measurable f → ∫⁻ x, (∫⁻ d, f (st i d x) ∂m) * w x ∂ν = ∫⁻ x, f x * w x ∂ν) (Good : ι → D → X → Prop)
    (hG : ∀ i, MeasurableSet {z : D × X | Good i z.1 z.2}) (l : List ι) (hl : l.Nodup) (hae : ∀ i ∈ l, ∀ᵐ x ∂ν, ∀ᵐ d ∂m, Good i d x) :
    ∀ᵐ x ∂ν, ∀ᵐ d ∂(Measure.pi fun _ : ι => m), AllGood st Good l d x := by
  induction l with
  | nil => exact Filter.Eventually.of_forall fun x => Filter.Eventually.of_forall fun d => trivial
  | cons a l ih =>
    rw [List.nodup_cons] at hl
    have ih := ih hl.2 fun i hi => hae i (List.mem_cons_of_mem a hi)
    have ha := hae a List.mem_cons_self
    let B : Set X := {x | ¬ ∀ᵐ d ∂(Measure.pi fun _ : ι => m), AllGood st Good l d x}
    have hB : ν B = 0 := ih
    let B' : Set X := toMeasurable ν B
    have hB' : ν B' = 0 := by rw [measure_toMeasurable]; exact hB
    have hB'm : MeasurableSet B' := measurableSet_toMeasurable ν B
    have hI : Measurable (B'.indicator fun _ => (1 : ℝ≥0∞)) := measurable_const.indicator hB'm
    have h1 := hst a _ hI
    have h2 : ∫⁻ x, B'.indicator (fun _ => (1 : ℝ≥0∞)) x * w x ∂ν = 0 := by
      have hIw : Measurable fun x => B'.indicator (fun _ => (1 : ℝ≥0∞)) x * w x := hI.mul hw
      rw [lintegral_eq_zero_iff hIw]
      filter_upwards [measure_eq_zero_iff_ae_notMem.1 hB'] with x hx
      rw [indicator_of_notMem hx, zero_mul]
      rfl
    rw [h2] at h1
    have hF : Measurable fun x => ∫⁻ d, B'.indicator (fun _ => (1 : ℝ≥0∞)) (st a d x) ∂m := by
      have : Measurable fun z : X × D => B'.indicator (fun _ => (1 : ℝ≥0∞)) (st a z.2 z.1) := hI.comp ((hm a).comp measurable_swap)
      exact this.lintegral_prod_right'
    have hFw : Measurable fun x => (∫⁻ d, B'.indicator (fun _ => (1 : ℝ≥0∞)) (st a d x) ∂m) * w x := hF.mul hw
    rw [lintegral_eq_zero_iff hFw] at h1
    filter_upwards [ha, h1] with x hx h1x
    have h3 : ∫⁻ d, B'.indicator (fun _ => (1 : ℝ≥0∞)) (st a d x) ∂m = 0 := (mul_eq_zero.1 h1x).resolve_right (hw0 x)
    have hmx : Measurable fun d => B'.indicator (fun _ => (1 : ℝ≥0∞)) (st a d x) := hI.comp ((hm a).comp measurable_prodMk_right)
    rw [lintegral_eq_zero_iff hmx] at h3
    have h4 : ∀ᵐ d0 ∂m, ∀ᵐ d ∂(Measure.pi fun _ : ι => m), Good a d0 x ∧ AllGood st Good l d (st a d0 x) := by
      filter_upwards [hx, h3] with d0 g0 h0
      have hn : st a d0 x ∉ B := fun hc => by
        have : st a d0 x ∈ B' := subset_toMeasurable ν B hc
        rw [indicator_of_mem this] at h0
        exact one_ne_zero h0
      have hn' : ∀ᵐ d ∂(Measure.pi fun _ : ι => m), AllGood st Good l d (st a d0 x) := not_not.1 hn
      filter_upwards [hn'] with d hd using ⟨g0, hd⟩
    have hS : MeasurableSet {d : ι → D | AllGood st Good (a :: l) d x} := by
      have hp : Measurable fun d : ι → D => (d, x) := measurable_prodMk_right
      exact hp (measurableSet_allGood st hm Good hG (a :: l))
    have hmp := update_preserving m a (ι := ι)
    have hkey : ∀ᵐ z ∂((Measure.pi fun _ : ι => m).prod m), AllGood st Good (a :: l) (Function.update z.1 a z.2) x := by
      have hSz : MeasurableSet {z : (ι → D) × D | AllGood st Good (a :: l) (Function.update z.1 a z.2) x} := hmp.measurable hS
      have hsw : ∀ᵐ z ∂(m.prod (Measure.pi fun _ : ι => m)), AllGood st Good (a :: l) (Function.update z.2 a z.1) x := by
        have hms : MeasurableSet {z : D × (ι → D) | AllGood st Good (a :: l) (Function.update z.2 a z.1) x} := measurable_swap hSz
        rw [Measure.ae_prod_iff_ae_ae hms]
        filter_upwards [h4] with d0 h
        filter_upwards [h] with d hd
        simp only [AllGood, Function.update_self]
        exact ⟨hd.1, (allGood_update st Good l a hl.1 d d0 _).2 hd.2⟩
      exact (Measure.measurePreserving_swap (μ := Measure.pi fun _ : ι => m) (ν := m)).quasiMeasurePreserving.ae hsw
    have hmap := hmp.map_eq
    rw [← hmap]
    exact (ae_map_iff hmp.measurable.aemeasurable hS).2 hkey

end Leonard
