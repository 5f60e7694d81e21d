import Mathlib.MeasureTheory.Group.LIntegral
import Mathlib.MeasureTheory.Measure.Prod
import Mathlib.MeasureTheory.Group.Prod

/-!
Sampling the weight along the orbits of a group keeps the weight.
-/

set_option autoImplicit false

namespace Leonard

open MeasureTheory Set
open scoped ENNReal

variable {G X : Type} [Group G] [MeasurableSpace G] [MeasurableMul₂ G] [MeasurableInv G] (m : Measure G) [IsFiniteMeasure m] [m.IsMulLeftInvariant]

/-- A finite left invariant measure is invariant under inversion. -/
theorem lintegral_inv_of_finite (f : G → ℝ≥0∞) (hf : Measurable f) : ∫⁻ x, f x⁻¹ ∂m = ∫⁻ x, f x ∂m := by
  by_cases h0 : m univ = 0
  · have : m = 0 := Measure.measure_univ_eq_zero.1 h0
    simp [this]
  have hI : Measurable fun x : G => x⁻¹ := measurable_inv
  -- the double integral of `f (y⁻¹ x)`
  have h1 : ∫⁻ y, ∫⁻ x, f (y⁻¹ * x) ∂m ∂m = (∫⁻ x, f x ∂m) * m univ := by
    have : ∀ y : G, ∫⁻ x, f (y⁻¹ * x) ∂m = ∫⁻ x, f x ∂m := fun y => lintegral_mul_left_eq_self f y⁻¹
    simp only [this, lintegral_const]
  have hm : Measurable fun p : G × G => f (p.1⁻¹ * p.2) := hf.comp ((hI.comp measurable_fst).mul measurable_snd)
  have h2 : ∫⁻ y, ∫⁻ x, f (y⁻¹ * x) ∂m ∂m = (∫⁻ x, f x⁻¹ ∂m) * m univ := by
    rw [lintegral_lintegral_swap hm.aemeasurable]
    have : ∀ x : G, ∫⁻ y, f (y⁻¹ * x) ∂m = ∫⁻ y, f y⁻¹ ∂m := fun x => by
      have := lintegral_mul_left_eq_self (μ := m) (fun y => f y⁻¹) x⁻¹
      rw [← this]
      refine lintegral_congr fun y => ?_
      rw [mul_inv_rev, inv_inv]
    simp only [this, lintegral_const]
  rw [h1] at h2
  have := ENNReal.mul_left_inj h0 (measure_ne_top m univ) (a := ∫⁻ x, f x ∂m) (b := ∫⁻ x, f x⁻¹ ∂m)
  exact (this.1 h2).symm

/-- A finite left invariant measure is right invariant. -/
theorem lintegral_mul_right_of_finite (f : G → ℝ≥0∞) (hf : Measurable f) (a : G) : ∫⁻ x, f (x * a) ∂m = ∫⁻ x, f x ∂m := by
  have h1 := lintegral_inv_of_finite m (fun x => f (x * a)) (hf.comp (measurable_mul_const a))
  rw [← h1, ← lintegral_inv_of_finite m f hf, ← lintegral_mul_left_eq_self (fun x => f x⁻¹) a⁻¹]
  refine lintegral_congr fun x => ?_
  rw [mul_inv_rev, inv_inv]

variable [MeasurableSpace X] (ν : Measure X) [SFinite ν]

/-- The integral of the weight along the orbit. -/
noncomputable def orbitNorm (act : G → X → X) (ρ : X → ℝ≥0∞) (x : X) : ℝ≥0∞ := ∫⁻ a, ρ (act a x) ∂m

/-- Moving along the orbits of a group according to the weight `ρ`, or not at all outside of `D`, keeps the weight. -/
theorem gibbs_stationary (act : G → X → X) (hact : Measurable fun z : G × X => act z.1 z.2) (hmul : ∀ a b x, act (a * b) x = act a (act b x))
    (hone : ∀ x, act 1 x = x) (hν : ∀ a, MeasurePreserving (act a) ν ν) (ρ : X → ℝ≥0∞) (hρ : Measurable ρ) (D : Set X) (hD : MeasurableSet D)
    (hDa : ∀ a x, act a x ∈ D ↔ x ∈ D) (hZ : ∀ x ∈ D, orbitNorm m act ρ x ≠ 0 ∧ orbitNorm m act ρ x ≠ ∞) (f K : X → ℝ≥0∞) (hf : Measurable f)
    (hK1 : ∀ x ∈ D, K x = (orbitNorm m act ρ x)⁻¹ * ∫⁻ a, ρ (act a x) * f (act a x) ∂m) (hK0 : ∀ x ∉ D, K x = f x) :
    ∫⁻ x, K x * ρ x ∂ν = ∫⁻ x, f x * ρ x ∂ν := by
  have hact1 : ∀ a, Measurable (act a) := fun a => (hν a).measurable
  have hZm : Measurable (orbitNorm m act ρ) := by
    have : Measurable fun z : X × G => ρ (act z.2 z.1) := hρ.comp (hact.comp measurable_swap)
    exact this.lintegral_prod_right'
  have hZinv : ∀ a x, orbitNorm m act ρ (act a x) = orbitNorm m act ρ x := fun a x => by
    unfold orbitNorm
    have h := lintegral_mul_right_of_finite m (fun c => ρ (act c x)) (hρ.comp (hact.comp (measurable_id.prodMk measurable_const))) a
    rw [← h]
    exact lintegral_congr fun c => by rw [hmul]
  let g : X → ℝ≥0∞ := D.indicator f
  have hg : Measurable g := hf.indicator hD
  -- the moved part
  have key : ∫⁻ x, ρ x * ((orbitNorm m act ρ x)⁻¹ * ∫⁻ a, ρ (act a x) * g (act a x) ∂m) ∂ν = ∫⁻ x, g x * ρ x ∂ν := by
    let H : G → X → ℝ≥0∞ := fun a y => ρ (act a⁻¹ y) * (orbitNorm m act ρ y)⁻¹ * (ρ y * g y)
    have hHm : Measurable fun z : G × X => H z.1 z.2 := by
      have h1 : Measurable fun z : G × X => ρ (act z.1⁻¹ z.2) := hρ.comp (hact.comp ((measurable_inv.comp measurable_fst).prodMk measurable_snd))
      exact (h1.mul (hZm.comp measurable_snd).inv).mul ((hρ.comp measurable_snd).mul (hg.comp measurable_snd))
    have e1 : ∀ x, ρ x * ((orbitNorm m act ρ x)⁻¹ * ∫⁻ a, ρ (act a x) * g (act a x) ∂m) = ∫⁻ a, H a (act a x) ∂m := fun x => by
      have hm1 : Measurable fun a => ρ (act a x) * g (act a x) := by
        have : Measurable fun a => act a x := hact.comp (measurable_id.prodMk measurable_const)
        exact (hρ.comp this).mul (hg.comp this)
      rw [← mul_assoc, ← lintegral_const_mul _ hm1]
      refine lintegral_congr fun a => ?_
      simp only [H]
      rw [hZinv, ← hmul, inv_mul_cancel, hone]
    simp only [e1]
    have hm2 : Measurable fun z : X × G => H z.2 (act z.2 z.1) := hHm.comp (measurable_snd.prodMk (hact.comp measurable_swap))
    rw [lintegral_lintegral_swap hm2.aemeasurable]
    have e2 : ∀ a, ∫⁻ x, H a (act a x) ∂ν = ∫⁻ y, H a y ∂ν := fun a => (hν a).lintegral_comp (hHm.comp measurable_prodMk_left)
    simp only [e2]
    rw [lintegral_lintegral_swap hHm.aemeasurable]
    refine lintegral_congr fun y => ?_
    simp only [H]
    have hm3 : Measurable fun a : G => ρ (act a⁻¹ y) := hρ.comp (hact.comp (measurable_inv.prodMk measurable_const))
    rw [lintegral_mul_const _ (hm3.mul_const _), lintegral_mul_const _ hm3]
    have e3 := lintegral_inv_of_finite m (fun a => ρ (act a y)) (hρ.comp (hact.comp (measurable_id.prodMk measurable_const)))
    rw [e3]
    change orbitNorm m act ρ y * (orbitNorm m act ρ y)⁻¹ * _ = _
    by_cases hy : y ∈ D
    · rw [ENNReal.mul_inv_cancel (hZ y hy).1 (hZ y hy).2, one_mul, mul_comm]
    · have : g y = 0 := indicator_of_notMem hy f
      rw [this, mul_zero, mul_zero, zero_mul]
  have split : ∀ x, K x * ρ x = ρ x * ((orbitNorm m act ρ x)⁻¹ * ∫⁻ a, ρ (act a x) * g (act a x) ∂m) + Dᶜ.indicator f x * ρ x := fun x => by
    by_cases hx : x ∈ D
    · rw [hK1 x hx, indicator_of_notMem (fun h : x ∈ Dᶜ => h hx), zero_mul, add_zero, mul_comm]
      congr 3
      funext a
      have : g (act a x) = f (act a x) := indicator_of_mem ((hDa a x).2 hx) f
      rw [this]
    · have : ∀ a, g (act a x) = 0 := fun a => indicator_of_notMem (fun h => hx ((hDa a x).1 h)) f
      rw [hK0 x hx, indicator_of_mem (show x ∈ Dᶜ from hx)]
      simp [this]
  simp only [split]
  have hmr : Measurable fun x => Dᶜ.indicator f x * ρ x := (hf.indicator hD.compl).mul hρ
  rw [lintegral_add_right _ hmr, key, ← lintegral_add_right _ hmr]
  refine lintegral_congr fun x => ?_
  rw [← add_mul]
  congr 1
  exact indicator_self_add_compl_apply D f x

end Leonard
