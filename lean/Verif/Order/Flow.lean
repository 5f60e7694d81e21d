import Verif.Order.Series
import Mathlib.Analysis.Calculus.ContDiff.Operations
import Mathlib.Analysis.Calculus.MeanValue
import Mathlib.Analysis.Asymptotics.Lemmas

/-!
# Order of the integrators: expansions in the length of the trajectory

The formal series of `Verif.Order.Series` are the expansions of smooth functions of the fields along the sequence of updates.
-/

set_option autoImplicit false

namespace Leonard

open Filter Asymptotics Finset PowerSeries
open scoped ContDiff Topology

variable {ι : Type} {E W : Type*} [NormedAddCommGroup E] [NormedSpace ℝ E] [NormedAddCommGroup W] [NormedSpace ℝ W]

/-- The coefficient of `X ^ k`. -/
noncomputable def cS {R : Type*} [Ring R] (k : ℕ) (S : R⟦X⟧) : R := PowerSeries.coeff k S

theorem cS_expS {R : Type*} [Ring R] [Algebra ℝ R] (a : R) (k : ℕ) : cS k (expS a) = ((k.factorial : ℝ)⁻¹) • a ^ k := coeff_expS a k

theorem cS_mul {R : Type*} [Ring R] (k : ℕ) (S T : R⟦X⟧) : cS k (S * T) = ∑ m ∈ range (k + 1), cS m S * cS (k - m) T := by
  unfold cS
  rw [coeff_mul, Finset.Nat.sum_antidiagonal_eq_sum_range_succ_mk]

/-- Remainder of the Taylor expansion at zero. -/
theorem taylor_bound (n : ℕ) (h : ℕ → ℝ → W) (δ C : ℝ) (hd : ∀ k < n, ∀ s : ℝ, |s| ≤ δ → HasDerivAt (h k) (h (k + 1) s) s)
    (hC : ∀ s : ℝ, |s| ≤ δ → ‖h n s‖ ≤ C) (t : ℝ) (ht : |t| ≤ δ) :
    ‖h 0 t - ∑ k ∈ range n, (((k.factorial : ℝ)⁻¹) * t ^ k) • h k 0‖ ≤ C * |t| ^ n := by
  induction n generalizing h t with
  | zero => simpa using hC t ht
  | succ n ih =>
    set g : ℝ → W := fun s => h 0 s - ∑ k ∈ range (n + 1), (((k.factorial : ℝ)⁻¹) * s ^ k) • h k 0 with hg
    set g' : ℝ → W := fun s => h 1 s - ∑ k ∈ range n, (((k.factorial : ℝ)⁻¹) * s ^ k) • h (k + 1) 0 with hg'
    have hder : ∀ s, |s| ≤ δ → HasDerivAt g (g' s) s := by
      intro s hs
      refine (hd 0 (by omega) s hs).sub ?_
      have e : (fun s : ℝ => ∑ k ∈ range (n + 1), (((k.factorial : ℝ)⁻¹) * s ^ k) • h k 0) =
          fun s : ℝ => (∑ k ∈ range n, ((((k + 1).factorial : ℝ)⁻¹) * s ^ (k + 1)) • h (k + 1) 0) + h 0 0 := by
        funext s
        rw [Finset.sum_range_succ']
        simp
      rw [e]
      refine HasDerivAt.add_const _ (HasDerivAt.fun_sum fun k _ => ?_)
      refine HasDerivAt.smul_const ?_ _
      have h1 := (hasDerivAt_pow (k + 1) s).const_mul (((k + 1).factorial : ℝ)⁻¹)
      refine h1.congr_deriv ?_
      rw [Nat.factorial_succ]
      have : (k.factorial : ℝ) ≠ 0 := by positivity
      push_cast
      field_simp
    have hC0 : 0 ≤ C := le_trans (norm_nonneg _) (hC t ht)
    have hb : ∀ s, |s| ≤ |t| → ‖g' s‖ ≤ C * |t| ^ n := by
      intro s hs
      have := ih (fun k => h (k + 1)) (fun k hk s hs => hd (k + 1) (by omega) s hs) (fun s hs => hC s hs) s (hs.trans ht)
      exact this.trans (mul_le_mul_of_nonneg_left (pow_le_pow_left₀ (abs_nonneg s) hs n) hC0)
    have key := Convex.norm_image_sub_le_of_norm_hasDerivWithin_le (f := g) (f' := g') (s := Set.Icc (-|t|) |t|) (x := 0) (y := t)
      (C := C * |t| ^ n) (fun s hs => (hder s ((abs_le.2 hs).trans ht)).hasDerivWithinAt) (fun s hs => hb s (abs_le.2 hs))
      (convex_Icc _ _) (abs_le.1 (by simp)) (abs_le.1 le_rfl)
    have g0 : g 0 = 0 := by
      simp only [hg]
      rw [Finset.sum_range_succ']
      simp
    rw [g0, sub_zero, sub_zero, Real.norm_eq_abs, mul_assoc, ← pow_succ] at key
    exact key

/-- The functions that are smooth on a set. -/
def smoothOn (Ω : Set E) (W : Type*) [NormedAddCommGroup W] [NormedSpace ℝ W] : Submodule ℝ (E → W) where
  carrier := {f | ContDiffOn ℝ ∞ f Ω}
  add_mem' hf hg := ContDiffOn.add hf hg
  zero_mem' := contDiffOn_const
  smul_mem' c _ hf := ContDiffOn.const_smul c hf

variable {Ω : Set E}

open Classical in
/-- The derivative along a field of directions. -/
noncomputable def lieD (hΩ : IsOpen Ω) (v : E → E) (hv : ContDiffOn ℝ ∞ v Ω) : Module.End ℝ (smoothOn Ω W) where
  toFun f := ⟨fun y => if y ∈ Ω then fderiv ℝ f.1 y (v y) else 0,
    ((f.2.fderiv_of_isOpen hΩ (by simp)).clm_apply hv).congr fun y hy => if_pos hy⟩
  map_add' f g := by
    refine Subtype.ext (funext fun y => ?_)
    by_cases hy : y ∈ Ω
    · have hf := (f.2.contDiffAt (hΩ.mem_nhds hy)).differentiableAt (by simp)
      have hg := (g.2.contDiffAt (hΩ.mem_nhds hy)).differentiableAt (by simp)
      change (if y ∈ Ω then fderiv ℝ (f.1 + g.1) y (v y) else 0) = (if y ∈ Ω then _ else 0) + (if y ∈ Ω then _ else 0)
      rw [if_pos hy, if_pos hy, if_pos hy, fderiv_add hf hg]; rfl
    · change (if y ∈ Ω then _ else (0 : W)) = (if y ∈ Ω then _ else (0 : W)) + (if y ∈ Ω then _ else (0 : W))
      rw [if_neg hy, if_neg hy, if_neg hy, add_zero]
  map_smul' c f := by
    refine Subtype.ext (funext fun y => ?_)
    by_cases hy : y ∈ Ω
    · have hf := (f.2.contDiffAt (hΩ.mem_nhds hy)).differentiableAt (by simp)
      change (if y ∈ Ω then fderiv ℝ (c • f.1) y (v y) else 0) = c • (if y ∈ Ω then _ else 0)
      rw [if_pos hy, if_pos hy, fderiv_const_smul hf]; rfl
    · change (if y ∈ Ω then _ else (0 : W)) = c • (if y ∈ Ω then _ else (0 : W))
      rw [if_neg hy, if_neg hy, smul_zero]

theorem lieD_apply (hΩ : IsOpen Ω) {v : E → E} (hv : ContDiffOn ℝ ∞ v Ω) (f : smoothOn Ω W) {y : E} (hy : y ∈ Ω) :
    (lieD hΩ v hv f).1 y = fderiv ℝ f.1 y (v y) := if_pos hy

theorem lieD_apply_out (hΩ : IsOpen Ω) {v : E → E} (hv : ContDiffOn ℝ ∞ v Ω) (f : smoothOn Ω W) {y : E} (hy : y ∉ Ω) :
    (lieD hΩ v hv f).1 y = 0 := if_neg hy

theorem lieD_smul (hΩ : IsOpen Ω) (v : E → E) (hv : ContDiffOn ℝ ∞ v Ω) (c : ℝ) :
    (lieD hΩ (fun y => c • v y) (hv.const_smul c) : Module.End ℝ (smoothOn Ω W)) = c • lieD hΩ v hv := by
  refine LinearMap.ext fun f => Subtype.ext (funext fun y => ?_)
  change _ = c • (lieD hΩ v hv f).1 y
  by_cases hy : y ∈ Ω
  · rw [lieD_apply hΩ _ f hy, lieD_apply hΩ _ f hy, map_smul]
  · rw [lieD_apply_out hΩ _ f hy, lieD_apply_out hΩ _ f hy, smul_zero]

/-- `φ` follows the directions `v`. -/
structure FlowOn (Ω : Set E) (v : E → E) (φ : ℝ → E → E) : Prop where
  zero : ∀ y, φ 0 y = y
  deriv : ∀ y s, HasDerivAt (fun s => φ s y) (v (φ s y)) s
  cont : ∀ x ∈ Ω, ContinuousAt (fun p : ℝ × E => φ p.1 p.2) (0, x)

theorem FlowOn.smul {v : E → E} {φ : ℝ → E → E} (h : FlowOn Ω v φ) (c : ℝ) : FlowOn Ω (fun y => c • v y) (fun t => φ (t * c)) where
  zero y := by simp [h.zero]
  deriv y s := by
    have := (h.deriv y (s * c)).scomp s ((hasDerivAt_id s).mul_const c)
    rw [one_mul] at this
    exact this
  cont x hx := by
    have h1 : ContinuousAt (fun p : ℝ × E => φ p.1 p.2) ((fun p : ℝ × E => (p.1 * c, p.2)) (0, x)) := by simpa using h.cont x hx
    exact ContinuousAt.comp (f := fun p : ℝ × E => (p.1 * c, p.2)) h1 (by fun_prop)

theorem smooth_continuousAt (hΩ : IsOpen Ω) (f : smoothOn Ω W) {x : E} (hx : x ∈ Ω) : ContinuousAt f.1 x :=
  (f.2.continuousOn.continuousAt (hΩ.mem_nhds hx))

/-- Expansion of a smooth function along a flow, uniformly near a point. -/
theorem flow_expand (hΩ : IsOpen Ω) {v : E → E} (hv : ContDiffOn ℝ ∞ v Ω) {φ : ℝ → E → E} (hφ : FlowOn Ω v φ) (f : smoothOn Ω W)
    {x : E} (hx : x ∈ Ω) (n : ℕ) :
    (fun p : ℝ × E => f.1 (φ p.1 p.2) - ∑ k ∈ range n, p.1 ^ k • (cS k (expS (lieD hΩ v hv : Module.End ℝ (smoothOn Ω W))) f).1 p.2)
      =O[𝓝 (0, x)] fun p => p.1 ^ n := by
  set L := (lieD hΩ v hv : Module.End ℝ (smoothOn Ω W)) with hL
  have hc : ContinuousAt (fun p : ℝ × E => φ p.1 p.2) (0, x) := hφ.cont x hx
  have h0 : φ (0 : ℝ) x = x := hφ.zero x
  have ht : Tendsto (fun p : ℝ × E => φ p.1 p.2) (𝓝 (0, x)) (𝓝 x) := by
    have := hc.tendsto; simpa only [h0] using this
  have h1 : ∀ᶠ p : ℝ × E in 𝓝 (0, x), φ p.1 p.2 ∈ Ω := ht.eventually (hΩ.mem_nhds hx)
  have h2 : ∀ᶠ p : ℝ × E in 𝓝 (0, x), ‖((L ^ n) f).1 (φ p.1 p.2)‖ < ‖((L ^ n) f).1 x‖ + 1 := by
    have := ((smooth_continuousAt hΩ ((L ^ n) f) hx).tendsto.comp ht).norm
    exact this.eventually (gt_mem_nhds (by linarith [norm_nonneg (((L ^ n) f).1 x)]))
  obtain ⟨δ, hδ, hball⟩ := Metric.eventually_nhds_iff.1 (h1.and h2)
  refine IsBigO.of_bound (‖((L ^ n) f).1 x‖ + 1) ?_
  refine Metric.eventually_nhds_iff.2 ⟨δ, hδ, fun p hp => ?_⟩
  have hp' : ∀ s : ℝ, |s| ≤ |p.1| → dist (s, p.2) ((0 : ℝ), x) < δ := by
    intro s hs
    rw [Prod.dist_eq, max_lt_iff] at hp ⊢
    refine ⟨?_, hp.2⟩
    have := hp.1
    simp only [Real.dist_eq, sub_zero] at this ⊢
    exact hs.trans_lt this
  have key := taylor_bound n (fun k s => ((L ^ k) f).1 (φ s p.2)) |p.1| (‖((L ^ n) f).1 x‖ + 1) ?_ ?_ p.1 le_rfl
  · rw [norm_pow, Real.norm_eq_abs]
    refine le_of_eq_of_le (congrArg norm ?_) key
    rw [pow_zero]
    change f.1 _ - _ = f.1 _ - _
    refine congrArg _ (Finset.sum_congr rfl fun k _ => ?_)
    rw [cS_expS, hφ.zero]
    change p.1 ^ k • ((k.factorial : ℝ)⁻¹ • ((L ^ k) f).1 p.2) = _
    rw [smul_smul, mul_comm]
  · intro k _ s hs
    have hm := (hball (hp' s hs)).1
    have hf := ((((L ^ k) f).2).contDiffAt (hΩ.mem_nhds hm)).differentiableAt (by simp)
    have := hf.hasFDerivAt.comp_hasDerivAt s (hφ.deriv p.2 s)
    refine this.congr_deriv ?_
    rw [pow_succ', Module.End.mul_apply]
    exact (lieD_apply hΩ hv _ hm).symm
  · intro s hs
    exact (hball (hp' s hs)).2.le

/-- `a` are the coefficients of the expansion of `G` in the first argument, uniformly near every point. -/
def Expands (Ω : Set E) (G : ℝ → E → W) (a : ℕ → E → W) : Prop :=
  ∀ x ∈ Ω, ∀ n : ℕ, (fun p : ℝ × E => G p.1 p.2 - ∑ k ∈ range n, p.1 ^ k • a k p.2) =O[𝓝 (0, x)] fun p => p.1 ^ n

theorem Expands.flow (hΩ : IsOpen Ω) {v : E → E} (hv : ContDiffOn ℝ ∞ v Ω) {φ : ℝ → E → E} (hφ : FlowOn Ω v φ) {G : ℝ → E → W}
    {S : (Module.End ℝ (smoothOn Ω W))⟦X⟧} {f : smoothOn Ω W} (h : Expands Ω G fun k => (cS k S f).1) :
    Expands Ω (fun t y => G t (φ t y)) fun k => (cS k (expS (lieD hΩ v hv : Module.End ℝ (smoothOn Ω W)) * S) f).1 := by
  intro x hx n
  set L := (lieD hΩ v hv : Module.End ℝ (smoothOn Ω W)) with hL
  have hc : ContinuousAt (fun p : ℝ × E => φ p.1 p.2) (0, x) := hφ.cont x hx
  have h0 : φ (0 : ℝ) x = x := hφ.zero x
  have ht : Tendsto (fun p : ℝ × E => (p.1, φ p.1 p.2)) (𝓝 (0, x)) (𝓝 (0, x)) := by
    rw [nhds_prod_eq]
    refine Tendsto.prodMk ?_ ?_
    · exact tendsto_fst
    · have := hc.tendsto
      rw [h0, nhds_prod_eq] at this
      exact this
  have h1 := (h x hx n).comp_tendsto ht
  have h2 : ∀ j ∈ range n, (fun p : ℝ × E => p.1 ^ j • ((cS j S f).1 (φ p.1 p.2) -
      ∑ i ∈ range (n - j), p.1 ^ i • (cS i (expS L) (cS j S f)).1 p.2)) =O[𝓝 (0, x)] fun p => p.1 ^ n := by
    intro j hj
    have := (isBigO_refl (fun p : ℝ × E => p.1 ^ j) (𝓝 ((0 : ℝ), x))).smul (flow_expand hΩ hv hφ (cS j S f) hx (n - j))
    refine this.congr_right fun p => ?_
    rw [smul_eq_mul, ← pow_add, Nat.add_sub_cancel' (Finset.mem_range.1 hj).le]
  have h3 := h1.add (IsBigO.fun_sum h2)
  refine h3.congr_left fun p => ?_
  simp only [Function.comp_apply, smul_sub, Finset.sum_sub_distrib, Finset.smul_sum]
  have e : ∑ j ∈ range n, ∑ i ∈ range (n - j), p.1 ^ j • p.1 ^ i • (cS i (expS L) (cS j S f)).1 p.2 =
      ∑ k ∈ range n, p.1 ^ k • (cS k (expS L * S) f).1 p.2 := by
    rw [← Finset.sum_range_diag_flip n fun j i => p.1 ^ j • p.1 ^ i • (cS i (expS L) (cS j S f)).1 p.2]
    refine Finset.sum_congr rfl fun k _ => ?_
    rw [cS_mul, ← Finset.sum_range_reflect]
    have e2 : ∀ F : ℕ → Module.End ℝ (smoothOn Ω W), ((∑ m ∈ range (k + 1), F m) f).1 p.2 = ∑ m ∈ range (k + 1), (F m f).1 p.2 := by
      intro F
      rw [LinearMap.sum_apply]
      have : ∀ (s : Finset ℕ) (g : ℕ → smoothOn Ω W), (∑ m ∈ s, g m).1 p.2 = ∑ m ∈ s, (g m).1 p.2 := by
        intro s g
        rw [show (∑ m ∈ s, g m).1 = ∑ m ∈ s, (g m).1 from Submodule.coe_sum _ _ _, Finset.sum_apply]
      exact this _ _
    rw [e2, Finset.smul_sum]
    refine Finset.sum_congr rfl fun m hm => ?_
    have hm' : m ≤ k := Nat.lt_succ_iff.1 (Finset.mem_range.1 hm)
    rw [show k + 1 - 1 - m = k - m by omega, show k - (k - m) = m by omega, Module.End.mul_apply, smul_smul, ← pow_add,
      show k - m + m = k by omega]
  rw [e]
  abel

/-- Expansion of a smooth function along one curve. -/
theorem curve_expand (hΩ : IsOpen Ω) {v : E → E} (hv : ContDiffOn ℝ ∞ v Ω) {γ : ℝ → E} (hγ : ∀ᶠ s in 𝓝 (0 : ℝ), HasDerivAt γ (v (γ s)) s)
    (f : smoothOn Ω W) (hx : γ 0 ∈ Ω) (n : ℕ) :
    (fun t : ℝ => f.1 (γ t) - ∑ k ∈ range n, t ^ k • (cS k (expS (lieD hΩ v hv : Module.End ℝ (smoothOn Ω W))) f).1 (γ 0))
      =O[𝓝 0] fun t => t ^ n := by
  set L := (lieD hΩ v hv : Module.End ℝ (smoothOn Ω W)) with hL
  have ht : ContinuousAt γ 0 := hγ.self_of_nhds.continuousAt
  have h1 : ∀ᶠ s in 𝓝 (0 : ℝ), γ s ∈ Ω := ht.eventually (hΩ.mem_nhds hx)
  have h2 : ∀ᶠ s in 𝓝 (0 : ℝ), ‖((L ^ n) f).1 (γ s)‖ < ‖((L ^ n) f).1 (γ 0)‖ + 1 := by
    have := ((smooth_continuousAt hΩ ((L ^ n) f) hx).tendsto.comp ht.tendsto).norm
    exact this.eventually (gt_mem_nhds (by linarith [norm_nonneg (((L ^ n) f).1 (γ 0))]))
  obtain ⟨δ, hδ, hball⟩ := Metric.eventually_nhds_iff.1 ((hγ.and h1).and h2)
  refine IsBigO.of_bound (‖((L ^ n) f).1 (γ 0)‖ + 1) ?_
  refine Metric.eventually_nhds_iff.2 ⟨δ, hδ, fun t hp => ?_⟩
  have hp' : ∀ s : ℝ, |s| ≤ |t| → dist s 0 < δ := by
    intro s hs
    simp only [Real.dist_eq, sub_zero] at hp ⊢
    exact hs.trans_lt hp
  have key := taylor_bound n (fun k s => ((L ^ k) f).1 (γ s)) |t| (‖((L ^ n) f).1 (γ 0)‖ + 1) ?_ ?_ t le_rfl
  · rw [norm_pow, Real.norm_eq_abs]
    refine le_of_eq_of_le (congrArg norm ?_) key
    rw [pow_zero]
    change f.1 _ - _ = f.1 _ - _
    refine congrArg _ (Finset.sum_congr rfl fun k _ => ?_)
    rw [cS_expS]
    change t ^ k • ((k.factorial : ℝ)⁻¹ • ((L ^ k) f).1 (γ 0)) = _
    rw [smul_smul, mul_comm]
  · intro k _ s hs
    have hm := (hball (hp' s hs)).1
    have hf := ((((L ^ k) f).2).contDiffAt (hΩ.mem_nhds hm.2)).differentiableAt (by simp)
    have := hf.hasFDerivAt.comp_hasDerivAt s hm.1
    refine this.congr_deriv ?_
    rw [pow_succ', Module.End.mul_apply]
    exact (lieD_apply hΩ hv _ hm.2).symm
  · intro s hs
    exact (hball (hp' s hs)).2.le

/-! ### Sequences of updates -/

/-- The direction of an update. -/
def MdOp.dir (vA : E → E) (vB : ι → E → E) : MdOp ι → E → E
  | .link ε => fun y => ε • vA y
  | .mom i ε => fun y => ε • vB i y

/-- The updates `Φ o` with all steps multiplied by `t`, in order. -/
def flowRun (Φ : MdOp ι → ℝ → E → E) (l : List (MdOp ι)) (t : ℝ) (y : E) : E := l.foldl (fun y o => Φ o t y) y

theorem run_expand (hΩ : IsOpen Ω) {vA : E → E} (hA : ContDiffOn ℝ ∞ vA Ω) {vB : ι → E → E} (hB : ∀ i, ContDiffOn ℝ ∞ (vB i) Ω)
    {Φ : MdOp ι → ℝ → E → E} (hΦ : ∀ o, FlowOn Ω (o.dir vA vB) (Φ o)) (f : smoothOn Ω W) (l : List (MdOp ι)) :
    Expands Ω (fun t y => f.1 (flowRun Φ l t y))
      fun k => (cS k (runS (lieD hΩ vA hA : Module.End ℝ (smoothOn Ω W)) (fun i => lieD hΩ (vB i) (hB i)) l) f).1 := by
  induction l with
  | nil =>
    intro x hx n
    have e : ∀ k, cS k (runS (lieD hΩ vA hA : Module.End ℝ (smoothOn Ω W)) (fun i => lieD hΩ (vB i) (hB i)) ([] : List (MdOp ι)))
        = if k = 0 then 1 else 0 := fun k => coeff_one k
    cases n with
    | zero =>
      have h1 : (fun y => f.1 y) =O[𝓝 x] fun _ => (1 : ℝ) := (smooth_continuousAt hΩ f hx).isBigO_one ℝ
      have h2 : Tendsto (fun p : ℝ × E => p.2) (𝓝 ((0 : ℝ), x)) (𝓝 x) := by rw [nhds_prod_eq]; exact tendsto_snd
      refine (h1.comp_tendsto h2).congr (fun p => ?_) (fun p => ?_)
      · simp [flowRun]
      · simp
    | succ n =>
      refine (isBigO_zero _ _).congr_left fun p => ?_
      rw [Finset.sum_range_succ']
      simp only [e]
      simp [flowRun]
  | cons o l ih =>
    cases o with
    | link ε =>
      have := ih.flow hΩ (hA.const_smul ε) (hΦ (.link ε))
      rw [lieD_smul] at this
      exact this
    | mom i ε =>
      have := ih.flow hΩ ((hB i).const_smul ε) (hΦ (.mom i ε))
      rw [lieD_smul] at this
      exact this

/-- What is constant along the equations of motion changes little. -/
theorem run_conserve (hΩ : IsOpen Ω) {vA : E → E} (hA : ContDiffOn ℝ ∞ vA Ω) {vB : ι → E → E} (hB : ∀ i, ContDiffOn ℝ ∞ (vB i) Ω)
    {Φ : MdOp ι → ℝ → E → E} (hΦ : ∀ o, FlowOn Ω (o.dir vA vB) (Φ o)) (f : smoothOn Ω W) {l : List (MdOp ι)} {fs : List ι} {p : ℕ}
    (hp : ∀ (A : Module.End ℝ (smoothOn Ω W)) B, AgreeS (p + 1) (runS A B l) (expS (A + (fs.map B).sum)))
    (hf : ∀ y ∈ Ω, fderiv ℝ f.1 y (vA y + (fs.map fun i => vB i y).sum) = 0) {x : E} (hx : x ∈ Ω) :
    (fun q : ℝ × E => f.1 (flowRun Φ l q.1 q.2) - f.1 q.2) =O[𝓝 (0, x)] fun q => q.1 ^ (p + 1) := by
  have h := run_expand hΩ hA hB hΦ f l x hx (p + 1)
  set A := (lieD hΩ vA hA : Module.End ℝ (smoothOn Ω W)) with hAd
  set B : ι → Module.End ℝ (smoothOn Ω W) := fun i => lieD hΩ (vB i) (hB i) with hBd
  have hz : (A + (fs.map B).sum) f = 0 := by
    refine Subtype.ext (funext fun y => ?_)
    have hs : ∀ gs : List ι, (((gs.map B).sum) f).1 y = (gs.map fun i => (B i f).1 y).sum := by
      intro gs
      induction gs with
      | nil => rfl
      | cons g gs ih => rw [List.map_cons, List.sum_cons, List.map_cons, List.sum_cons, ← ih]; rfl
    change (A f).1 y + (((fs.map B).sum) f).1 y = 0
    rw [hs]
    by_cases hy : y ∈ Ω
    · have h1 := hf y hy
      rw [map_add, map_list_sum, List.map_map] at h1
      rw [hAd, lieD_apply hΩ hA f hy, ← h1]
      congr 3
      funext i
      exact lieD_apply hΩ (hB i) f hy
    · rw [hAd, lieD_apply_out hΩ hA f hy, zero_add]
      have : (fun i => (B i f).1 y) = fun _ => 0 := funext fun i => lieD_apply_out hΩ (hB i) f hy
      rw [this]
      simp
  refine h.congr_left fun q => ?_
  congr 1
  have e : ∀ k ∈ range (p + 1), q.1 ^ k • (cS k (runS A B l) f).1 q.2 = if k = 0 then f.1 q.2 else 0 := by
    intro k hk
    rw [show cS k (runS A B l) = cS k (expS (A + (fs.map B).sum)) from hp A B k (Finset.mem_range.1 hk), cS_expS]
    cases k with
    | zero => simp
    | succ k =>
      rw [if_neg (Nat.succ_ne_zero k), pow_succ (A + (fs.map B).sum)]
      have : (((k + 1).factorial : ℝ)⁻¹ • ((A + (fs.map B).sum) ^ k * (A + (fs.map B).sum))) f = 0 := by
        rw [LinearMap.smul_apply, Module.End.mul_apply, hz, map_zero, smul_zero]
      rw [this]
      exact smul_zero _
  rw [Finset.sum_congr rfl e]
  simp

/-- Comparison with a solution of the equations of motion. -/
theorem run_compare (hΩ : IsOpen Ω) {vA : E → E} (hA : ContDiffOn ℝ ∞ vA Ω) {vB : ι → E → E} (hB : ∀ i, ContDiffOn ℝ ∞ (vB i) Ω)
    {Φ : MdOp ι → ℝ → E → E} (hΦ : ∀ o, FlowOn Ω (o.dir vA vB) (Φ o)) (f : smoothOn Ω W) {l : List (MdOp ι)} {fs : List ι} {p : ℕ}
    (hp : ∀ (A : Module.End ℝ (smoothOn Ω W)) B, AgreeS (p + 1) (runS A B l) (expS (A + (fs.map B).sum)))
    {γ : ℝ → E} (hγ : ∀ᶠ s in 𝓝 (0 : ℝ), HasDerivAt γ (vA (γ s) + (fs.map fun i => vB i (γ s)).sum) s) (hx : γ 0 ∈ Ω) :
    (fun t : ℝ => f.1 (flowRun Φ l t (γ 0)) - f.1 (γ t)) =O[𝓝 0] fun t => t ^ (p + 1) := by
  have h := run_expand hΩ hA hB hΦ f l (γ 0) hx (p + 1)
  set A := (lieD hΩ vA hA : Module.End ℝ (smoothOn Ω W)) with hAd
  set B : ι → Module.End ℝ (smoothOn Ω W) := fun i => lieD hΩ (vB i) (hB i) with hBd
  have hsum : ∀ gs : List ι, ContDiffOn ℝ ∞ (fun y => (gs.map fun i => vB i y).sum) Ω := by
    intro gs
    induction gs with
    | nil => exact contDiffOn_const
    | cons g gs ih => simpa using (hB g).add ih
  have hv : ContDiffOn ℝ ∞ (fun y => vA y + (fs.map fun i => vB i y).sum) Ω := hA.add (hsum fs)
  have hC : (lieD hΩ _ hv : Module.End ℝ (smoothOn Ω W)) = A + (fs.map B).sum := by
    refine LinearMap.ext fun g => Subtype.ext (funext fun y => ?_)
    have hs : ∀ gs : List ι, (((gs.map B).sum) g).1 y = (gs.map fun i => (B i g).1 y).sum := by
      intro gs
      induction gs with
      | nil => rfl
      | cons i gs ih => rw [List.map_cons, List.sum_cons, List.map_cons, List.sum_cons, ← ih]; rfl
    change _ = (A g).1 y + (((fs.map B).sum) g).1 y
    rw [hs]
    by_cases hy : y ∈ Ω
    · rw [lieD_apply hΩ hv g hy, hAd, lieD_apply hΩ hA g hy, map_add, map_list_sum, List.map_map]
      congr 3
      funext i
      exact (lieD_apply hΩ (hB i) g hy).symm
    · rw [lieD_apply_out hΩ hv g hy, hAd, lieD_apply_out hΩ hA g hy, zero_add]
      have : (fun i => (B i g).1 y) = fun _ => 0 := funext fun i => lieD_apply_out hΩ (hB i) g hy
      rw [this]
      simp
  have h2 := curve_expand hΩ hv hγ f hx (p + 1)
  rw [hC] at h2
  have ht : Tendsto (fun t : ℝ => (t, γ 0)) (𝓝 0) (𝓝 (0, γ 0)) := by
    rw [nhds_prod_eq]; exact tendsto_id.prodMk tendsto_const_nhds
  have h3 := (h.comp_tendsto ht).sub h2
  refine h3.congr_left fun t => ?_
  have e : ∀ k ∈ range (p + 1), t ^ k • (cS k (runS A B l) f).1 (γ 0) = t ^ k • (cS k (expS (A + (fs.map B).sum)) f).1 (γ 0) := by
    intro k hk
    rw [show cS k (runS A B l) = cS k (expS (A + (fs.map B).sum)) from hp A B k (Finset.mem_range.1 hk)]
  simp only [Function.comp_apply]
  rw [Finset.sum_congr rfl e]
  abel

end Leonard
