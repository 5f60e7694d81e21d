import Verif.Order.RungeKutta

/-!
# Order of the integration of the flow: one step and many steps
-/

set_option autoImplicit false

namespace Leonard

open Filter Asymptotics Finset
open scoped ContDiff Topology

section
variable {W : Type*} [NormedAddCommGroup W] [NormedSpace ℝ W]

/-- Remainder of the Taylor expansion at the left end of an interval. -/
theorem taylor_right (n : ℕ) (h : ℕ → ℝ → W) (T C : ℝ) (hd : ∀ k < n, ∀ s ∈ Set.Icc 0 T, HasDerivWithinAt (h k) (h (k + 1) s) (Set.Icc 0 T) s)
    (hC : ∀ s ∈ Set.Icc 0 T, ‖h n s‖ ≤ C) (t : ℝ) (ht : t ∈ Set.Icc 0 T) :
    ‖h 0 t - ∑ k ∈ range n, (((k.factorial : ℝ)⁻¹) * t ^ k) • h k 0‖ ≤ C * t ^ n := by
  induction n generalizing h t with
  | zero => simpa using hC t ht
  | succ n ih =>
    set g : ℝ → W := fun s => h 0 s - ∑ k ∈ range (n + 1), (((k.factorial : ℝ)⁻¹) * s ^ k) • h k 0 with hg
    set g' : ℝ → W := fun s => h 1 s - ∑ k ∈ range n, (((k.factorial : ℝ)⁻¹) * s ^ k) • h (k + 1) 0 with hg'
    have hder : ∀ s ∈ Set.Icc 0 T, HasDerivWithinAt g (g' s) (Set.Icc 0 T) s := by
      intro s hs
      refine (hd 0 (by omega) s hs).sub (HasDerivAt.hasDerivWithinAt ?_)
      have e : (fun s : ℝ => ∑ k ∈ range (n + 1), (((k.factorial : ℝ)⁻¹) * s ^ k) • h k 0) =
          fun s : ℝ => (∑ k ∈ range n, ((((k + 1).factorial : ℝ)⁻¹) * s ^ (k + 1)) • h (k + 1) 0) + h 0 0 := by
        funext s
        rw [Finset.sum_range_succ']
        simp
      rw [e]
      refine HasDerivAt.add_const _ (HasDerivAt.fun_sum fun k _ => ?_)
      refine HasDerivAt.smul_const ?_ _
      have h1 := (hasDerivAt_pow (k + 1) s).const_mul (((k + 1).factorial : ℝ)⁻¹)
      refine h1.congr_deriv ?_
      rw [Nat.factorial_succ]
      have : (k.factorial : ℝ) ≠ 0 := by positivity
      push_cast
      field_simp
    have hC0 : 0 ≤ C := le_trans (norm_nonneg _) (hC t ht)
    have hb : ∀ s ∈ Set.Icc 0 t, ‖g' s‖ ≤ C * t ^ n := by
      intro s hs
      have := ih (fun k => h (k + 1)) (fun k hk s hs => hd (k + 1) (by omega) s hs) (fun s hs => hC s hs) s ⟨hs.1, hs.2.trans ht.2⟩
      exact this.trans (mul_le_mul_of_nonneg_left (pow_le_pow_left₀ hs.1 hs.2 n) hC0)
    have hsub : Set.Icc 0 t ⊆ Set.Icc 0 T := Set.Icc_subset_Icc_right ht.2
    have key := Convex.norm_image_sub_le_of_norm_hasDerivWithin_le (f := g) (f' := g') (s := Set.Icc 0 t) (x := 0) (y := t)
      (C := C * t ^ n) (fun s hs => (hder s (hsub hs)).mono hsub) hb (convex_Icc _ _) ⟨le_rfl, ht.1⟩ ⟨ht.1, le_rfl⟩
    have g0 : g 0 = 0 := by
      simp only [hg]
      rw [Finset.sum_range_succ']
      simp
    rw [g0, sub_zero, sub_zero, Real.norm_eq_abs, abs_of_nonneg ht.1, mul_assoc, ← pow_succ] at key
    exact key

end

variable {R : Type*} [NormedRing R] [NormedAlgebra ℝ R] [ProperSpace R]

/-- One step of the integration. -/
noncomputable def rkStep (Z : R → R) (h : ℝ) (V : R) : R :=
  let Z0 := Z V
  let X1 := NormedSpace.exp (h • ((1 / 4 : ℝ) • Z0)) * V
  let Z1 := Z X1
  let X2 := NormedSpace.exp (h • ((8 / 9 : ℝ) • Z1 - (17 / 36 : ℝ) • Z0)) * X1
  let Z2 := Z X2
  NormedSpace.exp (h • ((3 / 4 : ℝ) • Z2 - (8 / 9 : ℝ) • Z1 + (17 / 36 : ℝ) • Z0)) * X2

/-- The derivative of the flow, and its second and third derivative. -/
def flowDer1 (Z : R → R) (V : R) : R := Z V * V
@[inherit_doc flowDer1] noncomputable def flowDer2 (Z : R → R) (V : R) : R := fderiv ℝ Z V (Z V * V) * V + Z V * (Z V * V)
@[inherit_doc flowDer1] noncomputable def flowDer3 (Z : R → R) (V : R) : R :=
  (fderiv ℝ (fderiv ℝ Z) V (Z V * V) (Z V * V) + fderiv ℝ Z V (flowDer2 Z V)) * V + (2 : ℝ) • (fderiv ℝ Z V (Z V * V) * (Z V * V)) +
    Z V * flowDer2 Z V

section
variable {α : Type*} {l : Filter α} {h : α → ℝ}

theorem rk_expand (hh : h =O[l] fun _ => (1 : ℝ)) {Z : R → R} (hZ : ContDiff ℝ ∞ Z) {V : α → R} (hV : V =O[l] fun _ => (1 : ℝ)) :
    Exp4 l h (fun p => rkStep Z (h p) (V p)) V (fun p => flowDer1 Z (V p)) (fun p => (1 / 2 : ℝ) • flowDer2 Z (V p))
      fun p => (1 / 6 : ℝ) • flowDer3 Z (V p) := by
  have hZb : (fun p => Z (V p)) =O[l] fun _ => (1 : ℝ) := by
    obtain ⟨B, hB⟩ := hV.bound
    obtain ⟨C, _, hC⟩ := bounded_on hZ.continuous B
    exact IsBigO.of_bound C (hB.mono fun p hp => by simpa using hC _ (by simpa using hp))
  have hZ0 : Exp3 l h (fun p => Z (V p)) (fun p => Z (V p)) (fun _ => 0) fun _ => 0 := Exp3.const hZb
  have hX1 := ((hZ0.smul (1 / 4)).exp hh).mul hh (Exp4.const hV)
  have hX1' := hX1.congr (fun p => rfl) (b0 := V) (b1 := fun p => (1 / 4 : ℝ) • (Z (V p) * V p))
    (b2 := fun p => (1 / 32 : ℝ) • (Z (V p) * (Z (V p) * V p))) (b3 := fun p => (1 / 384 : ℝ) • (Z (V p) * (Z (V p) * (Z (V p) * V p))))
    (fun p => one_mul _)
    (fun p => by simp only [mul_zero, zero_add, smul_mul_assoc])
    (fun p => by simp only [mul_zero, zero_add, smul_zero, smul_mul_assoc, mul_smul_comm, mul_assoc]; module)
    (fun p => by simp only [mul_zero, zero_mul, zero_add, add_zero, smul_zero, smul_mul_assoc, mul_smul_comm, mul_assoc]; module)
  have hZ1 := ((hX1'.drop hh).comp hh hZ).congr (fun p => rfl) (b0 := fun p => Z (V p)) (b1 := fun p => (1 / 4 : ℝ) • fderiv ℝ Z (V p) (Z (V p) * V p))
    (b2 := fun p => (1 / 32 : ℝ) • fderiv ℝ Z (V p) (Z (V p) * (Z (V p) * V p)) +
      (1 / 32 : ℝ) • fderiv ℝ (fderiv ℝ Z) (V p) (Z (V p) * V p) (Z (V p) * V p))
    (fun p => rfl) (fun p => by rw [map_smul]) (fun p => by simp only [map_smul, ContinuousLinearMap.smul_apply]; module)
  have hA1 := ((hZ1.smul (8 / 9)).sub (hZ0.smul (17 / 36))).congr (fun p => rfl) (b0 := fun p => (5 / 12 : ℝ) • Z (V p))
    (b1 := fun p => (2 / 9 : ℝ) • fderiv ℝ Z (V p) (Z (V p) * V p))
    (b2 := fun p => (1 / 36 : ℝ) • fderiv ℝ Z (V p) (Z (V p) * (Z (V p) * V p)) +
      (1 / 36 : ℝ) • fderiv ℝ (fderiv ℝ Z) (V p) (Z (V p) * V p) (Z (V p) * V p))
    (fun p => by module) (fun p => by module) (fun p => by module)
  have hX2 := ((hA1.exp hh).mul hh hX1').congr (fun p => rfl) (b0 := V) (b1 := fun p => (2 / 3 : ℝ) • (Z (V p) * V p))
    (b2 := fun p => (2 / 9 : ℝ) • flowDer2 Z (V p)) (fun p => one_mul _)
    (fun p => by simp only [one_mul, smul_mul_assoc]; module)
    (fun p => by
      simp only [flowDer2, one_mul, smul_mul_assoc, mul_smul_comm, mul_assoc, add_mul]
      module)
    (fun p => rfl)
  have hZ2 := ((hX2.drop hh).comp hh hZ).congr (fun p => rfl) (b0 := fun p => Z (V p)) (b1 := fun p => (2 / 3 : ℝ) • fderiv ℝ Z (V p) (Z (V p) * V p))
    (b2 := fun p => (2 / 9 : ℝ) • fderiv ℝ Z (V p) (flowDer2 Z (V p)) +
      (2 / 9 : ℝ) • fderiv ℝ (fderiv ℝ Z) (V p) (Z (V p) * V p) (Z (V p) * V p))
    (fun p => rfl) (fun p => by rw [map_smul]) (fun p => by simp only [map_smul, ContinuousLinearMap.smul_apply]; module)
  have hA2 := (((hZ2.smul (3 / 4)).sub (hZ1.smul (8 / 9))).add (hZ0.smul (17 / 36))).congr (fun p => rfl) (b0 := fun p => (1 / 3 : ℝ) • Z (V p))
    (b1 := fun p => (5 / 18 : ℝ) • fderiv ℝ Z (V p) (Z (V p) * V p))
    (b2 := fun p => (1 / 6 : ℝ) • fderiv ℝ Z (V p) (flowDer2 Z (V p)) - (1 / 36 : ℝ) • fderiv ℝ Z (V p) (Z (V p) * (Z (V p) * V p)) +
      (5 / 36 : ℝ) • fderiv ℝ (fderiv ℝ Z) (V p) (Z (V p) * V p) (Z (V p) * V p))
    (fun p => by module) (fun p => by module) (fun p => by module)
  refine ((hA2.exp hh).mul hh hX2).congr (fun p => rfl) (fun p => one_mul _) (fun p => ?_) (fun p => ?_) fun p => ?_
  · simp only [flowDer1, one_mul, smul_mul_assoc]; module
  · simp only [flowDer2, one_mul, smul_mul_assoc, mul_smul_comm, mul_assoc, add_mul, smul_add, mul_add]
    module
  · simp only [flowDer3, flowDer2, one_mul, smul_mul_assoc, mul_smul_comm, mul_assoc, add_mul, sub_mul, smul_add, smul_sub, mul_add, mul_sub, map_add,
      map_smul]
    module

end

/-- The step of the program agrees with the Taylor polynomial of the flow up to the third order, uniformly on bounded sets. -/
theorem rk_local {Z : R → R} (hZ : ContDiff ℝ ∞ Z) (r H : ℝ) : ∃ C, 0 ≤ C ∧ ∀ h : ℝ, |h| ≤ H → ∀ V : R, ‖V‖ ≤ r →
    ‖rkStep Z h V - (V + h • flowDer1 Z V + h ^ 2 • ((1 / 2 : ℝ) • flowDer2 Z V) + h ^ 3 • ((1 / 6 : ℝ) • flowDer3 Z V))‖ ≤ C * |h| ^ 4 := by
  set A : Set (ℝ × R) := {p | |p.1| ≤ H ∧ ‖p.2‖ ≤ r} with hA
  have h1 : (fun p : ℝ × R => p.1) =O[𝓟 A] fun _ => (1 : ℝ) := isBigO_principal.2 ⟨H, fun p hp => by simpa using hp.1⟩
  have h2 : (fun p : ℝ × R => p.2) =O[𝓟 A] fun _ => (1 : ℝ) := isBigO_principal.2 ⟨r, fun p hp => by simpa using hp.2⟩
  obtain ⟨C, hC⟩ := isBigO_principal.1 (rk_expand h1 hZ h2).rem
  refine ⟨max C 0, le_max_right _ _, fun h hh V hV => ?_⟩
  have := hC (h, V) ⟨hh, hV⟩
  rw [norm_pow, Real.norm_eq_abs] at this
  exact this.trans (mul_le_mul_of_nonneg_right (le_max_left _ _) (by positivity))

/-! ### The exact flow -/

section
variable {Z : R → R} (hZ : ContDiff ℝ ∞ Z)
include hZ

theorem contDiff_flowDer1 : ContDiff ℝ ∞ (flowDer1 Z) := hZ.mul contDiff_id

theorem contDiff_flowDer2 : ContDiff ℝ ∞ (flowDer2 Z) := by
  have h1 : ContDiff ℝ ∞ (fderiv ℝ Z) := hZ.fderiv_right (by simp)
  exact ((h1.clm_apply (hZ.mul contDiff_id)).mul contDiff_id).add (hZ.mul (hZ.mul contDiff_id))

theorem contDiff_flowDer3 : ContDiff ℝ ∞ (flowDer3 Z) := by
  have h1 : ContDiff ℝ ∞ (fderiv ℝ Z) := hZ.fderiv_right (by simp)
  have h2 : ContDiff ℝ ∞ (fderiv ℝ (fderiv ℝ Z)) := h1.fderiv_right (by simp)
  have hf := hZ.mul (contDiff_id (𝕜 := ℝ) (E := R) (n := ∞))
  exact (((((h2.clm_apply hf).clm_apply hf).add (h1.clm_apply (contDiff_flowDer2 hZ))).mul contDiff_id).add
    (((h1.clm_apply hf).mul hf).const_smul (2 : ℝ))).add (hZ.mul (contDiff_flowDer2 hZ))

theorem flowDer_deriv {γ : ℝ → R} {A : Set ℝ} {s : ℝ} (hγ : HasDerivWithinAt γ (flowDer1 Z (γ s)) A s) :
    HasDerivWithinAt (fun s => flowDer1 Z (γ s)) (flowDer2 Z (γ s)) A s ∧ HasDerivWithinAt (fun s => flowDer2 Z (γ s)) (flowDer3 Z (γ s)) A s ∧
    HasDerivWithinAt (fun s => flowDer3 Z (γ s)) (fderiv ℝ (flowDer3 Z) (γ s) (flowDer1 Z (γ s))) A s := by
  have h1 : ContDiff ℝ ∞ (fderiv ℝ Z) := hZ.fderiv_right (by simp)
  have da : HasDerivWithinAt (fun s => Z (γ s)) (fderiv ℝ Z (γ s) (flowDer1 Z (γ s))) A s :=
    ((hZ.differentiable (by simp)).differentiableAt (x := γ s)).hasFDerivAt.comp_hasDerivWithinAt s hγ
  have d1 : HasDerivWithinAt (fun s => flowDer1 Z (γ s)) (flowDer2 Z (γ s)) A s := da.mul hγ
  refine ⟨d1, ?_, ((contDiff_flowDer3 hZ).differentiable (by simp)).differentiableAt.hasFDerivAt.comp_hasDerivWithinAt s hγ⟩
  have db1 : HasDerivWithinAt (fun s => fderiv ℝ Z (γ s)) (fderiv ℝ (fderiv ℝ Z) (γ s) (flowDer1 Z (γ s))) A s :=
    ((h1.differentiable (by simp)).differentiableAt (x := γ s)).hasFDerivAt.comp_hasDerivWithinAt s hγ
  have db := db1.clm_apply d1
  have d2 := (db.mul hγ).add (da.mul d1)
  refine d2.congr_deriv ?_
  simp only [flowDer3, flowDer1]
  module

/-- The Taylor polynomial of a solution, uniformly on bounded sets. -/
theorem flow_taylor (r : ℝ) : ∃ C, 0 ≤ C ∧ ∀ (γ : ℝ → R) (T : ℝ), (∀ s ∈ Set.Icc 0 T, HasDerivWithinAt γ (flowDer1 Z (γ s)) (Set.Icc 0 T) s) →
    (∀ s ∈ Set.Icc 0 T, ‖γ s‖ ≤ r) → ∀ t ∈ Set.Icc 0 T,
    ‖γ t - (γ 0 + t • flowDer1 Z (γ 0) + t ^ 2 • ((1 / 2 : ℝ) • flowDer2 Z (γ 0)) + t ^ 3 • ((1 / 6 : ℝ) • flowDer3 Z (γ 0)))‖ ≤ C * t ^ 4 := by
  have h4 : ContDiff ℝ ∞ fun V => fderiv ℝ (flowDer3 Z) V (flowDer1 Z V) :=
    ((contDiff_flowDer3 hZ).fderiv_right (by simp)).clm_apply (contDiff_flowDer1 hZ)
  obtain ⟨C, hC0, hC⟩ := bounded_on h4.continuous r
  refine ⟨C, hC0, fun γ T hγ hr t ht => ?_⟩
  let g : ℕ → ℝ → R := fun k s => match k with
    | 0 => γ s
    | 1 => flowDer1 Z (γ s)
    | 2 => flowDer2 Z (γ s)
    | 3 => flowDer3 Z (γ s)
    | _ => fderiv ℝ (flowDer3 Z) (γ s) (flowDer1 Z (γ s))
  have key := taylor_right 4 g T C ?_ ?_ t ht
  · refine le_of_eq_of_le (congrArg norm ?_) key
    simp only [Finset.sum_range_succ, Finset.sum_range_zero, Nat.factorial, g]
    push_cast
    norm_num
    module
  · intro k hk s hs
    have hd := flowDer_deriv hZ (hγ s hs)
    interval_cases k
    · exact hγ s hs
    · exact hd.1
    · exact hd.2.1
    · exact hd.2.2
  · intro s hs
    exact hC _ (hr s hs)

/-! ### Many steps -/

theorem contDiff_rkStep : ContDiff ℝ ∞ fun p : ℝ × R => rkStep Z p.1 p.2 := by
  have hexp : ContDiff ℝ ∞ (NormedSpace.exp : R → R) := by
    rw [contDiff_iff_contDiffAt]
    intro x
    exact (NormedSpace.exp_analytic (𝕂 := ℝ) x).contDiffAt
  have hE : ∀ {f : ℝ × R → R}, ContDiff ℝ ∞ f → ContDiff ℝ ∞ fun p : ℝ × R => NormedSpace.exp (p.1 • f p) := fun hf => hexp.comp (contDiff_fst.smul hf)
  have h0 : ContDiff ℝ ∞ fun p : ℝ × R => Z p.2 := hZ.comp contDiff_snd
  have hX1 : ContDiff ℝ ∞ fun p : ℝ × R => NormedSpace.exp (p.1 • ((1 / 4 : ℝ) • Z p.2)) * p.2 := (hE (h0.const_smul _)).mul contDiff_snd
  have h1 := hZ.comp hX1
  have hX2 := (hE ((h1.const_smul (8 / 9 : ℝ)).sub (h0.const_smul (17 / 36 : ℝ)))).mul hX1
  have h2 := hZ.comp hX2
  exact (hE (((h2.const_smul (3 / 4 : ℝ)).sub (h1.const_smul (8 / 9 : ℝ))).add (h0.const_smul (17 / 36 : ℝ)))).mul hX2

theorem rkStep_zero (V : R) : rkStep Z 0 V = V := by simp [rkStep]

/-- Two starting points do not move apart faster than in proportion to the step. -/
theorem rk_lipschitz (r H : ℝ) : ∃ L, 0 ≤ L ∧ ∀ h : ℝ, 0 ≤ h → h ≤ H → ∀ V W : R, ‖V‖ ≤ r → ‖W‖ ≤ r →
    ‖rkStep Z h V - rkStep Z h W‖ ≤ (1 + L * h) * ‖V - W‖ := by
  set F : ℝ × R → R := fun p => rkStep Z p.1 p.2 with hF
  have hFs : ContDiff ℝ ∞ F := contDiff_rkStep hZ
  set G : ℝ × R → R := fun p => fderiv ℝ F p (1, 0) with hG
  have hGs : ContDiff ℝ ∞ G := (hFs.fderiv_right (by simp)).clm_apply contDiff_const
  set K : Set (ℝ × R) := Set.Icc 0 H ×ˢ Metric.closedBall 0 r with hK
  have hKc : IsCompact K := isCompact_Icc.prod (isCompact_closedBall _ _)
  have hKv : Convex ℝ K := (convex_Icc _ _).prod (convex_closedBall _ _)
  obtain ⟨L, hL⟩ := hKc.exists_bound_of_continuousOn ((hGs.continuous_fderiv (by simp)).continuousOn (s := K))
  refine ⟨max L 0, le_max_right _ _, fun h h0 hH V W hV hW => ?_⟩
  have hlip : ∀ s ∈ Set.Icc 0 h, ‖G (s, V) - G (s, W)‖ ≤ max L 0 * ‖V - W‖ := by
    intro s hs
    have hsV : (s, V) ∈ K := ⟨⟨hs.1, hs.2.trans hH⟩, by simpa using hV⟩
    have hsW : (s, W) ∈ K := ⟨⟨hs.1, hs.2.trans hH⟩, by simpa using hW⟩
    have := hKv.norm_image_sub_le_of_norm_fderiv_le (𝕜 := ℝ) (f := G) (C := max L 0) (fun x _ => (hGs.differentiable (by simp)).differentiableAt)
      (fun x hx => (hL x hx).trans (le_max_left _ _)) hsW hsV
    refine this.trans_eq ?_
    congr 1
    rw [Prod.mk_sub_mk, sub_self, Prod.norm_mk, norm_zero, max_eq_right (norm_nonneg _)]
  have hder : ∀ (V : R) (s : ℝ), HasDerivAt (fun s => F (s, V)) (G (s, V)) s := by
    intro V s
    have h1 : HasDerivAt (fun s : ℝ => (s, V)) ((1 : ℝ), (0 : R)) s := (hasDerivAt_id s).prodMk (hasDerivAt_const s V)
    exact ((hFs.differentiable (by simp)).differentiableAt (x := (s, V))).hasFDerivAt.comp_hasDerivAt s h1
  have key := Convex.norm_image_sub_le_of_norm_hasDerivWithin_le (f := fun s => F (s, V) - F (s, W)) (f' := fun s => G (s, V) - G (s, W))
    (s := Set.Icc 0 h) (x := 0) (y := h) (C := max L 0 * ‖V - W‖) (fun s _ => ((hder V s).sub (hder W s)).hasDerivWithinAt) hlip (convex_Icc _ _)
    ⟨le_rfl, h0⟩ ⟨h0, le_rfl⟩
  have e0 : ∀ V, F (0, V) = V := fun V => rkStep_zero hZ V
  simp only [e0, sub_zero, Real.norm_eq_abs, abs_of_nonneg h0] at key
  have : F (h, V) - F (h, W) = (F (h, V) - F (h, W) - (V - W)) + (V - W) := by abel
  change ‖F (h, V) - F (h, W)‖ ≤ _
  rw [this]
  refine (norm_add_le _ _).trans ?_
  nlinarith [key]

/-- **Global error.** The integration with `n` steps differs from a solution by at most a constant over `n³`. -/
theorem rk_global (γ : ℝ → R) (t : ℝ) (ht : 0 ≤ t) (hγ : ∀ s ∈ Set.Icc 0 t, HasDerivWithinAt γ (Z (γ s) * γ s) (Set.Icc 0 t) s) (r : ℝ)
    (hr : ∀ n : ℕ, n ≠ 0 → ∀ k ≤ n, ‖(rkStep Z (t / n))^[k] (γ 0)‖ ≤ r) :
    ∃ C : ℝ, ∀ n : ℕ, n ≠ 0 → ‖(rkStep Z (t / n))^[n] (γ 0) - γ t‖ ≤ C / n ^ 3 := by
  have hcont : ContinuousOn γ (Set.Icc 0 t) := fun s hs => (hγ s hs).continuousWithinAt
  obtain ⟨r', hr'⟩ := isCompact_Icc.exists_bound_of_continuousOn hcont
  set ρ := max r r' with hρ
  obtain ⟨C1, hC1, h1⟩ := rk_local hZ ρ t
  obtain ⟨C2, hC2, h2⟩ := flow_taylor hZ ρ
  obtain ⟨L, hL, h3⟩ := rk_lipschitz hZ ρ t
  refine ⟨(C1 + C2) * t ^ 4 * Real.exp (L * t), fun n hn => ?_⟩
  have hn' : (0 : ℝ) < n := by exact_mod_cast Nat.pos_of_ne_zero hn
  set d := t / n with hd
  have hd0 : 0 ≤ d := by positivity
  have hdt : d ≤ t := by
    rw [hd]; exact div_le_self ht (by exact_mod_cast Nat.one_le_iff_ne_zero.2 hn)
  have hnd : (n : ℝ) * d = t := by rw [hd]; field_simp
  have hk : ∀ k ≤ n, (k : ℝ) * d ∈ Set.Icc 0 t := fun k hk => by
    refine ⟨by positivity, ?_⟩
    rw [← hnd]
    exact mul_le_mul_of_nonneg_right (by exact_mod_cast hk) hd0
  -- one step starting on the solution
  have hloc : ∀ k < n, ‖rkStep Z d (γ (k * d)) - γ ((k + 1 : ℕ) * d)‖ ≤ (C1 + C2) * d ^ 4 := by
    intro k hkn
    have hm := hk k hkn.le
    have hb : ‖γ (k * d)‖ ≤ ρ := (hr' _ hm).trans (le_max_right _ _)
    have a1 := h1 d (by rwa [abs_of_nonneg hd0]) _ hb
    have hend := hk (k + 1) hkn
    have hshift : ∀ s ∈ Set.Icc 0 d, (k : ℝ) * d + s ∈ Set.Icc 0 t := fun s hs => by
      refine ⟨add_nonneg hm.1 hs.1, ?_⟩
      have := hend.2
      push_cast at this
      linarith [hs.2]
    have a2 := h2 (fun s => γ (k * d + s)) d (fun s hs => ?_) (fun s hs => (hr' _ (hshift s hs)).trans (le_max_right _ _)) d ⟨hd0, le_rfl⟩
    · rw [add_zero] at a2
      rw [abs_of_nonneg hd0] at a1
      have e : (k : ℝ) * d + d = ((k + 1 : ℕ) : ℝ) * d := by push_cast; ring
      rw [e] at a2
      rw [norm_sub_rev] at a2
      exact (norm_sub_le_norm_sub_add_norm_sub _ _ _).trans ((add_le_add a1 a2).trans_eq (by ring))
    · have := (hγ _ (hshift s hs)).scomp s (h := fun s => (k : ℝ) * d + s) (((hasDerivAt_id s).const_add ((k : ℝ) * d)).hasDerivWithinAt (s := Set.Icc 0 d))
        fun x hx => hshift x hx
      rw [one_smul] at this
      exact this
  have hacc : ∀ k ≤ n, ‖(rkStep Z d)^[k] (γ 0) - γ (k * d)‖ ≤ k * ((C1 + C2) * d ^ 4) * (1 + L * d) ^ k := by
    intro k
    induction k with
    | zero => intro _; simp
    | succ k ih =>
      intro hkn
      have ih := ih (by omega)
      rw [Function.iterate_succ_apply']
      have b1 := h3 d hd0 hdt ((rkStep Z d)^[k] (γ 0)) (γ (k * d)) ((hr n hn k (by omega)).trans (le_max_left _ _))
        ((hr' _ (hk k (by omega))).trans (le_max_right _ _))
      have b2 := hloc k (by omega)
      have b3 := norm_sub_le_norm_sub_add_norm_sub (rkStep Z d ((rkStep Z d)^[k] (γ 0))) (rkStep Z d (γ (k * d))) (γ ((k + 1 : ℕ) * d))
      have hq : 1 ≤ 1 + L * d := by have : 0 ≤ L * d := by positivity
                                    linarith
      have hq0 : 0 ≤ 1 + L * d := by linarith
      have hqk : 1 ≤ (1 + L * d) ^ (k + 1) := one_le_pow₀ hq
      have hE : 0 ≤ (C1 + C2) * d ^ 4 := by positivity
      have b4 : (1 + L * d) * ‖(rkStep Z d)^[k] (γ 0) - γ (k * d)‖ ≤ (1 + L * d) * (k * ((C1 + C2) * d ^ 4) * (1 + L * d) ^ k) :=
        mul_le_mul_of_nonneg_left ih hq0
      have b5 : (C1 + C2) * d ^ 4 ≤ (C1 + C2) * d ^ 4 * (1 + L * d) ^ (k + 1) := le_mul_of_one_le_right hE hqk
      calc _ ≤ (1 + L * d) * (k * ((C1 + C2) * d ^ 4) * (1 + L * d) ^ k) + (C1 + C2) * d ^ 4 * (1 + L * d) ^ (k + 1) := by linarith
        _ = ((k + 1 : ℕ) : ℝ) * ((C1 + C2) * d ^ 4) * (1 + L * d) ^ (k + 1) := by push_cast; ring
  have hfin := hacc n le_rfl
  rw [hnd] at hfin
  refine hfin.trans ?_
  have hexp : (1 + L * d) ^ n ≤ Real.exp (L * t) := by
    have : 1 + L * d ≤ Real.exp (L * d) := by rw [add_comm]; exact Real.add_one_le_exp _
    calc (1 + L * d) ^ n ≤ Real.exp (L * d) ^ n := pow_le_pow_left₀ (by positivity) this n
      _ = Real.exp (L * t) := by rw [← Real.exp_nat_mul]; congr 1; rw [← hnd]; ring
  have e3 : (n : ℝ) * ((C1 + C2) * d ^ 4) = (C1 + C2) * t ^ 4 / n ^ 3 := by rw [hd]; field_simp
  rw [e3, div_mul_eq_mul_div]
  exact div_le_div_of_nonneg_right (mul_le_mul_of_nonneg_left hexp (by positivity)) (by positivity)

end

end Leonard
