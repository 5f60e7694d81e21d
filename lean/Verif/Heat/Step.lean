import Verif.Heat.Law
import Verif.Hmc.StationaryProps
import Verif.Gauge.Props

/-!
One step of the heat bath on the configurations, and its stationary distribution.
-/

set_option autoImplicit false

namespace Leonard

open MeasureTheory Set Real Matrix ComplexConjugate
open scoped ENNReal

variable {N : ℕ} {S : Type} [DecidableEq S]

/-! ### Measurability in the width of the distribution -/

theorem measurable_firstHit₂ {B Q : Type} [MeasurableSpace B] [MeasurableSpace Q] (K : B → Set Q) (hK : MeasurableSet {z : B × Q | z.2 ∈ K z.1}) :
    Measurable fun z : B × (ℕ → Q) => firstHit (K z.1) z.2 := by
  have hk : ∀ i, MeasurableSet {z : B × (ℕ → Q) | z.2 i ∈ K z.1} := fun i =>
    (measurable_fst.prodMk ((measurable_pi_apply i).comp measurable_snd) : Measurable fun z : B × (ℕ → Q) => (z.1, z.2 i)) hK
  have hF : ∀ k, MeasurableSet {z : B × (ℕ → Q) | FirstAt (K z.1) z.2 k} := fun k => by
    have : {z : B × (ℕ → Q) | FirstAt (K z.1) z.2 k} = (⋂ i ∈ Finset.range k, {z | z.2 i ∈ K z.1}ᶜ) ∩ {z | z.2 k ∈ K z.1} := by
      ext z
      simp [FirstAt]
    rw [this]
    exact (Finset.measurableSet_biInter _ fun i _ => (hk i).compl).inter (hk k)
  intro A hA
  have hA' : ∀ i, MeasurableSet {z : B × (ℕ → Q) | z.2 i ∈ A} := fun i => (measurable_pi_apply i).comp measurable_snd hA
  have : (fun z : B × (ℕ → Q) => firstHit (K z.1) z.2) ⁻¹' A = (⋃ k, {z | FirstAt (K z.1) z.2 k} ∩ {z | z.2 k ∈ A})
      ∪ ((⋂ k, {z | z.2 k ∈ K z.1}ᶜ) ∩ {z | z.2 0 ∈ A}) := by
    ext z
    simp only [mem_preimage, mem_union, mem_iUnion, mem_inter_iff, mem_setOf_eq, mem_iInter, mem_compl_iff]
    by_cases h : ∃ k, z.2 k ∈ K z.1
    · obtain ⟨k, hk⟩ := exists_firstAt h
      rw [hk.hit]
      constructor
      · intro hA; exact Or.inl ⟨k, hk, hA⟩
      · rintro (⟨j, hj, hjA⟩ | ⟨hn, -⟩)
        · rwa [hk.unique hj]
        · exact absurd h (by push Not; exact hn)
    · rw [firstHit, dif_neg h]
      push Not at h
      constructor
      · intro hA; exact Or.inr ⟨h, hA⟩
      · rintro (⟨j, hj, -⟩ | ⟨-, hA⟩)
        · exact absurd hj.2 (h j)
        · exact hA
  rw [this]
  exact (MeasurableSet.iUnion fun k => (hF k).inter (hA' k)).union ((MeasurableSet.iInter fun k => (hk k).compl).inter (hA' 0))

theorem measurableSet_attemptOk₂ : MeasurableSet {z : ℝ × ℝ × ℝ × ℝ × ℝ | z.2 ∈ attemptOk z.1} := by
  have hv : Measurable fun z : ℝ × ℝ × ℝ × ℝ × ℝ => attemptValue z.1 z.2 := by
    unfold attemptValue
    fun_prop
  refine (measurableSet_lt (f := fun z : ℝ × ℝ × ℝ × ℝ × ℝ => 1 + attemptValue z.1 z.2 - 2 * z.2.2.2.2 * z.2.2.2.2) ?_ measurable_const).compl
  fun_prop

theorem measurable_radiusResult₂ : Measurable fun z : ℝ × HeatStream => radiusResult z.1 z.2.1 := by
  have hv : Measurable fun z : ℝ × ℝ × ℝ × ℝ × ℝ => attemptValue z.1 z.2 := by
    unfold attemptValue
    fun_prop
  have h1 : Measurable fun z : ℝ × HeatStream => firstHit (attemptOk z.1) z.2.1 :=
    (measurable_firstHit₂ attemptOk measurableSet_attemptOk₂).comp (measurable_fst.prodMk (measurable_fst.comp measurable_snd))
  exact hv.comp (measurable_fst.prodMk h1)

theorem measurableSet_goodStream : MeasurableSet {z : ℝ × HeatStream | GoodStream z.1 z.2} := by
  have h1 : MeasurableSet {z : ℝ × HeatStream | ∃ k, z.2.1 k ∈ attemptOk z.1} := by
    have : {z : ℝ × HeatStream | ∃ k, z.2.1 k ∈ attemptOk z.1} = ⋃ k, {z | z.2.1 k ∈ attemptOk z.1} := by ext; simp
    rw [this]
    refine MeasurableSet.iUnion fun k => ?_
    have hk : Measurable fun z : ℝ × HeatStream => (z.1, z.2.1 k) :=
      measurable_fst.prodMk ((measurable_pi_apply k).comp (measurable_fst.comp measurable_snd))
    exact hk measurableSet_attemptOk₂
  have h2 : MeasurableSet {z : ℝ × HeatStream | radiusResult z.1 z.2.1 ∈ Ioo (-1 : ℝ) 1} := measurable_radiusResult₂ measurableSet_Ioo
  have h3 : MeasurableSet {z : ℝ × HeatStream | z.2.2.2 ∈ Ico (0 : ℝ) 1} :=
    (by fun_prop : Measurable fun z : ℝ × HeatStream => z.2.2.2) measurableSet_Ico
  exact h1.inter (h2.inter h3)

theorem measurable_sampleSu2₂ : Measurable fun z : ℝ × HeatStream => sampleSu2 z.1 z.2 := by
  have h3 : Measurable fun z : ℝ × HeatStream => (radiusResult z.1 z.2.1, 2 * z.2.2.2 - 1, z.2.2.1) := measurable_radiusResult₂.prodMk (by fun_prop)
  exact measurable_dir.comp (measurable_spherePoint.comp h3)

theorem measurable_sample_of {X : Type} [MeasurableSpace X] {b : X → ℝ} {w : X → HeatStream} (hb : Measurable b) (hw : Measurable w) :
    Measurable fun x => sampleSu2 (b x) (w x) := by
  have h : Measurable fun x => (b x, w x) := hb.prodMk hw
  have := Measurable.comp measurable_sampleSu2₂ h
  exact this

/-! ### The element of the subgroup -/

/-- The element of SU(2) of one step, from an infinite sequence of random numbers; the identity when the effective staple vanishes. -/
noncomputable def subElement (β : ℝ) (P : Mat N) (k l : Fin N) (ω : HeatStream) : SU 2 :=
  if subDet P k l = 0 then 1
  else (dir (coordsOf (subStaple P k l)) * sampleSu2 (N / (2 * β * √(subDet P k l))) ω)⁻¹

theorem subDet_nonneg (P : Mat N) (k l : Fin N) : 0 ≤ subDet P k l := by
  rw [← quatNorm_subStaple]
  exact IsQuat.quatNorm_nonneg

theorem sqNorm_coords_subStaple (P : Mat N) (k l : Fin N) : sqNorm (coordsOf (subStaple P k l)) = subDet P k l := by
  rw [← quatNorm_quatOf, quatOf_coordsOf (isQuat_subStaple P k l), quatNorm_subStaple]

theorem dir_subStaple {P : Mat N} {k l : Fin N} (h : subDet P k l ≠ 0) :
    (dir (coordsOf (subStaple P k l))).1 = ((1 / √(subDet P k l) : ℝ) : ℂ) • subStaple P k l := by
  rw [dir_val (by rwa [sqNorm_coords_subStaple]), sqNorm_coords_subStaple, quatOf_coordsOf (isQuat_subStaple P k l)]

theorem inv_val (g : SU N) : (g⁻¹).1 = g.1ᴴ := rfl

/-- The program computes this element. -/
theorem subUpdate_of_random {β : ℝ} {P : Mat N} {k l : Fin N} (h : subDet P k l ≠ 0) (d : HeatBathDraw) (R : SU 2)
    (hR : randomSu2 (N / (2 * β * √(subDet P k l))) d = some R.1) :
    subUpdate β P k l d = some ((dir (coordsOf (subStaple P k l)) * R)⁻¹).1 := by
  cases hs : subUpdate β P k l d with
  | none =>
    unfold subUpdate at hs
    simp only [if_neg h, hR] at hs
    simp at hs
  | some s =>
    obtain ⟨_, R', hR', rfl⟩ := subUpdate_eq β P k l d s hs
    rw [hR] at hR'
    injection hR' with hR'
    rw [← hR', inv_val]
    change _ = some ((dir (coordsOf (subStaple P k l))).1 * R.1)ᴴ
    rw [dir_subStaple h, conjTranspose_mul, conjTranspose_smul, Matrix.mul_smul, Complex.star_def, Complex.conj_ofReal]

theorem subUpdate_stream (β : ℝ) (hβ : 0 < β) (hN : 0 < N) (P : Mat N) (k l : Fin N) (h : subDet P k l ≠ 0) :
    ∀ᵐ ω ∂heatMeasure, ∃ n0, ∀ n ≥ n0, subUpdate β P k l (streamDraw n ω) = some (subElement β P k l ω).1 := by
  have hp : 0 < subDet P k l := lt_of_le_of_ne (subDet_nonneg P k l) (Ne.symm h)
  have hb : 0 < (N : ℝ) / (2 * β * √(subDet P k l)) := by
    have := sqrt_pos.2 hp
    have hN' : (0 : ℝ) < N := by exact_mod_cast hN
    positivity
  filter_upwards [randomSu2_stream _ hb] with ω ⟨n0, hω⟩
  refine ⟨n0, fun n hn => ?_⟩
  rw [subUpdate_of_random h _ _ (hω n hn), subElement, if_neg h]

/-- The weight of an element. -/
noncomputable def elementWeight (β : ℝ) (P : Mat N) (k l : Fin N) (a : SU 2) : ℝ≥0∞ :=
  ENNReal.ofReal (exp (β / N * (trace (a.1 * subStaple P k l)).re))

theorem measurable_elementWeight (β : ℝ) (P : Mat N) (k l : Fin N) : Measurable (elementWeight β P k l) := by
  unfold elementWeight
  have : Continuous fun a : SU 2 => (trace (a.1 * subStaple P k l)).re :=
    Complex.continuous_re.comp ((continuous_subtype_val (p := fun x : Mat 2 => x ∈ SU 2)).matrix_mul continuous_const).matrix_trace
  exact ((continuous_const.mul this).rexp).measurable.ennreal_ofReal

/-- The element has the density `exp(β/N Re tr(a W))`, `W` the effective staple. -/
theorem subElement_law (haar : Measure (SU 2)) [IsFiniteMeasure haar] [haar.IsMulLeftInvariant] (h0 : haar ≠ 0) (β : ℝ) (hβ : 0 < β) (hN : 0 < N)
    (P : Mat N) (k l : Fin N) (h : subDet P k l ≠ 0) :
    (∫⁻ a, elementWeight β P k l a ∂haar) ≠ 0 ∧ (∫⁻ a, elementWeight β P k l a ∂haar) ≠ ∞ ∧
    ∀ f : SU 2 → ℝ≥0∞, Measurable f → ∫⁻ ω, f (subElement β P k l ω) ∂heatMeasure
      = (∫⁻ a, elementWeight β P k l a ∂haar)⁻¹ * ∫⁻ a, elementWeight β P k l a * f a ∂haar := by
  have hp : 0 < subDet P k l := lt_of_le_of_ne (subDet_nonneg P k l) (Ne.symm h)
  have hN' : (0 : ℝ) < N := by exact_mod_cast hN
  have hsq := sqrt_pos.2 hp
  have hb : 0 < (N : ℝ) / (2 * β * √(subDet P k l)) := by positivity
  obtain ⟨h1, h2, h3⟩ := su2_law haar h0 _ hb
  let V : SU 2 := dir (coordsOf (subStaple P k l))
  have hV : V.1 = ((1 / √(subDet P k l) : ℝ) : ℂ) • subStaple P k l := dir_subStaple h
  have hW : subStaple P k l = ((√(subDet P k l) : ℝ) : ℂ) • V.1 := by
    rw [hV, smul_smul, ← Complex.ofReal_mul, mul_one_div_cancel hsq.ne', Complex.ofReal_one, one_smul]
  have key : ∀ R : SU 2, ENNReal.ofReal (exp ((trace R.1).re / (2 * (N / (2 * β * √(subDet P k l)))))) = elementWeight β P k l (V * R)⁻¹ := fun R => by
    have e1 : (trace (((V * R)⁻¹).1 * subStaple P k l)).re = √(subDet P k l) * (trace R.1).re := by
      rw [hW, Matrix.mul_smul, trace_smul, smul_eq_mul, Complex.re_ofReal_mul]
      refine congrArg (fun x => √(subDet P k l) * x) ?_
      have e2 : ((V * R)⁻¹).1 * V.1 = R.1ᴴ := by
        have : (V * R)⁻¹ * V = R⁻¹ := by group
        exact congrArg Subtype.val this
      rw [e2, trace_conjTranspose, Complex.star_def, Complex.conj_re]
    rw [elementWeight, e1]
    congr 2
    field_simp
  have hmI : ∀ F : SU 2 → ℝ≥0∞, Measurable F → ∫⁻ R, F (V * R)⁻¹ ∂haar = ∫⁻ a, F a ∂haar := fun F hF => by
    rw [lintegral_mul_left_eq_self (fun R => F R⁻¹) V, lintegral_inv_of_finite haar F hF]
  have hI0 : ∫⁻ R : SU 2, ENNReal.ofReal (exp ((trace R.1).re / (2 * (N / (2 * β * √(subDet P k l)))))) ∂haar = ∫⁻ a, elementWeight β P k l a ∂haar := by
    simp only [key]
    exact hmI _ (measurable_elementWeight β P k l)
  rw [hI0] at h1 h2 h3
  refine ⟨h1, h2, fun f hf => ?_⟩
  have hm : Measurable fun R : SU 2 => f (V * R)⁻¹ := hf.comp ((measurable_const_mul V).inv)
  have h4 := h3 _ hm
  have e : ∀ ω, subElement β P k l ω = (V * sampleSu2 (N / (2 * β * √(subDet P k l))) ω)⁻¹ := fun ω => by
    rw [subElement, if_neg h]
  simp only [e]
  rw [h4]
  refine congrArg (fun z => (∫⁻ a, elementWeight β P k l a ∂haar)⁻¹ * z) ?_
  simp only [key]
  exact hmI (fun a => elementWeight β P k l a * f a) ((measurable_elementWeight β P k l).mul hf)

/-! ### The subgroups -/

theorem rowUpdate_mul (a b : Mat 2) (k l : Fin N) (hkl : k ≠ l) (M : Mat N) : rowUpdate (a * b) k l M = rowUpdate a k l (rowUpdate b k l M) := by
  ext i j
  simp only [rowUpdate, Matrix.mul_apply, Fin.sum_univ_two, hkl.symm, if_true, if_false]
  split
  · ring
  · split
    · ring
    · rfl

theorem rowUpdate_one (k l : Fin N) (M : Mat N) : rowUpdate 1 k l M = M := by
  ext i j
  simp only [rowUpdate]
  split
  · rename_i h; subst h; simp
  · split
    · rename_i h; subst h; simp
    · rfl

/-- The subgroup of rows `k` and `l`. -/
noncomputable def embedSU (k l : Fin N) : SU 2 →* SU N where
  toFun a := if h : k ≠ l then ⟨rowUpdate a.1 k l 1, rowUpdate_mem a.1 a.2 k l h 1 (one_mem _)⟩ else 1
  map_one' := by
    split
    · exact Subtype.ext (rowUpdate_one k l 1)
    · rfl
  map_mul' a b := by
    split
    · rename_i h
      refine Subtype.ext ?_
      change rowUpdate (a.1 * b.1) k l 1 = rowUpdate a.1 k l 1 * rowUpdate b.1 k l 1
      rw [rowUpdate_mul _ _ _ _ h, rowUpdate_eq_mul a.1]
    · rw [mul_one]

theorem embedSU_mul (k l : Fin N) (h : k ≠ l) (a : SU 2) (U : SU N) : (embedSU k l a * U).1 = rowUpdate a.1 k l U.1 := by
  change (embedSU k l a).1 * U.1 = _
  have : (embedSU k l a).1 = rowUpdate a.1 k l 1 := by
    change (if h : k ≠ l then (⟨rowUpdate a.1 k l 1, rowUpdate_mem a.1 a.2 k l h 1 (one_mem _)⟩ : SU N) else 1).1 = _
    rw [dif_pos h]
  rw [this, ← rowUpdate_eq_mul]

theorem continuous_embedSU (k l : Fin N) : Continuous (embedSU k l) := by
  by_cases h : k ≠ l
  · have e : (embedSU k l : SU 2 → SU N) = fun a => ⟨rowUpdate a.1 k l 1, rowUpdate_mem a.1 a.2 k l h 1 (one_mem _)⟩ := by
      funext a
      change (if h : k ≠ l then (⟨rowUpdate a.1 k l 1, rowUpdate_mem a.1 a.2 k l h 1 (one_mem _)⟩ : SU N) else 1) = _
      rw [dif_pos h]
    rw [e]
    refine Continuous.subtype_mk ?_ _
    refine continuous_matrix fun i j => ?_
    have hv : ∀ x y : Fin 2, Continuous fun a : SU 2 => a.1 x y := fun x y =>
      (continuous_subtype_val (p := fun x : Mat 2 => x ∈ SU 2)).matrix_elem x y
    simp only [rowUpdate]
    split
    · exact ((hv 0 0).mul continuous_const).add ((hv 0 1).mul continuous_const)
    · split
      · exact ((hv 1 0).mul continuous_const).add ((hv 1 1).mul continuous_const)
      · exact continuous_const
  · have e : (embedSU k l : SU 2 → SU N) = fun _ => 1 := by
      funext a
      change (if h : k ≠ l then (⟨rowUpdate a.1 k l 1, rowUpdate_mem a.1 a.2 k l h 1 (one_mem _)⟩ : SU N) else 1) = _
      rw [dif_neg h]
    rw [e]
    exact continuous_const

theorem subStaple_rowUpdate {a : Mat 2} (ha : IsQuat a) (k l : Fin N) (hkl : k ≠ l) (P : Mat N) :
    subStaple (rowUpdate a k l P) k l = a * subStaple P k l := by
  obtain ⟨a1, a2⟩ := ha
  ext i j
  fin_cases i <;> fin_cases j <;> apply Complex.ext <;>
    simp [subStaple, rowUpdate, Matrix.mul_apply, Fin.sum_univ_two, hkl.symm, a1, a2] <;> ring

theorem trace_rowUpdate {a : Mat 2} (ha : IsQuat a) (k l : Fin N) (hkl : k ≠ l) (P : Mat N) :
    (trace (rowUpdate a k l P)).re - (trace P).re = (trace (a * subStaple P k l)).re - (trace (subStaple P k l)).re := by
  obtain ⟨a1, a2⟩ := ha
  have e : trace (rowUpdate a k l P) = trace P + (a 0 0 * P k k + a 0 1 * P l k - P k k) + (a 1 0 * P k l + a 1 1 * P l l - P l l) := by
    have h : ∀ i, rowUpdate a k l P i i = P i i + (if i = k then a 0 0 * P k k + a 0 1 * P l k - P k k else 0)
        + (if i = l then a 1 0 * P k l + a 1 1 * P l l - P l l else 0) := fun i => by
      simp only [rowUpdate]
      by_cases h1 : i = k
      · subst h1; simp [hkl]
      · by_cases h2 : i = l
        · subst h2; simp [h1]
        · simp [h1, h2]
    simp only [trace, diag_apply, h, Finset.sum_add_distrib, Finset.sum_ite_eq', Finset.mem_univ, if_true]
  rw [e, a1, a2, trace_fin_two, trace_fin_two]
  simp [subStaple, Matrix.mul_apply, Fin.sum_univ_two, a1, a2]
  ring

/-! ### One step on a configuration -/

/-- Multiplication of one link by an element of a subgroup. -/
noncomputable def rotateLink (s : S) (μ : Fin 4) (k l : Fin N) (a : SU 2) (Q : LinkSU S N) : LinkSU S N :=
  (fun s' μ' => if s' = s ∧ μ' = μ then embedSU k l a else 1) * Q

theorem rotateLink_mat (s : S) (μ : Fin 4) (k l : Fin N) (h : k ≠ l) (a : SU 2) (Q : LinkSU S N) :
    linkMat (rotateLink s μ k l a Q) = setLink (linkMat Q) s μ (rowUpdate a.1 k l (linkMat Q s μ)) := by
  funext s' μ'
  simp only [setLink]
  by_cases hc : s' = s ∧ μ' = μ
  · rw [if_pos hc]
    obtain ⟨rfl, rfl⟩ := hc
    change ((if s' = s' ∧ μ' = μ' then embedSU k l a else 1) * Q s' μ').1 = _
    rw [if_pos ⟨rfl, rfl⟩, embedSU_mul k l h]
    rfl
  · rw [if_neg hc]
    change ((if s' = s ∧ μ' = μ then embedSU k l a else 1) * Q s' μ').1 = _
    rw [if_neg hc, one_mul]
    rfl

theorem rotateLink_mul (s : S) (μ : Fin 4) (k l : Fin N) (a b : SU 2) (Q : LinkSU S N) :
    rotateLink s μ k l (a * b) Q = rotateLink s μ k l a (rotateLink s μ k l b Q) := by
  unfold rotateLink
  rw [← mul_assoc]
  congr 1
  funext s' μ'
  change _ = (if s' = s ∧ μ' = μ then embedSU k l a else 1) * (if s' = s ∧ μ' = μ then embedSU k l b else 1)
  split
  · rw [map_mul]
  · rw [mul_one]

theorem rotateLink_one (s : S) (μ : Fin 4) (k l : Fin N) (Q : LinkSU S N) : rotateLink s μ k l 1 Q = Q := by
  unfold rotateLink
  have : (fun s' μ' => if s' = s ∧ μ' = μ then embedSU k l (1 : SU 2) else 1 : LinkSU S N) = 1 := by
    funext s' μ'
    split
    · exact map_one _
    · rfl
  rw [this, one_mul]

theorem measurable_rotateLink (s : S) (μ : Fin 4) (k l : Fin N) :
    Measurable fun z : SU 2 × LinkSU S N => rotateLink s μ k l z.1 z.2 := by
  refine Measurable.mul (f := fun z : SU 2 × LinkSU S N => (fun s' μ' => if s' = s ∧ μ' = μ then embedSU k l z.1 else 1 : LinkSU S N)) ?_ measurable_snd
  refine measurable_pi_lambda _ fun s' => measurable_pi_lambda _ fun μ' => ?_
  split
  · exact (continuous_embedSU k l).measurable.comp measurable_fst
  · exact measurable_const

theorem measurable_rotate_of {X : Type} [MeasurableSpace X] (s : S) (μ : Fin 4) (k l : Fin N) {a : X → SU 2} {q : X → LinkSU S N} (ha : Measurable a)
    (hq : Measurable q) : Measurable fun x => rotateLink s μ k l (a x) (q x) := by
  have h : Measurable fun x => (a x, q x) := ha.prodMk hq
  have := Measurable.comp (measurable_rotateLink s μ k l) h
  exact this

/-- The energy changes with one link as its staple says. -/
def LocalEnergy (β : ℝ) (E : GField S N → ℝ) (stap : GField S N → S → Fin 4 → Mat N) : Prop :=
  ∀ U s μ V, E (setLink U s μ V) - E U = deltaAction β U V (stap U s μ) s μ

theorem trace_re_ext {A B : Mat N} (h : ∀ M : Mat N, (trace (M * A)).re = (trace (M * B)).re) : A = B := by
  have h1 : ∀ M : Mat N, (trace (M * (A - B))).re = 0 := fun M => by
    rw [Matrix.mul_sub, trace_sub, Complex.sub_re, h M, sub_self]
  have h2 := h1 (A - B)ᴴ
  have e : trace ((A - B)ᴴ * (A - B)) = ((∑ i, ∑ j, Complex.normSq ((A - B) j i) : ℝ) : ℂ) := by
    simp only [trace, diag_apply, Matrix.mul_apply, conjTranspose_apply, Complex.ofReal_sum]
    refine Finset.sum_congr rfl fun i _ => Finset.sum_congr rfl fun j _ => ?_
    rw [Complex.normSq_eq_conj_mul_self, Complex.star_def]
  rw [e, Complex.ofReal_re] at h2
  have h3 := (Finset.sum_eq_zero_iff_of_nonneg fun i _ => Finset.sum_nonneg fun j _ => Complex.normSq_nonneg _).1 h2
  ext j i
  have h4 := (Finset.sum_eq_zero_iff_of_nonneg fun j _ => Complex.normSq_nonneg _).1 (h3 i (Finset.mem_univ _)) j (Finset.mem_univ _)
  exact sub_eq_zero.1 (Complex.normSq_eq_zero.1 h4)

/-- The staple does not depend on its link. -/
theorem LocalEnergy.staple_setLink {β : ℝ} {E : GField S N → ℝ} {stap : GField S N → S → Fin 4 → Mat N} (h : LocalEnergy β E stap) (hβ : β ≠ 0)
    (hN : 0 < N) (U : GField S N) (s : S) (μ : Fin 4) (V : Mat N) : stap (setLink U s μ V) s μ = stap U s μ := by
  have hN' : (N : ℝ) ≠ 0 := by exact_mod_cast hN.ne'
  refine trace_re_ext fun M => ?_
  have e : ∀ W, setLink (setLink U s μ V) s μ W = setLink U s μ W := fun W => by
    funext s' μ'
    simp only [setLink]
    split <;> rfl
  have h1 := h (setLink U s μ V) s μ (V + M)
  have h2 := h U s μ (V + M)
  have h3 := h U s μ V
  rw [e] at h1
  have hs : setLink U s μ V s μ = V := by simp [setLink]
  unfold deltaAction at h1 h2 h3
  rw [hs] at h1
  rw [Matrix.add_mul, trace_add, Complex.add_re] at h1 h2
  have h4 : -β * (trace (M * stap (setLink U s μ V) s μ)).re / N = -β * (trace (M * stap U s μ)).re / N := by
    have e1 : -β * (trace (M * stap (setLink U s μ V) s μ)).re / N
        = E (setLink U s μ (V + M)) - E (setLink U s μ V) := by rw [h1]; ring
    rw [e1]
    have : E (setLink U s μ (V + M)) - E (setLink U s μ V) = (E (setLink U s μ (V + M)) - E U) - (E (setLink U s μ V) - E U) := by ring
    rw [this, h2, h3]
    ring
  have h5 := (div_left_inj' hN').1 h4
  exact mul_left_cancel₀ (neg_ne_zero.2 hβ) h5

/-- One step of the heat bath on a configuration, from an infinite sequence of random numbers. -/
noncomputable def heatStepSU (β : ℝ) (stap : GField S N → S → Fin 4 → Mat N) (s : S) (μ : Fin 4) (k l : Fin N) (ω : HeatStream) (Q : LinkSU S N) :
    LinkSU S N :=
  rotateLink s μ k l (subElement β ((Q s μ).1 * stap (linkMat Q) s μ) k l ω) Q

/-- The product of link and staple. -/
noncomputable def plaqMat (stap : GField S N → S → Fin 4 → Mat N) (s : S) (μ : Fin 4) (Q : LinkSU S N) : Mat N := (Q s μ).1 * stap (linkMat Q) s μ

variable [Fintype S]

theorem continuous_plaqMat (stap : GField S N → S → Fin 4 → Mat N) (s : S) (μ : Fin 4) (hst : Continuous fun U => stap U s μ) :
    Continuous (plaqMat stap s μ) :=
  ((continuous_link s μ).comp continuous_linkMat).matrix_mul (hst.comp continuous_linkMat)

theorem continuous_subStaple_coords (k l : Fin N) : Continuous fun P : Mat N => coordsOf (subStaple P k l) := by
  have he : ∀ i j, Continuous fun P : Mat N => P i j := fun i j => continuous_id.matrix_elem i j
  simp only [coordsOf, subStaple, Matrix.of_apply, Matrix.cons_val', Matrix.cons_val_zero, Matrix.cons_val_one, Matrix.cons_val_fin_one]
  have hr : ∀ i j, Continuous fun P : Mat N => (P i j).re := fun i j => Complex.continuous_re.comp (he i j)
  have hi : ∀ i j, Continuous fun P : Mat N => (P i j).im := fun i j => Complex.continuous_im.comp (he i j)
  refine ((((hr k k).add (hr l l)).div_const 2)).prodMk ((((hi k k).sub (hi l l)).div_const 2).prodMk ((((hi k l).add (hi l k)).div_const 2).prodMk (((hr k l).sub (hr l k)).div_const 2)))

theorem measurable_heatStepSU (β : ℝ) (stap : GField S N → S → Fin 4 → Mat N) (s : S) (μ : Fin 4) (hst : Continuous fun U => stap U s μ) (k l : Fin N) :
    Measurable fun z : HeatStream × LinkSU S N => heatStepSU β stap s μ k l z.1 z.2 := by
  have hW : Measurable fun Q : LinkSU S N => coordsOf (subStaple (plaqMat stap s μ Q) k l) :=
    ((continuous_subStaple_coords k l).comp (continuous_plaqMat stap s μ hst)).measurable
  have hd : Measurable fun Q : LinkSU S N => subDet (plaqMat stap s μ Q) k l := by
    have : (fun Q : LinkSU S N => subDet (plaqMat stap s μ Q) k l) = fun Q => sqNorm (coordsOf (subStaple (plaqMat stap s μ Q) k l)) := by
      funext Q
      rw [sqNorm_coords_subStaple]
    rw [this]
    exact continuous_sqNorm.measurable.comp hW
  have he : Measurable fun z : HeatStream × LinkSU S N => subElement β (plaqMat stap s μ z.2) k l z.1 := by
    unfold subElement
    refine Measurable.ite ?_ measurable_const ?_
    · exact (hd.comp measurable_snd) (measurableSet_singleton 0)
    · refine Measurable.inv (Measurable.mul (measurable_dir.comp (hW.comp measurable_snd)) ?_)
      have hr : Measurable fun z : HeatStream × LinkSU S N => √(subDet (plaqMat stap s μ z.2) k l) :=
        Real.continuous_sqrt.measurable.comp (hd.comp measurable_snd)
      have hb : Measurable fun z : HeatStream × LinkSU S N => (N : ℝ) / (2 * β * √(subDet (plaqMat stap s μ z.2) k l)) :=
        measurable_const.div (measurable_const.mul hr)
      exact measurable_sample_of hb measurable_fst
  exact measurable_rotate_of s μ k l he measurable_snd

/-- One step of the heat bath keeps the Boltzmann distribution. -/
theorem heatStep_stationary (haar : Measure (SU N)) [IsFiniteMeasure haar] [haar.IsMulLeftInvariant] (β : ℝ) (hβ : 0 < β) (hN : 0 < N)
    (E : GField S N → ℝ) (stap : GField S N → S → Fin 4 → Mat N) (hE : LocalEnergy β E stap) (hEm : Measurable fun Q : LinkSU S N => E (linkMat Q))
    (s : S) (μ : Fin 4) (hst : Continuous fun U => stap U s μ) (k l : Fin N) (hkl : k ≠ l) (f : LinkSU S N → ℝ≥0∞) (hf : Measurable f) :
    ∫⁻ Q, (∫⁻ ω, f (heatStepSU β stap s μ k l ω Q) ∂heatMeasure) * ENNReal.ofReal (exp (-E (linkMat Q))) ∂linkMeasure S haar
      = ∫⁻ Q, f Q * ENNReal.ofReal (exp (-E (linkMat Q))) ∂linkMeasure S haar := by
  let h2 : Measure (SU 2) := Measure.haar
  let ρ : LinkSU S N → ℝ≥0∞ := fun Q => ENNReal.ofReal (exp (-E (linkMat Q)))
  have hρ : Measurable ρ := (measurable_exp.comp hEm.neg).ennreal_ofReal
  let P : LinkSU S N → Mat N := plaqMat stap s μ
  have hN' : (N : ℝ) ≠ 0 := by exact_mod_cast hN.ne'
  -- the product of link and staple under rotations
  have hP : ∀ a Q, P (rotateLink s μ k l a Q) = rowUpdate a.1 k l (P Q) := fun a Q => by
    have e1 := rotateLink_mat s μ k l hkl a Q
    have e2 : ((rotateLink s μ k l a Q) s μ).1 = rowUpdate a.1 k l (linkMat Q s μ) := by
      have e3 := congrFun (congrFun e1 s) μ
      have e4 : setLink (linkMat Q) s μ (rowUpdate a.1 k l (linkMat Q s μ)) s μ = rowUpdate a.1 k l (linkMat Q s μ) := by simp [setLink]
      exact e3.trans e4
    simp only [P, plaqMat]
    rw [e2, e1, hE.staple_setLink hβ.ne' hN, rowUpdate_eq_mul, Matrix.mul_assoc, ← rowUpdate_eq_mul]
    rfl
  have hW : ∀ a Q, subStaple (P (rotateLink s μ k l a Q)) k l = a.1 * subStaple (P Q) k l := fun a Q => by
    rw [hP, subStaple_rowUpdate (IsQuat.of_su2 a.2).1 k l hkl]
  have hdet : ∀ a Q, subDet (P (rotateLink s μ k l a Q)) k l = subDet (P Q) k l := fun a Q => by
    rw [← quatNorm_subStaple, hW, (IsQuat.of_su2 a.2).1.quatNorm_mul (isQuat_subStaple _ _ _), (IsQuat.of_su2 a.2).2, one_mul, quatNorm_subStaple]
  -- the weight under rotations
  have hw : ∀ a Q, ρ (rotateLink s μ k l a Q)
      = ENNReal.ofReal (exp (-E (linkMat Q) - β / N * (trace (subStaple (P Q) k l)).re)) * elementWeight β (P Q) k l a := fun a Q => by
    simp only [ρ, elementWeight]
    rw [← ENNReal.ofReal_mul (exp_pos _).le, ← exp_add]
    congr 2
    have e1 := hE (linkMat Q) s μ (rowUpdate a.1 k l (linkMat Q s μ))
    rw [← rotateLink_mat s μ k l hkl a Q] at e1
    have e2 := trace_rowUpdate (IsQuat.of_su2 a.2).1 k l hkl (P Q)
    have e3 : rowUpdate a.1 k l (linkMat Q s μ) * stap (linkMat Q) s μ = rowUpdate a.1 k l (P Q) := by
      rw [rowUpdate_eq_mul, Matrix.mul_assoc, ← rowUpdate_eq_mul]
      rfl
    unfold deltaAction at e1
    rw [e3] at e1
    have e4 : (trace (linkMat Q s μ * stap (linkMat Q) s μ)).re = (trace (P Q)).re := rfl
    rw [e4, e2] at e1
    have e5 : E (linkMat (rotateLink s μ k l a Q)) = E (linkMat Q) + -β * ((trace (a.1 * subStaple (P Q) k l)).re - (trace (subStaple (P Q) k l)).re) / N := by
      linarith
    rw [e5]
    field_simp
    ring
  have hh2 : h2 ≠ 0 := by
    intro h
    have := (isOpen_univ : IsOpen (univ : Set (SU 2))).measure_pos h2 ⟨1, trivial⟩
    rw [h] at this
    simp at this
  let D : Set (LinkSU S N) := {Q | subDet (P Q) k l ≠ 0}
  have hD : MeasurableSet D := by
    have hc : Continuous fun Q => subDet (P Q) k l := by
      have : (fun Q : LinkSU S N => subDet (P Q) k l) = fun Q => sqNorm (coordsOf (subStaple (P Q) k l)) := by
        funext Q
        rw [sqNorm_coords_subStaple]
      rw [this]
      exact continuous_sqNorm.comp ((continuous_subStaple_coords k l).comp (continuous_plaqMat stap s μ hst))
    exact (hc.measurable (measurableSet_singleton 0)).compl
  have hZ : ∀ Q, orbitNorm h2 (rotateLink s μ k l) ρ Q
      = ENNReal.ofReal (exp (-E (linkMat Q) - β / N * (trace (subStaple (P Q) k l)).re)) * ∫⁻ a, elementWeight β (P Q) k l a ∂h2 := fun Q => by
    unfold orbitNorm
    simp only [hw]
    rw [lintegral_const_mul' _ _ ENNReal.ofReal_ne_top]
  have hC : ∀ Q, ENNReal.ofReal (exp (-E (linkMat Q) - β / N * (trace (subStaple (P Q) k l)).re)) ≠ 0 := fun Q => by
    rw [Ne, ENNReal.ofReal_eq_zero, not_le]
    exact exp_pos _
  refine gibbs_stationary h2 (linkMeasure S haar) (rotateLink s μ k l) (measurable_rotateLink s μ k l) (rotateLink_mul s μ k l) (rotateLink_one s μ k l)
    (fun a => measurePreserving_mul_left (linkMeasure S haar) _) ρ hρ D hD (fun a Q => ?_) (fun Q hQ => ?_) f _ hf (fun Q hQ => ?_) (fun Q hQ => ?_)
  · change subDet (P (rotateLink s μ k l a Q)) k l ≠ 0 ↔ subDet (P Q) k l ≠ 0
    rw [hdet]
  · obtain ⟨z1, z2, -⟩ := subElement_law h2 hh2 β hβ hN (P Q) k l hQ
    rw [hZ]
    exact ⟨mul_ne_zero (hC Q) z1, ENNReal.mul_ne_top ENNReal.ofReal_ne_top z2⟩
  · obtain ⟨z1, z2, z3⟩ := subElement_law h2 hh2 β hβ hN (P Q) k l hQ
    have hm : Measurable fun a => f (rotateLink s μ k l a Q) := hf.comp (measurable_rotate_of s μ k l measurable_id measurable_const)
    have e := z3 _ hm
    change ∫⁻ ω, f (rotateLink s μ k l (subElement β (P Q) k l ω) Q) ∂heatMeasure = _
    rw [e, hZ]
    simp only [hw, mul_assoc]
    rw [lintegral_const_mul' _ _ ENNReal.ofReal_ne_top, ENNReal.mul_inv (Or.inl (hC Q)) (Or.inl ENNReal.ofReal_ne_top), mul_mul_mul_comm,
      ENNReal.inv_mul_cancel (hC Q) ENNReal.ofReal_ne_top, one_mul]
  · have h0 : subDet (P Q) k l = 0 := not_not.1 hQ
    have e : ∀ ω, heatStepSU β stap s μ k l ω Q = Q := fun ω => by
      change rotateLink s μ k l (subElement β (P Q) k l ω) Q = Q
      rw [subElement, if_pos h0, rotateLink_one]
    simp only [e]
    simp

end Leonard
