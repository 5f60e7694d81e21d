import Verif.Heat.Step

/-!
The effective staple of the heat bath vanishes with probability zero.
-/

set_option autoImplicit false

namespace Leonard

open MeasureTheory Set Real Matrix ComplexConjugate
open scoped ENNReal

variable {N : ℕ}

/-- A set with infinitely many disjoint translates is a null set. -/
theorem null_of_translates {G : Type} [Group G] [MeasurableSpace G] [MeasurableMul G] (m : Measure G) [IsFiniteMeasure m] [m.IsMulLeftInvariant] (A : Set G)
    (hA : MeasurableSet A) (g : ℕ → G) (h : ∀ i j, i ≠ j → ∀ x, g i * x ∈ A → g j * x ∈ A → False) : m A = 0 := by
  by_contra h0
  have hm : ∀ i, MeasurableSet ((fun x => g i * x) ⁻¹' A) := fun i => measurable_const_mul (g i) hA
  have e : ∑' i, m ((fun x => g i * x) ⁻¹' A) = ∞ := by
    simp only [measure_preimage_mul]
    exact ENNReal.tsum_const_eq_top_of_ne_zero h0
  obtain ⟨i, j, hij, x, hx1, hx2⟩ := exists_nonempty_inter_of_measure_univ_lt_tsum_measure m (fun i => (hm i).nullMeasurableSet) (by rw [e]; exact measure_lt_top m univ)
  exact h i j hij x hx1 hx2

/-! ### Two families of elements of SU(2) -/

/-- The angles. -/
noncomputable def angle (n : ℕ) : ℝ := 1 / (n + 1)

theorem sin_angle_sub {i j : ℕ} (h : i ≠ j) : sin (angle i - angle j) ≠ 0 := by
  have h1 : ∀ n, 0 < angle n ∧ angle n ≤ 1 := fun n => by
    unfold angle
    have : (0 : ℝ) < n + 1 := by positivity
    exact ⟨by positivity, (div_le_one this).2 (by have : (0 : ℝ) ≤ n := Nat.cast_nonneg n; linarith)⟩
  have hne : angle i - angle j ≠ 0 := by
    intro h0
    unfold angle at h0
    have hi : (0 : ℝ) < i + 1 := by positivity
    have hj : (0 : ℝ) < j + 1 := by positivity
    rw [sub_eq_zero, div_eq_div_iff hi.ne' hj.ne', one_mul, one_mul] at h0
    exact h (by exact_mod_cast (add_right_cancel h0).symm)
  have hpi := two_le_pi
  rcases lt_or_gt_of_ne hne with h2 | h2
  · exact (sin_neg_of_neg_of_neg_pi_lt h2 (by linarith [(h1 i).1, (h1 j).2])).ne
  · exact (sin_pos_of_pos_of_lt_pi h2 (by linarith [(h1 j).1, (h1 i).2])).ne'

/-- Diagonal phases. -/
noncomputable def phaseEl (n : ℕ) : SU 2 :=
  ⟨su2Matrix (cos (angle n)) 0 0 (sin (angle n)), (isQuat_su2Matrix _ _ _ _).mem_su2 (by rw [quatNorm_su2Matrix]; linarith [sin_sq_add_cos_sq (angle n)])⟩

/-- Real rotations. -/
noncomputable def rotEl (n : ℕ) : SU 2 :=
  ⟨su2Matrix (cos (angle n)) 0 (sin (angle n)) 0, (isQuat_su2Matrix _ _ _ _).mem_su2 (by rw [quatNorm_su2Matrix]; linarith [sin_sq_add_cos_sq (angle n)])⟩

theorem phase_cancel {i j : ℕ} (h : i ≠ j) {z : ℂ} (hz : (⟨cos (angle i), sin (angle i)⟩ : ℂ) * z = ⟨cos (angle j), sin (angle j)⟩ * z) : z = 0 := by
  by_contra h0
  have e := mul_right_cancel₀ h0 hz
  have e1 := congrArg Complex.re e
  have e2 := congrArg Complex.im e
  simp only at e1 e2
  apply sin_angle_sub h
  rw [sin_sub, e1, e2]
  ring

/-! ### Null sets of the group -/

theorem continuous_mulB (B : Mat N) : Continuous fun M : SU N => M.1 * B :=
  (continuous_subtype_val (p := fun x : Mat N => x ∈ SU N)).matrix_mul continuous_const

theorem embed_mul_mat (k l : Fin N) (h : k ≠ l) (a : SU 2) (M : SU N) (B : Mat N) : (embedSU k l a * M).1 * B = rowUpdate a.1 k l (M.1 * B) := by
  rw [embedSU_mul k l h, rowUpdate_eq_mul, Matrix.mul_assoc, ← rowUpdate_eq_mul]

theorem IsQuat.ext_zero {A : Mat 2} (h : IsQuat A) (h0 : A 0 0 = 0) (h1 : A 0 1 = 0) : A = 0 := by
  obtain ⟨a1, a2⟩ := h
  ext i j
  fin_cases i <;> fin_cases j <;> simp [a1, a2, h0, h1]

theorem subStaple_coords_inj {P Q : Mat N} {k l : Fin N} (h : coordsOf (subStaple P k l) = coordsOf (subStaple Q k l)) : subStaple P k l = subStaple Q k l := by
  rw [← quatOf_coordsOf (isQuat_subStaple P k l), ← quatOf_coordsOf (isQuat_subStaple Q k l), h]

theorem measurableSet_subStaple (B X : Mat N) (k l : Fin N) : MeasurableSet {M : SU N | subStaple (M.1 * B) k l = subStaple X k l} := by
  have e : {M : SU N | subStaple (M.1 * B) k l = subStaple X k l} = {M | coordsOf (subStaple (M.1 * B) k l) = coordsOf (subStaple X k l)} := by
    ext M
    exact ⟨fun h => by rw [mem_setOf_eq, show subStaple (M.1 * B) k l = subStaple X k l from h], subStaple_coords_inj⟩
  rw [e]
  exact (isClosed_eq ((continuous_subStaple_coords k l).comp (continuous_mulB B)) continuous_const).measurableSet

theorem subStaple_zero (k l : Fin N) : subStaple (0 : Mat N) k l = 0 := by
  ext i j
  fin_cases i <;> fin_cases j <;> apply Complex.ext <;> simp [subStaple]

theorem subStaple_add (X Y : Mat N) (k l : Fin N) : subStaple (X + Y) k l = subStaple X k l + subStaple Y k l := by
  ext i j
  fin_cases i <;> fin_cases j <;> apply Complex.ext <;> simp [subStaple] <;> ring

theorem subStaple_neg (X : Mat N) (k l : Fin N) : subStaple (-X) k l = -subStaple X k l := by
  ext i j
  fin_cases i <;> fin_cases j <;> apply Complex.ext <;> simp [subStaple] <;> ring

section
variable (haar : Measure (SU N)) [IsFiniteMeasure haar] [haar.IsMulLeftInvariant]

/-- A given value other than zero. -/
theorem null_value (B X : Mat N) (k l : Fin N) (hkl : k ≠ l) :
    haar {M : SU N | subStaple (M.1 * B) k l = subStaple X k l ∧ subStaple (M.1 * B) k l ≠ 0} = 0 := by
  have hm : MeasurableSet {M : SU N | subStaple (M.1 * B) k l = subStaple X k l ∧ subStaple (M.1 * B) k l ≠ 0} := by
    have h0 := measurableSet_subStaple B 0 k l
    rw [subStaple_zero] at h0
    exact (measurableSet_subStaple B X k l).inter h0.compl
  refine null_of_translates haar _ hm (fun n => embedSU k l (phaseEl n)) fun i j hij M h1 h2 => ?_
  obtain ⟨h1, h3⟩ := h1
  obtain ⟨h2, -⟩ := h2
  rw [embed_mul_mat k l hkl, subStaple_rowUpdate (IsQuat.of_su2 (phaseEl i).2).1 k l hkl] at h1 h3
  rw [embed_mul_mat k l hkl, subStaple_rowUpdate (IsQuat.of_su2 (phaseEl j).2).1 k l hkl] at h2
  have e := h1.trans h2.symm
  have hz : ∀ y : Fin 2, subStaple (M.1 * B) k l 0 y = 0 := fun y => by
    have e0 := congrFun (congrFun e 0) y
    rw [Matrix.mul_apply, Matrix.mul_apply, Fin.sum_univ_two, Fin.sum_univ_two] at e0
    have p1 : ∀ n, (phaseEl n).1 0 0 = ⟨cos (angle n), sin (angle n)⟩ := fun n => rfl
    have p2 : ∀ n, (phaseEl n).1 0 1 = 0 := fun n => rfl
    rw [p1, p1, p2, p2, zero_mul, add_zero, add_zero] at e0
    exact phase_cancel hij e0
  apply h3
  rw [(isQuat_subStaple (M.1 * B) k l).ext_zero (hz 0) (hz 1), Matrix.mul_zero]

theorem measurableSet_coords (v : Fin N → ℂ) (T : Finset (Fin N)) : MeasurableSet {M : SU N | ∀ i ∈ T, (M.1 *ᵥ v) i = 0} := by
  have e : {M : SU N | ∀ i ∈ T, (M.1 *ᵥ v) i = 0} = ⋂ i ∈ T, {M | (M.1 *ᵥ v) i = 0} := by ext; simp
  rw [e]
  refine Finset.measurableSet_biInter T fun i _ => ?_
  have hc : Continuous fun M : SU N => (M.1 *ᵥ v) i :=
    (continuous_apply i).comp ((continuous_subtype_val (p := fun x : Mat N => x ∈ SU N)).matrix_mulVec continuous_const)
  exact (isClosed_eq hc continuous_const).measurableSet

theorem rowUpdate_mulVec (a : Mat 2) (k l : Fin N) (M : Mat N) (v : Fin N → ℂ) (i : Fin N) :
    (rowUpdate a k l M *ᵥ v) i = if i = k then a 0 0 * (M *ᵥ v) k + a 0 1 * (M *ᵥ v) l else if i = l then a 1 0 * (M *ᵥ v) k + a 1 1 * (M *ᵥ v) l
      else (M *ᵥ v) i := by
  simp only [Matrix.mulVec, dotProduct, rowUpdate]
  split
  · simp only [add_mul, Finset.sum_add_distrib, Finset.mul_sum, mul_assoc]
  · split
    · simp only [add_mul, Finset.sum_add_distrib, Finset.mul_sum, mul_assoc]
    · rfl

/-- Components of the image of a vector vanish with probability zero. -/
theorem null_coords (v : Fin N → ℂ) (hv : v ≠ 0) : ∀ (n : ℕ) (T : Finset (Fin N)), N - T.card = n → T.Nonempty →
    haar {M : SU N | ∀ i ∈ T, (M.1 *ᵥ v) i = 0} = 0 := by
  intro n
  induction n with
  | zero =>
    intro T hT _
    have hc : T.card = Fintype.card (Fin N) := by
      rw [Fintype.card_fin]
      exact le_antisymm ((Finset.card_le_univ T).trans_eq (Fintype.card_fin N)) (Nat.sub_eq_zero_iff_le.1 hT)
    have hu : T = Finset.univ := (Finset.card_eq_iff_eq_univ T).1 hc
    have he : {M : SU N | ∀ i ∈ T, (M.1 *ᵥ v) i = 0} = ∅ := by
      refine eq_empty_of_forall_notMem fun M hM => hv ?_
      have h0 : M.1 *ᵥ v = 0 := funext fun i => hM i (hu ▸ Finset.mem_univ i)
      have h1 : (M⁻¹).1 * M.1 = 1 := congrArg Subtype.val (inv_mul_cancel M)
      have h2 : (M⁻¹).1 *ᵥ (M.1 *ᵥ v) = v := by rw [Matrix.mulVec_mulVec, h1, Matrix.one_mulVec]
      rw [← h2, h0, Matrix.mulVec_zero]
    rw [he, measure_empty]
  | succ n ih =>
    intro T hT ⟨k, hk⟩
    have hlt : T.card < Fintype.card (Fin N) := by rw [Fintype.card_fin]; omega
    obtain ⟨j, hj⟩ : ∃ j, j ∉ T := by
      by_contra hc
      push Not at hc
      have : T = Finset.univ := Finset.eq_univ_iff_forall.2 hc
      rw [this, Finset.card_univ] at hlt
      exact lt_irrefl _ hlt
    have hkj : k ≠ j := fun h => hj (h ▸ hk)
    have h1 : haar {M : SU N | ∀ i ∈ insert j T, (M.1 *ᵥ v) i = 0} = 0 :=
      ih (insert j T) (by rw [Finset.card_insert_of_notMem hj]; omega) ⟨j, Finset.mem_insert_self j T⟩
    have h2 : haar {M : SU N | (∀ i ∈ T, (M.1 *ᵥ v) i = 0) ∧ ¬(∀ i ∈ ({j} : Finset (Fin N)), (M.1 *ᵥ v) i = 0)} = 0 := by
      refine null_of_translates haar _ ((measurableSet_coords v T).inter (measurableSet_coords v {j}).compl) (fun n => embedSU k j (rotEl n))
        fun x y hxy M m1 m2 => ?_
      obtain ⟨m1, m3⟩ := m1
      obtain ⟨m2, -⟩ := m2
      have p1 : ∀ n, (rotEl n).1 0 0 = (cos (angle n) : ℂ) := fun n => rfl
      have p2 : ∀ n, (rotEl n).1 0 1 = (sin (angle n) : ℂ) := fun n => rfl
      have q1 := m1 k hk
      have q2 := m2 k hk
      rw [embedSU_mul k j hkj, rowUpdate_mulVec, if_pos rfl, p1, p2] at q1 q2
      have hd : (sin (angle x - angle y) : ℂ) ≠ 0 := by exact_mod_cast sin_angle_sub hxy
      have es : (sin (angle x - angle y) : ℂ) = sin (angle x) * cos (angle y) - cos (angle x) * sin (angle y) := by
        rw [sin_sub]; push_cast; ring
      have hj0 : (M.1 *ᵥ v) j = 0 := by
        have : (sin (angle x - angle y) : ℂ) * (M.1 *ᵥ v) j = 0 := by
          rw [es]
          linear_combination (cos (angle y) : ℂ) * q1 - (cos (angle x) : ℂ) * q2
        exact (mul_eq_zero.1 this).resolve_left hd
      have hk0 : (M.1 *ᵥ v) k = 0 := by
        have : (sin (angle x - angle y) : ℂ) * (M.1 *ᵥ v) k = 0 := by
          rw [es]
          linear_combination (sin (angle x) : ℂ) * q2 - (sin (angle y) : ℂ) * q1
        exact (mul_eq_zero.1 this).resolve_left hd
      apply m3
      intro i hi
      rw [Finset.mem_singleton] at hi
      subst hi
      rw [embedSU_mul k i hkj, rowUpdate_mulVec, if_neg hkj.symm, if_pos rfl, hj0, hk0, mul_zero, mul_zero, add_zero]
    refine measure_mono_null (fun M hM => ?_) (measure_union_null h1 h2)
    by_cases hc : (M.1 *ᵥ v) j = 0
    · refine Or.inl fun i hi => ?_
      rcases Finset.mem_insert.1 hi with rfl | hi
      · exact hc
      · exact hM i hi
    · exact Or.inr ⟨hM, fun h => hc (h j (Finset.mem_singleton_self j))⟩

/-- What is asked of the factor `B`: no column vanishes, and for two colours it is a quaternion. -/
def GoodFactor (B : Mat N) : Prop := (∀ k, ∃ i, B i k ≠ 0) ∧ ∀ h : N = 2, IsQuat (h ▸ B : Mat 2)

theorem null_zero (hN : 2 ≤ N) (B : Mat N) (hB : GoodFactor B) (k l : Fin N) (hkl : k < l) :
    haar {M : SU N | subStaple (M.1 * B) k l = 0} = 0 := by
  rcases Nat.lt_or_ge 2 N with h3 | h2
  · obtain ⟨j, hjk, hjl⟩ : ∃ j : Fin N, j ≠ k ∧ j ≠ l := by
      by_contra hc
      push Not at hc
      have : (Finset.univ : Finset (Fin N)) ⊆ {k, l} := fun j _ => by
        by_cases h : j = k
        · simp [h]
        · simp [hc j h]
      have := (Finset.card_le_card this).trans Finset.card_le_two
      rw [Finset.card_univ, Fintype.card_fin] at this
      omega
    let v : Fin N → ℂ := fun i => B i k
    have hv : v ≠ 0 := fun h => by
      obtain ⟨i, hi⟩ := hB.1 k
      exact hi (congrFun h i)
    have hn := null_coords haar v hv _ {k} rfl ⟨k, Finset.mem_singleton_self k⟩
    have hkk : ∀ M : Mat N, (M *ᵥ v) k = (M * B) k k := fun M => rfl
    have h0 : haar {M : SU N | subStaple (M.1 * B) k l = 0 ∧ ¬(∀ i ∈ ({k} : Finset (Fin N)), (M.1 *ᵥ v) i = 0)} = 0 := by
      have hm := measurableSet_subStaple B 0 k l
      rw [subStaple_zero] at hm
      refine null_of_translates haar _ (hm.inter (measurableSet_coords v {k}).compl) (fun n => embedSU k j (phaseEl n)) fun x y hxy M m1 m2 => ?_
      obtain ⟨m1, m3⟩ := m1
      obtain ⟨m2, -⟩ := m2
      rw [embed_mul_mat k j hjk.symm] at m1 m2
      have w : ∀ X : Mat N, subStaple X k l = 0 → X k k = -conj (X l l) := fun X hX => by
        have e := congrFun (congrFun hX 0) 0
        have e1 : ((X k k).re + (X l l).re) / 2 = 0 := congrArg Complex.re e
        have e2 : ((X k k).im - (X l l).im) / 2 = 0 := congrArg Complex.im e
        apply Complex.ext
        · rw [Complex.neg_re, Complex.conj_re]; linarith
        · rw [Complex.neg_im, Complex.conj_im]; linarith
      have p1 : ∀ n, (phaseEl n).1 0 0 = ⟨cos (angle n), sin (angle n)⟩ := fun n => rfl
      have p2 : ∀ n, (phaseEl n).1 0 1 = 0 := fun n => rfl
      have r1 : ∀ n, rowUpdate (phaseEl n).1 k j (M.1 * B) k k = ⟨cos (angle n), sin (angle n)⟩ * (M.1 * B) k k := fun n => by
        rw [rowUpdate_apply, if_pos rfl, p1, p2, zero_mul, add_zero]
      have r2 : ∀ n, rowUpdate (phaseEl n).1 k j (M.1 * B) l l = (M.1 * B) l l := fun n => by
        rw [rowUpdate_apply, if_neg hkl.ne', if_neg hjl.symm]
      have e1 := w _ m1
      have e2 := w _ m2
      rw [r1, r2] at e1 e2
      have z := phase_cancel hxy (e1.trans e2.symm)
      apply m3
      intro i hi
      rw [Finset.mem_singleton] at hi
      subst hi
      rw [embedSU_mul i j hjk.symm, rowUpdate_mulVec, if_pos rfl, p2, zero_mul, add_zero, hkk, z, mul_zero]
    refine measure_mono_null (fun M hM => ?_) (measure_union_null hn h0)
    by_cases hc : ∀ i ∈ ({k} : Finset (Fin N)), (M.1 *ᵥ v) i = 0
    · exact Or.inl hc
    · exact Or.inr ⟨hM, hc⟩
  · have hN2 : N = 2 := le_antisymm h2 hN
    subst hN2
    have hBq : IsQuat B := hB.2 rfl
    have hk : k = 0 := by omega
    have hl : l = 1 := by omega
    subst hk hl
    have he : {M : SU 2 | subStaple (M.1 * B) 0 1 = 0} = ∅ := by
      refine eq_empty_of_forall_notMem fun M hM => ?_
      have hq := (IsQuat.of_su2 M.2).1.mul hBq
      have hs : subStaple (M.1 * B) 0 1 = M.1 * B := by
        obtain ⟨a1, a2⟩ := hq
        generalize M.1 * B = X at a1 a2
        ext i j
        fin_cases i <;> fin_cases j <;> apply Complex.ext <;> simp [subStaple, a1, a2]
      have h0 : M.1 * B = 0 := hs.symm.trans hM
      have h1 : (M⁻¹).1 * M.1 = 1 := congrArg Subtype.val (inv_mul_cancel M)
      have h2 : B = 0 := by rw [← Matrix.one_mul B, ← h1, Matrix.mul_assoc, h0, Matrix.mul_zero]
      obtain ⟨i, hi⟩ := hB.1 0
      exact hi (by rw [h2]; rfl)
    rw [he, measure_empty]

/-- The effective staple vanishes on a null set of one of the links of the staple. -/
theorem null_affine (hN : 2 ≤ N) (A : SU N) (B C : Mat N) (hB : GoodFactor B) (k l : Fin N) (hkl : k < l) :
    haar {g : SU N | subStaple (A.1 * (g.1 * B) + C) k l = 0} = 0 := by
  have h1 : haar {M : SU N | subStaple (M.1 * B) k l = subStaple (-C) k l} = 0 := by
    refine measure_mono_null (fun M hM => ?_) (measure_union_null (null_value haar B (-C) k l hkl.ne) (null_zero haar hN B hB k l hkl))
    by_cases hc : subStaple (M.1 * B) k l = 0
    · exact Or.inr hc
    · exact Or.inl ⟨hM, hc⟩
  have e : {g : SU N | subStaple (A.1 * (g.1 * B) + C) k l = 0} = (fun g => A * g) ⁻¹' {M : SU N | subStaple (M.1 * B) k l = subStaple (-C) k l} := by
    ext g
    change subStaple (A.1 * (g.1 * B) + C) k l = 0 ↔ subStaple (A.1 * g.1 * B) k l = subStaple (-C) k l
    rw [subStaple_add, subStaple_neg, Matrix.mul_assoc, add_eq_zero_iff_eq_neg]
  rw [e, measure_preimage_mul, h1]

end

/-! ### Null sets of the configurations -/

variable {S : Type} [DecidableEq S] [Fintype S]

/-- Multiplication of one link. -/
def mulLink (s : S) (ν : Fin 4) (g : SU N) (Q : LinkSU S N) : LinkSU S N := (fun s' μ' => if s' = s ∧ μ' = ν then g else 1) * Q

theorem measurable_mulLink (s : S) (ν : Fin 4) : Measurable fun z : SU N × LinkSU S N => mulLink s ν z.1 z.2 := by
  refine Measurable.mul (f := fun z : SU N × LinkSU S N => (fun s' μ' => if s' = s ∧ μ' = ν then z.1 else 1 : LinkSU S N)) ?_ measurable_snd
  refine measurable_pi_lambda _ fun s' => measurable_pi_lambda _ fun μ' => ?_
  split
  · exact measurable_fst
  · exact measurable_const

theorem null_of_fibres (haar : Measure (SU N)) [IsFiniteMeasure haar] [haar.IsMulLeftInvariant] (s : S) (ν : Fin 4) (A : Set (LinkSU S N))
    (hA : MeasurableSet A) (h : ∀ Q, haar {g | mulLink s ν g Q ∈ A} = 0) : linkMeasure S haar A = 0 := by
  by_cases h0 : haar univ = 0
  · have hz : haar = 0 := Measure.measure_univ_eq_zero.1 h0
    have : linkMeasure S haar univ = 0 := by
      unfold linkMeasure
      rw [Measure.pi_univ]
      exact Finset.prod_eq_zero (Finset.mem_univ s) (by rw [Measure.pi_univ]; exact Finset.prod_eq_zero (Finset.mem_univ ν) h0)
    exact measure_mono_null (subset_univ A) this
  have hm : Measurable fun z : SU N × LinkSU S N => A.indicator (fun _ => (1 : ℝ≥0∞)) (mulLink s ν z.1 z.2) :=
    (measurable_const.indicator hA).comp (measurable_mulLink s ν)
  have h1 : ∫⁻ g, ∫⁻ Q, A.indicator (fun _ => (1 : ℝ≥0∞)) (mulLink s ν g Q) ∂linkMeasure S haar ∂haar = linkMeasure S haar A * haar univ := by
    have e : ∀ g : SU N, ∫⁻ Q, A.indicator (fun _ => (1 : ℝ≥0∞)) (mulLink s ν g Q) ∂linkMeasure S haar = linkMeasure S haar A := fun g => by
      have := (measurePreserving_mul_left (linkMeasure S haar) (fun s' μ' => if s' = s ∧ μ' = ν then g else 1 : LinkSU S N)).lintegral_comp
        (measurable_const.indicator hA : Measurable (A.indicator fun _ => (1 : ℝ≥0∞)))
      rw [lintegral_indicator_const hA, one_mul] at this
      exact this
    simp only [e, lintegral_const]
  have h2 : ∫⁻ g, ∫⁻ Q, A.indicator (fun _ => (1 : ℝ≥0∞)) (mulLink s ν g Q) ∂linkMeasure S haar ∂haar = 0 := by
    rw [lintegral_lintegral_swap hm.aemeasurable]
    have e : ∀ Q : LinkSU S N, ∫⁻ g, A.indicator (fun _ => (1 : ℝ≥0∞)) (mulLink s ν g Q) ∂haar = 0 := fun Q => by
      have hmQ : MeasurableSet {g | mulLink s ν g Q ∈ A} := by
        have h : Measurable fun g : SU N => (g, Q) := measurable_prodMk_right
        have := Measurable.comp (measurable_mulLink s ν) h
        exact this hA
      have : (fun g => A.indicator (fun _ => (1 : ℝ≥0∞)) (mulLink s ν g Q)) = {g | mulLink s ν g Q ∈ A}.indicator fun _ => 1 := by
        funext g
        by_cases hg : mulLink s ν g Q ∈ A
        · rw [indicator_of_mem hg, indicator_of_mem (show g ∈ {g | mulLink s ν g Q ∈ A} from hg)]
        · rw [indicator_of_notMem hg, indicator_of_notMem (show g ∉ {g | mulLink s ν g Q ∈ A} from hg)]
      rw [this, lintegral_indicator_const hmQ, h Q, mul_zero]
    simp only [e, lintegral_zero]
  rw [h1] at h2
  exact (mul_eq_zero.1 h2).resolve_right h0

/-- A link of the staple at which the staple is affine. -/
def StapleMoves (stap : GField S N → S → Fin 4 → Mat N) (s : S) (μ : Fin 4) : Prop :=
  ∃ s' ν, (s' ≠ s ∨ ν ≠ μ) ∧ ∀ Q : LinkSU S N, ∃ B C : Mat N, GoodFactor B ∧ ∀ g : SU N, stap (linkMat (mulLink s' ν g Q)) s μ = g.1 * B + C

theorem subDet_eq_zero {P : Mat N} {k l : Fin N} : subDet P k l = 0 ↔ subStaple P k l = 0 := by
  constructor
  · intro h
    rw [← quatNorm_subStaple] at h
    unfold quatNorm at h
    have h1 := Complex.normSq_nonneg (subStaple P k l 0 0)
    have h2 := Complex.normSq_nonneg (subStaple P k l 0 1)
    exact (isQuat_subStaple P k l).ext_zero (Complex.normSq_eq_zero.1 (by linarith)) (Complex.normSq_eq_zero.1 (by linarith))
  · intro h
    rw [← quatNorm_subStaple, h]
    simp [quatNorm]

theorem ae_subDet_ne (haar : Measure (SU N)) [IsFiniteMeasure haar] [haar.IsMulLeftInvariant] (hN : 2 ≤ N) (stap : GField S N → S → Fin 4 → Mat N) (s : S)
    (μ : Fin 4) (hst : Continuous fun U => stap U s μ) (hmv : StapleMoves stap s μ) (k l : Fin N) (hkl : k < l) :
    ∀ᵐ Q ∂linkMeasure S haar, subDet (plaqMat stap s μ Q) k l ≠ 0 := by
  obtain ⟨s', ν, hne, h⟩ := hmv
  have hA : MeasurableSet {Q : LinkSU S N | subDet (plaqMat stap s μ Q) k l = 0} := by
    have hc : Continuous fun Q : LinkSU S N => subDet (plaqMat stap s μ Q) k l := by
      have : (fun Q : LinkSU S N => subDet (plaqMat stap s μ Q) k l) = fun Q => sqNorm (coordsOf (subStaple (plaqMat stap s μ Q) k l)) := by
        funext Q
        rw [sqNorm_coords_subStaple]
      rw [this]
      exact continuous_sqNorm.comp ((continuous_subStaple_coords k l).comp (continuous_plaqMat stap s μ hst))
    exact (isClosed_eq hc continuous_const).measurableSet
  have h0 := null_of_fibres haar s' ν _ hA fun Q => by
    obtain ⟨B, C, hB, hg⟩ := h Q
    have e : {g : SU N | mulLink s' ν g Q ∈ {Q : LinkSU S N | subDet (plaqMat stap s μ Q) k l = 0}}
        = {g : SU N | subStaple ((Q s μ).1 * (g.1 * B) + (Q s μ).1 * C) k l = 0} := by
      ext g
      have e1 : (mulLink s' ν g Q) s μ = Q s μ := by
        change (if s = s' ∧ μ = ν then g else 1) * Q s μ = Q s μ
        rw [if_neg, one_mul]
        rintro ⟨rfl, rfl⟩
        simp at hne
      have e2 : plaqMat stap s μ (mulLink s' ν g Q) = (Q s μ).1 * (g.1 * B) + (Q s μ).1 * C := by
        unfold plaqMat
        rw [e1, hg, Matrix.mul_add]
      change subDet (plaqMat stap s μ (mulLink s' ν g Q)) k l = 0 ↔ _
      rw [e2, subDet_eq_zero]
      rfl
    rw [e]
    exact null_affine haar hN (Q s μ) B _ hB k l hkl
  exact measure_eq_zero_iff_ae_notMem.1 h0

end Leonard
