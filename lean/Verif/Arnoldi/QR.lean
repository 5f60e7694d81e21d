import Verif.Arnoldi.Model
import Mathlib.Data.Matrix.Mul
import Mathlib.LinearAlgebra.Matrix.NonsingularInverse

/-!
# The Householder decomposition of a Hessenberg matrix
-/

set_option autoImplicit false

namespace Leonard

open Matrix

variable {n : ℕ}

theorem hhTail_nonneg (A : Matrix (Fin n) (Fin n) ℂ) (k : Fin n) : 0 ≤ hhTail A k :=
  Finset.sum_nonneg fun i _ => by split <;> positivity

theorem hhTail_zero (A : Matrix (Fin n) (Fin n) ℂ) (k : Fin n) (h : hhTail A k = 0) (i : Fin n) (hi : k < i) : A i k = 0 := by
  have h1 := (Finset.sum_eq_zero_iff_of_nonneg (fun i _ => by split <;> positivity)).1 h i (Finset.mem_univ _)
  rw [if_pos hi] at h1
  simpa using h1

theorem hhBeta_sq (A : Matrix (Fin n) (Fin n) ℂ) (k : Fin n) : hhBeta A k ^ 2 = ‖A k k‖ ^ 2 + hhTail A k := by
  have h := hhTail_nonneg A k
  unfold hhBeta
  split
  · rw [neg_sq, Real.sq_sqrt (by positivity)]
  · rw [Real.sq_sqrt (by positivity)]

/-- If the column needs a reflection, the denominators do not vanish. -/
theorem hh_ne (A : Matrix (Fin n) (Fin n) ℂ) (k : Fin n) (h : ¬(hhTail A k = 0 ∧ (A k k).im = 0)) :
    (hhBeta A k : ℂ) ≠ 0 ∧ A k k - (hhBeta A k : ℂ) ≠ 0 := by
  have ht := hhTail_nonneg A k
  have hs := hhBeta_sq A k
  have hb : hhBeta A k ≠ 0 := by
    intro h0
    rw [h0] at hs
    have h1 : ‖A k k‖ ^ 2 = 0 := by nlinarith [sq_nonneg ‖A k k‖]
    have h2 : A k k = 0 := by simpa using h1
    exact h ⟨by nlinarith [sq_nonneg ‖A k k‖], by rw [h2]; rfl⟩
  refine ⟨by exact_mod_cast hb, fun h0 => ?_⟩
  have h1 : A k k = (hhBeta A k : ℂ) := sub_eq_zero.1 h0
  have hre : (A k k).re = hhBeta A k := by rw [h1]; simp
  have hroot : 0 ≤ √(‖A k k‖ ^ 2 + hhTail A k) := Real.sqrt_nonneg _
  have : hhBeta A k = 0 := by
    unfold hhBeta at hre ⊢
    split at hre
    · rename_i h2; rw [if_pos h2]; linarith
    · rename_i h2; rw [if_neg h2]; push Not at h2; linarith
  exact hb this

theorem hhVec_self (A : Matrix (Fin n) (Fin n) ℂ) (k : Fin n) : hhVec A k k = 1 := if_pos rfl

theorem hhVec_below (A : Matrix (Fin n) (Fin n) ℂ) (k i : Fin n) (h : k < i) : hhVec A k i = A i k / (A k k - (hhBeta A k : ℂ)) := by
  rw [hhVec, if_neg h.ne', if_pos h]

theorem hhVec_above (A : Matrix (Fin n) (Fin n) ℂ) (k i : Fin n) (h : i < k) : hhVec A k i = 0 := by
  rw [hhVec, if_neg h.ne, if_neg (not_lt.2 h.le)]

/-- The norm of the vector. -/
theorem hhVec_norm (A : Matrix (Fin n) (Fin n) ℂ) (k : Fin n) :
    star (hhVec A k) ⬝ᵥ hhVec A k = ((1 + hhTail A k / ‖A k k - (hhBeta A k : ℂ)‖ ^ 2 : ℝ) : ℂ) := by
  have h : ∀ i, star (hhVec A k i) * hhVec A k i = (((if i = k then 1 else 0) + (if k < i then ‖A i k‖ ^ 2 else 0) / ‖A k k - (hhBeta A k : ℂ)‖ ^ 2 : ℝ) : ℂ) := by
    intro i
    rw [Complex.star_def, ← Complex.normSq_eq_conj_mul_self, Complex.normSq_eq_norm_sq]
    congr 1
    rcases lt_trichotomy i k with h | h | h
    · rw [hhVec_above A k i h, if_neg h.ne, if_neg (not_lt.2 h.le)]; simp
    · subst h; rw [hhVec_self]; simp
    · rw [hhVec_below A k i h, if_neg h.ne', if_pos h, norm_div, div_pow, zero_add]
  rw [dotProduct]
  simp only [Pi.star_apply, h]
  rw [← Complex.ofReal_sum, Finset.sum_add_distrib, ← Finset.sum_div]
  simp [hhTail]

/-- The vector times the column. -/
theorem hhVec_column (A : Matrix (Fin n) (Fin n) ℂ) (k : Fin n) :
    star (hhVec A k) ⬝ᵥ (fun i => A i k) = A k k + (hhTail A k : ℂ) / starRingEnd ℂ (A k k - (hhBeta A k : ℂ)) := by
  have h : ∀ i, star (hhVec A k i) * A i k = (if i = k then A k k else 0) + ((if k < i then ‖A i k‖ ^ 2 else 0 : ℝ) : ℂ) / starRingEnd ℂ (A k k - (hhBeta A k : ℂ)) := by
    intro i
    rcases lt_trichotomy i k with h | h | h
    · rw [hhVec_above A k i h, if_neg h.ne, if_neg (not_lt.2 h.le)]; simp
    · subst h; rw [hhVec_self]; simp
    · rw [hhVec_below A k i h, if_neg h.ne', if_pos h, zero_add, Complex.star_def, map_div₀, div_mul_eq_mul_div, ← Complex.normSq_eq_conj_mul_self, Complex.normSq_eq_norm_sq]
  rw [dotProduct]
  simp only [Pi.star_apply, h]
  rw [Finset.sum_add_distrib, ← Finset.sum_div, ← Complex.ofReal_sum]
  simp [hhTail]

theorem hhTau_eq (A : Matrix (Fin n) (Fin n) ℂ) (k : Fin n) (h : ¬(hhTail A k = 0 ∧ (A k k).im = 0)) :
    hhTau A k = ((hhBeta A k : ℂ) - starRingEnd ℂ (A k k)) / (hhBeta A k : ℂ) := by
  rw [hhTau, if_neg h, map_div₀, map_sub, Complex.conj_ofReal]

/-- The reflection is unitary. -/
theorem hhMat_unitary (A : Matrix (Fin n) (Fin n) ℂ) (k : Fin n) : (hhMat A k)ᴴ * hhMat A k = 1 := by
  have key : starRingEnd ℂ (hhTau A k) * hhTau A k * (star (hhVec A k) ⬝ᵥ hhVec A k) = hhTau A k + starRingEnd ℂ (hhTau A k) := by
    by_cases h : hhTail A k = 0 ∧ (A k k).im = 0
    · rw [hhTau, if_pos h]; simp
    · obtain ⟨hb, hd⟩ := hh_ne A k h
      have hs := hhBeta_sq A k
      rw [hhTau_eq A k h, hhVec_norm]
      have hd2 : starRingEnd ℂ (A k k) - (hhBeta A k : ℂ) ≠ 0 := by
        intro h0
        apply hd
        have := congrArg (starRingEnd ℂ) h0
        simpa using this
      have hn : ((‖A k k - (hhBeta A k : ℂ)‖ ^ 2 : ℝ) : ℂ) = (A k k - (hhBeta A k : ℂ)) * (starRingEnd ℂ (A k k) - (hhBeta A k : ℂ)) := by
        rw [← Complex.normSq_eq_norm_sq, ← Complex.mul_conj, map_sub, Complex.conj_ofReal]
      have hs' : ((hhBeta A k : ℝ) : ℂ) ^ 2 = A k k * starRingEnd ℂ (A k k) + (hhTail A k : ℂ) := by
        rw [Complex.mul_conj, Complex.normSq_eq_norm_sq, ← Complex.ofReal_pow, hs]
        push_cast
        ring
      push_cast at hn ⊢
      rw [hn, map_div₀, map_sub, Complex.conj_ofReal, Complex.conj_conj]
      generalize starRingEnd ℂ (A k k) = cc at *
      generalize A k k = c at *
      generalize (hhBeta A k : ℂ) = b at *
      generalize (hhTail A k : ℂ) = t at *
      have ht : t = b ^ 2 - c * cc := by rw [hs']; ring
      subst ht
      field_simp
      ring
  have hv : (vecMulVec (hhVec A k) (star (hhVec A k)))ᴴ = vecMulVec (hhVec A k) (star (hhVec A k)) := by
    rw [conjTranspose_vecMulVec, star_star]
  have hm : vecMulVec (hhVec A k) (star (hhVec A k)) * vecMulVec (hhVec A k) (star (hhVec A k))
      = (star (hhVec A k) ⬝ᵥ hhVec A k) • vecMulVec (hhVec A k) (star (hhVec A k)) := by
    rw [vecMulVec_mul_vecMulVec, vecMulVec_smul]
  unfold hhMat
  rw [conjTranspose_sub, conjTranspose_one, conjTranspose_smul, hv, sub_mul, mul_sub, mul_sub, one_mul, one_mul, mul_one, smul_mul_smul_comm, hm, smul_smul,
    Complex.star_def, key]
  module

/-- What the reflection does to a matrix. -/
theorem hhMat_mul (A B : Matrix (Fin n) (Fin n) ℂ) (k i c : Fin n) :
    (hhMat A k * B) i c = B i c - hhTau A k * (hhVec A k i * (star (hhVec A k) ⬝ᵥ fun l => B l c)) := by
  rw [hhMat, sub_mul, one_mul, Matrix.sub_apply, smul_mul, Matrix.smul_apply, smul_eq_mul, vecMulVec_mul]
  rfl

theorem mul_hhMat (A B : Matrix (Fin n) (Fin n) ℂ) (k i c : Fin n) :
    (B * (hhMat A k)ᴴ) i c = B i c - starRingEnd ℂ (hhTau A k) * ((∑ l, B i l * hhVec A k l) * starRingEnd ℂ (hhVec A k c)) := by
  have hv : (vecMulVec (hhVec A k) (star (hhVec A k)))ᴴ = vecMulVec (hhVec A k) (star (hhVec A k)) := by
    rw [conjTranspose_vecMulVec, star_star]
  rw [hhMat, conjTranspose_sub, conjTranspose_one, conjTranspose_smul, hv, mul_sub, mul_one, Matrix.sub_apply, Matrix.mul_smul, Matrix.smul_apply, smul_eq_mul, mul_vecMulVec]
  rfl

/-- Below the diagonal the column vanishes; the diagonal is real. -/
theorem hhMat_column (A : Matrix (Fin n) (Fin n) ℂ) (k : Fin n) :
    (∀ i, k < i → (hhMat A k * A) i k = 0) ∧ ((hhMat A k * A) k k).im = 0 := by
  by_cases h : hhTail A k = 0 ∧ (A k k).im = 0
  · have ht : hhTau A k = 0 := if_pos h
    refine ⟨fun i hi => ?_, ?_⟩
    · rw [hhMat_mul, ht, zero_mul, sub_zero, hhTail_zero A k h.1 i hi]
    · rw [hhMat_mul, ht, zero_mul, sub_zero, h.2]
  · obtain ⟨hb, hd⟩ := hh_ne A k h
    have hs := hhBeta_sq A k
    have hd2 : starRingEnd ℂ (A k k) - (hhBeta A k : ℂ) ≠ 0 := by
      intro h0
      apply hd
      have := congrArg (starRingEnd ℂ) h0
      simpa using this
    have hs' : ((hhBeta A k : ℝ) : ℂ) ^ 2 = A k k * starRingEnd ℂ (A k k) + (hhTail A k : ℂ) := by
      rw [Complex.mul_conj, Complex.normSq_eq_norm_sq, ← Complex.ofReal_pow, hs]
      push_cast
      ring
    have key : hhTau A k * (star (hhVec A k) ⬝ᵥ fun l => A l k) = A k k - (hhBeta A k : ℂ) := by
      rw [hhTau_eq A k h, hhVec_column, map_sub, Complex.conj_ofReal]
      generalize starRingEnd ℂ (A k k) = cc at *
      generalize A k k = c at *
      generalize (hhBeta A k : ℂ) = b at *
      generalize (hhTail A k : ℂ) = t at *
      have ht : t = b ^ 2 - c * cc := by rw [hs']; ring
      subst ht
      field_simp
      ring
    refine ⟨fun i hi => ?_, ?_⟩
    · rw [hhMat_mul, mul_left_comm, key, hhVec_below A k i hi, div_mul_cancel₀ _ hd, sub_self]
    · rw [hhMat_mul, mul_left_comm, key, hhVec_self, one_mul, sub_sub_cancel, Complex.ofReal_im]

/-- The loop on a Hessenberg matrix `A0` that is diagonal from row and column `a` on and has real entries below the diagonal. -/
structure HhInv (a k : ℕ) (A0 Q A : Matrix (Fin n) (Fin n) ℂ) : Prop where
  prod : Q * A = A0
  unit : Qᴴ * Q = 1
  tri : ∀ i c, c.val < k → c < i → A i c = 0
  real : ∀ c, c.val < k → (A c c).im = 0
  hess : ∀ i c, c.val + 1 < i.val → A i c = 0
  blk : ∀ i c, i ≠ c → (a ≤ i.val ∨ a ≤ c.val) → A i c = 0
  sub : ∀ i c, i.val = c.val + 1 → k ≤ c.val → A i c = A0 i c
  qhess : ∀ i c, c.val + 1 < i.val → Q i c = 0
  qblk : ∀ i c, i ≠ c → (a ≤ i.val ∨ a ≤ c.val) → Q i c = 0
  qrow : ∀ i c, (k < i.val ∨ k < c.val) → Q i c = if i = c then 1 else 0
  qsub : ∀ i c, i.val = c.val + 1 → c.val < k → (Q i c).im = 0

theorem HhInv.step {a : ℕ} {A0 Q A : Matrix (Fin n) (Fin n) ℂ} (k : Fin n) (h : HhInv a k.val A0 Q A)
    (hreal : ∀ i c : Fin n, i.val = c.val + 1 → (A0 i c).im = 0) : HhInv a (k.val + 1) A0 (Q * (hhMat A k)ᴴ) (hhMat A k * A) := by
  have hu := hhMat_unitary A k
  have hu' : hhMat A k * (hhMat A k)ᴴ = 1 := mul_eq_one_comm.1 hu
  -- the support of the vector
  have hv : ∀ i, hhVec A k i ≠ 0 → i = k ∨ (k < i ∧ A i k ≠ 0) := by
    intro i hi
    rcases lt_trichotomy i k with h1 | h1 | h1
    · exact absurd (hhVec_above A k i h1) hi
    · exact Or.inl h1
    · refine Or.inr ⟨h1, fun h0 => hi ?_⟩
      rw [hhVec_below A k i h1, h0, zero_div]
  have hv1 : ∀ i, hhVec A k i ≠ 0 → i.val = k.val ∨ i.val = k.val + 1 := by
    intro i hi
    rcases hv i hi with h1 | ⟨h1, h2⟩
    · exact Or.inl (congrArg _ h1)
    · right
      by_contra h3
      have h4 : k.val < i.val := h1
      exact h2 (h.hess i k (by omega))
  have hva : ∀ i, hhVec A k i ≠ 0 → i ≠ k → i.val < a ∧ k.val < a := by
    intro i hi hik
    rcases hv i hi with h1 | ⟨h1, h2⟩
    · exact absurd h1 hik
    · by_contra h3
      exact h2 (h.blk i k hik (by omega))
  -- the vector times a column
  have hw : ∀ c, c < k → (star (hhVec A k) ⬝ᵥ fun l => A l c) = 0 := by
    intro c hc
    rw [dotProduct]
    refine Finset.sum_eq_zero fun l _ => ?_
    by_cases hl : hhVec A k l = 0
    · rw [Pi.star_apply, hl, star_zero, zero_mul]
    · have h1 : c < l := by
        rcases hv1 l hl with h2 | h2
        · exact lt_of_lt_of_eq hc (Fin.ext h2.symm)
        · have : c.val < k.val := hc
          exact Fin.lt_def.2 (by omega)
      rw [h.tri l c hc h1, mul_zero]
  have hqv : ∀ i : Fin n, k.val + 1 < i.val → (∑ l, Q i l * hhVec A k l) = 0 := by
    intro i hi
    refine Finset.sum_eq_zero fun l _ => ?_
    by_cases hl : hhVec A k l = 0
    · rw [hl, mul_zero]
    · rw [h.qrow i l (Or.inl (by omega)), if_neg, zero_mul]
      rintro rfl
      rcases hv1 i hl with h2 | h2 <;> omega
  constructor
  · rw [Matrix.mul_assoc, ← Matrix.mul_assoc _ (hhMat A k) A, hu, Matrix.one_mul, h.prod]
  · rw [conjTranspose_mul, conjTranspose_conjTranspose, Matrix.mul_assoc, ← Matrix.mul_assoc Qᴴ, h.unit, Matrix.one_mul, hu']
  · intro i c hc hi
    by_cases h1 : c = k
    · subst h1
      exact (hhMat_column A c).1 i hi
    · have h2 : c < k := Fin.lt_def.2 (by have : c.val ≠ k.val := fun h3 => h1 (Fin.ext h3); omega)
      rw [hhMat_mul, hw c h2, mul_zero, mul_zero, sub_zero, h.tri i c h2 hi]
  · intro c hc
    by_cases h1 : c = k
    · subst h1
      exact (hhMat_column A c).2
    · have h2 : c < k := Fin.lt_def.2 (by have : c.val ≠ k.val := fun h3 => h1 (Fin.ext h3); omega)
      rw [hhMat_mul, hw c h2, mul_zero, mul_zero, sub_zero, h.real c h2]
  · intro i c hic
    rw [hhMat_mul, h.hess i c hic]
    by_cases hi : hhVec A k i = 0
    · rw [hi, zero_mul, mul_zero, sub_zero]
    · rw [hw c, mul_zero, mul_zero, sub_zero]
      rcases hv1 i hi with h2 | h2 <;> exact Fin.lt_def.2 (by omega)
  · intro i c hic ha
    rw [hhMat_mul, h.blk i c hic ha]
    by_cases hi : hhVec A k i = 0
    · rw [hi, zero_mul, mul_zero, sub_zero]
    · have : (star (hhVec A k) ⬝ᵥ fun l => A l c) = 0 := by
        rw [dotProduct]
        refine Finset.sum_eq_zero fun l _ => ?_
        by_cases hl : hhVec A k l = 0
        · rw [Pi.star_apply, hl, star_zero, zero_mul]
        · have h2 : l ≠ c := by
            rintro rfl
            by_cases hik : i = k
            · by_cases hlk : l = k
              · exact hic (hik.trans hlk.symm)
              · have := hva l hl hlk
                subst hik
                omega
            · have h3 := hva i hi hik
              by_cases hlk : l = k
              · subst hlk; omega
              · have := hva l hl hlk; omega
          have h4 : a ≤ l.val ∨ a ≤ c.val := by
            rcases ha with ha | ha
            · by_cases hik : i = k
              · by_cases hlk : l = k
                · subst hlk; subst hik; exact Or.inl ha
                · have := hva l hl hlk
                  subst hik
                  omega
              · have := hva i hi hik; omega
            · exact Or.inr ha
          rw [h.blk l c h2 h4, mul_zero]
      rw [this, mul_zero, mul_zero, sub_zero]
  · intro i c hic hk
    rw [hhMat_mul, h.sub i c hic (by omega)]
    have : hhVec A k i = 0 := by
      by_contra hi
      rcases hv1 i hi with h2 | h2 <;> omega
    rw [this, zero_mul, mul_zero, sub_zero]
  · intro i c hic
    rw [mul_hhMat, h.qhess i c hic]
    by_cases hc : hhVec A k c = 0
    · rw [hc, map_zero, mul_zero, mul_zero, sub_zero]
    · rw [hqv i, zero_mul, mul_zero, sub_zero]
      rcases hv1 c hc with h2 | h2 <;> omega
  · intro i c hic ha
    rw [mul_hhMat, h.qblk i c hic ha]
    by_cases hc : hhVec A k c = 0
    · rw [hc, map_zero, mul_zero, mul_zero, sub_zero]
    · have : (∑ l, Q i l * hhVec A k l) = 0 := by
        refine Finset.sum_eq_zero fun l _ => ?_
        by_cases hl : hhVec A k l = 0
        · rw [hl, mul_zero]
        · have h5 : i ≠ l ∧ (a ≤ i.val ∨ a ≤ l.val) := by
            by_cases hck : c = k
            · by_cases hlk : l = k
              · subst hlk; subst hck; exact ⟨hic, ha⟩
              · have h3 := hva l hl hlk
                subst hck
                rcases ha with ha | ha
                · exact ⟨fun h6 => by subst h6; omega, Or.inl ha⟩
                · omega
            · have h3 := hva c hc hck
              have h7 : l.val < a := by
                by_cases hlk : l = k
                · subst hlk; omega
                · exact (hva l hl hlk).1
              rcases ha with ha | ha
              · exact ⟨fun h6 => by subst h6; omega, Or.inl ha⟩
              · omega
          rw [h.qblk i l h5.1 h5.2, zero_mul]
      rw [this, zero_mul, mul_zero, sub_zero]
  · intro i c hic
    rw [mul_hhMat, h.qrow i c (by omega)]
    rcases hic with h1 | h1
    · rw [hqv i h1, zero_mul, mul_zero, sub_zero]
    · have : hhVec A k c = 0 := by
        by_contra hi
        rcases hv1 c hi with h2 | h2 <;> omega
      rw [this, map_zero, mul_zero, mul_zero, sub_zero]
  · intro i c hic hc
    by_cases h1 : c = k
    · subst h1
      have hrow : ∀ l, Q i l = if i = l then 1 else 0 := fun l => h.qrow i l (Or.inl (by omega))
      rw [mul_hhMat, hrow c, if_neg (by intro h6; subst h6; omega), hhVec_self, map_one, mul_one, zero_sub]
      have hs : (∑ l, Q i l * hhVec A c l) = hhVec A c i := by
        simp only [hrow, ite_mul, one_mul, zero_mul, Finset.sum_ite_eq, Finset.mem_univ, if_true]
      rw [hs]
      by_cases ht : hhTail A c = 0 ∧ (A c c).im = 0
      · rw [hhTau, if_pos ht]; simp
      · obtain ⟨hb, hd⟩ := hh_ne A c ht
        have hci : c < i := Fin.lt_def.2 (by omega)
        rw [hhTau, if_neg ht, Complex.conj_conj, hhVec_below A c i hci, h.sub i c hic le_rfl]
        have e : -(((hhBeta A c : ℂ) - A c c) / (hhBeta A c : ℂ) * (A0 i c / (A c c - (hhBeta A c : ℂ)))) = A0 i c / (hhBeta A c : ℂ) := by
          field_simp
          ring
        rw [e, Complex.div_ofReal_im, hreal i c hic, zero_div]
    · have h2 : c.val < k.val := by have : c.val ≠ k.val := fun h3 => h1 (Fin.ext h3); omega
      rw [mul_hhMat, hhVec_above A k c h2, map_zero, mul_zero, mul_zero, sub_zero, h.qsub i c hic h2]

theorem HhInv.loop {a : ℕ} {A0 : Matrix (Fin n) (Fin n) ℂ} (hreal : ∀ i c : Fin n, i.val = c.val + 1 → (A0 i c).im = 0) (m : ℕ) :
    ∀ (k : ℕ) (Q A : Matrix (Fin n) (Fin n) ℂ), k + m = n → HhInv a k A0 Q A →
      HhInv a n A0 (hhLoop ((List.finRange n).drop k) (Q, A)).1 (hhLoop ((List.finRange n).drop k) (Q, A)).2 := by
  induction m with
  | zero =>
    intro k Q A hk h
    have : (List.finRange n).drop k = [] := List.drop_eq_nil_of_le (by rw [List.length_finRange]; omega)
    rw [this]
    have hk' : k = n := by omega
    subst hk'
    exact h
  | succ m ih =>
    intro k Q A hk h
    have hkn : k < n := by omega
    have : (List.finRange n).drop k = ⟨k, hkn⟩ :: (List.finRange n).drop (k + 1) := by
      rw [List.drop_eq_getElem_cons (by rw [List.length_finRange]; exact hkn)]
      simp
    rw [this]
    exact ih (k + 1) _ _ (by omega) (HhInv.step ⟨k, hkn⟩ h hreal)

/-- The decomposition of a Hessenberg matrix with real subdiagonal that is diagonal from `a` on. -/
structure QRSpec (a : ℕ) (A0 Q R : Matrix (Fin n) (Fin n) ℂ) : Prop where
  prod : Q * R = A0
  unit : Qᴴ * Q = 1
  tri : ∀ i c, c < i → R i c = 0
  real : ∀ c, (R c c).im = 0
  blk : ∀ i c, i ≠ c → (a ≤ i.val ∨ a ≤ c.val) → R i c = 0
  qhess : ∀ i c, c.val + 1 < i.val → Q i c = 0
  qblk : ∀ i c, i ≠ c → (a ≤ i.val ∨ a ≤ c.val) → Q i c = 0
  qsub : ∀ i c, i.val = c.val + 1 → (Q i c).im = 0

theorem householderQR_spec (a : ℕ) (A0 : Matrix (Fin n) (Fin n) ℂ) (hreal : ∀ i c : Fin n, i.val = c.val + 1 → (A0 i c).im = 0)
    (hess : ∀ i c : Fin n, c.val + 1 < i.val → A0 i c = 0) (blk : ∀ i c : Fin n, i ≠ c → (a ≤ i.val ∨ a ≤ c.val) → A0 i c = 0) :
    QRSpec a A0 (householderQR A0).1 (householderQR A0).2 := by
  have h0 : HhInv a 0 A0 1 A0 := by
    constructor
    · rw [Matrix.one_mul]
    · rw [conjTranspose_one, Matrix.one_mul]
    · intro i c hc; omega
    · intro c hc; omega
    · exact hess
    · exact blk
    · intro i c _ _; rfl
    · intro i c hic
      rw [Matrix.one_apply_ne]
      rintro rfl
      omega
    · intro i c hic _
      exact Matrix.one_apply_ne hic
    · intro i c _
      exact Matrix.one_apply
    · intro i c _ hc; omega
  have h := HhInv.loop hreal n 0 1 A0 (by omega) h0
  rw [List.drop_zero] at h
  have hR : (householderQR A0).2 = (hhLoop (List.finRange n) (1, A0)).2 := by
    ext i c
    change (if i ≤ c then _ else 0) = _
    split
    · rfl
    · rename_i hic
      exact (h.tri i c c.isLt (not_le.1 hic)).symm
  have hQ : (householderQR A0).1 = (hhLoop (List.finRange n) (1, A0)).1 := rfl
  rw [hR, hQ]
  exact ⟨h.prod, h.unit, fun i c => h.tri i c c.isLt, fun c => h.real c c.isLt, h.blk, h.qhess, h.qblk, fun i c hic => h.qsub i c hic c.isLt⟩

end Leonard
