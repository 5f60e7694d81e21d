import Verif.Arnoldi.Restart
import Mathlib.LinearAlgebra.Matrix.Charpoly.Eigs

/-!
# Exact shifts

With an eigenvalue of the Hessenberg matrix as shift, the restart splits this eigenvalue off.
-/

set_option autoImplicit false

namespace Leonard

open Matrix Polynomial

variable {S : Type} [Fintype S] {M : ℕ}

/-- The leading block of a matrix. -/
def lead {n : ℕ} (m : ℕ) (hm : m ≤ n) (B : Matrix (Fin n) (Fin n) ℂ) : Matrix (Fin m) (Fin m) ℂ := B.submatrix (Fin.castLE hm) (Fin.castLE hm)

theorem lead_apply {n m : ℕ} (hm : m ≤ n) (B : Matrix (Fin n) (Fin n) ℂ) (i c : Fin m) : lead m hm B i c = B (Fin.castLE hm i) (Fin.castLE hm c) := rfl

/-- The leading block of a product if the second factor is diagonal below. -/
theorem lead_mul {n m : ℕ} (hm : m ≤ n) (B C : Matrix (Fin n) (Fin n) ℂ) (h : ∀ i c : Fin n, i ≠ c → (m ≤ i.val ∨ m ≤ c.val) → C i c = 0) :
    lead m hm (B * C) = lead m hm B * lead m hm C := by
  ext i c
  rw [lead_apply, Matrix.mul_apply, Matrix.mul_apply]
  have e1 : ∀ l : Fin m, lead m hm B i l * lead m hm C l c = B (Fin.castLE hm i) (Fin.castLE hm l) * C (Fin.castLE hm l) (Fin.castLE hm c) := fun l => rfl
  rw [Finset.sum_congr rfl fun l _ => e1 l]
  symm
  refine Finset.sum_of_injOn (Fin.castLE hm) (fun a _ b _ hab => Fin.castLE_injective hm hab) (fun _ _ => Finset.mem_univ _) (fun l _ hl => ?_) fun _ _ => rfl
  have hlm : m ≤ l.val := by
    by_contra h1
    exact hl ⟨⟨l.val, by omega⟩, Finset.mem_coe.2 (Finset.mem_univ _), Fin.ext rfl⟩
  rw [h l (Fin.castLE hm c) (fun h2 => by have := congrArg Fin.val h2; have h3 := c.isLt; simp only [Fin.val_castLE] at this; omega) (Or.inl hlm), mul_zero]

theorem lead_one {n m : ℕ} (hm : m ≤ n) : lead m hm (1 : Matrix (Fin n) (Fin n) ℂ) = 1 := by
  ext i c
  rw [lead_apply, Matrix.one_apply, Matrix.one_apply]
  simp [Fin.ext_iff]

/-- The characteristic polynomial of a matrix whose last row is zero but for the diagonal. -/
theorem charpoly_last_row {m : ℕ} (B : Matrix (Fin (m + 1)) (Fin (m + 1)) ℂ) (mu : ℂ) (h : ∀ c, B (Fin.last m) c = if c = Fin.last m then mu else 0) :
    B.charpoly = (X - C mu) * (B.submatrix Fin.castSucc Fin.castSucc).charpoly := by
  rw [Matrix.charpoly, Matrix.det_succ_row _ (Fin.last m), Finset.sum_eq_single (Fin.last m)]
  · rw [← two_mul, pow_mul, neg_one_sq, one_pow, one_mul, charmatrix_apply_eq, h, if_pos rfl]
    congr 1
    rw [Matrix.charpoly]
    congr 1
    ext i c
    simp only [Matrix.submatrix_apply, Fin.succAbove_last, charmatrix_apply, Matrix.diagonal_apply, Fin.castSucc_inj]
  · intro c _ hc
    rw [charmatrix_apply_ne _ _ _ (Ne.symm hc), h, if_neg hc]
    simp
  · intro h1; exact absurd (Finset.mem_univ _) h1

/-- One pass with an exact shift. -/
theorem shift_core {steps j : ℕ} (hj : j + 1 < steps) {H : ℕ → ℕ → ℂ} {mu : ℂ} {Q R Hp : Matrix (Fin steps) (Fin steps) ℂ}
    (hqr : QRSpec (j + 1 + 1) (hMatrix steps H - mu • (1 : Matrix (Fin steps) (Fin steps) ℂ)) Q R)
    (hHp : R * Q + mu • (1 : Matrix (Fin steps) (Fin steps) ℂ) = Hp) (hun : ∀ c, c < j + 1 → H (c + 1) c ≠ 0)
    (hroot : (hMatrix (j + 2) H).charpoly.IsRoot mu) :
    (∀ c, c < j → entry Hp (c + 1) c ≠ 0) ∧ entry Hp (j + 1) j = 0 ∧ entry R 0 0 ≠ 0 ∧ entry Q (j + 1) j ≠ 0 ∧
      (hMatrix (j + 2) H).charpoly = (X - C mu) * (hMatrix (j + 1) (entry Hp)).charpoly := by
  have hm : j + 2 ≤ steps := hj
  -- the subdiagonal of the product
  have hsub : ∀ c (hc : c < j + 1), Q ⟨c + 1, by omega⟩ ⟨c, by omega⟩ * R ⟨c, by omega⟩ ⟨c, by omega⟩ = H (c + 1) c := by
    intro c hc
    have h1 := congrFun (congrFun hqr.prod ⟨c + 1, by omega⟩) ⟨c, by omega⟩
    rw [Matrix.mul_apply, Finset.sum_eq_single ⟨c, by omega⟩] at h1
    · rw [h1, Matrix.sub_apply, Matrix.smul_apply, Matrix.one_apply_ne (by simp), smul_zero, sub_zero, hMatrix_apply]
    · intro m _ hmc
      by_cases h2 : m.val < c
      · rw [hqr.qhess _ m (by simp only; omega), zero_mul]
      · have h3 : m.val ≠ c := fun h4 => hmc (Fin.ext h4)
        rw [hqr.tri m _ (Fin.lt_def.2 (by simp only; omega)), mul_zero]
    · intro h2; exact absurd (Finset.mem_univ _) h2
  have hQ : ∀ c (hc : c < j + 1), Q ⟨c + 1, by omega⟩ ⟨c, by omega⟩ ≠ 0 := fun c hc h0 => hun c hc (by rw [← hsub c hc, h0, zero_mul])
  have hR : ∀ c (hc : c < j + 1), R ⟨c, by omega⟩ ⟨c, by omega⟩ ≠ 0 := fun c hc h0 => hun c hc (by rw [← hsub c hc, h0, mul_zero])
  -- the leading blocks
  have hQb : ∀ i c : Fin steps, i ≠ c → (j + 2 ≤ i.val ∨ j + 2 ≤ c.val) → Q i c = 0 := hqr.qblk
  have l1 : lead (j + 2) hm Q * lead (j + 2) hm R = hMatrix (j + 2) H - mu • (1 : Matrix (Fin (j + 2)) (Fin (j + 2)) ℂ) := by
    rw [← lead_mul hm Q R hqr.blk, hqr.prod]
    ext i c
    rw [lead_apply, Matrix.sub_apply, Matrix.sub_apply, Matrix.smul_apply, Matrix.smul_apply, Matrix.one_apply, Matrix.one_apply]
    simp [Fin.ext_iff, hMatrix]
  have l2 : (lead (j + 2) hm Q)ᴴ * lead (j + 2) hm Q = 1 := by
    have h1 : (lead (j + 2) hm Q)ᴴ = lead (j + 2) hm Qᴴ := rfl
    rw [h1, ← lead_mul hm Qᴴ Q hQb, hqr.unit, lead_one]
  have l3 : lead (j + 2) hm Hp = lead (j + 2) hm R * lead (j + 2) hm Q + mu • (1 : Matrix (Fin (j + 2)) (Fin (j + 2)) ℂ) := by
    rw [← lead_mul hm R Q hQb, ← hHp]
    ext i c
    rw [lead_apply, Matrix.add_apply, Matrix.add_apply, lead_apply, Matrix.smul_apply, Matrix.smul_apply, Matrix.one_apply, Matrix.one_apply]
    simp [Fin.ext_iff]
  -- the last diagonal element of `R` vanishes
  have hlast : R ⟨j + 1, hj⟩ ⟨j + 1, hj⟩ = 0 := by
    have hdet : (lead (j + 2) hm Q * lead (j + 2) hm R).det = 0 := by
      rw [l1]
      have h1 : (hMatrix (j + 2) H).charpoly.eval mu = 0 := hroot
      rw [Matrix.eval_charpoly] at h1
      have h2 : hMatrix (j + 2) H - mu • (1 : Matrix (Fin (j + 2)) (Fin (j + 2)) ℂ) = -(Matrix.scalar (Fin (j + 2)) mu - hMatrix (j + 2) H) := by
        rw [neg_sub, Matrix.scalar_apply, Matrix.smul_one_eq_diagonal]
      rw [h2, Matrix.det_neg, h1, mul_zero]
    have hq0 : (lead (j + 2) hm Q).det ≠ 0 := by
      intro h0
      have := congrArg Matrix.det l2
      rw [Matrix.det_mul, h0, mul_zero, Matrix.det_one] at this
      exact zero_ne_one this
    rw [Matrix.det_mul] at hdet
    have hr0 := (mul_eq_zero.1 hdet).resolve_left hq0
    have htri : (lead (j + 2) hm R).BlockTriangular id := fun i c hic => hqr.tri _ _ (Fin.lt_def.2 hic)
    rw [Matrix.det_of_upperTriangular htri, Finset.prod_eq_zero_iff] at hr0
    obtain ⟨i, _, hi⟩ := hr0
    rw [lead_apply] at hi
    by_cases hij : i.val < j + 1
    · exact absurd hi (hR i.val hij)
    · have h3 : Fin.castLE hm i = ⟨j + 1, hj⟩ := Fin.ext (by have := i.isLt; simp only [Fin.val_castLE]; omega)
      rwa [h3] at hi
  obtain ⟨r1, r2, r3⟩ := hqr.rq
  have hrow : ∀ c : Fin steps, (R * Q) ⟨j + 1, hj⟩ c = 0 := by
    intro c
    rw [Matrix.mul_apply]
    refine Finset.sum_eq_zero fun m _ => ?_
    by_cases h1 : m = ⟨j + 1, hj⟩
    · rw [h1, hlast, zero_mul]
    · rcases lt_or_ge m.val (j + 1) with h2 | h2
      · rw [hqr.tri _ m (Fin.lt_def.2 h2), zero_mul]
      · have h3 : m.val ≠ j + 1 := fun h4 => h1 (Fin.ext h4)
        rw [hqr.blk _ m (Ne.symm h1) (Or.inr (by omega)), zero_mul]
  have hsubHp : ∀ c (hc : c + 1 < steps), entry Hp (c + 1) c = R ⟨c + 1, hc⟩ ⟨c + 1, hc⟩ * Q ⟨c + 1, hc⟩ ⟨c, by omega⟩ := by
    intro c hc
    rw [entry_of Hp hc (by omega : c < steps), ← hHp, Matrix.add_apply, Matrix.smul_apply, Matrix.one_apply_ne (by simp), smul_zero, add_zero, r2 _ _ rfl]
  refine ⟨fun c hc => ?_, ?_, ?_, ?_, ?_⟩
  · rw [hsubHp c (by omega)]
    exact mul_ne_zero (hR (c + 1) (by omega)) (hQ c (by omega))
  · rw [hsubHp j hj, hlast, zero_mul]
  · rw [entry_of R (by omega : 0 < steps) (by omega : 0 < steps)]
    exact hR 0 (by omega)
  · rw [entry_of Q hj (by omega : j < steps)]
    exact hQ j (by omega)
  · have hconj : hMatrix (j + 2) H = lead (j + 2) hm Q * (lead (j + 2) hm Hp * (lead (j + 2) hm Q)ᴴ) := by
      have h1 : lead (j + 2) hm Q * (lead (j + 2) hm Q)ᴴ = 1 := mul_eq_one_comm.1 l2
      rw [l3, Matrix.add_mul, Matrix.mul_add, Matrix.mul_assoc (lead (j + 2) hm R), h1, Matrix.mul_one, l1, Matrix.smul_mul, Matrix.one_mul, Matrix.mul_smul, h1,
        sub_add_cancel]
    have hcp : (hMatrix (j + 2) H).charpoly = (lead (j + 2) hm Hp).charpoly := by
      rw [hconj, Matrix.charpoly_mul_comm, Matrix.mul_assoc, l2, Matrix.mul_one]
    rw [hcp, charpoly_last_row (m := j + 1) (lead (j + 2) hm Hp) mu]
    · congr 2
      ext i c
      rw [Matrix.submatrix_apply, lead_apply, hMatrix_apply, entry_of Hp (by omega : i.val < steps) (by omega : c.val < steps)]
      rfl
    · intro c
      have h1 : Fin.castLE hm (Fin.last (j + 1)) = ⟨j + 1, hj⟩ := rfl
      rw [lead_apply, h1, ← hHp, Matrix.add_apply, hrow, zero_add, Matrix.smul_apply, Matrix.one_apply]
      by_cases h2 : c = Fin.last (j + 1)
      · rw [if_pos h2, if_pos (by rw [h2]; rfl), smul_eq_mul, mul_one]
      · rw [if_neg h2, if_neg, smul_zero]
        intro h3
        apply h2
        have := congrArg Fin.val h3
        exact Fin.ext (by simpa using this.symm)

end Leonard
