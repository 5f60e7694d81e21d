import Verif.Arnoldi.Invariant
import Mathlib.LinearAlgebra.Matrix.Block
import Mathlib.LinearAlgebra.Matrix.Charpoly.Coeff

/-!
# The implicit restart
-/

set_option autoImplicit false

namespace Leonard

open Matrix

variable {S : Type} [Fintype S] {M : ℕ}

theorem entry_fin {n : ℕ} (A : Matrix (Fin n) (Fin n) ℂ) (i c : Fin n) : entry A i c = A i c := by
  rw [entry, dif_pos ⟨i.isLt, c.isLt⟩]

theorem entry_of {n : ℕ} (A : Matrix (Fin n) (Fin n) ℂ) {i c : ℕ} (hi : i < n) (hc : c < n) : entry A i c = A ⟨i, hi⟩ ⟨c, hc⟩ := dif_pos ⟨hi, hc⟩

theorem hMatrix_apply (n : ℕ) (H : ℕ → ℕ → ℂ) (i c : Fin n) : hMatrix n H i c = H i c := rfl

/-- The decomposition in the restart. -/
theorem restart_qr {A : SField S M →ₗ[ℂ] SField S M} {steps k : ℕ} {s : ArnoldiState S M} (hs : Arnoldi A steps k s) (mu : ℂ) :
    QRSpec (k + 1) (hMatrix steps s.H - mu • (1 : Matrix (Fin steps) (Fin steps) ℂ))
      (householderQR (hMatrix steps s.H - mu • (1 : Matrix (Fin steps) (Fin steps) ℂ))).1
      (householderQR (hMatrix steps s.H - mu • (1 : Matrix (Fin steps) (Fin steps) ℂ))).2 := by
  have hoff : ∀ i c : Fin steps, i ≠ c → (hMatrix steps s.H - mu • (1 : Matrix (Fin steps) (Fin steps) ℂ)) i c = s.H i c := by
    intro i c hic
    rw [Matrix.sub_apply, Matrix.smul_apply, Matrix.one_apply_ne hic, smul_zero, sub_zero, hMatrix_apply]
  refine householderQR_spec (k + 1) _ ?_ ?_ ?_
  · intro i c hic
    rw [hoff i c (by rintro rfl; omega), hic, hs.real]
  · intro i c hic
    rw [hoff i c (by rintro rfl; omega), hs.hess _ _ hic]
  · intro i c hic ha
    rw [hoff i c hic, hs.zero _ _ (by omega)]

/-- `R Q` is a Hessenberg matrix with real subdiagonal and the same blocks. -/
theorem QRSpec.rq {n a : ℕ} {A0 Q R : Matrix (Fin n) (Fin n) ℂ} (h : QRSpec a A0 Q R) :
    (∀ i c : Fin n, c.val + 1 < i.val → (R * Q) i c = 0) ∧ (∀ i c : Fin n, i.val = c.val + 1 → (R * Q) i c = R i i * Q i c) ∧
    (∀ i c : Fin n, i ≠ c → (a ≤ i.val ∨ a ≤ c.val) → (R * Q) i c = 0) := by
  refine ⟨fun i c hic => ?_, fun i c hic => ?_, fun i c hic ha => ?_⟩
  · rw [Matrix.mul_apply]
    refine Finset.sum_eq_zero fun m _ => ?_
    by_cases hm : m < i
    · rw [h.tri i m hm, zero_mul]
    · rw [h.qhess m c (by have : i.val ≤ m.val := not_lt.1 hm; omega), mul_zero]
  · rw [Matrix.mul_apply, Finset.sum_eq_single i]
    · intro m _ hmi
      by_cases hm : m < i
      · rw [h.tri i m hm, zero_mul]
      · have h1 : i.val ≤ m.val := not_lt.1 hm
        have h2 : m.val ≠ i.val := fun h3 => hmi (Fin.ext h3)
        rw [h.qhess m c (by omega), mul_zero]
    · intro h1; exact absurd (Finset.mem_univ _) h1
  · rw [Matrix.mul_apply]
    refine Finset.sum_eq_zero fun m _ => ?_
    rcases ha with ha | ha
    · by_cases hm : i = m
      · subst hm; rw [h.qblk i c hic (Or.inl ha), mul_zero]
      · rw [h.blk i m hm (Or.inl ha), zero_mul]
    · by_cases hm : m = c
      · subst hm; rw [h.blk i m hic (Or.inr ha), zero_mul]
      · rw [h.qblk m c hm (Or.inr ha), mul_zero]

/-- `H Q = Q H⁺`. -/
theorem QRSpec.similar {n a : ℕ} {H Q R : Matrix (Fin n) (Fin n) ℂ} {mu : ℂ} (h : QRSpec a (H - mu • (1 : Matrix (Fin n) (Fin n) ℂ)) Q R) :
    H * Q = Q * (R * Q + mu • (1 : Matrix (Fin n) (Fin n) ℂ)) := by
  have hp := h.prod
  have : H = Q * R + mu • (1 : Matrix (Fin n) (Fin n) ℂ) := by rw [hp]; abel
  rw [Matrix.mul_add, ← Matrix.mul_assoc]
  conv_lhs => rw [this]
  rw [Matrix.add_mul]
  simp

/-- What one pass does to the process, for any decomposition. -/
theorem restart_core {A : SField S M →ₗ[ℂ] SField S M} {steps j : ℕ} {s : ArnoldiState S M} (hs : Arnoldi A steps (j + 1) s) (mu : ℂ)
    {Q R Hp : Matrix (Fin steps) (Fin steps) ℂ} (hqr : QRSpec (j + 1 + 1) (hMatrix steps s.H - mu • (1 : Matrix (Fin steps) (Fin steps) ℂ)) Q R)
    (hHp : R * Q + mu • (1 : Matrix (Fin steps) (Fin steps) ℂ) = Hp) {W : ℕ → SField S M}
    (hW : (fun k => if k < steps then ∑ l : Fin steps, entry Q l k • s.V l else s.V k) = W) :
    Arnoldi A steps j ⟨W, entry Hp (j + 1) (j + 1 - 1) • W (j + 1) + starRingEnd ℂ (entry Q (j + 1) (j + 1 - 1)) • s.f,
      fun a b => if a = j + 1 ∨ b = j + 1 then 0 else entry Hp a b⟩ := by
  have hsim := hqr.similar
  rw [hHp] at hsim
  obtain ⟨r1, r2, r3⟩ := hqr.rq
  have hlt := hs.lt
  have hoff : ∀ i c : Fin steps, i ≠ c → Hp i c = (R * Q) i c := by
    intro i c hic
    rw [← hHp, Matrix.add_apply, Matrix.smul_apply, Matrix.one_apply_ne hic, smul_zero, add_zero]
  -- the new vectors
  have hV : ∀ c : Fin steps, (if c.val < steps then ∑ l : Fin steps, entry Q l c.val • s.V l else s.V c) = ∑ l : Fin steps, Q l c • s.V l := by
    intro c
    rw [if_pos c.isLt]
    exact Finset.sum_congr rfl fun l _ => by rw [entry_fin]
  have hWc : ∀ c : Fin steps, W c = ∑ l : Fin steps, Q l c • s.V l := by
    intro c
    rw [← hW]
    exact hV c
  have hj1 : j + 1 < steps := hlt
  have hWorth : ∀ i c : Fin steps, i.val ≤ j + 1 → c.val ≤ j + 1 → latticeDot (W i) (W c) = if i = c then 1 else 0 := by
    intro i c hi hc
    rw [hWc, hWc, latticeDot_sum]
    have h1 : ∀ l : Fin steps, latticeDot (∑ m : Fin steps, Q m i • s.V m) (Q l c • s.V l) = starRingEnd ℂ (Q l i) * Q l c := by
      intro l
      rw [latticeDot_smul, latticeDot_sum_left]
      by_cases hl : l.val ≤ j + 1
      · rw [Finset.sum_eq_single l]
        · rw [latticeDot_smul_left, hs.orth l l hl hl, if_pos rfl, mul_one, mul_comm]
        · intro m _ hml
          rw [latticeDot_smul_left]
          by_cases hm : m.val ≤ j + 1
          · rw [hs.orth m l hm hl, if_neg (fun h3 => hml (Fin.ext h3)), mul_zero]
          · rw [hqr.qblk m i (by rintro rfl; omega) (Or.inl (by omega)), map_zero, zero_mul]
        · intro h3; exact absurd (Finset.mem_univ _) h3
      · rw [hqr.qblk l c (by rintro rfl; omega) (Or.inl (by omega)), zero_mul, mul_zero]
    rw [Finset.sum_congr rfl fun l _ => h1 l]
    have h2 := congrFun (congrFun hqr.unit i) c
    rw [Matrix.mul_apply, Matrix.one_apply] at h2
    exact h2
  have hWf : ∀ i : Fin steps, i.val ≤ j + 1 → latticeDot (W i) s.f = 0 := by
    intro i hi
    rw [hWc, latticeDot_sum_left]
    refine Finset.sum_eq_zero fun l _ => ?_
    rw [latticeDot_smul_left]
    by_cases hl : l.val ≤ j + 1
    · rw [hs.perp l hl, mul_zero]
    · rw [hqr.qblk l i (by rintro rfl; omega) (Or.inl (by omega)), map_zero, zero_mul]
  have hWrel : ∀ c : Fin steps, c.val ≤ j + 1 → A (W c) = (∑ m : Fin steps, Hp m c • W m) + Q ⟨j + 1, hj1⟩ c • s.f := by
    intro c hc
    rw [hWc, map_sum]
    have h1 : ∀ l : Fin steps, A (Q l c • s.V l) = (∑ i : Fin steps, (hMatrix steps s.H i l * Q l c) • s.V i) + if l = ⟨j + 1, hj1⟩ then Q l c • s.f else 0 := by
      intro l
      rw [map_smul]
      by_cases hl : l.val ≤ j + 1
      · rw [hs.rel l hl, smul_add, Finset.smul_sum]
        congr 1
        · refine Finset.sum_congr rfl fun i _ => ?_
          rw [smul_smul, mul_comm]; rfl
        · by_cases h3 : l = ⟨j + 1, hj1⟩
          · rw [if_pos h3, if_pos (by rw [h3])]
          · rw [if_neg h3, if_neg (fun h4 => h3 (Fin.ext h4)), smul_zero]
      · have h0 : Q l c = 0 := hqr.qblk l c (by rintro rfl; omega) (Or.inl (by omega))
        rw [h0, zero_smul, if_neg (by rintro rfl; exact hl le_rfl), add_zero]
        symm
        exact Finset.sum_eq_zero fun i _ => by rw [mul_zero, zero_smul]
    rw [Finset.sum_congr rfl fun l _ => h1 l, Finset.sum_add_distrib, Finset.sum_ite_eq' Finset.univ, if_pos (Finset.mem_univ _), Finset.sum_comm]
    congr 1
    have h2 : ∀ i : Fin steps, ∑ l : Fin steps, (hMatrix steps s.H i l * Q l c) • s.V i = ∑ m : Fin steps, (Q i m * Hp m c) • s.V i := by
      intro i
      rw [← Finset.sum_smul, ← Finset.sum_smul, ← Matrix.mul_apply, ← Matrix.mul_apply, hsim]
    rw [Finset.sum_congr rfl fun i _ => h2 i, Finset.sum_comm]
    refine Finset.sum_congr rfl fun m _ => ?_
    rw [hWc, Finset.smul_sum]
    exact Finset.sum_congr rfl fun i _ => by rw [smul_smul, mul_comm]
  have hent : ∀ i c : Fin steps, entry Hp i c = Hp i c := fun i c => entry_fin Hp i c
  have hzero : ∀ i c, (j < i ∨ j < c) → (if i = j + 1 ∨ c = j + 1 then 0 else entry Hp i c) = 0 := by
    intro i c hic
    by_cases h1 : i = j + 1 ∨ c = j + 1
    · rw [if_pos h1]
    · rw [if_neg h1]
      by_cases hr : i < steps ∧ c < steps
      · rw [entry_of Hp hr.1 hr.2]
        by_cases he : (⟨i, hr.1⟩ : Fin steps) = ⟨c, hr.2⟩
        · rw [he]
          have hcv : j + 1 < c := by have := congrArg Fin.val he; simp only at this; omega
          have hb : ∀ m : Fin steps, m ≠ ⟨c, hr.2⟩ → R ⟨c, hr.2⟩ m * Q m ⟨c, hr.2⟩ = 0 := fun m hm => by
            rw [hqr.qblk m ⟨c, hr.2⟩ hm (Or.inr (by simp only; omega)), mul_zero]
          have hb2 : ∀ m : Fin steps, m ≠ ⟨c, hr.2⟩ → Q ⟨c, hr.2⟩ m * R m ⟨c, hr.2⟩ = 0 := fun m hm => by
            rw [hqr.blk m ⟨c, hr.2⟩ hm (Or.inr (by simp only; omega)), mul_zero]
          have e1 : (R * Q) ⟨c, hr.2⟩ ⟨c, hr.2⟩ = R ⟨c, hr.2⟩ ⟨c, hr.2⟩ * Q ⟨c, hr.2⟩ ⟨c, hr.2⟩ := by
            rw [Matrix.mul_apply, Finset.sum_eq_single _ (fun m _ hm => hb m hm) (fun h3 => absurd (Finset.mem_univ _) h3)]
          have e2 := congrFun (congrFun hqr.prod ⟨c, hr.2⟩) ⟨c, hr.2⟩
          rw [Matrix.mul_apply, Finset.sum_eq_single _ (fun m _ hm => hb2 m hm) (fun h3 => absurd (Finset.mem_univ _) h3), Matrix.sub_apply, hMatrix_apply,
            hs.zero c c (by omega), Matrix.smul_apply, Matrix.one_apply_eq, smul_eq_mul, mul_one, zero_sub] at e2
          rw [← hHp, Matrix.add_apply, e1, Matrix.smul_apply, Matrix.one_apply_eq, smul_eq_mul, mul_one, mul_comm, e2, neg_add_cancel]
        · have h2 : i ≠ c := fun h3 => he (Fin.ext h3)
          rw [hoff _ _ he, r3 _ _ he (by simp only; omega)]
      · rw [entry, dif_neg hr]
  have hf : entry Hp (j + 1) (j + 1 - 1) • W (j + 1) + starRingEnd ℂ (entry Q (j + 1) (j + 1 - 1)) • s.f
      = Hp ⟨j + 1, hj1⟩ ⟨j, by omega⟩ • W (j + 1) + Q ⟨j + 1, hj1⟩ ⟨j, by omega⟩ • s.f := by
    rw [Nat.add_sub_cancel, entry_of Hp hj1 (by omega : j < steps), entry_of Q hj1 (by omega : j < steps), Complex.conj_eq_iff_im.2 (hqr.qsub _ _ rfl)]
  rw [hf]
  constructor
  · omega
  · intro i c hi hc
    have := hWorth ⟨i, by omega⟩ ⟨c, by omega⟩ (by simp; omega) (by simp; omega)
    simpa using this
  · intro c hc
    have h1 := hWrel ⟨c, by omega⟩ (by simp only; omega)
    simp only at h1
    change A (W c) = (∑ i : Fin steps, (if i.val = j + 1 ∨ c = j + 1 then 0 else entry Hp i c) • W i) + _
    rw [h1]
    have h2 : ∀ m : Fin steps, Hp m ⟨c, by omega⟩ • W m = (if m.val = j + 1 ∨ c = j + 1 then 0 else entry Hp m c) • W m
        + if m = ⟨j + 1, hj1⟩ then Hp m ⟨c, by omega⟩ • W m else 0 := by
      intro m
      by_cases hm : m = ⟨j + 1, hj1⟩
      · rw [if_pos hm, if_pos (Or.inl (congrArg Fin.val hm)), zero_smul, zero_add]
      · rw [if_neg hm, add_zero, if_neg, entry_of Hp m.isLt (by omega : c < steps)]
        rintro (h3 | h3)
        · exact hm (Fin.ext h3)
        · omega
    rw [Finset.sum_congr rfl fun m _ => h2 m, Finset.sum_add_distrib, Finset.sum_ite_eq' Finset.univ, if_pos (Finset.mem_univ _), add_assoc]
    congr 1
    by_cases hcj : c = j
    · subst hcj
      rw [if_pos rfl]
    · rw [if_neg hcj, hoff _ _ (by intro h3; have := congrArg Fin.val h3; simp only at this; omega), r1 _ _ (by simp only; omega), zero_smul,
        hqr.qhess _ _ (by simp only; omega), zero_smul, add_zero]
  · intro i hi
    have h1 := hWorth ⟨i, by omega⟩ ⟨j + 1, hj1⟩ (by simp; omega) (by simp)
    have h2 := hWf ⟨i, by omega⟩ (by simp; omega)
    rw [if_neg (by simp; omega)] at h1
    change latticeDot (W i) _ = 0
    rw [latticeDot_add, latticeDot_smul, latticeDot_smul]
    simp only at h1 h2
    rw [h1, h2, mul_zero, mul_zero, add_zero]
  · intro i c hic
    change (if i = j + 1 ∨ c = j + 1 then 0 else entry Hp i c) = 0
    by_cases h1 : i = j + 1 ∨ c = j + 1
    · rw [if_pos h1]
    · rw [if_neg h1]
      by_cases hr : i < steps ∧ c < steps
      · rw [entry_of Hp hr.1 hr.2, hoff _ _ (by intro h3; have := congrArg Fin.val h3; simp only at this; omega), r1 _ _ (by simp only; omega)]
      · rw [entry, dif_neg hr]
  · intro c
    change (if c + 1 = j + 1 ∨ c = j + 1 then (0 : ℂ) else entry Hp (c + 1) c).im = 0
    by_cases h1 : c + 1 = j + 1 ∨ c = j + 1
    · rw [if_pos h1]; rfl
    · rw [if_neg h1]
      by_cases hr : c + 1 < steps ∧ c < steps
      · rw [entry_of Hp hr.1 hr.2, hoff _ _ (by intro h3; have := congrArg Fin.val h3; simp only at this; omega), r2 _ _ rfl, Complex.mul_im, hqr.real,
          hqr.qsub _ _ rfl, mul_zero, zero_mul, add_zero]
      · rw [entry, dif_neg hr]; rfl
  · exact hzero

/-- What one pass does to the process. -/
theorem restartStep_inv {A : SField S M →ₗ[ℂ] SField S M} {steps j : ℕ} {s : ArnoldiState S M} (hs : Arnoldi A steps (j + 1) s) (mu : ℂ) :
    Arnoldi A steps j (restartStep steps mu (j + 1) s) :=
  restart_core hs mu (restart_qr hs mu) rfl rfl

end Leonard
