import Verif.Io.Lemmas
import Mathlib.LinearAlgebra.UnitaryGroup
import Mathlib.LinearAlgebra.Matrix.Adjugate
import Mathlib.LinearAlgebra.Matrix.NonsingularInverse
import Mathlib.LinearAlgebra.Matrix.Determinant.Basic
import Mathlib.Data.Fin.VecNotation
import Mathlib.Tactic.FinCases
import Mathlib.Tactic.LinearCombination

/-! # Lemmas on compact files, sequences and compact link storage -/

set_option autoImplicit false

namespace Leonard

/-! ### muenster files -/

theorem getFloat_rest (s : Bytes) : (getFloat s).2 = s.drop 4 := by
  unfold getFloat
  split
  · rename_i h; simp only; exact (List.drop_eq_nil_of_le (by omega)).symm
  · rfl

theorem getInt_rest (s : Bytes) : (getInt s).2 = s.drop 4 := by
  unfold getInt
  split
  · rename_i h; simp only; exact (List.drop_eq_nil_of_le (by omega)).symm
  · rfl

theorem getFloats_rest (n : ℕ) (s : Bytes) : (getFloats n s).2 = s.drop (4 * n) := by
  induction n generalizing s with
  | zero => simp [getFloats]
  | succ n ih =>
    simp only [getFloats]
    rw [ih, getFloat_rest, List.drop_drop]
    congr 1; ring

theorem redCount_getFloats (n : ℕ) (s : Bytes) : redCount (getFloats n s).1 = min n (s.length / 4) := by
  induction n generalizing s with
  | zero => simp [getFloats, redCount]
  | succ n ih =>
    simp only [getFloats]
    have hs := ih (getFloat s).2
    rw [getFloat_rest] at hs ⊢
    have hc : redCount ((getFloat s).1 :: (getFloats n (s.drop 4)).1) =
        (if s.length < 4 then 0 else 1) + redCount (getFloats n (s.drop 4)).1 := by
      unfold redCount getFloat
      split <;> simp
      omega
    rw [hc, hs, List.length_drop]
    split <;> omega

theorem kappaLoop_diverges (s : Bytes) (k : F32) (n : ℕ) (hs : s.length < 4) (hk : k.isNeg = true) : kappaLoop s k n = none := by
  cases h : kappaLoop s k n with
  | none => rfl
  | some r =>
    exfalso
    refine kappaLoop.partial_correctness (fun s k _ _ => s.length < 4 → k.isNeg = true → False) ?_ s k n r h hs hk
    intro rec ih s k n r h hs hk
    rw [if_pos hk] at h
    refine ih _ _ _ _ h ?_ ?_
    · rw [getFloat_rest, List.length_drop]; omega
    · unfold getFloat; rw [if_pos hs]; exact hk

/-! ### Sequences -/

theorem readLoop_spec (readable : ℤ → Bool) (step : ℤ) (fuel : ℕ) (c : ℤ) (a : ℕ) (ha : a < 100) (hf : 100 ≤ a + fuel) :
    (∀ j : ℕ, 1 ≤ j → a + j < 100 → (∀ i : ℕ, 1 ≤ i → i < j → readable (c + i * step) = false) →
      readable (c + j * step) = true → readLoop readable step fuel c a = .ok (c + j * step, c + (j + 1) * step)) ∧
    ((∀ i : ℕ, 1 ≤ i → a + i < 100 → readable (c + i * step) = false) → readLoop readable step fuel c a = .exit 73) := by
  induction fuel generalizing c a with
  | zero => omega
  | succ fuel ih =>
    unfold readLoop
    simp only
    by_cases h99 : a + 1 = 100
    · rw [if_pos h99]
      exact ⟨fun j h1 h2 => by omega, fun _ => rfl⟩
    · rw [if_neg h99]
      have IH := ih (c + step) (a + 1) (by omega) (by omega)
      cases hr : readable (c + step) with
      | true =>
        rw [if_pos rfl]
        refine ⟨fun j h1 h2 h3 h4 => ?_, fun h => ?_⟩
        · by_cases hj : j = 1
          · subst hj; push_cast; congr 2 <;> ring
          · have := h3 1 le_rfl (by omega)
            push_cast at this
            rw [one_mul, hr] at this; cases this
        · have := h 1 le_rfl (by omega)
          push_cast at this
          rw [one_mul, hr] at this; cases this
      | false =>
        simp only [Bool.false_eq_true, if_false]
        refine ⟨fun j h1 h2 h3 h4 => ?_, fun h => ?_⟩
        · have hj : j ≠ 1 := by
            rintro rfl
            push_cast at h4
            rw [one_mul, hr] at h4; cases h4
          obtain ⟨j, rfl⟩ : ∃ j', j = j' + 1 := ⟨j - 1, by omega⟩
          have := IH.1 j (by omega) (by omega) (fun i hi hij => by
            have := h3 (i + 1) (by omega) (by omega)
            push_cast at this
            rw [← this]; congr 1; ring) (by
            push_cast at h4
            rw [← h4]; congr 1; ring)
          rw [this]; push_cast; congr 2 <;> ring
        · refine IH.2 fun i hi hia => ?_
          have := h (i + 1) (by omega) (by omega)
          push_cast at this
          rw [← this]; congr 1; ring

/-! ### Special unitary matrices -/

theorem conjTranspose_eq_adjugate {n : ℕ} {U : Matrix (Fin n) (Fin n) ℂ} (h : U ∈ Matrix.specialUnitaryGroup (Fin n) ℂ) :
    U.conjTranspose = U.adjugate := by
  rw [Matrix.mem_specialUnitaryGroup_iff] at h
  have h1 : U * U.conjTranspose = 1 := (Matrix.mem_unitaryGroup_iff).1 h.1
  have h2 : U.adjugate * U = 1 := by rw [Matrix.adjugate_mul, h.2, one_smul]
  calc U.conjTranspose = (U.adjugate * U) * U.conjTranspose := by rw [h2, one_mul]
    _ = U.adjugate := by rw [mul_assoc, h1, mul_one]

theorem adjugate_fin_three_row2 (U : Matrix (Fin 3) (Fin 3) ℂ) :
    U.adjugate 2 0 = U 1 0 * U 2 1 - U 1 1 * U 2 0 ∧
    U.adjugate 2 1 = -(U 0 0 * U 2 1) + U 0 1 * U 2 0 ∧
    U.adjugate 2 2 = U 0 0 * U 1 1 - U 0 1 * U 1 0 := by
  rw [Matrix.adjugate_fin_three]
  refine ⟨?_, ?_, ?_⟩ <;> simp

end Leonard
