import Mathlib.Analysis.Complex.Basic
import Mathlib.Data.Fintype.BigOperators
import Mathlib.LinearAlgebra.Matrix.Trace
import Mathlib.Algebra.BigOperators.Field

/-!
# Moments of random signs and of means of independent samples
-/

set_option autoImplicit false

namespace Leonard

open Matrix

/-- **Specification.** The mean over equally probable cases. -/
noncomputable def average {Ω : Type} [Fintype Ω] (f : Ω → ℂ) : ℂ := (∑ ω, f ω) / Fintype.card Ω

section average
variable {Ω : Type} [Fintype Ω]

theorem average_sum {ι : Type} (s : Finset ι) (f : ι → Ω → ℂ) : average (fun ω => ∑ k ∈ s, f k ω) = ∑ k ∈ s, average (f k) := by
  unfold average
  rw [Finset.sum_comm, Finset.sum_div]

theorem average_mul (a : ℂ) (f : Ω → ℂ) : average (fun ω => a * f ω) = a * average f := by
  unfold average
  rw [← Finset.mul_sum, mul_div_assoc]

theorem average_add (f g : Ω → ℂ) : average (fun ω => f ω + g ω) = average f + average g := by
  unfold average
  rw [Finset.sum_add_distrib, add_div]

theorem average_const [Nonempty Ω] (a : ℂ) : average (fun _ : Ω => a) = a := by
  unfold average
  rw [Finset.sum_const, Finset.card_univ, nsmul_eq_mul, mul_div_cancel_left₀]
  exact_mod_cast Fintype.card_ne_zero

theorem average_equiv {Ω' : Type} [Fintype Ω'] (e : Ω ≃ Ω') (f : Ω' → ℂ) : average (fun ω => f (e ω)) = average f := by
  unfold average
  rw [Equiv.sum_comp, Fintype.card_congr e]

theorem average_prod {n : ℕ} (F : Fin n → Ω → ℂ) : average (fun ω : Fin n → Ω => ∏ k, F k (ω k)) = ∏ k, average (F k) := by
  unfold average
  rw [Finset.prod_div_distrib, Finset.prod_univ_sum, Fintype.piFinset_univ]
  simp

theorem average_one {n : ℕ} [Nonempty Ω] (g : Ω → ℂ) (k : Fin n) : average (fun ω : Fin n → Ω => g (ω k)) = average g := by
  have h := average_prod (fun l : Fin n => if l = k then g else fun _ : Ω => 1)
  rw [Finset.prod_eq_single k (fun l _ hl => by rw [if_neg hl, average_const]) (by simp), if_pos rfl] at h
  rw [← h]
  congr 1
  funext ω
  rw [Finset.prod_eq_single k (fun l _ hl => by rw [if_neg hl]) (by simp), if_pos rfl]

theorem average_two {n : ℕ} [Nonempty Ω] (g h : Ω → ℂ) {k l : Fin n} (hkl : k ≠ l) :
    average (fun ω : Fin n → Ω => g (ω k) * h (ω l)) = average g * average h := by
  have e := average_prod (fun m : Fin n => if m = k then g else if m = l then h else fun _ : Ω => 1)
  rw [Finset.prod_eq_mul k l hkl (fun m _ hm => by rw [if_neg hm.1, if_neg hm.2, average_const]) (by simp) (by simp), if_pos rfl, if_neg hkl.symm,
    if_pos rfl] at e
  rw [← e]
  congr 1
  funext ω
  rw [Finset.prod_eq_mul k l hkl (fun m _ hm => by rw [if_neg hm.1, if_neg hm.2]) (by simp) (by simp), if_pos rfl, if_neg hkl.symm, if_pos rfl]

/-- The mean of `n` independent samples has the same mean, and the variance is smaller by the factor `n`. -/
theorem mean_of_samples [Nonempty Ω] {n : ℕ} (hn : 0 < n) (f : Ω → ℂ) :
    average (fun ω : Fin n → Ω => (∑ k, f (ω k)) / n) = average f
    ∧ average (fun ω : Fin n → Ω => (Complex.normSq ((∑ k, f (ω k)) / n - average f) : ℂ)) = average (fun ω => (Complex.normSq (f ω - average f) : ℂ)) / n := by
  have hn' : (n : ℂ) ≠ 0 := by exact_mod_cast hn.ne'
  constructor
  · have h : (fun ω : Fin n → Ω => (∑ k, f (ω k)) / n) = fun ω => (1 / n : ℂ) * ∑ k, f (ω k) := by funext ω; ring
    rw [h, average_mul, average_sum]
    simp only [average_one]
    rw [Finset.sum_const, Finset.card_univ, Fintype.card_fin, nsmul_eq_mul]
    field_simp
  · generalize hm : average f = m
    have h0 : average (fun ω => f ω - m) = 0 := by
      have : (fun ω => f ω - m) = fun ω => f ω + -m := by funext ω; ring
      rw [this, average_add, average_const, hm, add_neg_cancel]
    have e : (fun ω : Fin n → Ω => (Complex.normSq ((∑ k, f (ω k)) / n - m) : ℂ))
        = fun ω => (1 / n ^ 2 : ℂ) * ∑ k, ∑ l, (f (ω k) - m) * starRingEnd ℂ (f (ω l) - m) := by
      funext ω
      have e1 : (∑ k, f (ω k)) / n - m = (1 / n : ℂ) * ∑ k, (f (ω k) - m) := by
        rw [Finset.sum_sub_distrib, Finset.sum_const, Finset.card_univ, Fintype.card_fin, nsmul_eq_mul]
        field_simp
      rw [e1, ← Complex.mul_conj, map_mul, map_sum, map_div₀, map_one, Complex.conj_natCast, ← Finset.sum_mul_sum]
      ring
    rw [e, average_mul, average_sum]
    simp only [average_sum]
    have hk : ∀ k l : Fin n, average (fun ω : Fin n → Ω => (f (ω k) - m) * starRingEnd ℂ (f (ω l) - m))
        = if l = k then average (fun ω => (Complex.normSq (f ω - m) : ℂ)) else 0 := by
      intro k l
      split
      · next h =>
        subst h
        have := average_one (n := n) (fun a => (f a - m) * starRingEnd ℂ (f a - m)) l
        rw [this]
        simp only [Complex.mul_conj]
      · next h =>
        have := average_two (fun a => f a - m) (fun a => starRingEnd ℂ (f a - m)) (Ne.symm h)
        rw [this, h0, zero_mul]
    simp only [hk, Finset.sum_ite_eq', Finset.mem_univ, if_true]
    simp only [Finset.sum_ite_eq, Finset.mem_univ, if_true, Finset.sum_const, Finset.card_univ, Fintype.card_fin, nsmul_eq_mul]
    field_simp

end average

section signs
variable {J : Type} [Fintype J] [DecidableEq J]

/-- The sign of a bit. -/
noncomputable def eta (r : J → Bool) (j : J) : ℂ := if r j = false then -1 else 1

/-- One bit inverted. -/
def flipBit (i : J) (r : J → Bool) : J → Bool := Function.update r i (!r i)

theorem flipBit_involutive (i : J) : Function.Involutive (flipBit i) := by
  intro r
  funext j
  by_cases h : j = i
  · subst h; simp [flipBit]
  · simp [flipBit, Function.update_of_ne h]

theorem eta_flip_self (i : J) (r : J → Bool) : eta (flipBit i r) i = -eta r i := by
  unfold eta flipBit
  rw [Function.update_self]
  cases r i <;> simp

theorem eta_flip_ne {i j : J} (h : j ≠ i) (r : J → Bool) : eta (flipBit i r) j = eta r j := by
  unfold eta flipBit
  rw [Function.update_of_ne h]

theorem eta_sq (r : J → Bool) (j : J) : eta r j * eta r j = 1 := by
  unfold eta; split <;> simp

theorem eta_conj (r : J → Bool) (j : J) : starRingEnd ℂ (eta r j) = eta r j := by
  unfold eta; split <;> simp

theorem average_odd (i : J) {f : (J → Bool) → ℂ} (h : ∀ r, f (flipBit i r) = -f r) : average f = 0 := by
  have e := average_equiv (Function.Involutive.toPerm (flipBit i) (flipBit_involutive i)) f
  have e' : average (fun r => f ((Function.Involutive.toPerm (flipBit i) (flipBit_involutive i)) r)) = -average f := by
    have : (fun r => f ((Function.Involutive.toPerm (flipBit i) (flipBit_involutive i)) r)) = fun r => (-1 : ℂ) * f r := by
      funext r; rw [neg_one_mul]; exact h r
    rw [this, average_mul, neg_one_mul]
  rw [e'] at e
  exact self_eq_neg.1 e.symm

theorem average_eta_two (i j : J) : average (fun r => eta r i * eta r j) = if i = j then 1 else 0 := by
  split
  · next h => subst h; simp only [eta_sq]; exact average_const 1
  · next h => exact average_odd i fun r => by rw [eta_flip_self, eta_flip_ne (Ne.symm h), neg_mul]

theorem average_eta_four {i j k l : J} (hij : i ≠ j) (hkl : k ≠ l) : average (fun r => eta r i * eta r j * (eta r k * eta r l))
    = (if i = k ∧ j = l then 1 else 0) + if i = l ∧ j = k then 1 else 0 := by
  by_cases hik : i = k
  · subst hik
    by_cases hjl : j = l
    · subst hjl
      rw [if_pos ⟨rfl, rfl⟩, if_neg fun h => hij h.1, add_zero]
      have : (fun r : J → Bool => eta r i * eta r j * (eta r i * eta r j)) = fun _ => 1 := by
        funext r; rw [mul_mul_mul_comm, eta_sq, eta_sq, one_mul]
      rw [this]; exact average_const 1
    · rw [if_neg fun h => hjl h.2, if_neg fun h => hkl h.1, add_zero]
      exact average_odd j fun r => by rw [eta_flip_self, eta_flip_ne hij, eta_flip_ne (Ne.symm hjl)]; ring
  · rw [if_neg fun h => hik h.1, zero_add]
    by_cases hil : i = l
    · subst hil
      by_cases hjk : j = k
      · subst hjk
        rw [if_pos ⟨rfl, rfl⟩]
        have : (fun r : J → Bool => eta r i * eta r j * (eta r j * eta r i)) = fun _ => 1 := by
          funext r
          calc _ = (eta r i * eta r i) * (eta r j * eta r j) := by ring
            _ = 1 := by rw [eta_sq, eta_sq, one_mul]
        rw [this]; exact average_const 1
      · rw [if_neg fun h => hjk h.2]
        exact average_odd j fun r => by rw [eta_flip_self, eta_flip_ne hij, eta_flip_ne (Ne.symm hjk)]; ring
    · rw [if_neg fun h => hil h.1]
      exact average_odd i fun r => by rw [eta_flip_self, eta_flip_ne (Ne.symm hij), eta_flip_ne (Ne.symm hik), eta_flip_ne (Ne.symm hil)]; ring

/-- The quadratic form of a matrix on random signs. -/
noncomputable def quad (A : Matrix J J ℂ) (r : J → Bool) : ℂ := ∑ i, ∑ j, A i j * (eta r i * eta r j)

/-- **Specification.** The variance which a matrix gives to its estimate by random signs: a sum over its elements off the diagonal. -/
noncomputable def signVariance (A : Matrix J J ℂ) : ℂ :=
  ∑ i, ∑ j, if i = j then 0 else A i j * starRingEnd ℂ (A i j) + A i j * starRingEnd ℂ (A j i)

theorem average_quad (A : Matrix J J ℂ) : average (quad A) = trace A := by
  unfold quad
  rw [average_sum]
  simp only [average_sum, average_mul, average_eta_two, mul_ite, mul_one, mul_zero, Finset.sum_ite_eq, Finset.mem_univ, if_true]
  rfl

theorem quad_sub (A : Matrix J J ℂ) (r : J → Bool) : quad A r - trace A = ∑ i, ∑ j, (if i = j then 0 else A i j) * (eta r i * eta r j) := by
  have h : quad A r = ∑ i, ∑ j, (if i = j then 0 else A i j) * (eta r i * eta r j) + trace A := by
    unfold quad trace
    rw [← Finset.sum_add_distrib]
    refine Finset.sum_congr rfl fun i _ => ?_
    rw [← Finset.add_sum_erase _ _ (Finset.mem_univ i), ← Finset.add_sum_erase (Finset.univ) (fun j => (if i = j then 0 else A i j) * (eta r i * eta r j)) (Finset.mem_univ i),
      eta_sq, if_pos rfl, zero_mul, zero_add, mul_one, add_comm]
    congr 1
    refine Finset.sum_congr rfl fun j hj => ?_
    rw [if_neg (Finset.ne_of_mem_erase hj).symm]
  rw [h, add_sub_cancel_right]

theorem variance_quad (A : Matrix J J ℂ) : average (fun r => (Complex.normSq (quad A r - trace A) : ℂ)) = signVariance A := by
  have e : (fun r => (Complex.normSq (quad A r - trace A) : ℂ)) = fun r => ∑ i, ∑ j, ∑ k, ∑ l,
      ((if i = j then 0 else A i j) * starRingEnd ℂ (if k = l then 0 else A k l)) * (eta r i * eta r j * (eta r k * eta r l)) := by
    funext r
    rw [← Complex.mul_conj, quad_sub, map_sum, Finset.sum_mul]
    refine Finset.sum_congr rfl fun i _ => ?_
    rw [Finset.sum_mul]
    refine Finset.sum_congr rfl fun j _ => ?_
    rw [Finset.mul_sum]
    refine Finset.sum_congr rfl fun k _ => ?_
    rw [map_sum, Finset.mul_sum]
    refine Finset.sum_congr rfl fun l _ => ?_
    rw [map_mul, map_mul, eta_conj, eta_conj]
    ring
  rw [e]
  simp only [average_sum, average_mul]
  unfold signVariance
  refine Finset.sum_congr rfl fun i _ => Finset.sum_congr rfl fun j _ => ?_
  split
  · simp
  · next hij =>
    have h : ∀ k l, A i j * starRingEnd ℂ (if k = l then 0 else A k l) * average (fun r => eta r i * eta r j * (eta r k * eta r l))
        = (if k = i then (if l = j then A i j * starRingEnd ℂ (A i j) else 0) else 0) + if k = j then (if l = i then A i j * starRingEnd ℂ (A j i) else 0) else 0 := by
      intro k l
      by_cases hkl : k = l
      · subst hkl
        rw [if_pos rfl, map_zero, mul_zero, zero_mul]
        by_cases h1 : k = i
        · subst h1; rw [if_pos rfl, if_neg hij, if_neg hij, add_zero]
        · rw [if_neg h1]
          by_cases h2 : k = j
          · rw [if_pos h2, if_neg h1, add_zero]
          · rw [if_neg h2, add_zero]
      · rw [if_neg hkl, average_eta_four hij hkl]
        by_cases h1 : k = i
        · subst h1
          by_cases h2 : l = j
          · subst h2; simp [hij, Ne.symm hij]
          · simp [h2, Ne.symm h2, hij, hkl]
        · by_cases h2 : k = j
          · subst h2
            by_cases h3 : l = i
            · subst h3; simp [hij, Ne.symm hij]
            · simp [h1, h3, Ne.symm h1, Ne.symm h3]
          · simp [h1, h2, Ne.symm h1, Ne.symm h2]
    simp only [h, Finset.sum_add_distrib]
    simp

end signs

end Leonard
