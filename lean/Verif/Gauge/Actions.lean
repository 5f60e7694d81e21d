import Verif.Gauge.Path
import Mathlib.Tactic.Abel
import Mathlib.Tactic.Ring
import Mathlib.Tactic.FinCases
import Mathlib.Tactic.LinearCombination
import Mathlib.Algebra.BigOperators.Ring.Finset

/-!
# Lemmas on the gauge actions

The energies as sums over closed paths, and their staples.
-/

set_option autoImplicit false

namespace Leonard

open Matrix

variable {S : Type} {N : ℕ}

/-- The plaquette path. -/
def pl (μ ν : Fin 4) : List Hop := [(μ, true), (ν, true), (μ, false), (ν, false)]
/-- The rectangle with the long side in the first direction. -/
def re1 (μ ν : Fin 4) : List Hop := [(μ, true), (μ, true), (ν, true), (μ, false), (μ, false), (ν, false)]
/-- The rectangle with the long side in the second direction. -/
def re2 (μ ν : Fin 4) : List Hop := [(μ, true), (ν, true), (ν, true), (μ, false), (ν, false), (ν, false)]

section
variable (T : Torus S) (U : GField S N)

theorem sdn_sup_comm (μ ν : Fin 4) (s : S) : T.sdn ν (T.sup μ s) = T.sup μ (T.sdn ν s) := (T.sup_sdn_comm μ ν s).symm

theorem walk_pl (μ ν : Fin 4) (s : S) : T.walk (pl μ ν) s = s := by
  simp [pl, sdn_sup_comm, T.comm]

theorem walk_re1 (μ ν : Fin 4) (s : S) : T.walk (re1 μ ν) s = s := by
  simp [re1, sdn_sup_comm, T.comm]

theorem walk_re2 (μ ν : Fin 4) (s : S) : T.walk (re2 μ ν) s = s := by
  simp [re2, sdn_sup_comm, T.comm]

theorem holo_pl (μ ν : Fin 4) (s : S) : holo T U s (pl μ ν) = U s μ * stapleUp T U s μ ν := by
  simp [pl, stapleUp, sdn_sup_comm, Matrix.mul_assoc]

theorem holo_re1 (μ ν : Fin 4) (s : S) : holo T U s (re1 μ ν) = U s μ *
    (U (T.sup μ s) μ * U (T.sup μ (T.sup μ s)) ν * (U (T.sup ν (T.sup μ s)) μ)ᴴ * (U (T.sup ν s) μ)ᴴ * (U s ν)ᴴ) := by
  simp [re1, sdn_sup_comm, Matrix.mul_assoc]

theorem holo_re2 (μ ν : Fin 4) (s : S) : holo T U s (re2 μ ν) = U s μ *
    (U (T.sup μ s) ν * U (T.sup ν (T.sup μ s)) ν * (U (T.sup ν (T.sup ν s)) μ)ᴴ * (U (T.sup ν s) ν)ᴴ * (U s ν)ᴴ) := by
  simp [re2, sdn_sup_comm, Matrix.mul_assoc]

theorem re_trace_smul (c : ℝ) (A : Mat N) : (trace ((c : ℂ) • A)).re = c * (trace A).re := by
  rw [Matrix.trace_smul, smul_eq_mul, Complex.re_ofReal_mul]

theorem re_trace_sum {ι : Type} (s : Finset ι) (f : ι → Mat N) : (trace (∑ i ∈ s, f i)).re = ∑ i ∈ s, (trace (f i)).re := by
  rw [Matrix.trace_sum, Complex.re_sum]

variable [Fintype S]

theorem wilsonEnergy_eq (β : ℝ) : wilsonEnergy β T U
    = -(β / N) * ∑ μ, ∑ ν, if μ < ν then ∑ s, (trace (holo T U s (pl μ ν))).re else 0 := by
  unfold wilsonEnergy
  rw [Finset.sum_comm, Finset.mul_sum]
  refine Finset.sum_congr rfl fun μ _ => ?_
  rw [← Finset.mul_sum]
  congr 1
  simp only [Finset.mul_sum, re_trace_sum]
  rw [Finset.sum_comm]
  refine Finset.sum_congr rfl fun ν _ => ?_
  split
  · simp only [holo_pl]
  · simp

theorem improvedEnergy_eq (u0 β : ℝ) : improvedEnergy u0 β T U
    = -(β / N) * ∑ μ, ∑ ν, if μ < ν then
        5 / 3 * ∑ s, (trace (holo T U s (pl μ ν))).re - 1 / (12 * u0 * u0) * ∑ s, (trace (holo T U s (re1 μ ν))).re
          - 1 / (12 * u0 * u0) * ∑ s, (trace (holo T U s (re2 μ ν))).re else 0 := by
  unfold improvedEnergy
  rw [Finset.sum_comm, Finset.mul_sum]
  refine Finset.sum_congr rfl fun μ _ => ?_
  rw [← Finset.mul_sum]
  congr 1
  simp only [Finset.mul_sum, re_trace_sum]
  rw [Finset.sum_comm]
  refine Finset.sum_congr rfl fun ν _ => ?_
  split
  · simp only [holo_pl, holo_re1, holo_re2, Matrix.mul_sub, Matrix.mul_smul, Matrix.trace_sub, Complex.sub_re,
      re_trace_smul, Finset.sum_sub_distrib]
  · simp

omit [Fintype S]

theorem pathStaple_pl (s : S) (ρ μ ν : Fin 4) : pathStaple T U s ρ [] (pl μ ν)
    = (if μ = ρ then stapleUp T U s ρ ν + stapleDown T U s ρ ν else 0)
      + (if ν = ρ then stapleUp T U s ρ μ + stapleDown T U s ρ μ else 0) := by
  have h1 : ∀ c : Fin 4, stapleUp T U s ρ c = holo T U (T.sup ρ s) [(c, true), (ρ, false), (c, false)] := by
    intro c; simp [stapleUp, sdn_sup_comm, Matrix.mul_assoc]
  have h1' : ∀ c : Fin 4, stapleUp T U s ρ c = (holo T U s [(c, true), (ρ, true), (c, false)])ᴴ := by
    intro c; simp [stapleUp, sdn_sup_comm, Matrix.mul_assoc, T.comm]
  have h2 : ∀ c : Fin 4, stapleDown T U s ρ c = holo T U (T.sup ρ s) [(c, false), (ρ, false), (c, true)] := by
    intro c; simp [stapleDown, sdn_sup_comm, Matrix.mul_assoc, T.sdn_comm]
  have h2' : ∀ c : Fin 4, stapleDown T U s ρ c = (holo T U s [(c, false), (ρ, true), (c, true)])ᴴ := by
    intro c; simp [stapleDown, Matrix.mul_assoc]
  by_cases e1 : μ = ρ <;> by_cases e2 : ν = ρ
  · subst e1; subst e2
    simp only [pl, pathStaple, hopStaple, List.nil_append, List.cons_append, if_true, add_zero, Bool.false_eq_true,
      if_false]
    rw [← h1, ← h1', ← h2, ← h2']
    abel
  · subst e1
    simp only [pl, pathStaple, hopStaple, List.nil_append, List.cons_append, if_true, add_zero, Bool.false_eq_true,
      if_false, if_neg e2, zero_add]
    rw [← h1, ← h2']
  · subst e2
    simp only [pl, pathStaple, hopStaple, List.nil_append, List.cons_append, if_true, add_zero, Bool.false_eq_true,
      if_false, if_neg e1, zero_add]
    rw [← h2, ← h1']
    abel
  · simp [pl, pathStaple, hopStaple, e1, e2]

/-- The four rectangle products with the link on the long side. -/
def rectLong (s : S) (μ ν : Fin 4) : Mat N :=
  holo T U (T.sup μ s) [(μ, true), (ν, true), (μ, false), (μ, false), (ν, false)]
  + holo T U (T.sup μ s) [(ν, true), (μ, false), (μ, false), (ν, false), (μ, true)]
  + holo T U (T.sup μ s) [(μ, true), (ν, false), (μ, false), (μ, false), (ν, true)]
  + holo T U (T.sup μ s) [(ν, false), (μ, false), (μ, false), (ν, true), (μ, true)]

/-- The two rectangle products with the link on the short side. -/
def rectShort (s : S) (μ ν : Fin 4) : Mat N :=
  holo T U (T.sup μ s) [(ν, true), (ν, true), (μ, false), (ν, false), (ν, false)]
  + holo T U (T.sup μ s) [(ν, false), (ν, false), (μ, false), (ν, true), (ν, true)]

theorem cancel1 (μ ν : Fin 4) (s : S) : T.sup ν (T.sdn μ (T.sdn ν s)) = T.sdn μ s := by
  rw [T.sdn_comm, T.sup_sdn]
theorem cancel2 (μ ν : Fin 4) (s : S) : T.sup μ (T.sup ν (T.sdn μ s)) = T.sup ν s := by
  rw [T.comm, T.sup_sdn]
theorem cancel3 (μ ν κ : Fin 4) (s : S) : T.sup ν (T.sdn μ (T.sdn κ (T.sdn ν s))) = T.sdn μ (T.sdn κ s) := by
  rw [T.sdn_comm κ ν, cancel1]
theorem cancel4 (μ ν κ : Fin 4) (s : S) : T.sup μ (T.sup ν (T.sup κ (T.sdn μ s))) = T.sup ν (T.sup κ s) := by
  rw [T.comm ν κ, T.comm μ κ, cancel2, T.comm]
theorem cancel5 (μ ν κ : Fin 4) (s : S) : T.sup μ (T.sup ν (T.sdn κ (T.sdn μ s))) = T.sup ν (T.sdn κ s) := by
  rw [T.sdn_comm, cancel2]
theorem cancel6 (μ ν κ α : Fin 4) (s : S) :
    T.sup μ (T.sup ν (T.sup κ (T.sdn α (T.sdn μ s)))) = T.sup ν (T.sup κ (T.sdn α s)) := by
  rw [T.sdn_comm, cancel4]

theorem rectStaple_eq (s : S) (μ ν : Fin 4) : rectStaple T U s μ ν = rectLong T U s μ ν + rectShort T U s μ ν := by
  simp only [rectStaple, rectLong, rectShort, holo_up, holo_down, holo_nil, sdn_sup_comm, Matrix.mul_assoc,
    Matrix.mul_one, Torus.sup_sdn, T.comm, T.sdn_comm, cancel1, cancel2, cancel3, cancel4, cancel5, cancel6]
  abel

theorem pathStaple_re1 (s : S) (ρ μ ν : Fin 4) : pathStaple T U s ρ [] (re1 μ ν)
    = (if μ = ρ then rectLong T U s ρ ν else 0) + (if ν = ρ then rectShort T U s ρ μ else 0) := by
  by_cases e1 : μ = ρ <;> by_cases e2 : ν = ρ
  · subst e1; subst e2
    simp only [re1, pathStaple, hopStaple, List.nil_append, List.cons_append, if_true, add_zero, Bool.false_eq_true,
      if_false, rectLong, rectShort, holo_up, holo_down, holo_nil, sdn_sup_comm, Matrix.mul_assoc, conjTranspose_mul,
      Matrix.mul_one, Torus.sup_sdn, T.comm, T.sdn_comm, cancel1, cancel2, cancel3, cancel4, cancel5, cancel6, conjTranspose_conjTranspose, conjTranspose_one,
      Matrix.one_mul]
    abel
  · subst e1
    simp only [re1, pathStaple, hopStaple, List.nil_append, List.cons_append, if_true, add_zero, Bool.false_eq_true,
      if_false, rectLong, holo_up, holo_down, holo_nil, sdn_sup_comm, Matrix.mul_assoc, conjTranspose_mul,
      Matrix.mul_one, Torus.sup_sdn, T.comm, T.sdn_comm, cancel1, cancel2, cancel3, cancel4, cancel5, cancel6, conjTranspose_conjTranspose, conjTranspose_one,
      Matrix.one_mul, if_neg e2, zero_add]
    abel
  · subst e2
    simp only [re1, pathStaple, hopStaple, List.nil_append, List.cons_append, if_true, add_zero, Bool.false_eq_true,
      if_false, rectShort, holo_up, holo_down, holo_nil, sdn_sup_comm, Matrix.mul_assoc, conjTranspose_mul,
      Matrix.mul_one, Torus.sup_sdn, T.comm, T.sdn_comm, cancel1, cancel2, cancel3, cancel4, cancel5, cancel6, conjTranspose_conjTranspose, conjTranspose_one,
      Matrix.one_mul, if_neg e1, zero_add]
    abel
  · simp [re1, pathStaple, hopStaple, e1, e2]

theorem pathStaple_re2 (s : S) (ρ μ ν : Fin 4) : pathStaple T U s ρ [] (re2 μ ν)
    = (if μ = ρ then rectShort T U s ρ ν else 0) + (if ν = ρ then rectLong T U s ρ μ else 0) := by
  by_cases e1 : μ = ρ <;> by_cases e2 : ν = ρ
  · subst e1; subst e2
    simp only [re2, pathStaple, hopStaple, List.nil_append, List.cons_append, if_true, add_zero, Bool.false_eq_true,
      if_false, rectLong, rectShort, holo_up, holo_down, holo_nil, sdn_sup_comm, Matrix.mul_assoc, conjTranspose_mul,
      Matrix.mul_one, Torus.sup_sdn, T.comm, T.sdn_comm, cancel1, cancel2, cancel3, cancel4, cancel5, cancel6, conjTranspose_conjTranspose, conjTranspose_one,
      Matrix.one_mul]
    abel
  · subst e1
    simp only [re2, pathStaple, hopStaple, List.nil_append, List.cons_append, if_true, add_zero, Bool.false_eq_true,
      if_false, rectShort, holo_up, holo_down, holo_nil, sdn_sup_comm, Matrix.mul_assoc, conjTranspose_mul,
      Matrix.mul_one, Torus.sup_sdn, T.comm, T.sdn_comm, cancel1, cancel2, cancel3, cancel4, cancel5, cancel6, conjTranspose_conjTranspose, conjTranspose_one,
      Matrix.one_mul, if_neg e2, zero_add]
  · subst e2
    simp only [re2, pathStaple, hopStaple, List.nil_append, List.cons_append, if_true, add_zero, Bool.false_eq_true,
      if_false, rectLong, holo_up, holo_down, holo_nil, sdn_sup_comm, Matrix.mul_assoc, conjTranspose_mul,
      Matrix.mul_one, Torus.sup_sdn, T.comm, T.sdn_comm, cancel1, cancel2, cancel3, cancel4, cancel5, cancel6, conjTranspose_conjTranspose, conjTranspose_one,
      Matrix.one_mul, if_neg e1, zero_add]
    abel
  · simp [re2, pathStaple, hopStaple, e1, e2]

/-- A sum over ordered pairs of directions picks each other direction once. -/
theorem sum_pairs {A : Type} [AddCommMonoid A] (ρ : Fin 4) (f : Fin 4 → A) :
    (∑ μ, ∑ ν, if μ < ν then ((if μ = ρ then f ν else 0) + (if ν = ρ then f μ else 0)) else 0)
      = ∑ ν, if ν ≠ ρ then f ν else 0 := by
  fin_cases ρ <;> simp [Fin.sum_univ_four] <;> abel

theorem wilsonStaple_eq (s : S) (ρ : Fin 4) :
    wilsonStaple T U s ρ = ∑ μ, ∑ ν, if μ < ν then pathStaple T U s ρ [] (pl μ ν) else 0 := by
  simp only [pathStaple_pl]
  rw [sum_pairs ρ fun ν => stapleUp T U s ρ ν + stapleDown T U s ρ ν]
  rfl

theorem improvedStaple_eq (u0 : ℝ) (s : S) (ρ : Fin 4) :
    improvedStaple u0 T U s ρ = ∑ μ, ∑ ν, if μ < ν then
      ((5 / 3 : ℝ) : ℂ) • pathStaple T U s ρ [] (pl μ ν)
      - ((1 / (12 * u0 * u0) : ℝ) : ℂ) • pathStaple T U s ρ [] (re1 μ ν)
      - ((1 / (12 * u0 * u0) : ℝ) : ℂ) • pathStaple T U s ρ [] (re2 μ ν) else 0 := by
  have key : ∀ μ ν : Fin 4, μ < ν → ((5 / 3 : ℝ) : ℂ) • pathStaple T U s ρ [] (pl μ ν)
      - ((1 / (12 * u0 * u0) : ℝ) : ℂ) • pathStaple T U s ρ [] (re1 μ ν)
      - ((1 / (12 * u0 * u0) : ℝ) : ℂ) • pathStaple T U s ρ [] (re2 μ ν)
    = (if μ = ρ then ((5 / 3 : ℝ) : ℂ) • (stapleUp T U s ρ ν + stapleDown T U s ρ ν)
        - ((1 / (12 * u0 * u0) : ℝ) : ℂ) • rectStaple T U s ρ ν else 0)
      + (if ν = ρ then ((5 / 3 : ℝ) : ℂ) • (stapleUp T U s ρ μ + stapleDown T U s ρ μ)
        - ((1 / (12 * u0 * u0) : ℝ) : ℂ) • rectStaple T U s ρ μ else 0) := by
    intro μ ν h
    rw [pathStaple_pl, pathStaple_re1, pathStaple_re2]
    simp only [rectStaple_eq]
    by_cases e1 : μ = ρ <;> by_cases e2 : ν = ρ
    · exfalso; subst e1; subst e2; exact lt_irrefl _ h
    · simp only [if_pos e1, if_neg e2, add_zero, smul_add]; abel
    · simp only [if_neg e1, if_pos e2, zero_add, smul_add]; abel
    · simp [e1, e2]
  have : (∑ μ : Fin 4, ∑ ν : Fin 4, if μ < ν then
      ((5 / 3 : ℝ) : ℂ) • pathStaple T U s ρ [] (pl μ ν)
      - ((1 / (12 * u0 * u0) : ℝ) : ℂ) • pathStaple T U s ρ [] (re1 μ ν)
      - ((1 / (12 * u0 * u0) : ℝ) : ℂ) • pathStaple T U s ρ [] (re2 μ ν) else 0)
    = ∑ μ : Fin 4, ∑ ν : Fin 4, if μ < ν then
      ((if μ = ρ then ((5 / 3 : ℝ) : ℂ) • (stapleUp T U s ρ ν + stapleDown T U s ρ ν)
        - ((1 / (12 * u0 * u0) : ℝ) : ℂ) • rectStaple T U s ρ ν else 0)
      + (if ν = ρ then ((5 / 3 : ℝ) : ℂ) • (stapleUp T U s ρ μ + stapleDown T U s ρ μ)
        - ((1 / (12 * u0 * u0) : ℝ) : ℂ) • rectStaple T U s ρ μ else 0)) else 0 := by
    refine Finset.sum_congr rfl fun μ _ => Finset.sum_congr rfl fun ν _ => ?_
    split
    · rename_i h; exact key μ ν h
    · rfl
  rw [this, sum_pairs ρ fun ν => ((5 / 3 : ℝ) : ℂ) • (stapleUp T U s ρ ν + stapleDown T U s ρ ν)
        - ((1 / (12 * u0 * u0) : ℝ) : ℂ) • rectStaple T U s ρ ν]
  rfl

/-! ### No link occurs twice on wide lattices -/

theorem Torus.Wide.mono {T : Torus S} {k l : ℕ} (h : T.Wide l) (hkl : k ≤ l) : T.Wide k := fun μ => lt_of_le_of_lt hkl (h μ)

theorem nodup_pl (h : T.Wide 1) (μ ν : Fin 4) (hne : μ ≠ ν) (s : S) : (pathLinks T s (pl μ ν)).Nodup := by
  have a := T.sup_ne le_rfl h
  have a' : ∀ ρ x, x ≠ T.sup ρ x := fun ρ x => (a ρ x).symm
  have e1 : T.sdn μ (T.sup ν (T.sup μ s)) = T.sup ν s := by rw [T.comm, T.sdn_sup]
  have hl : pathLinks T s (pl μ ν) = [(s, μ), (T.sup μ s, ν), (T.sup ν s, μ), (s, ν)] := by
    simp only [pl, pathLinks, hopLink, Torus.hop]
    rw [e1]
    change [_, _, _, (T.sdn ν (T.sdn μ (T.sup ν (T.sup μ s))), ν)] = _
    rw [e1, T.sdn_sup]
  rw [hl]
  simp [hne, hne.symm, a, a']

theorem nodup_re1 (h : T.Wide 2) (μ ν : Fin 4) (hne : μ ≠ ν) (s : S) : (pathLinks T s (re1 μ ν)).Nodup := by
  have h1 : T.Wide 1 := h.mono (by decide)
  have a := T.sup_ne le_rfl h1
  have a' : ∀ ρ x, x ≠ T.sup ρ x := fun ρ x => (a ρ x).symm
  have b := T.sup_sup_ne le_rfl h
  have b' : ∀ ρ x, x ≠ T.sup ρ (T.sup ρ x) := fun ρ x => (b ρ x).symm
  have c := T.sup_sup_ne_of_ne le_rfl h1 hne.symm
  have c' : ∀ x, x ≠ T.sup ν (T.sup μ x) := fun x => (c x).symm
  have d := T.sup_ne_sup le_rfl h1 hne
  have e1 : T.sdn μ (T.sup ν (T.sup μ (T.sup μ s))) = T.sup ν (T.sup μ s) := by rw [T.comm, T.sdn_sup]
  have e2 : T.sdn μ (T.sup ν (T.sup μ s)) = T.sup ν s := by rw [T.comm, T.sdn_sup]
  have hl : pathLinks T s (re1 μ ν)
      = [(s, μ), (T.sup μ s, μ), (T.sup μ (T.sup μ s), ν), (T.sup ν (T.sup μ s), μ), (T.sup ν s, μ), (s, ν)] := by
    simp only [re1, pathLinks, hopLink, Torus.hop]
    change [_, _, _, _, (T.sdn μ (T.sdn μ (T.sup ν (T.sup μ (T.sup μ s)))), μ),
      (T.sdn ν (T.sdn μ (T.sdn μ (T.sup ν (T.sup μ (T.sup μ s))))), ν)] = _
    rw [e1, e2, T.sdn_sup]
  rw [hl]
  simp [hne, hne.symm, a, a', b, b', c, c', d]

theorem nodup_re2 (h : T.Wide 2) (μ ν : Fin 4) (hne : μ ≠ ν) (s : S) : (pathLinks T s (re2 μ ν)).Nodup := by
  have h1 : T.Wide 1 := h.mono (by decide)
  have a := T.sup_ne le_rfl h1
  have a' : ∀ ρ x, x ≠ T.sup ρ x := fun ρ x => (a ρ x).symm
  have b := T.sup_sup_ne le_rfl h
  have b' : ∀ ρ x, x ≠ T.sup ρ (T.sup ρ x) := fun ρ x => (b ρ x).symm
  have c := T.sup_sup_ne_of_ne le_rfl h1 hne.symm
  have c' : ∀ x, x ≠ T.sup ν (T.sup μ x) := fun x => (c x).symm
  have d := T.sup_ne_sup le_rfl h1 hne
  have e1 : T.sdn μ (T.sup ν (T.sup ν (T.sup μ s))) = T.sup ν (T.sup ν s) := by
    rw [T.comm ν μ, T.comm ν μ, T.sdn_sup]
  have hl : pathLinks T s (re2 μ ν)
      = [(s, μ), (T.sup μ s, ν), (T.sup ν (T.sup μ s), ν), (T.sup ν (T.sup ν s), μ), (T.sup ν s, ν), (s, ν)] := by
    simp only [re2, pathLinks, hopLink, Torus.hop]
    change [_, _, _, _, (T.sdn ν (T.sdn μ (T.sup ν (T.sup ν (T.sup μ s)))), ν),
      (T.sdn ν (T.sdn ν (T.sdn μ (T.sup ν (T.sup ν (T.sup μ s))))), ν)] = _
    rw [e1, T.sdn_sup, T.sdn_sup]
  rw [hl]
  simp [hne, hne.symm, a, a', b, b', c, c', d]

/-! ### The change of the energy -/

theorem wilsonEnergy_setLink [Fintype S] [DecidableEq S] (β : ℝ) (h : T.Wide 1) (s0 : S) (μ0 : Fin 4) (V : Mat N) :
    wilsonEnergy β T (setLink U s0 μ0 V) = wilsonEnergy β T U
      + -(β / N) * (trace ((V - U s0 μ0) * wilsonStaple T U s0 μ0)).re := by
  rw [wilsonEnergy_eq, wilsonEnergy_eq, wilsonStaple_eq, ← mul_add]
  congr 1
  simp only [Finset.mul_sum, re_trace_sum]
  rw [← Finset.sum_add_distrib]
  refine Finset.sum_congr rfl fun μ _ => ?_
  rw [← Finset.sum_add_distrib]
  refine Finset.sum_congr rfl fun ν _ => ?_
  split
  · rename_i hlt
    exact sum_holo_setLink T U s0 μ0 V _ (walk_pl T μ ν) (nodup_pl T h μ ν hlt.ne)
  · simp

theorem improvedEnergy_setLink [Fintype S] [DecidableEq S] (u0 β : ℝ) (h : T.Wide 2) (s0 : S) (μ0 : Fin 4) (V : Mat N) :
    improvedEnergy u0 β T (setLink U s0 μ0 V) = improvedEnergy u0 β T U
      + -(β / N) * (trace ((V - U s0 μ0) * improvedStaple u0 T U s0 μ0)).re := by
  rw [improvedEnergy_eq, improvedEnergy_eq, improvedStaple_eq, ← mul_add]
  congr 1
  simp only [Finset.mul_sum, re_trace_sum]
  rw [← Finset.sum_add_distrib]
  refine Finset.sum_congr rfl fun μ _ => ?_
  rw [← Finset.sum_add_distrib]
  refine Finset.sum_congr rfl fun ν _ => ?_
  split
  · rename_i hlt
    have p1 := sum_holo_setLink T U s0 μ0 V _ (walk_pl T μ ν) (nodup_pl T (h.mono (by decide)) μ ν hlt.ne)
    have p2 := sum_holo_setLink T U s0 μ0 V _ (walk_re1 T μ ν) (nodup_re1 T h μ ν hlt.ne)
    have p3 := sum_holo_setLink T U s0 μ0 V _ (walk_re2 T μ ν) (nodup_re2 T h μ ν hlt.ne)
    simp only [← Finset.mul_sum]
    rw [p1, p2, p3]
    simp only [Matrix.mul_sub, Matrix.mul_smul, Matrix.trace_sub, Complex.sub_re, re_trace_smul]
    ring
  · simp

end

end Leonard
