import Verif.Landau.GluonLemmas
import Mathlib.Algebra.BigOperators.Ring.Finset
import Mathlib.Algebra.Field.GeomSum

/-!
# Plane waves are orthogonal
-/

set_option autoImplicit false

namespace Leonard

open Matrix

noncomputable section

variable {S : Type} {N : ℕ}

theorem eix_pow (x : ℝ) (n : ℕ) : eix x ^ n = eix (n * x) := by
  unfold eix
  rw [← Complex.exp_nat_mul]
  push_cast; ring_nf

theorem eix_eq_one (x : ℝ) (h : eix x = 1) : ∃ m : ℤ, x = m * (2 * Real.pi) := by
  unfold eix at h
  obtain ⟨m, hm⟩ := Complex.exp_eq_one_iff.1 h
  refine ⟨m, ?_⟩
  have h2 : (x : ℂ) = ((m * (2 * Real.pi) : ℝ) : ℂ) := by
    have := congrArg (fun z => z * (-Complex.I)) hm
    push_cast
    linear_combination this + ((x : ℂ) - m * (2 * Real.pi)) * Complex.I_sq
  exact_mod_cast h2

theorem sum_waves (L a b : ℕ) (ha : a < L) (hb : b < L) :
    ∑ n ∈ Finset.range L, eix (((a : ℝ) - b) * (n * 2 * Real.pi / L)) = if a = b then (L : ℂ) else 0 := by
  have hL : (0 : ℝ) < L := by exact_mod_cast lt_of_le_of_lt (Nat.zero_le _) ha
  obtain ⟨y, hy⟩ : ∃ y, y = ((a : ℝ) - b) * (2 * Real.pi) / L := ⟨_, rfl⟩
  have e : ∀ n : ℕ, eix (((a : ℝ) - b) * (n * 2 * Real.pi / L)) = eix y ^ n := by
    intro n
    rw [eix_pow, hy]
    congr 1
    ring
  simp only [e]
  split_ifs with h
  · subst h
    rw [show y = 0 by rw [hy]; simp, eix_zero]
    simp
  · have hne : eix y ≠ 1 := by
      intro h1
      obtain ⟨m, hm⟩ := eix_eq_one y h1
      have hpi := Real.pi_pos
      have h2 : (a : ℝ) - b = m * L := by
        rw [hy] at hm
        field_simp at hm
        linarith
      have h3 : (a : ℤ) - b = m * L := by exact_mod_cast h2
      have h4 : |(a : ℤ) - b| < L := by rw [abs_lt]; constructor <;> omega
      rw [h3, abs_mul, Nat.abs_cast] at h4
      have h5 : |m| < 1 := by
        by_contra hc
        push Not at hc
        have : (L : ℤ) ≤ |m| * L := le_mul_of_one_le_left (by positivity) hc
        omega
      have h6 : m = 0 := Int.abs_lt_one_iff.1 h5
      rw [h6, zero_mul] at h3
      exact h (by omega)
    rw [geom_sum_eq hne, eix_pow]
    have : eix (L * y) = 1 := by
      have h1 : (L : ℝ) * y = a * (2 * Real.pi) + -(b * (2 * Real.pi)) := by
        rw [hy]; field_simp; ring
      have h2 := star_eix (b * (2 * Real.pi))
      rw [eix_two_pi, star_one] at h2
      rw [h1, eix_add, eix_two_pi, ← h2, one_mul]
    rw [this, sub_self, zero_div]

/-- All momenta of the lattice. -/
def momentumZone (L : Fin 4 → ℕ) : Finset (Fin 4 → ℕ) := Fintype.piFinset fun μ => Finset.range (L μ)

theorem mem_zone (L n : Fin 4 → ℕ) : n ∈ momentumZone L ↔ ∀ μ, n μ < L μ := by
  simp [momentumZone, Fintype.mem_piFinset]

theorem eix_sum (f : Fin 4 → ℝ) : eix (∑ ν, f ν) = ∏ ν, eix (f ν) := by
  simp only [Fin.sum_univ_four, Fin.prod_univ_four, eix_add]

theorem zone_waves (T : Torus S) (hinj : Function.Injective T.coord) (x y : S) [DecidableEq S] :
    ∑ n ∈ momentumZone T.ext, eix (ghostPhase T (waveVector T.ext n) x - ghostPhase T (waveVector T.ext n) y)
      = if x = y then ((∏ μ, T.ext μ : ℕ) : ℂ) else 0 := by
  have e : ∀ n : Fin 4 → ℕ, eix (ghostPhase T (waveVector T.ext n) x - ghostPhase T (waveVector T.ext n) y)
      = ∏ ν, eix (((T.coord x ν : ℝ) - T.coord y ν) * ((n ν : ℕ) * 2 * Real.pi / T.ext ν)) := by
    intro n
    rw [← eix_sum, ghostPhase_eq, ghostPhase_eq, ← Finset.sum_sub_distrib]
    congr 1
    exact Finset.sum_congr rfl fun ν _ => by unfold waveVector; ring
  simp only [e]
  unfold momentumZone
  rw [← Finset.prod_univ_sum (fun μ => Finset.range (T.ext μ)) fun ν (m : ℕ) => eix (((T.coord x ν : ℝ) - T.coord y ν) * (m * 2 * Real.pi / T.ext ν))]
  simp only [sum_waves _ _ _ (T.coord_lt _ x) (T.coord_lt _ y)]
  split_ifs with h
  · subst h
    simp
  · have : ∃ ν, T.coord x ν ≠ T.coord y ν := Function.ne_iff.1 fun h' => h (hinj h')
    obtain ⟨ν, hν⟩ := this
    exact Finset.prod_eq_zero (Finset.mem_univ ν) (if_neg hν)

/-- Parseval for a real function on the lattice. -/
theorem parseval [Fintype S] (T : Torus S) (hinj : Function.Injective T.coord) (a : S → ℝ) (μ : Fin 4) :
    ∑ n ∈ momentumZone T.ext, Complex.normSq (∑ s, eix (gluonPhase T (waveVector T.ext n) μ s) * (a s : ℂ))
      = (∏ μ, T.ext μ : ℕ) * ∑ s, a s ^ 2 := by
  classical
  have h : ∀ n : Fin 4 → ℕ, (Complex.normSq (∑ s, eix (gluonPhase T (waveVector T.ext n) μ s) * (a s : ℂ)) : ℂ)
      = ∑ x, ∑ y, eix (ghostPhase T (waveVector T.ext n) x - ghostPhase T (waveVector T.ext n) y) * ((a x : ℂ) * a y) := by
    intro n
    rw [← Complex.mul_conj, map_sum, Finset.sum_mul_sum]
    refine Finset.sum_congr rfl fun x _ => Finset.sum_congr rfl fun y _ => ?_
    rw [map_mul, Complex.conj_ofReal, ← Complex.star_def, star_eix]
    have : eix (ghostPhase T (waveVector T.ext n) x - ghostPhase T (waveVector T.ext n) y)
        = eix (gluonPhase T (waveVector T.ext n) μ x) * eix (-gluonPhase T (waveVector T.ext n) μ y) := by
      rw [← eix_add, gluonPhase_eq, gluonPhase_eq]; ring_nf
    rw [this]; ring
  have h2 : ((∑ n ∈ momentumZone T.ext, Complex.normSq (∑ s, eix (gluonPhase T (waveVector T.ext n) μ s) * (a s : ℂ)) : ℝ) : ℂ)
      = (((∏ μ, T.ext μ : ℕ) * ∑ s, a s ^ 2 : ℝ) : ℂ) := by
    push_cast
    simp only [h]
    rw [Finset.sum_comm]
    rw [Finset.mul_sum]
    refine Finset.sum_congr rfl fun x _ => ?_
    rw [Finset.sum_comm]
    simp only [← Finset.sum_mul, zone_waves T hinj]
    rw [Finset.sum_eq_single x]
    · rw [if_pos rfl]; push_cast; ring
    · intro y _ hy; rw [if_neg (Ne.symm hy), zero_mul]
    · intro h; exact absurd (Finset.mem_univ _) h
  exact_mod_cast h2

end

end Leonard
