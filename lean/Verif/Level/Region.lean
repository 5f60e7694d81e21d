import Verif.Level.Model
import Verif.Heat.Sweep

/-!
Updates inside a slice read only links of the slice and links that no update changes.
-/

set_option autoImplicit false

namespace Leonard

open Matrix

variable {S : Type} {N : ℕ}

/-- Coordinate, direction: the link is updated. -/
def Upd (size y : ℕ) (μ : Fin 4) : Prop := (y % size ≠ size - 1 ∧ y % size ≠ 0) ∨ (μ = 1 ∧ y % size = 0)

theorem insideSlice_iff (T : Torus S) (size : ℕ) (l : Link S) : insideSlice T size l = true ↔ Upd size (T.coord l.1 1) l.2 := by
  simp [insideSlice, Upd, bne_iff_ne]

/-- The link belongs to slice `k` or is never updated. -/
def InR (size k y : ℕ) (μ : Fin 4) : Prop := Upd size y μ → y / size = k

/-- Two configurations agree on the links of a slice and on the links that are never updated. -/
def AgreeOn {A : Type} (T : Torus S) (size k : ℕ) (Q Q' : S → Fin 4 → A) : Prop := ∀ s μ, InR size k (T.coord s 1) μ → Q s μ = Q' s μ

section coord
variable {size m y : ℕ}

theorem up_mod (Y : ℕ) (hY : Y = size * m) : (y + 1) % Y % size = (y % size + 1) % size := by
  rw [hY, Nat.mod_mod_of_dvd _ (dvd_mul_right size m)]
  simp

theorem up_div (Y : ℕ) (hY : Y = size * m) (hy : y < Y) (h : y % size + 1 < size) : (y + 1) % Y / size = y / size := by
  have hs : 0 < size := by omega
  have e : y = size * (y / size) + y % size := (Nat.div_add_mod y size).symm
  have hk : y / size < m := by
    rw [hY] at hy
    exact Nat.div_lt_of_lt_mul hy
  have hlt : y + 1 < Y := by
    have : size * (y / size) + size ≤ size * m := by
      rw [← Nat.mul_succ]
      exact Nat.mul_le_mul_left _ hk
    omega
  rw [Nat.mod_eq_of_lt hlt]
  have e2 : y + 1 = size * (y / size) + (y % size + 1) := by omega
  rw [e2, Nat.mul_add_div hs, Nat.div_eq_of_lt h, add_zero]

/-- The coordinate below. -/
theorem dn_cases (Y z : ℕ) (hY : Y = size * m) (hs : 0 < size) (hz : z < Y) (h : y = (z + 1) % Y) :
    (y % size = 0 ∧ z % size = size - 1) ∨ (0 < y % size ∧ z / size = y / size ∧ z % size + 1 = y % size) := by
  have hm : y % size = (z % size + 1) % size := by rw [h, up_mod Y hY]
  have hzl := Nat.mod_lt z hs
  by_cases hc : z % size + 1 < size
  · right
    rw [Nat.mod_eq_of_lt hc] at hm
    refine ⟨by omega, ?_, by omega⟩
    rw [h, up_div Y hY hz hc]
  · left
    have : z % size + 1 = size := by omega
    rw [this, Nat.mod_self] at hm
    exact ⟨hm, by omega⟩

theorem up_cases (Y z : ℕ) (hY : Y = size * m) (hs : 0 < size) (hy : y < Y) (h : z = (y + 1) % Y) :
    (z % size = 0 ∧ y % size + 1 = size) ∨ (y % size + 1 < size ∧ z / size = y / size ∧ z % size = y % size + 1) := by
  have hm : z % size = (y % size + 1) % size := by rw [h, up_mod Y hY]
  have hyl := Nat.mod_lt y hs
  by_cases hc : y % size + 1 < size
  · right
    rw [Nat.mod_eq_of_lt hc] at hm
    exact ⟨hc, by rw [h, up_div Y hY hy hc], hm⟩
  · left
    have : y % size + 1 = size := by omega
    rw [this, Nat.mod_self] at hm
    exact ⟨hm, this⟩

end coord

section torus
variable (T : Torus S) {size m : ℕ}

theorem coord_sdn_ne (μ ν : Fin 4) (h : μ ≠ ν) (s : S) : T.coord (T.sdn μ s) ν = T.coord s ν := by
  have := T.coord_sup_ne μ ν (T.sdn μ s) h
  rw [T.sup_sdn] at this
  exact this.symm

theorem coord_sdn (μ : Fin 4) (s : S) : T.coord s μ = (T.coord (T.sdn μ s) μ + 1) % T.ext μ := by
  have := T.coord_sup μ (T.sdn μ s)
  rw [T.sup_sdn] at this
  exact this

theorem coord_sup1 (hY : T.ext 1 = size * m) (hs : 0 < size) (s : S) :
    (T.coord (T.sup 1 s) 1 % size = 0 ∧ T.coord s 1 % size + 1 = size)
      ∨ (T.coord s 1 % size + 1 < size ∧ T.coord (T.sup 1 s) 1 / size = T.coord s 1 / size ∧ T.coord (T.sup 1 s) 1 % size = T.coord s 1 % size + 1) :=
  up_cases (T.ext 1) _ hY hs (T.coord_lt 1 s) (T.coord_sup 1 s)

theorem coord_sdn1 (hY : T.ext 1 = size * m) (hs : 0 < size) (s : S) :
    (T.coord s 1 % size = 0 ∧ T.coord (T.sdn 1 s) 1 % size = size - 1)
      ∨ (0 < T.coord s 1 % size ∧ T.coord (T.sdn 1 s) 1 / size = T.coord s 1 / size ∧ T.coord (T.sdn 1 s) 1 % size + 1 = T.coord s 1 % size) :=
  dn_cases (T.ext 1) _ hY hs (T.coord_lt 1 _) (coord_sdn T 1 s)

/-- The plaquettes around an updated link. -/
theorem stapleUp_agree (hY : T.ext 1 = size * m) (hs : 0 < size) (U V : GField S N) (s : S) (μ ν : Fin 4) (hne : ν ≠ μ) (hu : Upd size (T.coord s 1) μ)
    (h : AgreeOn T size (T.coord s 1 / size) U V) : stapleUp T U s μ ν = stapleUp T V s μ ν ∧ stapleDown T U s μ ν = stapleDown T V s μ ν := by
  have hlt := Nat.mod_lt (T.coord s 1) hs
  have key : U (T.sup μ s) ν = V (T.sup μ s) ν ∧ U (T.sup ν s) μ = V (T.sup ν s) μ ∧ U s ν = V s ν
      ∧ U (T.sup μ (T.sdn ν s)) ν = V (T.sup μ (T.sdn ν s)) ν ∧ U (T.sdn ν s) μ = V (T.sdn ν s) μ ∧ U (T.sdn ν s) ν = V (T.sdn ν s) ν := by
    by_cases h1 : μ = 1
    · subst h1
      have u := coord_sup1 T hY hs s
      have a1 := T.coord_sup_ne ν 1 s hne
      have a2 := coord_sdn_ne T ν 1 hne s
      have a3 : T.coord (T.sup 1 (T.sdn ν s)) 1 = T.coord (T.sup 1 s) 1 := by rw [T.sup_sdn_comm, coord_sdn_ne T ν 1 hne]
      refine ⟨h _ _ ?_, h _ _ ?_, h _ _ ?_, h _ _ ?_, h _ _ ?_, h _ _ ?_⟩
      · rintro (⟨-, c⟩ | ⟨c, -⟩)
        · omega
        · exact absurd c hne
      · rw [a1]; exact fun _ => rfl
      · exact fun _ => rfl
      · rw [a3]
        rintro (⟨-, c⟩ | ⟨c, -⟩)
        · omega
        · exact absurd c hne
      · rw [a2]; exact fun _ => rfl
      · rw [a2]; exact fun _ => rfl
    · have hin : T.coord s 1 % size ≠ size - 1 ∧ T.coord s 1 % size ≠ 0 := by
        rcases hu with hu | hu
        · exact hu
        · exact absurd hu.1 h1
      by_cases h2 : ν = 1
      · subst h2
        have u := coord_sup1 T hY hs s
        have d := coord_sdn1 T hY hs s
        have a1 := T.coord_sup_ne μ 1 s h1
        have a2 := T.coord_sup_ne μ 1 (T.sdn 1 s) h1
        refine ⟨h _ _ ?_, h _ _ ?_, h _ _ ?_, h _ _ ?_, h _ _ ?_, h _ _ ?_⟩
        · rw [a1]; exact fun _ => rfl
        · intro _; omega
        · exact fun _ => rfl
        · rw [a2]; intro _; omega
        · intro _; omega
        · intro _; omega
      · have a1 := T.coord_sup_ne μ 1 s h1
        have a2 := T.coord_sup_ne ν 1 s h2
        have a3 := coord_sdn_ne T ν 1 h2 s
        have a4 : T.coord (T.sup μ (T.sdn ν s)) 1 = T.coord s 1 := by rw [T.coord_sup_ne μ 1 _ h1, a3]
        refine ⟨h _ _ ?_, h _ _ ?_, h _ _ ?_, h _ _ ?_, h _ _ ?_, h _ _ ?_⟩
        · rw [a1]; exact fun _ => rfl
        · rw [a2]; exact fun _ => rfl
        · exact fun _ => rfl
        · rw [a4]; exact fun _ => rfl
        · rw [a3]; exact fun _ => rfl
        · rw [a3]; exact fun _ => rfl
  obtain ⟨k1, k2, k3, k4, k5, k6⟩ := key
  unfold stapleUp stapleDown
  rw [k1, k2, k3, k4, k5, k6]
  exact ⟨rfl, rfl⟩

theorem wilsonStaple_agree (hY : T.ext 1 = size * m) (hs : 0 < size) (U V : GField S N) (s : S) (μ : Fin 4) (hu : Upd size (T.coord s 1) μ)
    (h : AgreeOn T size (T.coord s 1 / size) U V) : wilsonStaple T U s μ = wilsonStaple T V s μ := by
  unfold wilsonStaple
  refine Finset.sum_congr rfl fun ν _ => ?_
  by_cases hne : ν ≠ μ
  · rw [if_pos hne, if_pos hne, (stapleUp_agree T hY hs U V s μ ν hne hu h).1, (stapleUp_agree T hY hs U V s μ ν hne hu h).2]
  · rw [if_neg hne, if_neg hne]

/-- The rectangles around an updated link, with slices of at least two sites. -/
theorem rectStaple_agree (hY : T.ext 1 = size * m) (hs : 2 ≤ size) (U V : GField S N) (s : S) (μ ν : Fin 4) (hne : ν ≠ μ) (hu : Upd size (T.coord s 1) μ)
    (h : AgreeOn T size (T.coord s 1 / size) U V) : rectStaple T U s μ ν = rectStaple T V s μ ν := by
  have hs0 : 0 < size := by omega
  have hlt := Nat.mod_lt (T.coord s 1) hs0
  -- the links of the rectangles, by their coordinate
  have key : ∀ s' ρ, (ρ = μ ∨ ρ = ν) → (s' = s ∨ s' = T.sup μ s ∨ s' = T.sup ν s ∨ s' = T.sdn μ s ∨ s' = T.sdn ν s
      ∨ s' = T.sup ν (T.sup μ s) ∨ s' = T.sup ν (T.sdn μ s) ∨ s' = T.sup μ (T.sdn ν s) ∨ s' = T.sdn ν (T.sdn μ s)
      ∨ (s' = T.sup μ (T.sup μ s) ∧ ρ = ν) ∨ (s' = T.sdn ν (T.sup μ (T.sup μ s)) ∧ ρ = ν) ∨ (s' = T.sup ν (T.sup ν s) ∧ ρ = μ)
      ∨ s' = T.sup μ (T.sdn ν (T.sdn ν s)) ∨ s' = T.sdn ν (T.sdn ν s)) → U s' ρ = V s' ρ := by
    intro s' ρ hρ hs'
    refine h s' ρ ?_
    by_cases h1 : μ = 1
    · subst h1
      have u := coord_sup1 T hY hs0 s
      have u2 := coord_sup1 T hY hs0 (T.sup 1 s)
      have d := coord_sdn1 T hY hs0 s
      have e1 : ∀ s, T.coord (T.sup ν s) 1 = T.coord s 1 := fun s => T.coord_sup_ne ν 1 s hne
      have e2 : ∀ s, T.coord (T.sdn ν s) 1 = T.coord s 1 := fun s => coord_sdn_ne T ν 1 hne s
      have e3 : ∀ s, T.coord (T.sup 1 (T.sdn ν s)) 1 = T.coord (T.sup 1 s) 1 := fun s => by rw [T.sup_sdn_comm, e2]
      rcases hs' with rfl | rfl | rfl | rfl | rfl | rfl | rfl | rfl | rfl | ⟨rfl, rfl⟩ | ⟨rfl, rfl⟩ | ⟨rfl, rfl⟩ | rfl | rfl <;> intro hu' <;>
        simp only [e1, e2, e3, Upd] at hu hu' ⊢ <;> omega
    · have hin : T.coord s 1 % size ≠ size - 1 ∧ T.coord s 1 % size ≠ 0 := by
        rcases hu with hu | hu
        · exact hu
        · exact absurd hu.1 h1
      have f1 : ∀ s, T.coord (T.sup μ s) 1 = T.coord s 1 := fun s => T.coord_sup_ne μ 1 s h1
      have f2 : ∀ s, T.coord (T.sdn μ s) 1 = T.coord s 1 := fun s => coord_sdn_ne T μ 1 h1 s
      by_cases h2 : ν = 1
      · subst h2
        have u := coord_sup1 T hY hs0 s
        have u2 := coord_sup1 T hY hs0 (T.sup 1 s)
        have d := coord_sdn1 T hY hs0 s
        have d2 := coord_sdn1 T hY hs0 (T.sdn 1 s)
        have g1 : ∀ s, T.coord (T.sup 1 (T.sup μ s)) 1 = T.coord (T.sup 1 s) 1 := fun s => by rw [T.comm, f1]
        have g2 : ∀ s, T.coord (T.sup 1 (T.sdn μ s)) 1 = T.coord (T.sup 1 s) 1 := fun s => by rw [T.sup_sdn_comm, f2]
        have g3 : ∀ s, T.coord (T.sdn 1 (T.sup μ s)) 1 = T.coord (T.sdn 1 s) 1 := fun s => by rw [← T.sup_sdn_comm, f1]
        have g4 : ∀ s, T.coord (T.sdn 1 (T.sdn μ s)) 1 = T.coord (T.sdn 1 s) 1 := fun s => by rw [T.sdn_comm, f2]
        rcases hs' with rfl | rfl | rfl | rfl | rfl | rfl | rfl | rfl | rfl | ⟨rfl, rfl⟩ | ⟨rfl, rfl⟩ | ⟨rfl, rfl⟩ | rfl | rfl <;> intro hu' <;>
          simp only [f1, f2, g1, g2, g3, g4, Upd] at hu hu' ⊢ <;> omega
      · have e1 : ∀ s, T.coord (T.sup ν s) 1 = T.coord s 1 := fun s => T.coord_sup_ne ν 1 s h2
        have e2 : ∀ s, T.coord (T.sdn ν s) 1 = T.coord s 1 := fun s => coord_sdn_ne T ν 1 h2 s
        rcases hs' with rfl | rfl | rfl | rfl | rfl | rfl | rfl | rfl | rfl | ⟨rfl, rfl⟩ | ⟨rfl, rfl⟩ | ⟨rfl, rfl⟩ | rfl | rfl <;> intro _ <;>
          simp only [f1, f2, e1, e2]
  unfold rectStaple
  rw [key (T.sup μ s) μ (Or.inl rfl) (by simp),
    key (T.sup μ (T.sup μ s)) ν (Or.inr rfl) (by simp),
    key (T.sup ν (T.sup μ s)) μ (Or.inl rfl) (by simp),
    key (T.sup ν s) μ (Or.inl rfl) (by simp),
    key (s) ν (Or.inr rfl) (by simp),
    key (T.sup μ s) ν (Or.inr rfl) (by simp),
    key (T.sup ν (T.sdn μ s)) μ (Or.inl rfl) (by simp),
    key (T.sdn μ s) ν (Or.inr rfl) (by simp),
    key (T.sdn μ s) μ (Or.inl rfl) (by simp),
    key (T.sdn ν (T.sup μ (T.sup μ s))) ν (Or.inr rfl) (by simp),
    key (T.sup μ (T.sdn ν s)) μ (Or.inl rfl) (by simp),
    key (T.sdn ν s) μ (Or.inl rfl) (by simp),
    key (T.sdn ν s) ν (Or.inr rfl) (by simp),
    key (T.sup μ (T.sdn ν s)) ν (Or.inr rfl) (by simp),
    key (T.sdn ν (T.sdn μ s)) μ (Or.inl rfl) (by simp),
    key (T.sdn ν (T.sdn μ s)) ν (Or.inr rfl) (by simp),
    key (T.sup ν (T.sup μ s)) ν (Or.inr rfl) (by simp),
    key (T.sup ν (T.sup ν s)) μ (Or.inl rfl) (by simp),
    key (T.sup ν s) ν (Or.inr rfl) (by simp),
    key (T.sup μ (T.sdn ν (T.sdn ν s))) ν (Or.inr rfl) (by simp),
    key (T.sdn ν (T.sdn ν s)) μ (Or.inl rfl) (by simp),
    key (T.sdn ν (T.sdn ν s)) ν (Or.inr rfl) (by simp)]

theorem improvedStaple_agree (u0 : ℝ) (hY : T.ext 1 = size * m) (hs : 2 ≤ size) (U V : GField S N) (s : S) (μ : Fin 4) (hu : Upd size (T.coord s 1) μ)
    (h : AgreeOn T size (T.coord s 1 / size) U V) : improvedStaple u0 T U s μ = improvedStaple u0 T V s μ := by
  unfold improvedStaple
  refine Finset.sum_congr rfl fun ν _ => ?_
  by_cases hne : ν ≠ μ
  · rw [if_pos hne, if_pos hne, (stapleUp_agree T hY (by omega) U V s μ ν hne hu h).1, (stapleUp_agree T hY (by omega) U V s μ ν hne hu h).2,
      rectStaple_agree T hY hs U V s μ ν hne hu h]
  · rw [if_neg hne, if_neg hne]

end torus
end Leonard
