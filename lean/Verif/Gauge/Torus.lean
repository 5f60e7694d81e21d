import Verif.Layout.Lemmas
import Mathlib.Logic.Equiv.Defs
import Mathlib.Algebra.Group.End
import Mathlib.Data.Fintype.Basic
import Mathlib.Data.Set.Finite.Basic
import Mathlib.Data.Fintype.OfMap
import Mathlib.Tactic.IntervalCases

/-!
# The periodic lattice

The single-process view of the lattice: `sup(site,mu)` and `sdn(site,mu)` are the neighbour tables. By C02 the
tables of the program are the shifts of `boxTorus`; by C06 what a distributed run computes is what this view gives.
Statements about gauge fields are proved for every `Torus`, and so for `boxTorus`.
-/

set_option autoImplicit false

namespace Leonard

/-- Sites with four commuting invertible shifts; `ext μ` shifts in direction `μ` lead back. `coord` is
`globalIndex(site,mu)`. -/
structure Torus (S : Type) where
  sup : Fin 4 → Equiv.Perm S
  comm : ∀ μ ν s, sup μ (sup ν s) = sup ν (sup μ s)
  ext : Fin 4 → ℕ
  period : ∀ μ s, (sup μ)^[ext μ] s = s
  coord : S → Fin 4 → ℕ
  coord_sup_ne : ∀ μ ν s, μ ≠ ν → coord (sup μ s) ν = coord s ν
  coord_sup : ∀ μ s, coord (sup μ s) μ = (coord s μ + 1) % ext μ
  coord_lt : ∀ μ s, coord s μ < ext μ

namespace Torus

variable {S : Type} (T : Torus S)

/-- `sdn(site,mu)`. -/
def sdn (μ : Fin 4) (s : S) : S := (T.sup μ).symm s

@[simp] theorem sup_sdn (μ : Fin 4) (s : S) : T.sup μ (T.sdn μ s) = s := (T.sup μ).apply_symm_apply s
@[simp] theorem sdn_sup (μ : Fin 4) (s : S) : T.sdn μ (T.sup μ s) = s := (T.sup μ).symm_apply_apply s

theorem sdn_eq_iff (μ : Fin 4) (s s' : S) : T.sdn μ s = s' ↔ s = T.sup μ s' := (T.sup μ).symm_apply_eq

theorem sup_eq_iff (μ : Fin 4) (s s' : S) : T.sup μ s = s' ↔ s = T.sdn μ s' := (T.sup μ).apply_eq_iff_eq_symm_apply

theorem sup_sdn_comm (μ ν : Fin 4) (s : S) : T.sup μ (T.sdn ν s) = T.sdn ν (T.sup μ s) := by
  rw [eq_comm, sdn_eq_iff, T.comm, sup_sdn]

theorem sdn_comm (μ ν : Fin 4) (s : S) : T.sdn μ (T.sdn ν s) = T.sdn ν (T.sdn μ s) := by
  rw [sdn_eq_iff, sup_sdn_comm, sup_sdn]

/-- The lattice has more than `k` sites in every direction, stated through displacements in a plane. -/
def Wide (k : ℕ) : Prop := ∀ μ, k < T.ext μ

theorem coord_iterate_ne (μ ν : Fin 4) (h : μ ≠ ν) (n : ℕ) (s : S) : T.coord ((T.sup μ)^[n] s) ν = T.coord s ν := by
  induction n generalizing s with
  | zero => rfl
  | succ n ih => rw [Function.iterate_succ_apply, ih, T.coord_sup_ne _ _ _ h]

theorem coord_iterate (μ : Fin 4) (n : ℕ) (s : S) : T.coord ((T.sup μ)^[n] s) μ = (T.coord s μ + n) % T.ext μ := by
  induction n generalizing s with
  | zero => rw [Function.iterate_zero, id, Nat.add_zero, Nat.mod_eq_of_lt (T.coord_lt μ s)]
  | succ n ih =>
    rw [Function.iterate_succ_apply, ih, T.coord_sup, Nat.mod_add_mod]
    congr 1; ring

theorem sup_ne {k : ℕ} (hk : 1 ≤ k) (h : T.Wide k) (μ : Fin 4) (s : S) : T.sup μ s ≠ s := by
  intro e
  have := T.coord_sup μ s
  rw [e] at this
  have h1 := T.coord_lt μ s
  have h2 := h μ
  rcases lt_or_ge (T.coord s μ + 1) (T.ext μ) with h3 | h3
  · rw [Nat.mod_eq_of_lt h3] at this; omega
  · have h4 : T.coord s μ + 1 = T.ext μ := by omega
    rw [h4, Nat.mod_self] at this; omega

theorem sup_sup_ne {k : ℕ} (hk : 2 ≤ k) (h : T.Wide k) (μ : Fin 4) (s : S) : T.sup μ (T.sup μ s) ≠ s := by
  intro e
  have := T.coord_iterate μ 2 s
  have e' : (T.sup μ)^[2] s = s := e
  rw [e'] at this
  have h1 := T.coord_lt μ s
  have h2 := h μ
  rcases lt_or_ge (T.coord s μ + 2) (T.ext μ) with h3 | h3
  · rw [Nat.mod_eq_of_lt h3] at this; omega
  · rw [Nat.mod_eq_sub_mod h3, Nat.mod_eq_of_lt (by omega)] at this; omega

theorem sup_sup_ne_of_ne {k : ℕ} (hk : 1 ≤ k) (h : T.Wide k) {μ ν : Fin 4} (hne : μ ≠ ν) (s : S) :
    T.sup μ (T.sup ν s) ≠ s := by
  intro e
  have h1 := T.coord_sup μ (T.sup ν s)
  rw [e, T.coord_sup_ne ν μ _ hne.symm] at h1
  have h2 := T.coord_lt μ s
  have h3 := h μ
  rcases lt_or_ge (T.coord s μ + 1) (T.ext μ) with h4 | h4
  · rw [Nat.mod_eq_of_lt h4] at h1; omega
  · have h5 : T.coord s μ + 1 = T.ext μ := by omega
    rw [h5, Nat.mod_self] at h1; omega

theorem sup_ne_sup {k : ℕ} (hk : 1 ≤ k) (h : T.Wide k) {μ ν : Fin 4} (hne : μ ≠ ν) (s : S) :
    T.sup μ s ≠ T.sup ν s := by
  intro e
  have h1 := T.coord_sup μ s
  rw [e, T.coord_sup_ne ν μ _ hne.symm] at h1
  have h2 := T.coord_lt μ s
  have h3 := h μ
  rcases lt_or_ge (T.coord s μ + 1) (T.ext μ) with h4 | h4
  · rw [Nat.mod_eq_of_lt h4] at h1; omega
  · have h5 : T.coord s μ + 1 = T.ext μ := by omega
    rw [h5, Nat.mod_self] at h1; omega

end Torus

/-! ### The lattice of the program -/

/-- The sites of the lattice `g`. -/
abbrev BoxSite (g : Ext) := {s : Site // InBox g s}

/-- Extent in direction `μ`. -/
def Ext.get (g : Ext) : Fin 4 → ℤ
  | 0 => g.x
  | 1 => g.y
  | 2 => g.z
  | 3 => g.t

/-- Coordinate in direction `μ`. -/
def Site.get (s : Site) : Fin 4 → ℤ
  | 0 => s.x
  | 1 => s.y
  | 2 => s.z
  | 3 => s.t

theorem Ext.Pos.get {g : Ext} (h : g.Pos) (μ : Fin 4) : 0 < g.get μ := by
  obtain ⟨a, b, c, d⟩ := h
  fin_cases μ <;> assumption

theorem InBox.get {g : Ext} {s : Site} (h : InBox g s) (μ : Fin 4) : 0 ≤ s.get μ ∧ s.get μ < g.get μ := by
  obtain ⟨a, b, c, d⟩ := h
  fin_cases μ <;> assumption

theorem Site.ext_get {s s' : Site} (h : ∀ μ, s.get μ = s'.get μ) : s = s' := by
  cases s; cases s'
  have h0 := h 0; have h1 := h 1; have h2 := h 2; have h3 := h 3
  simp only [Site.get] at h0 h1 h2 h3
  simp [h0, h1, h2, h3]

theorem wrap_get (g : Ext) (s : Site) (μ : Fin 4) : (wrap g s).get μ = s.get μ % g.get μ := by
  fin_cases μ <;> rfl

theorem add_get (s d : Site) (μ : Fin 4) : (s.add d).get μ = s.get μ + d.get μ := by
  fin_cases μ <;> rfl

theorem deltaPlus_get (μ ν : Fin 4) : (deltaPlus μ).get ν = if μ = ν then 1 else 0 := by
  fin_cases μ <;> fin_cases ν <;> rfl

theorem deltaMinus_get (μ ν : Fin 4) : (deltaMinus μ).get ν = if μ = ν then -1 else 0 := by
  fin_cases μ <;> fin_cases ν <;> rfl

/-- One step up in direction `μ` on the periodic lattice. -/
def boxSup (g : Ext) (hg : g.Pos) (μ : Fin 4) : Equiv.Perm (BoxSite g) where
  toFun s := ⟨wrap g (s.1.add (deltaPlus μ)), wrap_inBox hg _⟩
  invFun s := ⟨wrap g (s.1.add (deltaMinus μ)), wrap_inBox hg _⟩
  left_inv s := by
    apply Subtype.ext
    apply Site.ext_get
    intro ν
    simp only [wrap_get, add_get, deltaPlus_get, deltaMinus_get]
    rw [Int.emod_add_emod]
    have := s.2.get ν
    split
    · rw [Int.emod_eq_of_lt] <;> omega
    · rw [Int.emod_eq_of_lt] <;> omega
  right_inv s := by
    apply Subtype.ext
    apply Site.ext_get
    intro ν
    simp only [wrap_get, add_get, deltaPlus_get, deltaMinus_get]
    rw [Int.emod_add_emod]
    have := s.2.get ν
    split
    · rw [Int.emod_eq_of_lt] <;> omega
    · rw [Int.emod_eq_of_lt] <;> omega

theorem boxSup_get (g : Ext) (hg : g.Pos) (μ ν : Fin 4) (s : BoxSite g) :
    (boxSup g hg μ s).1.get ν = (s.1.get ν + if μ = ν then 1 else 0) % g.get ν := by
  change (wrap g (s.1.add (deltaPlus μ))).get ν = _
  rw [wrap_get, add_get, deltaPlus_get]

theorem boxSup_iterate_get (g : Ext) (hg : g.Pos) (μ ν : Fin 4) (n : ℕ) (s : BoxSite g) :
    ((boxSup g hg μ)^[n] s).1.get ν = (s.1.get ν + if μ = ν then (n : ℤ) else 0) % g.get ν := by
  induction n generalizing s with
  | zero =>
    have := s.2.get ν
    simp only [Function.iterate_zero, id, Nat.cast_zero, ite_self, add_zero]
    rw [Int.emod_eq_of_lt this.1 this.2]
  | succ n ih =>
    rw [Function.iterate_succ_apply, ih, boxSup_get, Int.emod_add_emod]
    congr 1
    split <;> push_cast <;> ring

/-- The periodic lattice with extents `g`. -/
def boxTorus (g : Ext) (hg : g.Pos) : Torus (BoxSite g) where
  sup := boxSup g hg
  comm μ ν s := by
    apply Subtype.ext
    apply Site.ext_get
    intro ρ
    simp only [boxSup_get, Int.emod_add_emod]
    congr 1; ring
  ext μ := (g.get μ).toNat
  period μ s := by
    apply Subtype.ext
    apply Site.ext_get
    intro ν
    rw [boxSup_iterate_get]
    have := s.2.get ν
    have hp := hg.get μ
    split
    · rename_i h
      subst h
      rw [Int.toNat_of_nonneg hp.le, Int.add_emod_right, Int.emod_eq_of_lt this.1 this.2]
    · rw [add_zero, Int.emod_eq_of_lt this.1 this.2]
  coord s μ := (s.1.get μ).toNat
  coord_sup_ne μ ν s h := by
    have := s.2.get ν
    rw [boxSup_get, if_neg h, add_zero, Int.emod_eq_of_lt this.1 this.2]
  coord_sup μ s := by
    have := s.2.get μ
    rw [boxSup_get, if_pos rfl]
    have hp := hg.get μ
    apply Int.ofNat_inj.1
    rw [Int.toNat_of_nonneg (Int.emod_nonneg _ (by omega))]
    push_cast
    rw [Int.toNat_of_nonneg this.1, Int.toNat_of_nonneg hp.le]
  coord_lt μ s := by
    have := s.2.get μ
    omega

/-- The neighbour of `boxTorus` is the neighbour in the sense of the layout tables (C02). -/
theorem boxTorus_sup (g : Ext) (hg : g.Pos) (μ : Fin 4) (s : BoxSite g) :
    ((boxTorus g hg).sup μ s).1 = wrap g (s.1.add (deltaPlus μ)) := rfl

theorem boxTorus_sdn (g : Ext) (hg : g.Pos) (μ : Fin 4) (s : BoxSite g) :
    ((boxTorus g hg).sdn μ s).1 = wrap g (s.1.add (deltaMinus μ)) := rfl

theorem boxTorus_wide (g : Ext) (hg : g.Pos) (k : ℕ) : (boxTorus g hg).Wide k ↔ ∀ μ, (k : ℤ) < g.get μ := by
  unfold Torus.Wide
  refine forall_congr' fun μ => ?_
  change k < (g.get μ).toNat ↔ _
  omega

instance (g : Ext) : Fintype (BoxSite g) :=
  Fintype.ofFinset (loopSites g).toFinset (p := fun s => InBox g s) fun s => by
    rw [List.mem_toFinset, mem_loopSites]; rfl

end Leonard
