import Mathlib.Data.Int.ModEq
import Verif.Measure.Symmetry

/-!
# The symmetries of the lattice of the program

All reflections and permutations of axes of the same extent, and all translations, are symmetries in the sense of `LatticeSymmetry`.
-/

set_option autoImplicit false

namespace Leonard

/-- The site with given coordinates. -/
def siteOf (f : Fin 4 → ℤ) : Site := ⟨f 0, f 1, f 2, f 3⟩

theorem siteOf_get (f : Fin 4 → ℤ) (ν : Fin 4) : (siteOf f).get ν = f ν := by fin_cases ν <;> rfl

theorem inBox_of_get {g : Ext} {s : Site} (h : ∀ ν, 0 ≤ s.get ν ∧ s.get ν < g.get ν) : InBox g s := by
  have h0 := h 0; have h1 := h 1; have h2 := h 2; have h3 := h 3
  simp only [Site.get, Ext.get] at h0 h1 h2 h3
  unfold InBox
  omega

/-- Coordinate `μ` becomes coordinate `π μ`, with its sign changed unless `fwd μ`. -/
def boxMap (g : Ext) (hg : g.Pos) (π : Equiv.Perm (Fin 4)) (fwd : Fin 4 → Bool) (s : BoxSite g) : BoxSite g :=
  ⟨siteOf fun ν => (if fwd (π.symm ν) then s.1.get (π.symm ν) else -s.1.get (π.symm ν)) % g.get ν,
    inBox_of_get fun ν => by
      rw [siteOf_get]
      exact ⟨Int.emod_nonneg _ (hg.get ν).ne', Int.emod_lt_of_pos _ (hg.get ν)⟩⟩

theorem boxMap_get (g : Ext) (hg : g.Pos) (π : Equiv.Perm (Fin 4)) (fwd : Fin 4 → Bool) (s : BoxSite g) (ν : Fin 4) :
    (boxMap g hg π fwd s).1.get ν = (if fwd (π.symm ν) then s.1.get (π.symm ν) else -s.1.get (π.symm ν)) % g.get ν :=
  siteOf_get _ ν

theorem boxMap_inv (g : Ext) (hg : g.Pos) (π : Equiv.Perm (Fin 4)) (hπ : ∀ μ, g.get (π μ) = g.get μ) (fwd : Fin 4 → Bool)
    (s : BoxSite g) : boxMap g hg π.symm (fun ν => fwd (π.symm ν)) (boxMap g hg π fwd s) = s := by
  apply Subtype.ext
  apply Site.ext_get
  intro μ
  have h := s.2.get μ
  rw [boxMap_get, boxMap_get]
  simp only [Equiv.symm_symm, Equiv.symm_apply_apply, hπ]
  cases fwd μ
  · simp only [Bool.false_eq_true, if_false]
    have e : -(-s.1.get μ % g.get μ) ≡ s.1.get μ [ZMOD g.get μ] := by
      simpa using (Int.mod_modEq (-s.1.get μ) (g.get μ)).neg
    rw [e, Int.emod_eq_of_lt h.1 h.2]
  · simp only [if_true]
    rw [Int.emod_emod_of_dvd _ (dvd_refl _), Int.emod_eq_of_lt h.1 h.2]

/-- The symmetry of the lattice `g` which permutes axes of the same extent by `π` and reflects those with `fwd` not set. -/
def boxSymmetry (g : Ext) (hg : g.Pos) (π : Equiv.Perm (Fin 4)) (hπ : ∀ μ, g.get (π μ) = g.get μ) (fwd : Fin 4 → Bool) :
    LatticeSymmetry (boxTorus g hg) where
  map :=
    { toFun := boxMap g hg π fwd
      invFun := boxMap g hg π.symm fun ν => fwd (π.symm ν)
      left_inv := boxMap_inv g hg π hπ fwd
      right_inv := fun s => by
        have h := boxMap_inv g hg π.symm (fun μ => by rw [← hπ, Equiv.apply_symm_apply]) (fun ν => fwd (π.symm ν)) s
        simpa using h }
  axis := π
  fwd := fwd
  map_sup := by
    intro μ s
    apply Subtype.ext
    apply Site.ext_get
    intro ν
    change (boxMap g hg π fwd (boxSup g hg μ s)).1.get ν = ((boxTorus g hg).hop (π μ, fwd μ) (boxMap g hg π fwd s)).1.get ν
    rw [boxMap_get, boxSup_get]
    have hν : g.get (π.symm ν) = g.get ν := by rw [← hπ (π.symm ν), Equiv.apply_symm_apply]
    rw [hν]
    by_cases hμ : π μ = ν
    · have hμ' : μ = π.symm ν := by rw [Equiv.eq_symm_apply]; exact hμ
      rw [← hμ']
      cases h : fwd μ
      · change _ = (wrap g ((boxMap g hg π fwd s).1.add (deltaMinus (π μ)))).get ν
        rw [wrap_get, add_get, deltaMinus_get, boxMap_get, ← hμ', h, if_pos hμ, if_pos rfl]
        simp only [Bool.false_eq_true, if_false]
        have e1 : -((s.1.get μ + 1) % g.get ν) ≡ -(s.1.get μ + 1) [ZMOD g.get ν] := (Int.mod_modEq _ _).neg
        have e2 : -s.1.get μ % g.get ν + -1 ≡ -s.1.get μ + -1 [ZMOD g.get ν] := (Int.mod_modEq _ _).add_right _
        exact e1.trans ((show -(s.1.get μ + 1) = -s.1.get μ + -1 by ring) ▸ e2.symm)
      · change _ = (wrap g ((boxMap g hg π fwd s).1.add (deltaPlus (π μ)))).get ν
        rw [wrap_get, add_get, deltaPlus_get, boxMap_get, ← hμ', h, if_pos hμ, if_pos rfl]
        simp only [if_true]
        rw [Int.emod_emod_of_dvd _ (dvd_refl _), Int.emod_add_emod]
    · have hμ' : ¬ μ = π.symm ν := by rw [Equiv.eq_symm_apply]; exact hμ
      rw [if_neg hμ', add_zero, Int.emod_eq_of_lt (s.2.get (π.symm ν)).1 (hν ▸ (s.2.get (π.symm ν)).2)]
      have hr : ((boxTorus g hg).hop (π μ, fwd μ) (boxMap g hg π fwd s)).1.get ν = (boxMap g hg π fwd s).1.get ν := by
        have hb := (boxMap g hg π fwd s).2.get ν
        cases fwd μ
        · change (wrap g ((boxMap g hg π fwd s).1.add (deltaMinus (π μ)))).get ν = _
          rw [wrap_get, add_get, deltaMinus_get, if_neg hμ, add_zero, Int.emod_eq_of_lt hb.1 hb.2]
        · change (wrap g ((boxMap g hg π fwd s).1.add (deltaPlus (π μ)))).get ν = _
          rw [wrap_get, add_get, deltaPlus_get, if_neg hμ, add_zero, Int.emod_eq_of_lt hb.1 hb.2]
      rw [hr, boxMap_get]

/-- Translation by one site. -/
def translation {S : Type} (T : Torus S) (ρ : Fin 4) : LatticeSymmetry T where
  map := T.sup ρ
  axis := 1
  fwd := fun _ => true
  map_sup := fun μ s => T.comm ρ μ s

end Leonard
