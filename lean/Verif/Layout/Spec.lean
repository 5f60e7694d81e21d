import Verif.Layout.Model

/-!
# Specification vocabulary for the lattice geometry (independent of the code)
-/

set_option autoImplicit false

namespace Leonard

/-- A coordinate inside the lattice. -/
def InBox (g : Ext) (s : Site) : Prop :=
  (0 ≤ s.x ∧ s.x < g.x) ∧ (0 ≤ s.y ∧ s.y < g.y) ∧ (0 ≤ s.z ∧ s.z < g.z) ∧ (0 ≤ s.t ∧ s.t < g.t)

instance (g : Ext) (s : Site) : Decidable (InBox g s) := by unfold InBox; infer_instance

/-- All extents are at least one. -/
def Ext.Pos (g : Ext) : Prop := 0 < g.x ∧ 0 < g.y ∧ 0 < g.z ∧ 0 < g.t

instance (g : Ext) : Decidable g.Pos := by unfold Ext.Pos; infer_instance

/-- Wrapping a coordinate back into the lattice, the mathematical way. -/
def wrap (g : Ext) (s : Site) : Site := ⟨s.x % g.x, s.y % g.y, s.z % g.z, s.t % g.t⟩

end Leonard
