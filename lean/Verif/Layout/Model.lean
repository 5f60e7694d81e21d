import Mathlib.Data.Int.ModEq
import Mathlib.Data.List.Nodup
import Mathlib.Tactic.Ring
import Mathlib.Tactic.Linarith

/-!
# Model of the lattice numbering and of the neighbour tables

Sources: `/repo/source/MPILattice/Site.h`, `LocalLayout.h`, `MPILayout.h`.
`int` is modelled by `ℤ` (no overflow); see `index_no_overflow` in `Props.lean` for the bound on all
intermediate values.
-/

set_option autoImplicit false

namespace Leonard

/-- `Lattice::Site`, Site.h 6-25: four integer coordinates. -/
structure Site where
  x : ℤ
  y : ℤ
  z : ℤ
  t : ℤ
deriving DecidableEq, Repr

/-- `Site::operator+`, Site.h 12-14. -/
def Site.add (a b : Site) : Site := ⟨a.x + b.x, a.y + b.y, a.z + b.z, a.t + b.t⟩

/-- `Site::operator-()`, Site.h 18-20. -/
def Site.neg (a : Site) : Site := ⟨-a.x, -a.y, -a.z, -a.t⟩

/-- `Site::operator-(const Site&)`, Site.h 15-17. -/
def Site.sub (a b : Site) : Site := ⟨a.x - b.x, a.y - b.y, a.z - b.z, a.t - b.t⟩

/-- The four extents `glob_x, glob_y, glob_z, glob_t` (LocalLayout.h 19-22, MPILayout.h 38-41). The
same record is used for the processor grid `pgrid_*` and for the local extents `loc_*`. -/
structure Ext where
  x : ℤ
  y : ℤ
  z : ℤ
  t : ℤ
deriving DecidableEq, Repr

/-- The array `glob[4]` (LocalLayout.h 40-43): extents in the order x, y, z, t. -/
def Ext.dir (g : Ext) : Fin 4 → ℤ
  | 0 => g.x
  | 1 => g.y
  | 2 => g.z
  | 3 => g.t

/-- `globalIndex(site, mu)` reads the `mu`-th `int` of the `Site` (LocalLayout.h 141-143): order x, y, z, t. -/
def Site.dir (s : Site) : Fin 4 → ℤ
  | 0 => s.x
  | 1 => s.y
  | 2 => s.z
  | 3 => s.t

/-- `globalVolume = glob_x*glob_y*glob_z*glob_t` (LocalLayout.h 37, MPILayout.h 55). -/
def Ext.volume (g : Ext) : ℤ := g.x * g.y * g.z * g.t

/-- `LocalLayout::modulus`, LocalLayout.h 165-170: wraps at most once. -/
def modulusLocal (value mod : ℤ) : ℤ :=
  if value ≥ mod then value - mod else if value < 0 then value + mod else value

/-- `MpiLayout::modulus`, MPILayout.h 801-806: wraps recursively. `none` is divergence (the C++
recursion does not end, e.g. for `mod = 0`). -/
def modulusMpi (value mod : ℤ) : Option ℤ :=
  if value ≥ mod then modulusMpi (value - mod) mod
  else if value < 0 then modulusMpi (value + mod) mod
  else some value
partial_fixpoint

/-- The last line of `getGlobalCoordinate` (LocalLayout.h 154 and 162, MPILayout.h 468 and 476):
`glob_t*(glob_z*(glob_y*x + y) + z) + t`. -/
def rawIndex (g : Ext) (s : Site) : ℤ := g.t * (g.z * (g.y * s.x + s.y) + s.z) + s.t

/-- `LocalLayout::getGlobalCoordinate`, LocalLayout.h 149-163. -/
def globalCoordinateLocal (g : Ext) (s : Site) : ℤ :=
  rawIndex g ⟨modulusLocal s.x g.x, modulusLocal s.y g.y, modulusLocal s.z g.z, modulusLocal s.t g.t⟩

/-- `MpiLayout::getGlobalCoordinate`, MPILayout.h 463-477; `none` when one of the wraps diverges. -/
def globalCoordinateMpi (g : Ext) (s : Site) : Option ℤ := do
  let x ← modulusMpi s.x g.x
  let y ← modulusMpi s.y g.y
  let z ← modulusMpi s.z g.z
  let t ← modulusMpi s.t g.t
  return rawIndex g ⟨x, y, z, t⟩

/-- The values taken by `for (int i = 0; i < n; ++i)`, in order. -/
def intRange (n : ℤ) : List ℤ := (List.range n.toNat).map Int.ofNat

/-- The order in which the four nested loops `for x, for y, for z, for t` visit the sites
(LocalLayout.h 71-75, 93-97; MPILayout.h 101-105, 122-127, 307-311, 330-334). -/
def loopSites (g : Ext) : List Site :=
  (intRange g.x).flatMap fun x => (intRange g.y).flatMap fun y =>
    (intRange g.z).flatMap fun z => (intRange g.t).map fun t => ⟨x, y, z, t⟩

/-- A heap array: `none` is memory that was never written (uninitialised or out of range). -/
abbrev Mem (α : Type) := ℤ → Option α

/-- Array element assignment. -/
def Mem.write {α : Type} (m : Mem α) (i : ℤ) (v : α) : Mem α := fun j => if j = i then some v else m j

/-- Array right after `new`: nothing written. -/
def Mem.empty {α : Type} : Mem α := fun _ => none

/-- `deltaPlus` (LocalLayout.h 65-69, MPILayout.h 299-303). -/
def deltaPlus : Fin 4 → Site
  | 0 => ⟨1, 0, 0, 0⟩
  | 1 => ⟨0, 1, 0, 0⟩
  | 2 => ⟨0, 0, 1, 0⟩
  | 3 => ⟨0, 0, 0, 1⟩

/-- `deltaMinus` (LocalLayout.h 87-91, MPILayout.h 322-326). -/
def deltaMinus : Fin 4 → Site
  | 0 => ⟨-1, 0, 0, 0⟩
  | 1 => ⟨0, -1, 0, 0⟩
  | 2 => ⟨0, 0, -1, 0⟩
  | 3 => ⟨0, 0, 0, -1⟩

/-- The tables filled by `LocalLayout::initialize`, LocalLayout.h 34-110. -/
structure LocalTables where
  sup : Mem (Fin 4 → ℤ)
  down : Mem (Fin 4 → ℤ)
  coord : Mem Site
  localIndex : Mem ℤ

/-- `LocalLayout::initialize`, LocalLayout.h 59-108: the table-filling loops. (`coord` is allocated with
the default constructor of `Site`; here, as for the others, an entry no loop assigns is `none`.) -/
def localInitialize (g : Ext) : LocalTables where
  sup := (loopSites g).foldl
    (fun m s => m.write (globalCoordinateLocal g s) fun i => globalCoordinateLocal g (s.add (deltaPlus i)))
    Mem.empty
  down := (loopSites g).foldl
    (fun m s => m.write (globalCoordinateLocal g s) fun i => globalCoordinateLocal g (s.add (deltaMinus i)))
    Mem.empty
  coord := (loopSites g).foldl (fun m s => m.write (globalCoordinateLocal g s) s) Mem.empty
  localIndex := (intRange g.volume).foldl (fun m s => m.write s s) Mem.empty

/-- `Lattice::sup(site, mu)`, Lattice.h 201-203; `none`: the entry does not exist or was never written. -/
def LocalTables.supAt (T : LocalTables) (site : ℤ) (mu : Fin 4) : Option ℤ := (T.sup site).map (· mu)

/-- `Lattice::sdn(site, mu)`, Lattice.h 205-207. -/
def LocalTables.sdnAt (T : LocalTables) (site : ℤ) (mu : Fin 4) : Option ℤ := (T.down site).map (· mu)

/-- `globalIndex(site, mu)` and `globalIndexX/Y/Z/T(site)`, LocalLayout.h 125-143. -/
def LocalTables.globalIndex (T : LocalTables) (site : ℤ) (mu : Fin 4) : Option ℤ := (T.coord site).map (·.dir mu)

end Leonard
