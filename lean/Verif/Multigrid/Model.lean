/-
The multigrid coarse space: blocks, block basis, restriction, prolongation and coarse operator.

Modelled source: `/repo/source/multigrid/{MultiGridVectorLayout,BlockBasis,MultiGridProjector,MultiGridOperator}.cpp`,
`/repo/source/multigrid/MultiGridVector.h`.

The sites of all processes are the points of a type `P`; `rank p` is the process a site belongs to, `idx p` its entry in `blockIndex`.  A
vector is a function `P → κ → ℂ`, `κ` labels spin and colour.  Every process has its own coarse vector, an array of complex numbers.
Arithmetic is exact; a division by zero, which gives NaN in the program, is `none`.  Copies of sites of neighbouring processes (the halo) are
not part of the vectors (C05, C06).
-/
import Verif.Layout.Model
import Mathlib.Analysis.Complex.Basic
import Mathlib.Data.Real.Sqrt

set_option autoImplicit false

namespace Leonard

/-! ### The blocks -/

/-- The number of blocks in one direction, `MultiGridVectorLayout.cpp:23-26`. -/
def mgCount (l b : ℤ) : ℤ := l / b + if l % b ≠ 0 then 1 else 0

/-- `numberBX, numberBY, numberBZ, numberBT`. -/
def mgBlocks (loc b : Ext) : Ext := ⟨mgCount loc.x b.x, mgCount loc.y b.y, mgCount loc.z b.z, mgCount loc.t b.t⟩

/-- `totalNumberOfBlocks`, `MultiGridVectorLayout.cpp:32`. -/
def mgTotal (loc b : Ext) : ℤ := (mgBlocks loc b).x * (mgBlocks loc b).y * (mgBlocks loc b).z * (mgBlocks loc b).t

/-- The entry of `blockIndex` for a site with global coordinates `s`, `MultiGridVectorLayout.cpp:37-44`: `loc` are the extents of one
process, `b` the sizes of a block (not zero: the program divides by them). -/
def mgIndex (loc b : Ext) (s : Site) : ℤ :=
  let x := (s.x % loc.x) / b.x
  let y := (s.y % loc.y) / b.y
  let z := (s.z % loc.z) / b.z
  let t := (s.t % loc.t) / b.t
  (mgBlocks loc b).t * ((mgBlocks loc b).z * ((mgBlocks loc b).y * x + y) + z) + t

noncomputable section

variable {P κ R B : Type} [Fintype P] [Fintype κ] [DecidableEq R] [DecidableEq B]

/-! ### The block basis -/

/-- `proj[b] = Σ conj(w) v` over the sites of block `b`, `BlockBasis.cpp:141-166` (the threads add up disjoint sets of sites; see
`mgRestrict` for a loop with threads). -/
def blockDot (blk : P → B) (w v : P → κ → ℂ) (b : B) : ℂ :=
  ∑ p, if blk p = b then ∑ k, starRingEnd ℂ (w p k) * v p k else 0

/-- `v -= proj[block]*w`, `BlockBasis.cpp:168-173`. -/
def blockProject (blk : P → B) (v w : P → κ → ℂ) : P → κ → ℂ := fun p k => v p k - blockDot blk w v (blk p) * w p k

/-- `v = v/norm[block]`, `BlockBasis.cpp:176-206`; `none` if a block of the vector is zero. -/
def blockNormalize (blk : P → B) (v : P → κ → ℂ) : Option (P → κ → ℂ) :=
  open Classical in
  if ∃ p, (blockDot blk v v (blk p)).re = 0 then none
  else some fun p k => v p k / ((Real.sqrt (blockDot blk v v (blk p)).re : ℝ) : ℂ)

/-- The loop over the vectors: `done` are the vectors treated before, `BlockBasis.cpp:140-211`.  With one block for the whole lattice it is the
first loop, lines 124-137. -/
def blockGramSchmidt (blk : P → B) : List (P → κ → ℂ) → List (P → κ → ℂ) → Option (List (P → κ → ℂ))
  | done, [] => some done
  | done, v :: rest =>
    (blockNormalize blk (done.foldl (blockProject blk) v)).bind fun u => blockGramSchmidt blk (done ++ [u]) rest

/-- `BlockBasis::orthogonalize()`, `BlockBasis.cpp:115-212`, when the dimension of the layout is that of the basis (see C38 for the other
case). -/
def basisOrthogonalize (rank : P → R) (idx : P → ℕ) (vs : List (P → κ → ℂ)) : Option (List (P → κ → ℂ)) :=
  (blockGramSchmidt (fun _ => ()) [] vs).bind (blockGramSchmidt (fun p => (rank p, idx p)) [])

/-- The loop over `j` of `orthogonalize(int index)`, `BlockBasis.cpp:57-112`: the vector `index` (here `v`) is made orthogonal to the other
vectors one after the other; it is normalised in every step, also in the step `j = index` (`none` in the list). -/
def blockOrthoOne (blk : P → B) : List (Option (P → κ → ℂ)) → (P → κ → ℂ) → Option (P → κ → ℂ)
  | [], v => some v
  | w :: ws, v => (blockNormalize blk (w.elim v (blockProject blk v))).bind (blockOrthoOne blk ws)

/-- `BlockBasis::orthogonalize(int index)`, `BlockBasis.cpp:34-113`: first with the whole lattice as one block (normalised once, at the end), then
block by block. -/
def basisOrthogonalizeOne (rank : P → R) (idx : P → ℕ) (vs : List (P → κ → ℂ)) (i : ℕ) (v : P → κ → ℂ) : Option (P → κ → ℂ) :=
  let others := vs.mapIdx fun j w => if j = i then none else some w
  (blockNormalize (fun _ => ()) (others.foldl (fun v w => w.elim v (blockProject (fun _ => ()) v)) v)).bind
    (blockOrthoOne (fun p => (rank p, idx p)) others)

/-! ### Restriction, prolongation and the coarse operator -/

/-- `proj[j][processor]`, `MultiGridProjector.cpp:30-42`: what one thread of process `r` adds up.  `thread p` is the thread that treats the
site. -/
def mgProj (rank : P → R) (idx thread : P → ℕ) (w x : P → κ → ℂ) (r : R) (j processor : ℕ) : ℂ :=
  ∑ p, if rank p = r ∧ idx p = j ∧ thread p = processor then ∑ k, starRingEnd ℂ (w p k) * x p k else 0

/-- `MultiGridProjector::apply(multigrid_vector_t&, const reduced_dirac_vector_t&)`, `MultiGridProjector.cpp:8-51`, with `n` blocks, `basis` of
dimension `d` and `threads` threads: the array starts as zero, then the sums of the threads are added up. -/
def mgRestrict (rank : P → R) (idx thread : P → ℕ) (n d threads : ℕ) (basis : ℕ → P → κ → ℂ) (x : P → κ → ℂ) (r : R) : ℕ → ℂ :=
  (List.range d).foldl (fun out i => (List.range threads).foldl (fun out k => (List.range n).foldl (fun out j =>
    Function.update out (i * n + j) (out (i * n + j) + mgProj rank idx thread (basis i) x r j k)) out) out) fun _ => 0

/-- `MultiGridProjector::apply(reduced_dirac_vector_t&, const multigrid_vector_t&)`, `MultiGridProjector.cpp:53-65`, with
`input(i,site) = data[n*i + index(site)]` (`MultiGridVector.h:38-44`). -/
def mgProlong (rank : P → R) (idx : P → ℕ) (n d : ℕ) (basis : ℕ → P → κ → ℂ) (c : R → ℕ → ℂ) : P → κ → ℂ :=
  (List.range d).foldl (fun out i => fun p k => out p k + c (rank p) (n * i + idx p) * basis i p k) fun _ _ => 0

/-- `MultiGridOperator::multiply`, `MultiGridOperator.cpp:8-66`: the code of the two functions above around `dirac->multiply`. -/
def mgMultiply (rank : P → R) (idx thread : P → ℕ) (n d threads : ℕ) (basis : ℕ → P → κ → ℂ) (D : (P → κ → ℂ) → P → κ → ℂ)
    (c : R → ℕ → ℂ) : R → ℕ → ℂ :=
  mgRestrict rank idx thread n d threads basis (D (mgProlong rank idx n d basis c))

/-- `MultiGridOperator::multiplyAdd`, `MultiGridOperator.cpp:68-122`, with `dirac->multiplyAdd(out, in, in, α)` the map `D + α`. -/
def mgMultiplyAdd (rank : P → R) (idx thread : P → ℕ) (n d threads : ℕ) (basis : ℕ → P → κ → ℂ) (D : ℂ → (P → κ → ℂ) → P → κ → ℂ)
    (c : R → ℕ → ℂ) (α : ℂ) : R → ℕ → ℂ :=
  mgRestrict rank idx thread n d threads basis (D α (mgProlong rank idx n d basis c))

end

end Leonard
