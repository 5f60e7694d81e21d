import Verif.Layout.Mpi

/-!
# Model of the halo exchange and of a distributed computation

Source: `/repo/source/MPILattice/Lattice.h` 132-191 (`communicateHalo`, `waitHalo`), 201-207 (`sup`, `sdn`).
MPI itself is represented by its matching rule for point-to-point messages (non-overtaking: between a
pair of processes a receive takes the earliest posted unmatched send carrying its tag); the data of
matched messages is moved word by word in an arbitrary order.
-/

set_option autoImplicit false

namespace Leonard

/-- `MPI_Isend(address, size, ..., destination, tag)`: Lattice.h 145-151. -/
structure SendReq where
  dest : ℤ
  tag : ℤ
  offset : ℤ
  size : ℤ
deriving DecidableEq, Repr

/-- `MPI_Irecv(address, size, ..., source, tag)`: Lattice.h 162-167. -/
structure RecvReq where
  source : ℤ
  tag : ℤ
  offset : ℤ
  size : ℤ
deriving DecidableEq, Repr

/-- The `(j, sharers[j])` pairs of the loop `for (j = 0; j < sharers.size(); ++j)`. -/
def indexed (l : List ℤ) : List (ℕ × ℤ) := (List.range l.length).zip l

/-- Lattice.h 143-156: the sends posted by rank `me`, in order. `tags i j` is `latticeChunks[i].tags[j]`. -/
def postedSends (L : RankLayout) (tags : ℕ → ℕ → ℤ) (me : ℤ) : List SendReq :=
  L.chunks.flatMap fun c =>
    if c.owner = me then
      (indexed c.sharers).map fun jr => ⟨jr.2, tags c.id jr.1, L.offsets c.id, c.size⟩
    else []

/-- Lattice.h 158-173: the receives posted by rank `me`, in order. -/
def postedRecvs (L : RankLayout) (tags : ℕ → ℕ → ℤ) (me : ℤ) : List RecvReq :=
  L.chunks.flatMap fun c =>
    if c.owner ≠ me then
      ((indexed c.sharers).filter fun jr => jr.2 = me).map fun jr => ⟨c.owner, tags c.id jr.1, L.offsets c.id, c.size⟩
    else []

/-- Remove the first send carrying `tag`. -/
def takeTag (tag : ℤ) : List SendReq → Option (SendReq × List SendReq)
  | [] => none
  | s :: l => if s.tag = tag then some (s, l) else (takeTag tag l).map fun x => (x.1, s :: x.2)

/-- MPI matching between one sender and one receiver; `none`: some request is never matched, so a
wait never returns. -/
def mpiMatch : List SendReq → List RecvReq → Option (List (SendReq × RecvReq))
  | [], [] => some []
  | _ :: _, [] => none
  | sends, r :: rs =>
    match takeTag r.tag sends with
    | none => none
    | some (s, rest) => (mpiMatch rest rs).map ((s, r) :: ·)

/-- A word copied from `(srcRank, srcSlot)` to `(dstRank, dstSlot)`. -/
structure Copy where
  dstRank : ℤ
  dstSlot : ℤ
  srcRank : ℤ
  srcSlot : ℤ
deriving DecidableEq, Repr

/-- The words of one matched message. (Both sides pass the size of the same chunk.) -/
def messageCopies (a b : ℤ) (m : SendReq × RecvReq) : List Copy :=
  (intRange m.1.size).map fun k => ⟨b, m.2.offset + k, a, m.1.offset + k⟩

/-- All words moved by one halo exchange among the ranks `0 .. n-1`. -/
def haloCopies (Lay : ℤ → RankLayout) (tags : ℕ → ℕ → ℤ) (n : ℤ) : Option (List Copy) :=
  ((((intRange n).flatMap fun a => (intRange n).map fun b => (a, b)).mapM fun ab : ℤ × ℤ =>
    (mpiMatch ((postedSends (Lay ab.1) tags ab.1).filter fun s => s.dest = ab.2)
      ((postedRecvs (Lay ab.2) tags ab.2).filter fun r => r.source = ab.1)).map fun ms =>
        ms.flatMap (messageCopies ab.1 ab.2))).map List.flatten

/-- The memories of all ranks: rank → slot → value (`localdata`). -/
abbrev Memories (α : Type) := ℤ → ℤ → α

/-- Move one word. -/
def Copy.exec {α : Type} (F : Memories α) (c : Copy) : Memories α :=
  fun r k => if r = c.dstRank ∧ k = c.dstSlot then F c.srcRank c.srcSlot else F r k

/-- `updateHalo` on all ranks: `F'` is reachable from `F` by moving the words in some order. -/
def HaloUpdate {α : Type} (Lay : ℤ → RankLayout) (tags : ℕ → ℕ → ℤ) (n : ℤ) (F F' : Memories α) : Prop :=
  ∃ copies, haloCopies Lay tags n = some copies ∧ ∃ ops : List Copy, ops.Perm copies ∧ F' = ops.foldl Copy.exec F

/-! ### Distributed and serial execution of a stencil rule -/

/-- One step along a direction: `(mu, true)` is `sup(·,mu)`, `(mu, false)` is `sdn(·,mu)`. -/
abbrev Step := Fin 4 × Bool

/-- Following the neighbour tables of a rank (Lattice.h 201-207) from a slot; `none`: an index that was never
filled or the absent marker `-1`. -/
def followRank (T : RankTables) : ℤ → List Step → Option ℤ
  | k, [] => if k < 0 then none else some k
  | k, (mu, up) :: rest => do
    let e ← if up then T.sup k else T.down k
    followRank T (e mu) rest

/-- One site update on a rank: coordinates of the slot and the values found along the paths. -/
def rankRule {α : Type} (T : RankTables) (rule : Site → List α → α) (paths : List (List Step)) (mem : ℤ → α) (k : ℤ) :
    Option α := do
  let s ← T.coord k
  let ks ← paths.mapM fun p => followRank T k p
  return rule s (ks.map mem)

/-- One sweep of the distributed program: every rank updates its owned slots reading the old field; the
halo of the new field is arbitrary; then the halo is updated. -/
def DistStep {α : Type} (g p loc : Ext) (stencil : List Site) (Lay : ℤ → RankLayout) (tags : ℕ → ℕ → ℤ) (n : ℤ)
    (rule : Site → List α → α) (paths : List (List Step)) (F F' : Memories α) : Prop :=
  ∃ M : Memories α,
    (∀ r, 0 ≤ r → r < n → ∀ k, 0 ≤ k → k < (Lay r).localsize →
      rankRule (rankTables g (sharedOf g p loc stencil) (Lay r)) rule paths (F r) k = some (M r k)) ∧
    HaloUpdate Lay tags n M F'

end Leonard
