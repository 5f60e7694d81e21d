import Verif.Layout.Model

/-!
# Model of the MPI layout: start-up checks, ownership, sharing, chunks, local numbering

Source: `/repo/source/MPILattice/MPILayout.h` 53-376, the stencil headers, `Lattice.h` 132-191.
The processes of the communicator are `0 .. sizeCommunicator-1`; every process executes `initialize`
with the same global parameters, only `this_processor` differs.
-/

set_option autoImplicit false

namespace Leonard

/-- Outcome of the start-up checks: program exit with a code, or success with the local extents. -/
inductive StartUp where
  | exit (code : ℕ)
  | ok (loc : Ext)
deriving DecidableEq, Repr

/-- MPILayout.h 54 and 63-97: the checks at the head of `initialize` (the same checks open `load`, 621-660).
The extents and the grid come from `unsigned int` options, so `/` and `%` act on non-negative numbers;
a zero grid extent is caught by the first test because `sizeCommunicator ≥ 1`. -/
def startUp (g p : Ext) (sizeCommunicator : ℤ) : StartUp :=
  let numberProcessors := p.x * p.y * p.z * p.t
  if sizeCommunicator ≠ numberProcessors then .exit 1
  else
    let loc : Ext := ⟨g.x / p.x, g.y / p.y, g.z / p.z, g.t / p.t⟩
    if g.x % p.x ≠ 0 then .exit 3
    else if g.y % p.y ≠ 0 then .exit 3
    else if g.z % p.z ≠ 0 then .exit 3
    else if g.t % p.t ≠ 0 then .exit 3
    else .ok loc

/-- The processor number of a site: MPILayout.h 106-109 and `rankTable`, 479-485. -/
def rankOf (p loc : Ext) (s : Site) : ℤ :=
  let processor := s.x / loc.x
  let processor := p.y * processor + s.y / loc.y
  let processor := p.z * processor + s.z / loc.z
  let processor := p.t * processor + s.t / loc.t
  processor

/-- `getGlobalCoordinate` as used by `initialize`. The divergence of `modulus` (possible only for an
extent `≤ 0`, see `globalCoordinateMpi_eq`) is mapped to `-1`. -/
def gidx (g : Ext) (s : Site) : ℤ :=
  match globalCoordinateMpi g s with
  | some i => i
  | none => -1

/-- `processorNumberLattice`, MPILayout.h 101-110. -/
def processorNumberLattice (g p loc : Ext) : Mem ℤ :=
  (loopSites g).foldl (fun m s => m.write (gidx g s) (rankOf p loc s)) Mem.empty

/-- `globalMapSite`, MPILayout.h 111. -/
def globalMapSite (g : Ext) : Mem Site :=
  (loopSites g).foldl (fun m s => m.write (gidx g s) s) Mem.empty

/-- `exchangeTable[i].push_back(v)`. -/
def pushAt (m : ℤ → List ℤ) (i v : ℤ) : ℤ → List ℤ := fun j => if j = i then m j ++ [v] else m j

/-- The loop filling `exchangeTable`, MPILayout.h 121-136 (the message "Fatal error in exchangeTable" of
line 130 is only printed and has no effect). -/
def exchangeTableRaw (g p loc : Ext) (stencil : List Site) : ℤ → List ℤ :=
  (loopSites g).foldl (fun m s =>
    stencil.foldl (fun m d =>
      let index := gidx g s
      let shiftedIndex := gidx g (s.add d)
      if processorNumberLattice g p loc index ≠ processorNumberLattice g p loc shiftedIndex then
        match processorNumberLattice g p loc index with
        | some r => pushAt m shiftedIndex r
        | none => m
      else m) m) (fun _ => [])

/-- `std::unique` + `erase`: drop elements equal to their predecessor. -/
def uniqueConsecutive : List ℤ → List ℤ
  | [] => []
  | [a] => [a]
  | a :: b :: l => if a = b then uniqueConsecutive (b :: l) else a :: uniqueConsecutive (b :: l)

/-- MPILayout.h 139-143: sort and drop duplicates. -/
def sortUnique (l : List ℤ) : List ℤ := uniqueConsecutive (l.mergeSort (· ≤ ·))

/-! ### The rest of `initialize` only sees: the volume, the owner of each site, the sharers of each site -/

/-- What the second half of `initialize` reads. -/
structure Shared where
  /-- `globalVolume` -/
  vol : ℤ
  /-- `processorNumberLattice` -/
  owner : ℤ → ℤ
  /-- `exchangeTable` after sorting -/
  exch : ℤ → List ℤ

/-- The tables handed to the second half of `initialize`. Reading `processorNumberLattice` at an index that no loop wrote is
mapped to `-1`; by `owner_eq` every index in `[0,V)` is written. -/
def sharedOf (g p loc : Ext) (stencil : List Site) : Shared where
  vol := g.volume
  owner := fun i => match processorNumberLattice g p loc i with
    | some r => r
    | none => -1
  exch := fun i => sortUnique (exchangeTableRaw g p loc stencil i)

/-- `Update::toString` of an `int` (utils/ToString.h, through an output stream): decimal digits, with a sign
if negative. -/
def decInt : ℤ → List Char
  | Int.ofNat n => Nat.toDigits 10 n
  | Int.negSucc n => '-' :: Nat.toDigits 10 (n + 1)

/-- The identification string of a site, MPILayout.h 155-162: owner, sharers and number of sharers separated by dots. -/
def idString (S : Shared) (site : ℤ) : List Char :=
  ((S.exch site).foldl (fun id e => id ++ '.' :: decInt e) (decInt (S.owner site)))
    ++ '.' :: decInt (S.exch site).length

/-- The inner scan of MPILayout.h 164-170: the last `i` with `ids[i] == id`, if any. -/
def findId (ids : List (List Char)) (id : List Char) : Option ℕ :=
  (List.range ids.length).foldl (fun found i => if ids[i]? = some id then some i else found) none

/-- The numbering loop, MPILayout.h 152-175. -/
def numberIds (S : Shared) : List (List Char) × Mem ℕ :=
  (intRange S.vol).foldl (fun (ids, idLattice) site =>
    match findId ids (idString S site) with
    | some i => (ids, idLattice.write site i)
    | none => (ids ++ [idString S site], idLattice.write site ids.length)) ([], Mem.empty)

/-- `LatticeChunk`, LatticeChunk.h 6-15 (offset and tags are computed later). -/
structure Chunk where
  id : ℕ
  owner : ℤ
  size : ℤ
  sharers : List ℤ
deriving DecidableEq, Repr

/-- MPILayout.h 178-184: chunks before counting. -/
def emptyChunks (n : ℕ) : List Chunk := (List.range n).map fun i => ⟨i, -1, 0, []⟩

/-- MPILayout.h 192-199: size, owner and sharers of each chunk. -/
def buildChunks (S : Shared) : List Chunk :=
  (intRange S.vol).foldl (fun cs site =>
    match (numberIds S).2 site with
    | some i => cs.modify i fun c => { c with size := c.size + 1, owner := S.owner site, sharers := S.exch site }
    | none => cs) (emptyChunks (numberIds S).1.length)

/-- MPILayout.h 204-213: `completesize`. -/
def completesizeOf (cs : List Chunk) (me localsize : ℤ) : ℤ :=
  cs.foldl (fun n c => c.sharers.foldl (fun n r => if r = me then n + c.size else n) n) localsize

/-- The state of the numbering passes. `localIndex` starts at `-1` everywhere (235), `offsets` at `-1` (242). -/
structure Numbering where
  offset : ℤ
  index : ℤ
  sharedsize : ℤ
  localIndex : ℤ → ℤ
  offsets : ℕ → ℤ

/-- State before the passes, MPILayout.h 205, 233-238, 242. -/
def Numbering.init : Numbering := ⟨0, 0, 0, fun _ => -1, fun _ => -1⟩

/-- The body shared by the three passes: record the offset, advance it, number the sites of the
chunk in increasing order (245-252, 259-266, 280-287). -/
def place (S : Shared) (st : Numbering) (c : Chunk) : Numbering :=
  let st := { st with offsets := fun i => if i = c.id then st.offset else st.offsets i, offset := st.offset + c.size }
  (intRange S.vol).foldl (fun st site =>
    if (numberIds S).2 site = some c.id then
      { st with localIndex := fun j => if j = site then st.index else st.localIndex j, index := st.index + 1 }
    else st) st

/-- First pass, MPILayout.h 241-254: owned and shared chunks. -/
def pass1 (S : Shared) (me : ℤ) (cs : List Chunk) (st : Numbering) : Numbering :=
  cs.foldl (fun st c =>
    if c.owner = me ∧ c.sharers.length ≠ 0 then place S { st with sharedsize := st.sharedsize + c.size } c else st) st

/-- Second pass, MPILayout.h 257-268: owned chunks nobody else reads. -/
def pass2 (S : Shared) (me : ℤ) (cs : List Chunk) (st : Numbering) : Numbering :=
  cs.foldl (fun st c => if c.owner = me ∧ c.sharers.length = 0 then place S st c else st) st

/-- Third pass, MPILayout.h 277-290: chunks of other ranks this rank reads. -/
def pass3 (S : Shared) (me : ℤ) (cs : List Chunk) (st : Numbering) : Numbering :=
  cs.foldl (fun st c => c.sharers.foldl (fun st r => if r = me then place S st c else st) st) st

/-- What `initialize` leaves on one rank. -/
structure RankLayout where
  chunks : List Chunk
  localsize : ℤ
  sharedsize : ℤ
  completesize : ℤ
  localIndex : ℤ → ℤ
  offsets : ℕ → ℤ

/-- Result of `initialize`: `exit(7)` if a size check on rank 0 fails (271-274, 293-296). -/
inductive InitResult where
  | exit (code : ℕ)
  | ok (L : RankLayout)

/-- MPILayout.h 177-296 on rank `me`. -/
def numberRank (S : Shared) (localsize me : ℤ) : InitResult :=
  let cs := buildChunks S
  let completesize := completesizeOf cs me localsize
  let st := pass2 S me cs (pass1 S me cs Numbering.init)
  if st.offset ≠ localsize ∧ me = 0 then .exit 7
  else
    let st := pass3 S me cs st
    if st.offset ≠ completesize ∧ me = 0 then .exit 7
    else .ok ⟨cs, localsize, st.sharedsize, completesize, st.localIndex, st.offsets⟩

/-- `global_sup_table[index][i]` / `global_down_table[index][i]`, MPILayout.h 305-342. -/
def globalStep (g : Ext) (delta : Fin 4 → Site) : Mem (Fin 4 → ℤ) :=
  (loopSites g).foldl (fun m s => m.write (gidx g s) fun i => gidx g (s.add (delta i))) Mem.empty

/-- The table-filling loop of MPILayout.h 348-363 for one table: for each chunk stored here, for each
of its sites, `table[localIndex[site]] = f(site)`. -/
def fillTable {α : Type} (S : Shared) (L : RankLayout) (f : ℤ → Option α) : Mem α :=
  L.chunks.foldl (fun m c =>
    if L.offsets c.id ≠ -1 then
      (intRange S.vol).foldl (fun m site =>
        if (numberIds S).2 site = some c.id then
          match f site with
          | some v => m.write (L.localIndex site) v
          | none => m
        else m) m
    else m) Mem.empty

/-- The neighbour tables and coordinates of one rank, MPILayout.h 345-363. An entry `-1` marks an
absent neighbour. -/
structure RankTables where
  sup : Mem (Fin 4 → ℤ)
  down : Mem (Fin 4 → ℤ)
  coord : Mem Site

/-- MPILayout.h 345-363. -/
def rankTables (g : Ext) (S : Shared) (L : RankLayout) : RankTables where
  sup := fillTable S L fun site => (globalStep g deltaPlus site).map fun e i => L.localIndex (e i)
  down := fillTable S L fun site => (globalStep g deltaMinus site).map fun e i => L.localIndex (e i)
  coord := fillTable S L fun site => globalMapSite g site

/-- The whole of `initialize` on rank `me` (MPILayout.h 53-376). -/
def mpiInitialize (g p : Ext) (stencil : List Site) (sizeCommunicator me : ℤ) :
    InitResult :=
  match startUp g p sizeCommunicator with
  | .exit c => .exit c
  | .ok loc => numberRank (sharedOf g p loc stencil) (loc.x * loc.y * loc.z * loc.t) me

/-! ### Message tags -/

/-- One entry of the tag computation, MPILayout.h 219: the second component is
`latticeChunks[j].sharers[j]` (index `j` twice); `none` is an access outside one of the vectors. -/
def tagKey (cs : List Chunk) (c : Chunk) (j : ℕ) : Option (ℤ × ℤ) := do
  let cj ← cs[j]?
  let r ← cj.sharers[j]?
  return (c.owner, r)

/-- The tag loop, MPILayout.h 216-229: per chunk the list of tags; `none` if an access is out of range. -/
def computeTags (cs : List Chunk) : Option (List (List ℤ)) :=
  let step := fun (bridge : List ((ℤ × ℤ) × ℤ)) (c : Chunk) =>
    (List.range c.sharers.length).foldlM (fun (st : List ((ℤ × ℤ) × ℤ) × List ℤ) j => do
      let pr ← tagKey cs c j
      match st.1.lookup pr with
      | some v => return ((pr, v + 1) :: st.1, st.2 ++ [v + 1])
      | none => return ((pr, 0) :: st.1, st.2 ++ [0])) (bridge, [])
  Option.map Prod.snd (cs.foldlM (fun (st : List ((ℤ × ℤ) × ℤ) × List (List ℤ)) c => do
    let r ← step st.1 c
    return (r.1, st.2 ++ [r.2])) ([], []))

/-! ### Stencils -/

/-- ReducedStencil.h 15-25. -/
def reducedStencil : List Site :=
  [⟨1,0,0,0⟩, ⟨0,1,0,0⟩, ⟨0,0,1,0⟩, ⟨0,0,0,1⟩, ⟨-1,0,0,0⟩, ⟨0,-1,0,0⟩, ⟨0,0,-1,0⟩, ⟨0,0,0,-1⟩]

/-- ReducedUpStencil.h 15-21. -/
def reducedUpStencil : List Site := [⟨1,0,0,0⟩, ⟨0,1,0,0⟩, ⟨0,0,1,0⟩, ⟨0,0,0,1⟩]

/-- ReducedDownStencil.h 15-21. -/
def reducedDownStencil : List Site := [⟨-1,0,0,0⟩, ⟨0,-1,0,0⟩, ⟨0,0,-1,0⟩, ⟨0,0,0,-1⟩]

/-- StandardStencil.h 15-41. -/
def standardStencil : List Site :=
  let dx : Site := ⟨1,0,0,0⟩
  let dy : Site := ⟨0,1,0,0⟩
  let dz : Site := ⟨0,0,1,0⟩
  let dt : Site := ⟨0,0,0,1⟩
  [dx, dy, dz, dt, dx.neg, dy.neg, dz.neg, dt.neg,
   dx.sub dy, dx.sub dz, dx.sub dt, dy.sub dx, dy.sub dz, dy.sub dt,
   dz.sub dx, dz.sub dy, dz.sub dt, dt.sub dx, dt.sub dy, dt.sub dz]

/-- ExtendedStencil.h 15-131 (the duplicated entries of lines 56-66 are kept). -/
def extendedStencil : List Site :=
  [⟨1,0,0,0⟩, ⟨0,1,0,0⟩, ⟨0,0,1,0⟩, ⟨0,0,0,1⟩, ⟨-1,0,0,0⟩, ⟨0,-1,0,0⟩, ⟨0,0,-1,0⟩, ⟨0,0,0,-1⟩,
   ⟨2,0,0,0⟩, ⟨0,2,0,0⟩, ⟨0,0,2,0⟩, ⟨0,0,0,2⟩, ⟨-2,0,0,0⟩, ⟨0,-2,0,0⟩, ⟨0,0,-2,0⟩, ⟨0,0,0,-2⟩,
   ⟨1,-1,0,0⟩, ⟨1,0,-1,0⟩, ⟨1,0,0,-1⟩, ⟨-1,1,0,0⟩, ⟨0,1,-1,0⟩, ⟨0,1,0,-1⟩,
   ⟨-1,0,1,0⟩, ⟨0,-1,1,0⟩, ⟨0,0,1,-1⟩, ⟨-1,0,0,1⟩, ⟨0,-1,0,1⟩, ⟨0,0,-1,1⟩,
   ⟨1,1,0,0⟩, ⟨1,0,1,0⟩, ⟨1,0,0,1⟩, ⟨1,1,0,0⟩, ⟨0,1,1,0⟩, ⟨0,1,0,1⟩,
   ⟨1,0,1,0⟩, ⟨0,1,1,0⟩, ⟨0,0,1,1⟩, ⟨1,0,0,1⟩, ⟨0,1,0,1⟩, ⟨0,0,1,1⟩,
   ⟨2,-1,0,0⟩, ⟨2,0,-1,0⟩, ⟨2,0,0,-1⟩, ⟨-1,2,0,0⟩, ⟨0,2,-1,0⟩, ⟨0,2,0,-1⟩,
   ⟨-1,0,2,0⟩, ⟨0,-1,2,0⟩, ⟨0,0,2,-1⟩, ⟨-1,0,0,2⟩, ⟨0,-1,0,2⟩, ⟨0,0,-1,2⟩,
   ⟨2,1,0,0⟩, ⟨2,0,1,0⟩, ⟨2,0,0,1⟩, ⟨1,2,0,0⟩, ⟨0,2,1,0⟩, ⟨0,2,0,1⟩,
   ⟨1,0,2,0⟩, ⟨0,1,2,0⟩, ⟨0,0,2,1⟩, ⟨1,0,0,2⟩, ⟨0,1,0,2⟩, ⟨0,0,1,2⟩,
   ⟨-2,1,0,0⟩, ⟨-2,0,1,0⟩, ⟨-2,0,0,1⟩, ⟨1,-2,0,0⟩, ⟨0,-2,1,0⟩, ⟨0,-2,0,1⟩,
   ⟨1,0,-2,0⟩, ⟨0,1,-2,0⟩, ⟨0,0,-2,1⟩, ⟨1,0,0,-2⟩, ⟨0,1,0,-2⟩, ⟨0,0,1,-2⟩,
   ⟨-2,-1,0,0⟩, ⟨-2,0,-1,0⟩, ⟨-2,0,0,-1⟩, ⟨-1,-2,0,0⟩, ⟨0,-2,-1,0⟩, ⟨0,-2,0,-1⟩,
   ⟨-1,0,-2,0⟩, ⟨0,-1,-2,0⟩, ⟨0,0,-2,-1⟩, ⟨-1,0,0,-2⟩, ⟨0,-1,0,-2⟩, ⟨0,0,-1,-2⟩]

end Leonard
