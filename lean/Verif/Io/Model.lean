import Verif.Layout.Mpi
import Verif.Layout.Spec
import Verif.Base.Outcome
import Mathlib.Data.Complex.Basic
import Mathlib.Data.Complex.BigOperators
import Mathlib.Analysis.Complex.Basic
import Mathlib.Data.Real.Sqrt
import Mathlib.Data.Matrix.Basic

/-!
# Configuration files: writing, reading, sequences

A file is a list of bytes. XDR stores an `int` as four bytes and a `double` as eight bytes, most significant byte
first; a `double` is its 64-bit pattern. Values of variables that the C++ code leaves uninitialised are taken from a
parameter (`Junk`), so statements hold whatever these values are.
-/

set_option autoImplicit false

namespace Leonard

/-! ### XDR -/

abbrev Byte := Fin 256

/-- A file, or what remains to be read from it. -/
abbrev Bytes := List Byte

/-- `n` bytes of `v`, most significant first. -/
def be : ℕ → ℕ → Bytes
  | 0, _ => []
  | n + 1, v => Fin.ofNat 256 (v / 256 ^ n) :: be n v

/-- The number written in `bs`, most significant byte first. -/
def ofBe (bs : Bytes) : ℕ := bs.foldl (fun a b => a * 256 + b.val) 0

/-- `xdr_int` in mode `XDR_ENCODE`. -/
def xdrInt (i : ℤ) : Bytes := be 4 (i % 2 ^ 32).toNat

/-- The bit pattern of a `double`. -/
abbrev F64 := BitVec 64

/-- `xdr_double` in mode `XDR_ENCODE`. -/
def xdrDouble (d : F64) : Bytes := be 8 d.toNat

/-- `xdr_int` in mode `XDR_DECODE`: the value, or `none` if the file ends first (the variable is then not written). -/
def getInt (s : Bytes) : Option ℤ × Bytes :=
  if s.length < 4 then (none, [])
  else
    let v := ofBe (s.take 4)
    (some (if v < 2 ^ 31 then (v : ℤ) else (v : ℤ) - 2 ^ 32), s.drop 4)

/-- `xdr_double` in mode `XDR_DECODE`. -/
def getDouble (s : Bytes) : Option F64 × Bytes :=
  if s.length < 8 then (none, []) else (some (BitVec.ofNat 64 (ofBe (s.take 8))), s.drop 8)

/-- The bit pattern of a `float`. -/
abbrev F32 := BitVec 32

/-- `xdr_float` in mode `XDR_DECODE`; it returns 1 exactly if a value was read. -/
def getFloat (s : Bytes) : Option F32 × Bytes :=
  if s.length < 4 then (none, []) else (some (BitVec.ofNat 32 (ofBe (s.take 4))), s.drop 4)

/-! ### leonard_format -/

/-- The four links of a site: direction, row, column ↦ real and imaginary part. -/
abbrev Links (N : ℕ) := Fin 4 → Fin N → Fin N → F64 × F64

/-- The order of the loops `for mu, for i, for j` (OutputSweep.cpp 57-59, ReadStartGaugeConfiguration.cpp 102-104). -/
def linkOrder (N : ℕ) : List (Fin 4 × Fin N × Fin N) :=
  (List.finRange 4).flatMap fun mu => (List.finRange N).flatMap fun i => (List.finRange N).map fun j => (mu, i, j)

/-- OutputSweep.cpp 53-66: the record of one site. -/
def writeRecord {N : ℕ} (s : Site) (U : Links N) : Bytes :=
  xdrInt s.x ++ xdrInt s.y ++ xdrInt s.z ++ xdrInt s.t ++
    (linkOrder N).flatMap fun e => xdrDouble (U e.1 e.2.1 e.2.2).1 ++ xdrDouble (U e.1 e.2.1 e.2.2).2

/-- The record of one slot; `coord` is the table `globalCoordinate`, `F` the links by slot. -/
def slotRecord {N : ℕ} (coord : Mem Site) (F : ℤ → Links N) (k : ℤ) : Outcome Bytes :=
  match coord k with
  | some s => .ok (writeRecord s (F k))
  | none => .ub

/-- OutputSweep.cpp 52-67: the file of one rank. -/
def writeRank {N : ℕ} (localsize : ℤ) (coord : Mem Site) (F : ℤ → Links N) : Outcome Bytes := do
  let rs ← (intRange localsize).mapM (slotRecord coord F)
  return rs.flatten

/-- OutputSweep.cpp 74-84: the integers of the descriptor in order: extents, processor grid, number of processes,
sites per process. (The text form of the integers is not modelled; the plaquette at the end is only used for a message.) -/
def writeDescriptor (g p : Ext) (numberProcessors localsize : ℤ) : List ℤ :=
  [g.x, g.y, g.z, g.t, p.x, p.y, p.z, p.t, numberProcessors, localsize]

/-- Values of the variables that reading leaves uninitialised when a file ends early: the ten integers of the
descriptor (ReadStartGaugeConfiguration.cpp 57-60), the coordinates (95) and the matrix elements (105-106) of each
record. -/
structure Junk (N : ℕ) where
  desc : ℕ → ℤ
  coord : ℤ → ℤ → Site
  link : ℤ → ℤ → Links N

/-- ReadStartGaugeConfiguration.cpp 101-113 for a stored site (`k ≠ -1`). -/
def readLinks {N : ℕ} (junk : Links N) (k : ℤ) (es : List (Fin 4 × Fin N × Fin N)) (st : (ℤ → Links N) × Bytes) :
    (ℤ → Links N) × Bytes :=
  es.foldl (fun st e =>
    let re := getDouble st.2
    let im := getDouble re.2
    let v := (re.1.getD (junk e.1 e.2.1 e.2.2).1, im.1.getD (junk e.1 e.2.1 e.2.2).2)
    (fun k' mu i j => if k' = k ∧ (mu, i, j) = e then v else st.1 k' mu i j, im.2)) st

/-- ReadStartGaugeConfiguration.cpp 114-125 for a site not stored here. -/
def skipLinks {N : ℕ} (es : List (Fin 4 × Fin N × Fin N)) (s : Bytes) : Bytes :=
  es.foldl (fun s _ => (getDouble (getDouble s).2).2) s

/-- ReadStartGaugeConfiguration.cpp 95-126: one record. `idx` is `localIndex[getGlobalCoordinate(x,y,z,t)]`. -/
def readRecord {N : ℕ} (idx : Site → ℤ) (jc : Site) (jl : Links N) (st : (ℤ → Links N) × Bytes) :
    (ℤ → Links N) × Bytes :=
  let x := getInt st.2
  let y := getInt x.2
  let z := getInt y.2
  let t := getInt z.2
  let k := idx ⟨x.1.getD jc.x, y.1.getD jc.y, z.1.getD jc.z, t.1.getD jc.t⟩
  if k ≠ -1 then readLinks jl k (linkOrder N) (st.1, t.2)
  else (st.1, skipLinks (linkOrder N) t.2)

/-- ReadStartGaugeConfiguration.cpp 94-127: the file of one rank. -/
def readRankFile {N : ℕ} (idx : Site → ℤ) (junk : Junk N) (processor readLocalsize : ℤ) (file : Bytes) (F : ℤ → Links N) :
    ℤ → Links N :=
  ((intRange readLocalsize).foldl (fun st index => readRecord idx (junk.coord processor index) (junk.link processor index) st)
    (F, file)).1

/-- ReadStartGaugeConfiguration.cpp 80-131: all files; `none` is `return false`. -/
def readFiles {N : ℕ} (idx : Site → ℤ) (junk : Junk N) (readLocalsize : ℤ) (files : ℤ → Option Bytes) :
    List ℤ → (ℤ → Links N) → Option (ℤ → Links N)
  | [], F => some F
  | q :: qs, F => match files q with
    | none => none
    | some file => readFiles idx junk readLocalsize files qs (readRankFile idx junk q readLocalsize file F)

/-- ReadStartGaugeConfiguration.cpp 51-131 on one rank. `desc` are the integers that can be extracted from the
descriptor, in order (`[]` if it does not exist: the stream state is not checked). -/
def readLeonard {N : ℕ} (g : Ext) (idx : Site → ℤ) (junk : Junk N) (desc : List ℤ) (files : ℤ → Option Bytes)
    (F : ℤ → Links N) : Option (ℤ → Links N) :=
  let d := fun k : ℕ => (desc[k]?).getD (junk.desc k)
  if d 0 ≠ g.x ∨ d 1 ≠ g.y ∨ d 2 ≠ g.z ∨ d 3 ≠ g.t then none
  else readFiles idx junk (d 9) files (intRange (d 8)) F

/-- `localIndex[getGlobalCoordinate(x,y,z,t)]` on a rank of the distributed layout. -/
def rankIdx (g : Ext) (L : RankLayout) (s : Site) : ℤ := L.localIndex (gidx g s)

/-! ### muenster_format -/

/-- `n` calls `red += xdr_float(&xin, &tmp)`: the values (`none`: not read) and the rest of the file. -/
def getFloats : ℕ → Bytes → List (Option F32) × Bytes
  | 0, s => ([], s)
  | n + 1, s =>
    let f := getFloat s
    let r := getFloats n f.2
    (f.1 :: r.1, r.2)

/-- The counter `red`. -/
def redCount (fs : List (Option F32)) : ℕ := (fs.filter Option.isSome).length

/-- `kappo < 0.0` on the bit pattern: negative, not zero, not a NaN. -/
def F32.isNeg (b : F32) : Bool := b.msb && !(b &&& 0x7fffffff#32 == 0#32) && (b &&& 0x7fffffff#32).toNat ≤ 0x7f800000

/-- `float kappo(-1.0)`. -/
def minusOne : F32 := 0xbf800000#32

/-- ReadStartGaugeConfiguration.cpp 238-241; `none` is a loop that never ends. -/
def kappaLoop (s : Bytes) (kappo : F32) (fermiono : ℕ) : Option (ℕ × Bytes) :=
  if kappo.isNeg then
    let f := getFloat s
    kappaLoop f.2 (f.1.getD kappo) (fermiono + 1)
  else some (fermiono, s)
partial_fixpoint

/-- `n` calls of `xdr_int` whose results are not used. -/
def skipInts : ℕ → Bytes → Bytes
  | 0, s => s
  | n + 1, s => skipInts n (getInt s).2

/-- The four extents `lato`, with values `junk` for those that are not read. -/
def getExtents (junk : Ext) (s : Bytes) : Ext × Bytes :=
  let x := getInt s
  let y := getInt x.2
  let z := getInt y.2
  let t := getInt z.2
  (⟨x.1.getD junk.x, y.1.getD junk.y, z.1.getD junk.z, t.1.getD junk.t⟩, t.2)

/-- ReadStartGaugeConfiguration.cpp 206-284 on the output process (NUMCOLORS 2): the trailer, and the value of `success`;
`none` is a loop that never ends. `rest` is what follows the links, `red` the number of values read. The differences of beta and kappa
(291-297) are only reported in a message and are not modelled. -/
def trailer2 (g : Ext) (junk : Ext) (red : ℕ) (rest : Bytes) : Option Bool := do
  let ok : Bool := red = 16 * g.volume
  let s := (getFloats 4 rest).2
  let (fermiono, s) ← kappaLoop s minusOne 0
  let s := (getFloats fermiono s).2
  let s := (getFloats (2 * fermiono) s).2
  let s := skipInts 1 s
  let s := skipInts (5 * fermiono) s
  let lato := (getExtents junk s).1
  return ok && decide (lato = g)

/-- ReadStartGaugeConfiguration.cpp 133-302: what one rank returns, NUMCOLORS 2; `file = none`: `fopen` failed; the outer
`none` is a loop that never ends. -/
def readMuenster2 (g : Ext) (output : Bool) (junk : Ext) (file : Option Bytes) : Option Bool :=
  match file with
  | none => some false
  | some bytes =>
    let fs := getFloats (16 * g.volume.toNat) bytes
    if output then trailer2 g junk (redCount fs.1) fs.2 else some true

/-- ReadStartGaugeConfiguration.cpp 303-484: what one rank returns, NUMCOLORS 3. -/
def readMuenster3 (g : Ext) (output : Bool) (junk : Ext) (file : Option Bytes) : Bool :=
  match file with
  | none => false
  | some bytes =>
    let fs := getFloats (48 * g.volume.toNat) bytes
    if output then decide ((redCount fs.1 : ℤ) = 48 * g.volume) && decide ((getExtents junk fs.2).1 = g) else true

/-- ReadStartGaugeConfiguration.cpp 36-496: dispatch on the format name for a file set-up where the leonard reader returns
`leonard` and the muenster reader `muenster`. -/
def readDispatch (name : String) (leonard muenster : Bool) : Bool :=
  if name = "leonard_format" then leonard else if name = "muenster_format" then muenster else true

/-! ### ReadGaugeConfiguration -/

/-- ReadGaugeConfiguration.cpp 29-40: the loop; `reattempt` as in the code. Returns the number whose configuration is in memory
at the end and the new `counter`. -/
def readLoop (readable : ℤ → Bool) (step : ℤ) : ℕ → ℤ → ℕ → Outcome (ℤ × ℤ)
  | 0, _, _ => .ub
  | fuel + 1, counter, reattempt =>
    let counter := counter + step
    let success := readable counter
    let reattempt := reattempt + 1
    if reattempt = 100 then .exit 73
    else if success then .ok (counter, counter + step)
    else readLoop readable step fuel counter reattempt

/-- ReadGaugeConfiguration.cpp 26-42. The loop ends by the counter `reattempt`, so 100 rounds suffice. -/
def readNext (readable : ℤ → Bool) (start step : ℤ) (counter : ℤ) : Outcome (ℤ × ℤ) :=
  let counter := if counter = -1 then start else counter
  if readable counter then .ok (counter, counter + step) else readLoop readable step 100 counter 1

/-- `n` consecutive executions: the numbers read. -/
def readSequence (readable : ℤ → Bool) (start step : ℤ) : ℕ → ℤ → Outcome (List ℤ)
  | 0, _ => .ok []
  | n + 1, counter => do
    let r ← readNext readable start step counter
    let rest ← readSequence readable start step n r.2
    return r.1 :: rest

/-! ### Compact storage of links -/

/-- OutputSweep.cpp 130-140 (and 154-160): the two complex numbers stored for an SU(2) link: the first row of `htrans(U)`. -/
def compact2 (U : Matrix (Fin 2) (Fin 2) ℂ) : Fin 2 → ℂ :=
  fun ii => U.conjTranspose 0 ii

/-- ReadStartGaugeConfiguration.cpp 163-172. -/
def restore2 (c : Fin 2 → ℂ) : Matrix (Fin 2) (Fin 2) ℂ :=
  !![star (c 0), -(c 1); star (c 1), c 0]

/-- OutputSweep.cpp 330-340: re and -im of the first two columns of an SU(3) link. -/
def compact3 (U : Matrix (Fin 3) (Fin 3) ℂ) : Fin 3 → Fin 2 → ℝ × ℝ :=
  fun i j => ((U i (j.castLE (by decide))).re, -(U i (j.castLE (by decide))).im)

/-- ReadStartGaugeConfiguration.cpp 20. -/
noncomputable def absq (z : ℂ) : ℝ := z.re * z.re + z.im * z.im

/-- ReadStartGaugeConfiguration.cpp 345-350, 359-364: a column divided by its norm. -/
noncomputable def normaliseColumn (v : Fin 3 → ℂ) : Fin 3 → ℂ :=
  let temp : ℂ := ((1 / Real.sqrt (absq (v 0) + absq (v 1) + absq (v 2)) : ℝ) : ℂ)
  fun i => v i * temp

/-- ReadStartGaugeConfiguration.cpp 352-357. -/
noncomputable def orthogonalise (v w : Fin 3 → ℂ) : Fin 3 → ℂ :=
  let temp := w 0 * star (v 0) + w 1 * star (v 1) + w 2 * star (v 2)
  fun i => w i - temp * v i

/-- ReadStartGaugeConfiguration.cpp 333-370 (single precision rounding of the stored numbers is not modelled). -/
noncomputable def restore3 (c : Fin 3 → Fin 2 → ℝ × ℝ) : Matrix (Fin 3) (Fin 3) ℂ :=
  let mt := fun i j => (⟨(c i j).1, -(c i j).2⟩ : ℂ)
  let a := normaliseColumn fun i => mt i 0
  let b := normaliseColumn (orthogonalise a fun i => mt i 1)
  !![a 0, b 0, star (a 1) * star (b 2) - star (a 2) * star (b 1);
     a 1, b 1, star (a 2) * star (b 0) - star (a 0) * star (b 2);
     a 2, b 2, star (a 0) * star (b 1) - star (a 1) * star (b 0)]

end Leonard
