import Verif.Base.Outcome
import Mathlib.Data.List.Basic
import Mathlib.Data.Int.Basic
import Mathlib.Tactic.Common

/-!
# Model of option reading and sweep scheduling

Sources: `/repo/source/main.cpp` 43-75, 200-223; `/repo/source/program_options/StorageParameters.cpp` 13-112;
`/repo/source/program_options/Option.h` 22-24; `/repo/source/utils/FromString.h`; `/repo/source/LatticeSweep.cpp` 52-200;
`/repo/source/Simulation.cpp` 27-87. Strings are lists of characters.
-/

set_option autoImplicit false

namespace Leonard

/-! ### Configuration lines (main.cpp) -/

/-- The character class of the regular expression in main.cpp 53: ASCII letters and digits, and `. : , { } blank _ - /`. -/
def allowedChar (c : Char) : Bool :=
  c.isAlphanum || c ∈ ['.', ':', ',', '{', '}', ' ', '_', '-', '/']

/-- Iterating the regular expression `[...]+` over a string (main.cpp 53-63): the matches are the maximal runs of
allowed characters. `acc` is the run being read. -/
def regexRuns (acc : List Char) : List Char → List (List Char)
  | [] => if acc = [] then [] else [acc]
  | c :: cs =>
    if allowedChar c then regexRuns (acc ++ [c]) cs
    else (if acc = [] then [] else [acc]) ++ regexRuns [] cs

/-- `erase(remove(.., ' '), end)` (main.cpp 48, 61). -/
def dropBlanks (s : List Char) : List Char := s.filter (· ≠ ' ')

/-- `parse_parameter`, main.cpp 52-75. -/
def parseParameter (input : List Char) : Outcome (List Char × List Char) :=
  match (regexRuns [] input).map dropBlanks with
  | [a, b] => .ok (a, b)
  | [a] => .ok (a, [])
  | _ => .exit 77

/-- `clean_line`, main.cpp 43-50: `rfind("#",0)` only looks at position 0. -/
def cleanLine (input : List Char) : List Char :=
  let result := if input.head? = some '#' then [] else input
  dropBlanks result

/-- One line of the configuration file, main.cpp 208-219: `none` if the line is skipped, otherwise the option
name and value that are set (an unknown name only prints a warning). -/
def readLine (line : List Char) : Outcome (Option (List Char × List Char)) :=
  let line := cleanLine line
  if line.length ≠ 0 then do
    let p ← parseParameter line
    return some p
  else .ok none

/-- The options table `desc`: for each known name its text value. -/
abbrev Options := List Char → Option (List Char)

/-- `if (desc.count(name)) desc[name] = value; else warning`, main.cpp 212-217. -/
def setOption (desc : Options) (p : List Char × List Char) : Options :=
  if (desc p.1).isSome then fun n => if n = p.1 then some p.2 else desc n else desc

/-- The loop over the lines of the configuration file, main.cpp 208-219. -/
def readConfig : Options → List (List Char) → Outcome Options
  | desc, [] => .ok desc
  | desc, line :: rest => do
    match ← readLine line with
    | none => readConfig desc rest
    | some p => readConfig (setOption desc p) rest

/-! ### Reading values from text (FromString.h) -/

/-- White space of the "C" locale. -/
def isSpace (c : Char) : Bool := c ∈ [' ', '\t', '\n', '\r', '\x0b', '\x0c']

/-- `fromString<std::string>`, FromString.h 15-20: the first word, empty if there is none. -/
def asString (s : List Char) : List Char := (s.dropWhile isSpace).takeWhile fun c => !isSpace c

/-- The sign and digits `std::num_get` accepts: (is negative, digits). -/
def signDigits (s : List Char) : Bool × List Char :=
  match s with
  | '-' :: r => (true, r.takeWhile Char.isDigit)
  | '+' :: r => (false, r.takeWhile Char.isDigit)
  | r => (false, r.takeWhile Char.isDigit)

/-- `fromString<int>`, FromString.h 15-20. On an empty (or blank) string the extraction fails before assigning, so
the uninitialised variable is returned; without digits the value is 0; out of range values saturate. -/
def fromStringInt (s : List Char) : Outcome ℤ :=
  match s.dropWhile isSpace with
  | [] => .ub
  | r =>
    let sd := signDigits r
    let v : ℤ := Nat.ofDigitChars 10 sd.2 0
    let v := if sd.1 then -v else v
    .ok (max (-2147483648) (min v 2147483647))

/-- `fromString<unsigned int>`: as above; a minus sign negates modulo 2^32. -/
def fromStringUnsigned (s : List Char) : Outcome ℕ :=
  match s.dropWhile isSpace with
  | [] => .ub
  | r =>
    let sd := signDigits r
    let v := Nat.ofDigitChars 10 sd.2 0
    if v > 4294967295 then .ok 4294967295
    else if sd.1 then .ok ((4294967296 - v) % 4294967296) else .ok v

/-! ### List-valued options (StorageParameters.cpp) -/

/-- The loop of StorageParameters.cpp 24-77. `state` is the nesting depth, `tmp` the element being read, `ris` the
elements read. Dereferencing the end of the string is `ub`. -/
def vectorLoop : ℕ → List Char → List (List Char) → List Char → Outcome (List (List Char))
  | _, _, _, [] => .ub
  | state, tmp, ris, c :: rest =>
    let next : ℕ × List Char × List (List Char) :=
      if c = '{' then (state + 1, tmp ++ [c], ris)
      else if c = '}' then
        if state - 1 ≠ 0 then (state - 1, tmp ++ [c], ris) else (0, [], ris ++ [tmp])
      else if c = ',' then
        if state ≠ 1 then (state, tmp ++ [c], ris) else (state, [], ris ++ [tmp])
      else if c = '(' then (state + 1, tmp ++ [c], ris)
      else if c = ')' then (state - 1, tmp ++ [c], ris)
      else (state, tmp ++ [c], ris)
    match rest with
    | [] => .ok next.2.2
    | _ :: _ => if next.1 = 0 then .ok next.2.2 else vectorLoop next.1 next.2.1 next.2.2 rest

/-- `get< std::vector<std::string> >`, StorageParameters.cpp 13-82, for an option that is present. -/
def getVector (value : List Char) : Outcome (List (List Char)) :=
  match (asString value).dropWhile (· ≠ '{') with
  | [] => .exit 1
  | _ :: rest => vectorLoop 1 [] [] rest

/-- `get< std::vector<unsigned int> >`, StorageParameters.cpp 104-112. -/
def getVectorUnsigned (value : List Char) : Outcome (List ℕ) := do
  let tmp ← getVector value
  tmp.mapM fromStringUnsigned

/-- `get< std::vector<T> >` for the other element types, StorageParameters.cpp 84-102: `read` is the stream extraction of `T`. -/
def getVectorOf {T : Type} (read : List Char → T) (value : List Char) : Outcome (List T) := do
  let tmp ← getVector value
  return tmp.map read

/-! ### Sweeps (LatticeSweep.cpp) -/

/-- The names accepted by `LatticeSweep::getInstance`, LatticeSweep.cpp 52-139, in order. -/
def sweepNames : List String :=
  ["PureGaugeCM", "Plaquette", "PureGaugeHMC", "TwoFlavorQCD", "PureGaugeOverrelaxation", "Output", "TestLinearAlgebra",
   "TestSpeedDiracOperators", "Eigenvalues", "MesonCorrelator", "OverlapChiralRotation", "ChiralCondensate", "PolyakovLoop",
   "PolyakovLoopEigenvalues", "PolyakovLoopCorrelator", "AdjointPolyakovLoop", "Glueball", "GluinoGlue", "ReUnit",
   "PureGaugeWilsonLoops", "WilsonLoop", "TestCommunication", "ReadGaugeConfiguration", "WilsonFlow", "GaugeEnergy",
   "MultiStepNFlavor", "SingletOperators", "XSpaceCorrelators", "NPRVertex", "LandauGaugeFixing", "MaximalAbelianGaugeFixing",
   "MaximalAbelianProjection", "LandauGluonPropagator", "LandauGhostPropagator", "ScalarFermionHMC", "HiggsGaugeHMC",
   "RandomScalarInitializer", "MCScalar", "MeanScalarField", "RandomGaugeTransformation"]

/-- `LatticeSweep::getInstance`, LatticeSweep.cpp 52-139: `exit(1)` on an unknown name. -/
def sweepInstance (name : List Char) : Outcome String :=
  if String.ofList name ∈ sweepNames then .ok (String.ofList name) else .exit 1

/-- A sweep object with its `numberTimes` and `sweepToJump`. -/
structure Sweep where
  name : String
  sweepToJump : ℕ
  numberTimes : ℕ
deriving DecidableEq, Repr

/-- Conversion of an `int` to `unsigned int` (arguments of `setSweepToJump`, `setNumberTimes`). -/
def toUnsigned (i : ℤ) : ℕ := (i % 4294967296).toNat

/-- Split at the first occurrence of a delimiter: text before it and after it; `none` if it does not occur. -/
def splitAtChar (d : Char) (s : List Char) : Option (List Char × List Char) :=
  match s.dropWhile (· ≠ d) with
  | [] => none
  | _ :: rest => some (s.takeWhile (· ≠ d), rest)

/-- `LatticeSweep::read`, LatticeSweep.cpp 152-200. -/
def readSweep (toRead : List Char) : Outcome Sweep :=
  match splitAtChar '{' toRead with
  | none => .exit 17
  | some (_, r1) =>
    match splitAtChar ',' r1 with
    | none => .exit 17
    | some (nameSweep, r2) =>
      match splitAtChar ',' r2 with
      | none => .exit 17
      | some (steps, r3) =>
        match splitAtChar '}' r3 with
        | none => .exit 17
        | some (numberCalls, _) => do
          let name ← sweepInstance nameSweep
          let j ← fromStringInt steps
          let n ← fromStringInt numberCalls
          return ⟨name, toUnsigned j, toUnsigned n⟩

/-- Loading a list of sweeps from an option, Simulation.cpp 29-33 and 58-62. -/
def readSweepList (value : List Char) : Outcome (List Sweep) := do
  let l ← getVector value
  l.mapM readSweep

/-! ### Scheduling -/

/-- One execution of a sweep: phase (`false` warm-up, `true` measurement), `environment.sweep`, position in the list,
`environment.iteration`. -/
structure Event where
  measurement : Bool
  sweep : ℕ
  position : ℕ
  iteration : ℕ
deriving DecidableEq, Repr

/-- `LatticeSweep::call`, LatticeSweep.cpp 141-150: the executions of one call. A zero period is a division by zero. -/
def callSweep (measurement : Bool) (sweep position : ℕ) (s : Sweep) : Outcome (List Event) :=
  if s.sweepToJump = 0 then .ub
  else if sweep % s.sweepToJump = 0 then
    .ok ((List.range s.numberTimes).map fun i => ⟨measurement, sweep, position, i⟩)
  else .ok []

/-- The loop over the list of sweeps, Simulation.cpp 46-48 and 75-77. -/
def callAll (measurement : Bool) (sweep : ℕ) : ℕ → List Sweep → Outcome (List Event)
  | _, [] => .ok []
  | position, s :: rest => do
    let a ← callSweep measurement sweep position s
    let b ← callAll measurement sweep (position + 1) rest
    return a ++ b

/-- The loop `for (i = 0; i < number; ++i)` with `environment.sweep` starting at zero, Simulation.cpp 41-53 and
65-86 (`done` is the value of `environment.sweep` at the head of the loop). -/
def phaseFrom (measurement : Bool) (sweeps : List Sweep) : ℕ → ℕ → Outcome (List Event)
  | _, 0 => .ok []
  | done, n + 1 => do
    let a ← callAll measurement done 0 sweeps
    let b ← phaseFrom measurement sweeps (done + 1) n
    return a ++ b

/-- `warmUp` followed by `measurement`, main.cpp 352-354. -/
def runSimulation (warmUp measure : List Sweep) (numberWarmUp numberMeasurement : ℕ) : Outcome (List Event) := do
  let a ← phaseFrom false warmUp 0 numberWarmUp
  let b ← phaseFrom true measure 0 numberMeasurement
  return a ++ b

end Leonard
