import Verif.Base.Outcome
import Mathlib.Data.List.Basic
import Mathlib.Logic.Function.Basic
import Mathlib.Tactic.Common

/-!
# Model of the measurement output

Source: `/repo/source/io/GlobalOutput.h` 12-194. The text of a value (`ostringstream << setprecision(23)`) is taken as
given. The object holds a `std::map` from observable names to text buffers; the order in which `print` visits the names
is left open (a list argument), so the results hold for every order.
-/

set_option autoImplicit false

namespace Leonard

/-- `GlobalOutput::format`, GlobalOutput.h 177-187: an unsupported name leaves the format as it was, initially empty. -/
inductive Format where
  | txt
  | xml
  | unset
deriving DecidableEq, Repr

/-- `setFormat`, GlobalOutput.h 177-187. -/
def setFormat (old : Format) (name : String) : Format :=
  if name = "xml" then .xml else if name = "txt" then .txt else old

/-- Buffer and status of one observable (`output_streams`, `output_status`). -/
structure Stream where
  text : List Char
  status : Bool
deriving DecidableEq, Repr

/-- The output object together with the files on disk (one per observable and format). -/
structure OutState where
  streams : List Char → Option Stream
  files : List Char → Option (List Char)

/-- At program start. -/
def OutState.start (files : List Char → Option (List Char)) : OutState := ⟨fun _ => none, files⟩

/-- Set the buffer of one observable. -/
def OutState.setStream (st : OutState) (n : List Char) (s : Stream) : OutState :=
  { st with streams := Function.update st.streams n (some s) }

/-- `push`, GlobalOutput.h 37-59. -/
def outPush (f : Format) (st : OutState) (n : List Char) : OutState :=
  match f with
  | .txt =>
    match st.streams n with
    | some s => st.setStream n ⟨s.text ++ ['\t', '{'], false⟩
    | none => st.setStream n ⟨['{', '\n', '\t', '{'], false⟩
  | .xml =>
    match st.streams n with
    | some s => st.setStream n ⟨s.text ++ ('<' :: (n ++ ['>'])), false⟩
    | none => st.setStream n ⟨'<' :: (n ++ ['>']), false⟩
  | .unset => st

/-- `pop`, GlobalOutput.h 61-83. -/
def outPop (f : Format) (st : OutState) (n : List Char) : Outcome OutState :=
  match f with
  | .txt =>
    match st.streams n with
    | some s => .ok (st.setStream n ⟨s.text ++ ['}', ',', '\n'], false⟩)
    | none => .exit 1
  | .xml =>
    match st.streams n with
    | some s => .ok (st.setStream n ⟨s.text ++ ('<' :: '/' :: (n ++ ['>'])), false⟩)
    | none => .exit 1
  | .unset => .ok st

/-- `write`, GlobalOutput.h 85-125; `v` is the text of the value. -/
def outWrite (f : Format) (st : OutState) (n : List Char) (v : List Char) : OutState :=
  match f with
  | .txt =>
    match st.streams n with
    | some s => st.setStream n ⟨s.text ++ (if s.status then [',', ' '] else []) ++ v, true⟩
    | none => st.setStream n ⟨'{' :: v, true⟩
  | _ =>
    match st.streams n with
    | some s => st.setStream n ⟨s.text ++ (if s.status then [' '] else []) ++ (v ++ [' ']), true⟩
    | none => st.setStream n ⟨v ++ [' '], true⟩

/-- First lines of an XML file, GlobalOutput.h 159. -/
def xmlHeader : List Char := "<?xml version=\"1.0\" encoding=\"UTF-8\"?>\n\n<root>\n".toList

/-- Last lines of an XML file, GlobalOutput.h 152, 161. -/
def xmlFooter : List Char := "\n</root>\n".toList

/-- What `print` does to the file of one observable, GlobalOutput.h 130-165: `(truncated first, text written)`. Removing
nine characters from a shorter file is undefined. -/
def fileAction (f : Format) (file : Option (List Char)) (text : List Char) : Outcome (Bool × List Char) :=
  match f with
  | .txt => .ok (false, text)
  | .xml =>
    match file with
    | some contents =>
      if contents.length < 9 then .ub
      else .ok (true, contents.take (contents.length - 9) ++ "\n\n".toList ++ text ++ xmlFooter)
    | none => .ok (false, xmlHeader ++ text ++ xmlFooter)
  | .unset => .ok (false, [])

/-- The file after the stream was opened (created if missing, emptied in `trunc` mode). -/
def opened (file : Option (List Char)) (truncate : Bool) : List Char := if truncate then [] else file.getD []

/-- `print` for one observable. -/
def printOne (f : Format) (st : OutState) (n : List Char) : Outcome OutState :=
  match st.streams n with
  | none => .ok st
  | some s => if f = .unset then .ok st else do
    let a ← fileAction f (st.files n) s.text
    return { streams := Function.update st.streams n (some ⟨[], s.status⟩)
             files := Function.update st.files n (some (opened (st.files n) a.1 ++ a.2)) }

/-- `print`, GlobalOutput.h 127-167, visiting the observables in the given order. -/
def outPrint (f : Format) : OutState → List (List Char) → Outcome OutState
  | st, [] => .ok st
  | st, n :: rest => do
    let st' ← printOne f st n
    outPrint f st' rest

/-- The states of the disk a crash can leave behind during `print` for one observable: untouched, or opened with any
prefix of the text written (the stream is buffered, so any prefix may have arrived). -/
inductive CrashOne (f : Format) (file : Option (List Char)) (text : List Char) : Option (List Char) → Prop
  | untouched : CrashOne f file text file
  | cut {a : Bool × List Char} {p : List Char} : f ≠ .unset → fileAction f file text = .ok a → p <+: a.2 →
      CrashOne f file text (some (opened file a.1 ++ p))

/-- The files a crash can leave behind during `print`: some observables done, one interrupted, the others untouched. -/
inductive CrashPrint (f : Format) : OutState → List (List Char) → (List Char → Option (List Char)) → Prop
  | before {st : OutState} {l : List (List Char)} : CrashPrint f st l st.files
  | during {st : OutState} {n : List Char} {rest : List (List Char)} {s : Stream} {file : Option (List Char)} :
      st.streams n = some s → CrashOne f (st.files n) s.text file →
      CrashPrint f st (n :: rest) (Function.update st.files n file)
  | later {st st' : OutState} {n : List Char} {rest : List (List Char)} {files : List Char → Option (List Char)} :
      printOne f st n = .ok st' → CrashPrint f st' rest files → CrashPrint f st (n :: rest) files

/-- The calls a program makes. -/
inductive OutOp where
  | push (n : List Char)
  | pop (n : List Char)
  | write (n v : List Char)
  | print (order : List (List Char))

/-- One call. -/
def outStep (f : Format) (st : OutState) : OutOp → Outcome OutState
  | .push n => .ok (outPush f st n)
  | .pop n => outPop f st n
  | .write n v => .ok (outWrite f st n v)
  | .print order => outPrint f st order

/-- A sequence of calls. -/
def outRun (f : Format) : OutState → List OutOp → Outcome OutState
  | st, [] => .ok st
  | st, o :: rest => do
    let st' ← outStep f st o
    outRun f st' rest

/-! ### What the updaters record (calls on the observable `hmc_history`) -/

/-- The observable. -/
def hmcHistory : List Char := "hmc_history".toList

/-- PureGaugeHMCUpdater.cpp 60-84, HiggsGaugeHMCUpdater.cpp 120-144 and ScalarFermionHMCUpdater.cpp 344-368: the calls
after the Metropolis decision. `recording` is `environment.measurement && isOutputProcess()`, `deltaH` the text of the
energy difference. -/
def historyCalls (recording accepted : Bool) (deltaH : List Char) : List OutOp :=
  if recording then
    if accepted then [.push hmcHistory, .write hmcHistory deltaH, .write hmcHistory ['1'], .pop hmcHistory]
    else [.push hmcHistory, .write hmcHistory deltaH, .write hmcHistory ['0'], .pop hmcHistory]
  else []

/-- MultiStepNFlavorUpdater.cpp 351-384. -/
def multiStepHistoryCalls (recording accepted : Bool) (deltaH : List Char) : List OutOp :=
  if recording then
    if accepted then
      [.push hmcHistory, .push hmcHistory, .write hmcHistory deltaH, .pop hmcHistory,
       .push hmcHistory, .write hmcHistory ['1'], .pop hmcHistory]
    else
      [.push hmcHistory, .push hmcHistory, .write hmcHistory deltaH, .pop hmcHistory,
       .push hmcHistory, .write hmcHistory ['0'], .pop hmcHistory, .pop hmcHistory]
  else []

/-- OverlapChiralRotation.cpp 150-171, the calls on `rotated_chiral_condensate`. -/
def rotatedCondensateCalls (recording : Bool) (re im : List Char) : List OutOp :=
  if recording then
    [.push "rotated_chiral_condensate".toList, .write "rotated_chiral_condensate".toList re,
     .write "rotated_chiral_condensate".toList im]
  else []

/-- WilsonFlow.cpp 35-85, the calls on `wilson_flow`: one record per flow time, `data` lists the texts of (t, t²E). -/
def wilsonFlowCalls (recording : Bool) (data : List (List Char × List Char)) : List OutOp :=
  let n := "wilson_flow".toList
  if recording then
    .push n :: (data.flatMap fun d => [.push n, .write n d.1, .write n d.2, .pop n]) ++ [.pop n]
  else []

/-- WilsonFlow.cpp 35-85, the calls on `energy_correlator` (and likewise `topological_correlator`): one list per flow time. -/
def flowCorrelatorCalls (recording : Bool) (n : List Char) (data : List (List (List Char))) : List OutOp :=
  if recording then
    .push n :: (data.flatMap fun d => .push n :: (d.map (OutOp.write n)) ++ [.pop n]) ++ [.pop n]
  else []

end Leonard
