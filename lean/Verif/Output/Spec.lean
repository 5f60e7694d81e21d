import Verif.Output.Model

/-!
# Specification vocabulary for the measurement output
-/

set_option autoImplicit false

namespace Leonard

/-- What a measurement means: open a list, an entry, close a list. -/
inductive Call where
  | «open»
  | entry (v : List Char)
  | close
deriving DecidableEq, Repr

/-- The calls made for one observable, in order. -/
def callsOf (n : List Char) (ops : List OutOp) : List Call :=
  ops.filterMap fun o =>
    match o with
    | .push m => if m = n then some .open else none
    | .pop m => if m = n then some .close else none
    | .write m v => if m = n then some (.entry v) else none
    | .print _ => none

/-- Properly nested calls. -/
inductive Nested : List Call → Prop
  | nil : Nested []
  | entry (v : List Char) {s : List Call} : Nested s → Nested (.entry v :: s)
  | list {a b : List Call} : Nested a → Nested b → Nested (.open :: (a ++ .close :: b))

/-- White space. -/
def isBlank (c : Char) : Bool := c = ' ' || c = '\t' || c = '\n'

/-- The entry a word stands for: the word without one trailing comma; nothing if that is empty. -/
def wordEntry (w : List Char) : List Call :=
  let v := if w.getLast? = some ',' then w.dropLast else w
  if v = [] then [] else [.entry v]

/-- One character of a text file. State: structure read so far and the word being read. -/
def readTxtStep (st : List Call × List Char) (c : Char) : List Call × List Char :=
  if c = '{' then (st.1 ++ wordEntry st.2 ++ [.open], [])
  else if c = '}' then (st.1 ++ wordEntry st.2 ++ [.close], [])
  else if isBlank c then (st.1 ++ wordEntry st.2, [])
  else (st.1, st.2 ++ [c])

/-- Reading a text file back: braces are structure, the rest is words separated by white space, each with an optional
trailing comma. -/
def readTxt (s : List Char) : List Call :=
  let r := s.foldl readTxtStep ([], [])
  r.1 ++ wordEntry r.2

/-- The pieces of an XML file. -/
inductive XmlToken where
  | tag (t : List Char)
  | word (w : List Char)
deriving DecidableEq, Repr

/-- A finished word. -/
def xmlWord (w : List Char) : List XmlToken := if w = [] then [] else [.word w]

/-- One character of an XML file. State: pieces so far, inside a tag or not, text being read. -/
def readXmlStep (st : List XmlToken × Bool × List Char) (c : Char) : List XmlToken × Bool × List Char :=
  if st.2.1 then
    if c = '>' then (st.1 ++ [.tag st.2.2], false, []) else (st.1, true, st.2.2 ++ [c])
  else if c = '<' then (st.1 ++ xmlWord st.2.2, true, [])
  else if isBlank c then (st.1 ++ xmlWord st.2.2, false, [])
  else (st.1, false, st.2.2 ++ [c])

/-- Reading an XML file back. -/
def readXml (s : List Char) : List XmlToken :=
  let r := s.foldl readXmlStep ([], false, [])
  r.1 ++ xmlWord r.2.2

/-- The XML pieces of a call. -/
def callXml (n : List Char) : Call → XmlToken
  | .open => .tag n
  | .entry v => .word v
  | .close => .tag ('/' :: n)

/-- Texts a printed number can have: not empty, no white space, no brackets, no trailing comma. -/
def CleanValue (v : List Char) : Prop :=
  v ≠ [] ∧ (∀ c ∈ v, isBlank c = false ∧ c ∉ ['{', '}', '<', '>']) ∧ v.getLast? ≠ some ','

/-- All values written are numbers. -/
def CleanOps (ops : List OutOp) : Prop := ∀ n v, OutOp.write n v ∈ ops → CleanValue v

/-- Number of lists opened minus lists closed. -/
def openCount (s : List Call) : Int := (s.count .open : Int) - s.count .close

end Leonard
