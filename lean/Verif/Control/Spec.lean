import Verif.Control.Model

/-!
# Specification vocabulary for the control properties (no reference to the parsing functions)
-/

set_option autoImplicit false

namespace Leonard

/-- Order in which executions happen: phase, then sweep number, then position in the list, then repetition. -/
def Event.Before (a b : Event) : Prop :=
  (a.measurement = false ∧ b.measurement = true) ∨
  (a.measurement = b.measurement ∧ (a.sweep < b.sweep ∨
    (a.sweep = b.sweep ∧ (a.position < b.position ∨ (a.position = b.position ∧ a.iteration < b.iteration)))))

/-- The text of a sweep declaration `{name,period,times}`. -/
def sweepText (name : String) (period times : ℕ) : List Char :=
  ("{" ++ name ++ "," ++ toString period ++ "," ++ toString times ++ "}").toList

/-- The text of a list `{e1,e2,...}`. -/
def listText (l : List (List Char)) : List Char := '{' :: ([','].intercalate l ++ ['}'])

/-- The brackets. -/
def isBracket (c : Char) : Prop := c = '{' ∨ c = '}' ∨ c = '(' ∨ c = ')'

instance (c : Char) : Decidable (isBracket c) := inferInstanceAs (Decidable (_ ∨ _))

/-- Text with balanced brackets and no white space. -/
inductive Balanced : List Char → Prop
  | nil : Balanced []
  | plain {c : Char} {s : List Char} : ¬ isBracket c → isSpace c = false → Balanced s → Balanced (c :: s)
  | brace {a b : List Char} : Balanced a → Balanced b → Balanced ('{' :: (a ++ '}' :: b))
  | paren {a b : List Char} : Balanced a → Balanced b → Balanced ('(' :: (a ++ ')' :: b))

/-- A list element: balanced text whose commas all lie inside brackets. -/
inductive Element : List Char → Prop
  | nil : Element []
  | plain {c : Char} {s : List Char} : ¬ isBracket c → c ≠ ',' → isSpace c = false → Element s → Element (c :: s)
  | brace {a b : List Char} : Balanced a → Element b → Element ('{' :: (a ++ '}' :: b))
  | paren {a b : List Char} : Balanced a → Element b → Element ('(' :: (a ++ ')' :: b))

/-- A word of a configuration line: non-empty, letters, digits and `. : , { } _ - /`. -/
def IsWord (w : List Char) : Prop :=
  w ≠ [] ∧ ∀ c ∈ w, c.isAlphanum = true ∨ c ∈ ['.', ':', ',', '{', '}', '_', '-', '/']

/-- Blanks only. -/
def Blanks (s : List Char) : Prop := ∀ c ∈ s, c = ' '

instance (s : List Char) : Decidable (Blanks s) := inferInstanceAs (Decidable (∀ c ∈ s, c = ' '))

/-- A character that is neither a blank nor may be part of a word. -/
def IsSeparator (c : Char) : Prop :=
  c ≠ ' ' ∧ c.isAlphanum = false ∧ c ∉ ['.', ':', ',', '{', '}', '_', '-', '/']

/-- The meaning of a configuration line: nothing, or an assignment. -/
inductive LineMeans : List Char → Option (List Char × List Char) → Prop
  | comment (s : List Char) : LineMeans ('#' :: s) none
  | blank {s : List Char} : Blanks s → LineMeans s none
  | assign {name value b1 b2 b3 b4 : List Char} : IsWord name → IsWord value → Blanks b1 → Blanks b2 → Blanks b3 → Blanks b4 →
      LineMeans (b1 ++ name ++ b2 ++ '=' :: (b3 ++ value ++ b4)) (some (name, value))

/-- The value of an option after a list of assignments: the last one to this name, if the name is a known option. -/
def valueAfter (initial : List Char → Option (List Char)) (assignments : List (List Char × List Char)) (n : List Char) :
    Option (List Char) :=
  match initial n with
  | none => none
  | some d => some (((assignments.filter (fun p => p.1 = n)).getLast?.map Prod.snd).getD d)

end Leonard
