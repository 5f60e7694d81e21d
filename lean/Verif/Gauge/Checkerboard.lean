import Verif.Gauge.Actions

/-!
# The colouring of the links

`Checkerboard.cpp` without `ENABLE_MPI`: one process owns all sites. `order` is the list of sites in the order of the loops
`for (site = 0; site < localsize; ++site)`. The lists of forbidden colours and the colours are total functions on links.
-/

set_option autoImplicit false

namespace Leonard

/-- A link. -/
abbrev Link (S : Type) := S × Fin 4

/-- `addValue`, `Checkerboard.cpp` 216-230. -/
def addValue : List ℕ → ℕ → List ℕ
  | [], v => [v]
  | x :: l, v => if x = v then x :: l else if x > v then v :: x :: l else x :: addValue l v

/-- The loop of `getValue`, `Checkerboard.cpp` 232-240, from the running value `tmp`. -/
def getValueFrom : ℕ → List ℕ → ℕ
  | tmp, [] => tmp
  | tmp, x :: l => if tmp ≠ x then tmp else getValueFrom (tmp + 1) l

/-- `getValue`. -/
def getValue (l : List ℕ) : ℕ := getValueFrom 0 l

/-- The colours and the lists of forbidden colours. -/
structure Board (S : Type) where
  color : Link S → ℕ
  list : Link S → List ℕ

section
variable {S : Type} [DecidableEq S]

/-- Assignment to one list. -/
def Board.setList (b : Board S) (l : Link S) (v : List ℕ) : Board S :=
  { b with list := fun k => if k = l then v else b.list k }

/-- Assignment to one colour. -/
def Board.setColor (b : Board S) (l : Link S) (v : ℕ) : Board S :=
  { b with color := fun k => if k = l then v else b.color k }

/-- `updateEqual`, `Checkerboard.cpp` 242-255; the arguments are references, so `m` may be `l`. -/
def updateEqual (b : Board S) (l m : Link S) : Board S :=
  let b := b.setList l (addValue (b.list l) (b.color m))
  let b := b.setColor l (getValue (b.list l))
  b.setList m (addValue (b.list m) (b.color l))

/-- `updateDifferent`, `Checkerboard.cpp` 257-262. -/
def updateDifferent (b : Board S) (l m : Link S) : Board S :=
  let b := b.setList m (addValue (b.list m) (b.color l))
  b.setList l (addValue (b.list l) (b.color m))

/-- One of the `if … else …` of `Checkerboard.cpp` 33-97. -/
def compareLinks (l : Link S) (b : Board S) (m : Link S) : Board S :=
  if b.color l = b.color m then updateEqual b l m else updateDifferent b l m

omit [DecidableEq S] in
/-- The links compared with `(s, μ)` for one `ν`, in the order of `Checkerboard.cpp` 33-97 (and of `checkCorrectness`
271-292). -/
def conflicts (T : Torus S) (s : S) (μ ν : Fin 4) : List (Link S) :=
  [(s, ν), (T.sdn μ s, μ), (T.sdn μ s, ν), (T.sup μ s, μ), (T.sup μ s, ν), (T.sup μ (T.sup μ s), ν),
   (T.sdn ν (T.sdn ν s), μ), (T.sdn ν (T.sdn ν s), ν), (T.sup μ (T.sdn ν (T.sdn ν s)), ν), (T.sdn ν s, μ),
   (T.sdn ν s, ν), (T.sdn ν (T.sdn μ s), μ), (T.sdn ν (T.sdn μ s), ν), (T.sup μ (T.sdn ν s), μ),
   (T.sup μ (T.sdn ν s), ν), (T.sdn ν (T.sup μ (T.sup μ s)), ν), (T.sup ν s, μ), (T.sup ν s, ν),
   (T.sup ν (T.sdn μ s), μ), (T.sup ν (T.sup μ s), μ), (T.sup ν (T.sup μ s), ν), (T.sup ν (T.sup ν s), μ)]

omit [DecidableEq S] in
/-- All comparisons for one link: the loop over `ν ≠ μ`. -/
def compared (T : Torus S) (l : Link S) : List (Link S) :=
  (List.finRange 4).flatMap fun ν => if ν ≠ l.2 then conflicts T l.1 l.2 ν else []

omit [DecidableEq S] in
/-- All links in the order of the loops over `site` and `mu`. -/
def linkOrderOf (order : List S) : List (Link S) := order.flatMap fun s => (List.finRange 4).map fun μ => (s, μ)

/-- The body of the loops for one link. -/
def processLink (T : Torus S) (b : Board S) (l : Link S) : Board S := (compared T l).foldl (compareLinks l) b

/-- One pass over all links, `Checkerboard.cpp` 28-102. -/
def boardPass (T : Torus S) (order : List S) (b : Board S) : Board S := (linkOrderOf order).foldl (processLink T) b

omit [DecidableEq S] in
/-- `checkCorrectness`, `Checkerboard.cpp` 264-304. -/
def checkCorrectness (T : Torus S) (order : List S) (color : Link S → ℕ) : ℕ :=
  ((linkOrderOf order).map fun l => ((compared T l).filter fun m => color l = color m).length).sum

/-- The loop `for (j = 0; j < 3 && checkCorrectness() != 0; ++j)` with `n` passes left, `Checkerboard.cpp` 23. -/
def boardLoop (T : Torus S) (order : List S) : ℕ → Board S → Board S
  | 0, b => b
  | n + 1, b => if checkCorrectness T order b.color ≠ 0 then boardLoop T order n (boardPass T order b) else b

omit [DecidableEq S] in
/-- `Checkerboard.cpp` 16-21. -/
def boardStart : Board S := ⟨fun _ => 0, fun _ => [0]⟩

/-- The colours after the constructor. -/
def boardColors (T : Torus S) (order : List S) : Link S → ℕ := (boardLoop T order 3 boardStart).color

omit [DecidableEq S] in
/-- `numberLoops` of `statistics`, `Checkerboard.cpp` 117-130, 162: the number of different colours. -/
def numberLoops (order : List S) (color : Link S → ℕ) : ℕ := ((linkOrderOf order).map color).dedup.length

omit [DecidableEq S] in
/-- `statistics` indexes arrays of `numberLoops` elements by colours, `Checkerboard.cpp` 171-182. -/
def statisticsInRange (order : List S) (color : Link S → ℕ) : Prop :=
  ∀ l ∈ linkOrderOf order, color l < numberLoops order color

omit [DecidableEq S] in
/-- The links a sweep updates, in the order of a single thread: `PureGaugeUpdater.cpp` 63-80. -/
def sweepLinks (order : List S) (color : Link S → ℕ) : List (Link S) :=
  (List.range (numberLoops order color)).flatMap fun c => (linkOrderOf order).filter fun l => color l = c

end

/-! ### Link updates -/

section
variable {S : Type} [DecidableEq S] {N : ℕ}

/-- `updateLink` of `PureGaugeUpdater.cpp` and `PureGaugeOverrelaxation.cpp` seen from outside: the new link is computed from
the staple and the old link; `rule` may depend on the link, to account for the random numbers drawn for it. -/
def updateLink (staple : GField S N → S → Fin 4 → Mat N) (rule : Link S → Mat N → Mat N → Mat N) (U : GField S N)
    (l : Link S) : GField S N :=
  setLink U l.1 l.2 (rule l (staple U l.1 l.2) (U l.1 l.2))

end

end Leonard
