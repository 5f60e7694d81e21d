/-
C48: names select the matching component, other names stop the program.
-/
import Verif.Factory.Spec
import Verif.Factory.Options
import Verif.Io.Model

set_option autoImplicit false

namespace Leonard

variable {L : Type}

/-- **C48** (start). -/
theorem C48_starter : FollowsTable startInstance starterTable := by
  constructor
  · intro name c
    unfold startInstance starterTable
    split_ifs with h1 h2 h3 <;> cases c <;> simp_all
  · intro name h
    unfold startInstance
    rw [if_neg, if_neg, if_neg]
    all_goals rintro rfl; exact h _ (by simp [starterTable]; rfl)

example : ("hotstart", StartClass.HotStartGaugeConfiguration) ∈ starterTable ∧ ∀ c, ("warmstart", c) ∉ starterTable := by
  constructor
  · decide
  · intro c; cases c <;> decide

/-- **C48** (gauge action): the action has the coupling that was asked for. -/
theorem C48_gauge_action (beta : ℝ) :
    FollowsTable (fun name => gaugeActionInstance name beta) (actionTable.map fun p => (p.1, p.2, beta)) := by
  constructor
  · rintro name ⟨c, b⟩
    simp only [gaugeActionInstance, actionTable]
    split_ifs with h1 h2 <;> cases c <;> simp_all [eq_comm]
  · intro name h
    simp only [gaugeActionInstance]
    rw [if_neg, if_neg]
    all_goals rintro rfl; exact h _ (by simp [actionTable]; rfl)

/-- **C48** (gradient flow): the flow has `beta = 2 n`, so that the force is the one of the action `Re tr` with coefficient 2. -/
theorem C48_flow (n : ℕ) : FollowsTable (fun name => flowAction name n) (flowTable.map fun p => (p.1, p.2, 2 * (n : ℝ))) := by
  constructor
  · rintro name ⟨c, b⟩
    simp only [flowAction, flowTable]
    split_ifs with h1 h2 <;> cases c <;> simp_all [eq_comm]
  · intro name h
    simp only [flowAction]
    rw [if_neg, if_neg]
    all_goals rintro rfl; exact h _ (by simp [flowTable]; rfl)

/-- **C48** (integrator). -/
theorem C48_integrator : FollowsTable integratorInstance integratorTable := by
  constructor
  · intro name c
    unfold integratorInstance integratorTable
    split_ifs <;> cases c <;> simp_all
  · intro name h
    unfold integratorInstance
    rw [if_neg, if_neg, if_neg, if_neg, if_neg]
    all_goals rintro rfl; exact h _ (by simp [integratorTable]; rfl)

/-- **C48** (solver for several shifts). -/
theorem C48_multishift : FollowsTable multishiftInstance multishiftTable := by
  constructor
  · intro name c
    unfold multishiftInstance multishiftTable
    split_ifs <;> cases c <;> simp_all
  · intro name h
    unfold multishiftInstance
    rw [if_neg, if_neg, if_neg]
    all_goals rintro rfl; exact h _ (by simp [multishiftTable]; rfl)

/-- **C48** (sweeps).  A name is accepted exactly if it is in the list printed by `--list_sweeps`, every other name stops the program, and
the list loader of C10 accepts the same names. -/
theorem C48_sweep (name : String) :
    ((∃ c, sweepClass name = .ok c) ↔ name ∈ printedSweeps) ∧ (name ∉ printedSweeps → sweepClass name = .exit 1) ∧
      (name ∈ printedSweeps ↔ sweepInstance name.toList = .ok name) := by
  have hp : name ∈ printedSweeps ↔ name ∈ sweepClasses.map Prod.fst := by
    have h1 : ∀ x ∈ printedSweeps, x ∈ sweepClasses.map Prod.fst := by decide +kernel
    have h2 : ∀ x ∈ sweepClasses.map Prod.fst, x ∈ printedSweeps := by decide +kernel
    exact ⟨h1 name, h2 name⟩
  have hs : name ∈ printedSweeps ↔ name ∈ sweepNames := by
    have h1 : ∀ x ∈ printedSweeps, x ∈ sweepNames := by decide +kernel
    have h2 : ∀ x ∈ sweepNames, x ∈ printedSweeps := by decide +kernel
    exact ⟨h1 name, h2 name⟩
  have hf : (∃ c, sweepClass name = .ok c) ↔ name ∈ sweepClasses.map Prod.fst := by
    unfold sweepClass
    cases h : sweepClasses.find? fun p => decide (p.1 = name) with
    | none =>
      rw [List.find?_eq_none] at h
      simp only [reduceCtorEq, exists_false, false_iff, List.mem_map, not_exists, not_and]
      intro p hp' hn
      exact h p hp' (by simpa using hn)
    | some p =>
      refine ⟨fun _ => List.mem_map.2 ⟨p, List.mem_of_find?_eq_some h, by simpa using List.find?_some h⟩, fun _ => ⟨p.2, rfl⟩⟩
  refine ⟨hf.trans hp.symm, fun hn => ?_, ?_⟩
  · have hn' : ¬ ∃ c, sweepClass name = .ok c := fun h => hn (hp.2 (hf.1 h))
    unfold sweepClass at hn' ⊢
    cases h : sweepClasses.find? fun p => decide (p.1 = name) with
    | none => rfl
    | some p => rw [h] at hn'; exact absurd ⟨p.2, rfl⟩ hn'
  · unfold sweepInstance
    rw [String.ofList_toList, hs]
    by_cases h : name ∈ sweepNames <;> simp [h]

/-- **C48** (sweeps).  The name selects the class of the table. -/
theorem C48_sweep_class : FollowsTable sweepClass sweepTable := by
  have hd : ∀ p ∈ sweepTable, sweepClass p.1 = .ok p.2 := by decide +kernel
  have ht : ∀ p ∈ sweepClasses, p ∈ sweepTable := by decide +kernel
  have hc : ∀ name c, sweepClass name = .ok c → (name, c) ∈ sweepTable := by
    intro name c h
    unfold sweepClass at h
    cases hf : sweepClasses.find? fun p => decide (p.1 = name) with
    | none => rw [hf] at h; cases h
    | some p =>
      rw [hf] at h
      have h1 : p.2 = c := by simpa using h
      have h2 : p.1 = name := by simpa using List.find?_some hf
      rw [← h1, ← h2]
      exact ht p (List.mem_of_find?_eq_some hf)
  refine ⟨fun name c => ⟨hc name c, fun h => hd _ h⟩, fun name h => ?_⟩
  have hn : ¬ ∃ c, sweepClass name = .ok c := fun ⟨c, h'⟩ => h c (hc name c h')
  exact (C48_sweep name).2.1 fun hp => hn ((C48_sweep name).1.2 hp)

example : ∀ c, ("TestCommunications", c) ∉ sweepTable := by
  intro c h
  have : "TestCommunications" ∈ sweepTable.map Prod.fst := List.mem_map.2 ⟨_, h, rfl⟩
  exact absurd this (by decide +kernel)

/-! ### Dirac operators -/

/-- **C48** (Dirac operator): unknown names and powers stop the program, whatever the options are. -/
theorem C48_dirac_unknown (l0 : L) (name : String) (power : ℕ) (r : DiracReader) (b : String)
    (h : (∀ d, (name, d) ∉ discretisationTable) ∨ (power ≠ 1 ∧ power ≠ 2)) : diracInstance l0 name power r b = .exit 1 := by
  unfold diracInstance
  rcases h with h | ⟨h1, h2⟩
  · have n1 : name ≠ "DiracWilson" := by rintro rfl; exact h .wilson (by decide)
    have n2 : name ≠ "BasicDiracWilson" := by rintro rfl; exact h .basicWilson (by decide)
    have n3 : name ≠ "Improved" := by rintro rfl; exact h .clover (by decide)
    have n4 : name ≠ "Overlap" := by rintro rfl; exact h .overlap (by decide)
    have n5 : name ≠ "ExactOverlap" := by rintro rfl; exact h .exactOverlap (by decide)
    simp [n1, n2, n3, n4, n5]
  · simp [h1, h2]

example : (∀ d, ("Staggered", d) ∉ discretisationTable) ∧ ((3 : ℕ) ≠ 1 ∧ (3 : ℕ) ≠ 2) := by
  refine ⟨?_, by decide⟩
  intro d; cases d <;> decide

/-- The options an operator needs are readable. -/
def DiracReader.complete (r : DiracReader) (b : String) (kappa csw mass : ℝ) (c c' : ℂ) (l l' : List ℂ) : Prop :=
  r.real (b ++ "kappa") = .ok kappa ∧ r.real (b ++ "csw") = .ok csw ∧ r.real (b ++ "mass") = .ok mass ∧
    r.complexes (b ++ "OverlapOperator::squareRootApproximation") = .ok (c :: l) ∧
    r.complexes (b ++ "ExactOverlapOperator::squareRootApproximation") = .ok (c' :: l')

/-- **C48** (Dirac operator).  A known name and a power of one or two give an operator of this discretisation and power, with this name, with
the hopping parameter of the section `b` of the options, with the clover coefficient or the mass and polynomial of this section if the
discretisation has them, and with `gamma5` on. -/
theorem C48_dirac (l0 : L) (name : String) (d : Discretisation) (hd : (name, d) ∈ discretisationTable) (power : ℕ)
    (hp : power = 1 ∨ power = 2) (r : DiracReader) (b : String) (kappa csw mass : ℝ) (c c' : ℂ) (l l' : List ℂ)
    (hr : r.complete b kappa csw mass c c' l l') :
    ∃ o, diracInstance l0 name power r b = .ok o ∧ o.name = name ∧ o.cls.discretisation = d ∧ o.cls.power = power ∧ o.kappa = kappa ∧
      o.gamma5 = true ∧ o.lattice = l0 ∧ (d = .clover → o.csw = csw) ∧ (d = .overlap → o.mass = mass ∧ o.approximation = (c, l)) ∧
      (d = .exactOverlap → o.mass = mass ∧ o.approximation = (c', l')) := by
  obtain ⟨h1, h2, h3, h4, h5⟩ := hr
  simp only [discretisationTable, List.mem_cons, Prod.mk.injEq, List.not_mem_nil, or_false] at hd
  rcases hp with rfl | rfl <;> rcases hd with ⟨rfl, rfl⟩ | ⟨rfl, rfl⟩ | ⟨rfl, rfl⟩ | ⟨rfl, rfl⟩ | ⟨rfl, rfl⟩ <;>
    simp [diracInstance, newWilson, newImproved, newOverlap, readApproximation, newDirac, h1, h2, h3, h4, h5, DiracClass.discretisation,
      DiracClass.power]

example : DiracReader.complete ⟨fun _ => .ok 1, fun _ => .ok [2, 3]⟩ "" 1 1 1 2 2 [3] [3] := by simp [DiracReader.complete]

/-- **C48** (square).  `getSquare` of an operator of power one with links `l` is the operator that the factory makes for power two, with the same
links and the same `gamma5`; for the clover operator the clover term is the one of these links. -/
theorem C48_square (l0 l : L) (g : Bool) (name : String) (d : Discretisation) (hd : (name, d) ∈ discretisationTable) (r : DiracReader) (b : String)
    (kappa csw mass : ℝ) (c c' : ℂ) (z z' : List ℂ) (hr : r.complete b kappa csw mass c c' z z') :
    ∃ o o₂, diracInstance l0 name 1 r b = .ok o ∧ diracInstance l0 name 2 r b = .ok o₂ ∧
      diracSquare l0 { o.setLattice l with gamma5 := g } = .ok { o₂.setLattice l with gamma5 := g } ∧ (o₂.setLattice l).lattice = l ∧
      (d = .clover → (o₂.setLattice l).clover = some l) := by
  obtain ⟨h1, h2, h3, h4, h5⟩ := hr
  simp only [discretisationTable, List.mem_cons, Prod.mk.injEq, List.not_mem_nil, or_false] at hd
  rcases hd with ⟨rfl, rfl⟩ | ⟨rfl, rfl⟩ | ⟨rfl, rfl⟩ | ⟨rfl, rfl⟩ | ⟨rfl, rfl⟩ <;>
    simp [diracInstance, newWilson, newImproved, newOverlap, readApproximation, newDirac, h1, h2, h3, h4, h5, diracSquare,
      DiracObject.setLattice]

/-- **C48** (square root, the part that holds).  For the two Wilson operators without clover term `getSquareRoot` undoes the square and
keeps links and `gamma5`.  Missing: the clover operator (`C48_square_root_clover_counterexample`) and the overlap operators (`C48_square_root_overlap_counterexample`). -/
theorem C48_square_root_partial (l0 l : L) (g : Bool) (name : String) (hn : name = "DiracWilson" ∨ name = "BasicDiracWilson") (r : DiracReader)
    (b : String) (kappa : ℝ) (hr : r.real (b ++ "kappa") = .ok kappa) :
    ∃ o o₂, diracInstance l0 name 1 r b = .ok o ∧ diracInstance l0 name 2 r b = .ok o₂ ∧
      diracSquareRoot l0 { o₂.setLattice l with gamma5 := g } = .ok { o.setLattice l with gamma5 := g } ∧ (o.setLattice l).lattice = l := by
  rcases hn with rfl | rfl <;>
    simp [diracInstance, newWilson, newDirac, hr, diracSquareRoot, DiracObject.setLattice]

/-- **C48, counterexample 1**.  `getSquareRoot` of a clover operator has the right links and coefficients, but its clover term has not been computed,
for any options and links. -/
theorem C48_square_root_clover_counterexample (l0 l : L) (r : DiracReader) (b : String) (kappa csw : ℝ)
    (hk : r.real (b ++ "kappa") = .ok kappa) (hc : r.real (b ++ "csw") = .ok csw) :
    ∃ o o₂ s, diracInstance l0 "Improved" 1 r b = .ok o ∧ diracInstance l0 "Improved" 2 r b = .ok o₂ ∧
      diracSquareRoot l0 (o₂.setLattice l) = .ok s ∧ s.lattice = l ∧ s.csw = csw ∧ s.clover = none ∧
      (o.setLattice l).clover = some l := by
  simp [diracInstance, newImproved, newDirac, hk, hc, diracSquareRoot, DiracObject.setLattice]

/-- **C48, counterexample 2**.  `getSquareRoot` of the square of an overlap operator stops the program. -/
theorem C48_square_root_overlap_counterexample (l0 l : L) (name : String) (hn : name = "Overlap" ∨ name = "ExactOverlap") (r : DiracReader)
    (b : String) (kappa csw mass : ℝ) (c c' : ℂ) (z z' : List ℂ) (hr : r.complete b kappa csw mass c c' z z') :
    ∃ o₂, diracInstance l0 name 2 r b = .ok o₂ ∧ diracSquareRoot l0 (o₂.setLattice l) = .exit 1 := by
  obtain ⟨h1, h2, h3, h4, h5⟩ := hr
  rcases hn with rfl | rfl <;>
    simp [diracInstance, newOverlap, readApproximation, newDirac, h1, h3, h4, h5, diracSquareRoot, DiracObject.setLattice]

/-- **C48, counterexample 3**.  The default `""` of the polynomial has no first number: with the default options an overlap operator is undefined. -/
theorem C48_overlap_default_counterexample (l0 : L) (r : DiracReader) (b : String) (kappa mass : ℝ) (hk : r.real (b ++ "kappa") = .ok kappa)
    (hm : r.real (b ++ "mass") = .ok mass) (ha : r.complexes (b ++ "OverlapOperator::squareRootApproximation") = .ok []) :
    diracInstance l0 "Overlap" 1 r b = .ub := by
  simp [diracInstance, newOverlap, readApproximation, hk, hm, ha]

/-! ### Block operators -/

/-- **C48** (block operator).  Power one exists for the Wilson and the clover operator, with the colour asked for, power two for the Wilson
operator; everything else stops the program. -/
theorem C48_block (name : String) (power : ℕ) (r : DiracReader) (red : Bool) (kappa csw : ℝ) (hk : r.real "kappa" = .ok kappa)
    (hc : r.real "csw" = .ok csw) :
    (name = "DiracWilson" → power = 1 → blockInstance name power r red = .ok (.BlockDiracWilsonOperator, red, kappa, 0)) ∧
    (name = "Improved" → power = 1 → blockInstance name power r red = .ok (.BlockImprovedDiracWilsonOperator, red, kappa, csw)) ∧
    (name = "DiracWilson" → power = 2 → ∃ red', blockInstance name power r red = .ok (.SquareBlockDiracWilsonOperator, red', kappa, 0)) ∧
    (¬ (name = "DiracWilson" ∧ (power = 1 ∨ power = 2)) → ¬ (name = "Improved" ∧ power = 1) → blockInstance name power r red = .exit 1) := by
  refine ⟨?_, ?_, ?_, ?_⟩
  · rintro rfl rfl; simp [blockInstance, hk]
  · rintro rfl rfl; simp [blockInstance, hk, hc]
  · rintro rfl rfl; simp [blockInstance, hk]
  · intro h1 h2
    unfold blockInstance
    by_cases p1 : power = 1
    · subst p1
      have n1 : name ≠ "DiracWilson" := fun h => h1 ⟨h, Or.inl rfl⟩
      have n2 : name ≠ "Improved" := fun h => h2 ⟨h, rfl⟩
      simp [n1, n2]
    · by_cases p2 : power = 2
      · subst p2
        have n1 : name ≠ "DiracWilson" := fun h => h1 ⟨h, Or.inr rfl⟩
        simp [n1]
      · simp [p1, p2]

/-- **C48, counterexample 4**.  The squared block operator for the red blocks acts on the black ones. -/
theorem C48_block_colour_counterexample (r : DiracReader) (kappa : ℝ) (hk : r.real "kappa" = .ok kappa) :
    blockInstance "DiracWilson" 2 r true = .ok (.SquareBlockDiracWilsonOperator, false, kappa, 0) := by
  simp [blockInstance, hk]

end Leonard
