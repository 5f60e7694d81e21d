/-
C35: the even-odd reduced operator is the Schur complement of the full operator and the reconstructed
solution solves the full system.
-/
import Verif.Dirac.EvenOddSchur
import Mathlib.LinearAlgebra.Eigenspace.Minpoly

set_option autoImplicit false

namespace Leonard

open Matrix

variable {S : Type} {N : ℕ}

/-- **C35, parity.** With even extents every neighbour of a site has the other parity. -/
theorem C35_parity (T : Torus S) (hT : EvenExtents T) (μ : Fin 4) (x : S) :
    (siteParity T x = 0 ∨ siteParity T x = 1) ∧
    siteParity T (T.sup μ x) = 1 - siteParity T x ∧ siteParity T (T.sdn μ x) = 1 - siteParity T x :=
  ⟨parity_cases T x, siteParity_sup T hT μ x, siteParity_sdn T hT μ x⟩

/-- **C35 fails for odd extents**: some site has a neighbour with the same parity.  The operator can be
created on such a lattice; only the solver looks at the extents. -/
theorem C35_parity_counterexample [Nonempty S] (T : Torus S) (μ : Fin 4) (h : T.ext μ % 2 = 1) :
    ∃ x, siteParity T (T.sup μ x) = siteParity T x := by
  obtain ⟨x0⟩ := ‹Nonempty S›
  have hl := T.coord_lt μ x0
  have hc := T.coord_iterate μ (T.ext μ - 1 - T.coord x0 μ) x0
  rw [show T.coord x0 μ + (T.ext μ - 1 - T.coord x0 μ) = T.ext μ - 1 by omega, Nat.mod_eq_of_lt (by omega)] at hc
  generalize (T.sup μ)^[T.ext μ - 1 - T.coord x0 μ] x0 = x at hc
  refine ⟨x, ?_⟩
  have hs := T.coord_sup μ x
  rw [hc, show T.ext μ - 1 + 1 = T.ext μ by omega, Nat.mod_self] at hs
  have hn : ∀ ν, μ ≠ ν → T.coord (T.sup μ x) ν = T.coord x ν := fun ν hν => T.coord_sup_ne μ ν x hν
  unfold siteParity
  fin_cases μ
  · have := hn 1 (by decide); have := hn 2 (by decide); have := hn 3 (by decide)
    simp only [Fin.zero_eta, Fin.mk_one, Fin.reduceFinMk] at *; omega
  · have := hn 0 (by decide); have := hn 2 (by decide); have := hn 3 (by decide)
    simp only [Fin.zero_eta, Fin.mk_one, Fin.reduceFinMk] at *; omega
  · have := hn 0 (by decide); have := hn 1 (by decide); have := hn 3 (by decide)
    simp only [Fin.zero_eta, Fin.mk_one, Fin.reduceFinMk] at *; omega
  · have := hn 0 (by decide); have := hn 1 (by decide); have := hn 2 (by decide)
    simp only [Fin.zero_eta, Fin.mk_one, Fin.reduceFinMk] at *; omega

variable [DecidableEq S]

/-- **C35, Schur complement** (three colours, even extents).  If the site-diagonal part can be inverted on
the even sites, then for every `v` there is exactly one field `w` that agrees with `v` on the odd sites and
whose image under the full operator vanishes on the even sites, and the reduced operator returns that image
on the odd sites (with gamma5 when the flag is set) and leaves the even sites as they are.  The order in
which the sites are visited by the in-place step does not matter. -/
theorem C35_schur (T : Torus S) (hT : EvenExtents T) (U : GField S 3) (κ csw : ℝ) (h : EvenRegular T U κ csw)
    (g5 : Bool) (order : List S) (ho : Visits order) (v : SField S 3) :
    ∃ r, evenOddMul T U κ csw g5 order v = .ok (some r) ∧ (∀ x, siteParity T x = 0 → r x = v x) ∧
      ∃ w : SField S 3, ((∀ x, siteParity T x = 1 → w x = v x) ∧
          (∀ x, siteParity T x = 0 → improvedSpec T U κ csw w x = 0)) ∧
        (∀ x, siteParity T x = 1 → r x = withGamma5 g5 (improvedSpec T U κ csw w) x) ∧
        ∀ w' : SField S 3, (∀ x, siteParity T x = 1 → w' x = v x) →
          (∀ x, siteParity T x = 0 → improvedSpec T U κ csw w' x = 0) → w' = w := by
  obtain ⟨r, hr, hr0, hr1⟩ := evenOddMul_eq T hT U κ csw h g5 order ho v
  let w : SField S 3 := fun x => if siteParity T x = 0 then diagInv T U κ csw x ((κ : ℂ) • hoppingSpec T U v x) else v x
  have w0 : ∀ x, siteParity T x = 0 → w x = diagInv T U κ csw x ((κ : ℂ) • hoppingSpec T U v x) := fun x hx => if_pos hx
  have w1 : ∀ x, siteParity T x = 1 → w x = v x := fun x hx => if_neg (by omega)
  refine ⟨r, hr, hr0, w, ⟨w1, fun x hx => ?_⟩, hr1 w w1 w0, fun w' h1 h0 => ?_⟩
  · rw [improvedSpec_diag, w0 x hx, (diag_diagInv T U κ csw h x hx _).1,
      hopping_parity T hT U w v 0 x hx (fun y hy => w1 y hy), sub_self]
  · funext x
    rcases parity_cases T x with hx | hx
    · have := h0 x hx
      rw [improvedSpec_diag, hopping_parity T hT U w' v 0 x hx (fun y hy => h1 y hy), sub_eq_zero] at this
      rw [w0 x hx, ← this, (diag_diagInv T U κ csw h x hx _).2]
    · rw [h1 x hx, w1 x hx]

/-- **C35, singular diagonal part.** If the diagonal part is singular at some even site the reduced operator
gives infinities for every input. -/
theorem C35_singular (T : Torus S) (U : GField S 3) (κ csw : ℝ) (h : ¬ EvenRegular T U κ csw)
    (g5 : Bool) (order : List S) (v : SField S 3) : evenOddMul T U κ csw g5 order v = .ok none := by
  rw [evenRegular_iff] at h
  unfold evenOddMul eeInverse
  rw [if_neg (by decide), if_neg h]
  rfl

theorem reconstruct_eq (T : Torus S) (hT : EvenExtents T) (U : GField S 3) (κ csw : ℝ) (h : EvenRegular T U κ csw)
    (s y : SField S 3) :
    ∃ x, reconstruct T U κ csw s y = .ok (some x) ∧ (∀ z, siteParity T z = 1 → x z = y z) ∧
      ∀ z, siteParity T z = 0 → x z = diagInv T U κ csw z (s z + (κ : ℂ) • hoppingSpec T U y z) := by
  refine ⟨_, eeInverse_eq T U κ csw h _, ?_, ?_⟩
  · intro z hz; beta_reduce; rw [if_neg (by omega), if_neg (by omega)]
  · intro z hz; beta_reduce; rw [if_pos hz, if_pos hz, eoHop, eoSite_eq _ _ _ _ _ _ hz, sub_neg_eq_add]

theorem oddSource_eq (T : Torus S) (hT : EvenExtents T) (U : GField S 3) (κ csw : ℝ) (h : EvenRegular T U κ csw)
    (order : List S) (ho : Visits order) (s : SField S 3) :
    ∃ b, oddSource T U κ csw order s = .ok (some b) ∧ ∀ u : SField S 3,
      (∀ z, siteParity T z = 0 → u z = diagInv T U κ csw z (s z)) →
      ∀ z, siteParity T z = 1 → b z = tabGamma5 * (s z + (κ : ℂ) • hoppingSpec T U u z) := by
  refine ⟨_, by rw [oddSource, eeInverse_eq T U κ csw h]; rfl, ?_⟩
  intro u hu z hz
  ext c n
  simp only [Matrix.of_apply, gamma5_apply, if_pos hz]
  rw [eoHopInPlace_eq T hT U κ 1 (by decide) order ho.1 ho.2, eoHop, eoSite_eq _ _ _ _ _ _ hz,
    hopping_parity T hT U _ u 1 z hz (fun y hy => by
      have hy0 : siteParity T y = 0 := hy
      beta_reduce; rw [if_pos hy0, hu y hy0])]
  fin_cases c <;> simp
  all_goals ring

/-- **C35, residual of the reconstructed solution.** For whatever `y` the inner solver returned, the
reconstructed field `x` satisfies the full system `D x = s` exactly on the even sites, and on the odd sites
its residual is, up to gamma5, the residual of `y` in the reduced system. -/
theorem C35_residual (T : Torus S) (hT : EvenExtents T) (U : GField S 3) (κ csw : ℝ) (h : EvenRegular T U κ csw)
    (order : List S) (ho : Visits order) (s y : SField S 3) :
    ∃ x b r, reconstruct T U κ csw s y = .ok (some x) ∧ oddSource T U κ csw order s = .ok (some b) ∧
      evenOddMul T U κ csw true order y = .ok (some r) ∧
      (∀ z, siteParity T z = 0 → improvedSpec T U κ csw x z = s z) ∧
      (∀ z, siteParity T z = 1 → tabGamma5 * (improvedSpec T U κ csw x z - s z) = r z - b z) := by
  obtain ⟨x, hx, x1, x0⟩ := reconstruct_eq T hT U κ csw h s y
  obtain ⟨b, hb, hb1⟩ := oddSource_eq T hT U κ csw h order ho s
  obtain ⟨r, hr, _, hr1⟩ := evenOddMul_eq T hT U κ csw h true order ho y
  refine ⟨x, b, r, hx, hb, hr, ?_, ?_⟩
  · intro z hz
    rw [improvedSpec_diag, x0 z hz, (diag_diagInv T U κ csw h z hz _).1,
      hopping_parity T hT U x y 0 z hz (fun y hy => x1 y hy), add_sub_cancel_right]
  · intro z hz
    let w : SField S 3 := fun z => if siteParity T z = 0 then diagInv T U κ csw z ((κ : ℂ) • hoppingSpec T U y z) else y z
    let u : SField S 3 := fun z => diagInv T U κ csw z (s z)
    have w0 : ∀ x, siteParity T x = 0 → w x = diagInv T U κ csw x ((κ : ℂ) • hoppingSpec T U y x) := fun x hx => if_pos hx
    have w1 : ∀ x, siteParity T x = 1 → w x = y x := fun x hx => if_neg (by omega)
    rw [hr1 w w1 w0 z hz, hb1 u (fun z _ => rfl) z hz, withGamma5_apply, if_pos rfl, ← Matrix.mul_sub]
    congr 1
    have e : hoppingSpec T U x z = hoppingSpec T U (u + w) z :=
      hopping_parity T hT U x (u + w) 1 z hz (fun t ht => by
        have ht0 : siteParity T t = 0 := ht
        rw [x0 t ht0, Pi.add_apply, w0 t ht0]
        ext α c; simp [u, diagInv, applyClover, mul_add, Finset.sum_add_distrib])
    rw [improvedSpec_diag, improvedSpec_diag, e, x1 z hz, w1 z hz]
    have ea : hoppingSpec T U (u + w) z = hoppingSpec T U u z + hoppingSpec T U w z := by
      simp only [hoppingSpec, Pi.add_apply, Matrix.add_mul, Matrix.mul_add, ← Finset.sum_add_distrib]
      exact Finset.sum_congr rfl fun _ _ => by abel
    rw [ea, smul_add]
    abel

/-- The reduced operator has no zero mode when the full operator has none. -/
theorem C35_injective (T : Torus S) (hT : EvenExtents T) (U : GField S 3) (κ csw : ℝ) (h : EvenRegular T U κ csw)
    (order : List S) (ho : Visits order) (hD : ∀ v, improvedSpec T U κ csw v = 0 → v = 0) (v v' r : SField S 3)
    (hv : evenOddMul T U κ csw true order v = .ok (some r)) (hv' : evenOddMul T U κ csw true order v' = .ok (some r)) :
    v = v' := by
  obtain ⟨q, hq, q0, w, ⟨w1, w0⟩, hw, _⟩ := C35_schur T hT U κ csw h true order ho v
  obtain ⟨q', hq', q0', w', ⟨w1', w0'⟩, hw', _⟩ := C35_schur T hT U κ csw h true order ho v'
  rw [hv] at hq; rw [hv'] at hq'
  cases hq; cases hq'
  have hlin : improvedSpec T U κ csw (w - w') = improvedSpec T U κ csw w - improvedSpec T U κ csw w' := by
    exact eq_sub_of_add_eq (by rw [← improvedSpec_add, sub_add_cancel])
  have hz : improvedSpec T U κ csw (w - w') = 0 := by
    rw [hlin]
    funext x
    rcases parity_cases T x with hx | hx
    · rw [Pi.sub_apply, w0 x hx, w0' x hx, sub_self]; rfl
    · have h1 := hw x hx
      have h2 := hw' x hx
      rw [h1, withGamma5_apply, withGamma5_apply, if_pos rfl, if_pos rfl] at h2
      have h3 := congrArg (fun m : Matrix (Fin 4) (Fin 3) ℂ => tabGamma5 * m) h2
      simp only [← Matrix.mul_assoc, C32_gamma5.2.2.1, Matrix.one_mul] at h3
      rw [Pi.sub_apply, h3, sub_self]; rfl
  have hww : w = w' := sub_eq_zero.1 (hD _ hz)
  funext x
  rcases parity_cases T x with hx | hx
  · rw [← q0 x hx, ← q0' x hx]
  · rw [← w1 x hx, ← w1' x hx, hww]

/-- On a finite lattice, when the full operator has no zero mode every source of the reduced system has a
solution. -/
theorem C35_surjective [Finite S] (T : Torus S) (hT : EvenExtents T) (U : GField S 3) (κ csw : ℝ) (h : EvenRegular T U κ csw)
    (order : List S) (ho : Visits order) (hD : ∀ v, improvedSpec T U κ csw v = 0 → v = 0) (b : SField S 3) :
    ∃ v, evenOddMul T U κ csw true order v = .ok (some b) := by
  cases nonempty_fintype S
  let D : SField S 3 →ₗ[ℂ] SField S 3 :=
    { toFun := improvedSpec T U κ csw, map_add' := improvedSpec_add T U κ csw,
      map_smul' := fun c a => improvedSpec_smul T U κ csw c a }
  have hinj : Function.Injective D := (injective_iff_map_eq_zero D).2 hD
  obtain ⟨w, hw⟩ := (LinearMap.injective_iff_surjective.1 hinj)
    (fun x => if siteParity T x = 0 then 0 else tabGamma5 * b x)
  have hwx : ∀ x, improvedSpec T U κ csw w x = if siteParity T x = 0 then 0 else tabGamma5 * b x := fun x => congrFun hw x
  refine ⟨fun x => if siteParity T x = 0 then b x else w x, ?_⟩
  obtain ⟨r, hr, r0, w', ⟨_, _⟩, r1, hu⟩ := C35_schur T hT U κ csw h true order ho
    (fun x => if siteParity T x = 0 then b x else w x)
  have hww : w = w' := hu w (fun x hx => by rw [if_neg (by omega)]) (fun x hx => by rw [hwx, if_pos hx])
  rw [hr]
  congr 2
  funext x
  rcases parity_cases T x with hx | hx
  · rw [r0 x hx, if_pos hx]
  · rw [r1 x hx, withGamma5_apply, if_pos rfl, ← hww, hwx, if_neg (by omega), ← Matrix.mul_assoc, C32_gamma5.2.2.1,
      Matrix.one_mul]

/-- **C35, solver.** When the inner solver is exact and the full operator has no zero mode, the
preconditioned solver returns the solution of the full system without gamma5. -/
theorem C35_solution (T : Torus S) (hT : EvenExtents T) (U : GField S 3) (κ csw : ℝ) (h : EvenRegular T U κ csw)
    (order : List S) (ho : Visits order) (hD : ∀ v, improvedSpec T U κ csw v = 0 → v = 0)
    (inner : (SField S 3 → Outcome (Option (SField S 3))) → SField S 3 → Bool × SField S 3)
    (hi : ∀ b, evenOddSquare T U κ csw order (inner (evenOddSquare T U κ csw order) b).2 = .ok (some b))
    (s : SField S 3) :
    ∃ ok x, precondSolve T U κ csw order inner s = .ok (some (ok, x)) ∧ improvedMul T U κ csw false x = s := by
  obtain ⟨b, hb, _⟩ := oddSource_eq T hT U κ csw h order ho s
  obtain ⟨b', hb', _⟩ := evenOddMul_eq T hT U κ csw h true order ho b
  obtain ⟨x, b2, r, hx, hb2, hr, x0, x1⟩ :=
    C35_residual T hT U κ csw h order ho s (inner (evenOddSquare T U κ csw order) b').2
  rw [hb] at hb2; cases hb2
  refine ⟨(inner (evenOddSquare T U κ csw order) b').1, x, ?_, ?_⟩
  · simp only [precondSolve, thenRun, hb, hb', hx, Outcome.bind]
  · have hsq := hi b'
    simp only [evenOddSquare, thenRun, hr, Outcome.bind] at hsq
    have hrb : r = b := C35_injective T hT U κ csw h order ho hD r b b' hsq hb'
    rw [C33_improved]
    change improvedSpec T U κ csw x = s
    funext z
    rcases parity_cases T z with hz | hz
    · exact x0 z hz
    · have h1 := x1 z hz
      rw [hrb, sub_self] at h1
      have h3 := congrArg (fun m : Matrix (Fin 4) (Fin 3) ℂ => tabGamma5 * m) h1
      simp only [← Matrix.mul_assoc, C32_gamma5.2.2.1, Matrix.one_mul, Matrix.mul_zero] at h3
      exact sub_eq_zero.1 h3

/-- **C35 fails for operators with gamma5**: the solver does not look at the flag, so under the same
conditions it returns a field that does not solve the system of the operator with gamma5, for every source
that gamma5 changes. -/
theorem C35_gamma5_counterexample (T : Torus S) (hT : EvenExtents T) (U : GField S 3) (κ csw : ℝ)
    (h : EvenRegular T U κ csw) (order : List S) (ho : Visits order) (hD : ∀ v, improvedSpec T U κ csw v = 0 → v = 0)
    (inner : (SField S 3 → Outcome (Option (SField S 3))) → SField S 3 → Bool × SField S 3)
    (hi : ∀ b, evenOddSquare T U κ csw order (inner (evenOddSquare T U κ csw order) b).2 = .ok (some b))
    (s : SField S 3) (hs : gamma5Field s ≠ s) :
    ∃ ok x, precondSolve T U κ csw order inner s = .ok (some (ok, x)) ∧ improvedMul T U κ csw true x ≠ s := by
  obtain ⟨ok, x, hx, he⟩ := C35_solution T hT U κ csw h order ho hD inner hi s
  refine ⟨ok, x, hx, fun h2 => hs ?_⟩
  rw [C33_improved] at he h2
  change improvedSpec T U κ csw x = s at he
  change gamma5Field (improvedSpec T U κ csw x) = s at h2
  rwa [he] at h2

/-- **C35 fails for fewer than three colours**: the rows are numbered with a factor 3, which leaves the
matrix. -/
theorem C35_few_colours_counterexample (T : Torus S) (U : GField S N) (hN : N < 3) (κ csw : ℝ) (g5 : Bool)
    (order : List S) (v : SField S N) : evenOddMul T U κ csw g5 order v = .ub := by
  unfold evenOddMul eeInverse
  rw [if_pos (by omega)]
  rfl

theorem precondSolve_reconstruct (T : Torus S) (U : GField S N) (κ csw : ℝ) (order : List S)
    (inner : (SField S N → Outcome (Option (SField S N))) → SField S N → Bool × SField S N) (s : SField S N) (ok : Bool)
    (y : SField S N) (h : precondSolve T U κ csw order inner s = .ok (some (ok, y))) :
    ∃ z, reconstruct T U κ csw s z = .ok (some y) := by
  have run : ∀ {α β : Type} (a : Outcome (Option α)) (f : α → Outcome (Option β)) (r : β),
      thenRun a f = .ok (some r) → ∃ w, a = .ok (some w) ∧ f w = .ok (some r) := by
    intro α β a f r h
    match a, h with
    | .ok (some w), h => exact ⟨w, rfl, h⟩
    | .ok none, h => simp [thenRun, Outcome.bind] at h
    | .exit _, h => simp [thenRun, Outcome.bind] at h
    | .ub, h => simp [thenRun, Outcome.bind] at h
  obtain ⟨b, _, h⟩ := run _ _ _ h
  obtain ⟨b', _, h⟩ := run _ _ _ h
  obtain ⟨x, hx, h⟩ := run _ _ _ h
  simp only [Outcome.ok.injEq, Option.some.injEq, Prod.mk.injEq] at h
  exact ⟨_, h.2 ▸ hx⟩

/-- **C35 fails for more than three colours**: the same factor 3 makes rows of different spin coincide.
Already for the operator that is the identity (no hopping, no clover term) the solver returns something else
than the source, whatever the inner solver does. -/
theorem C35_many_colours_counterexample (T : Torus S) (U : GField S N) (hN : 3 < N) (order : List S) (x : S)
    (hx : siteParity T x = 0) :
    (∀ v, improvedMul T U 0 0 false v = v) ∧
    ∃ s : SField S N, ∀ inner, ∀ ok y, precondSolve T U 0 0 order inner s = .ok (some (ok, y)) → y ≠ s := by
  constructor
  · intro v
    rw [C33_improved]
    change improvedSpec T U 0 0 v = v
    funext z; simp [improvedSpec, wilsonSpec]
  · refine ⟨fun _ => Matrix.of fun α c => if α = 1 ∧ c.val = 0 then 1 else 0, fun inner ok y hy hs => ?_⟩
    have hone : ∀ F : Fin 6 → Mat N, cloverMatrix 0 0 F = 1 := fun F => by
      have h0 : ∀ (α β : Fin 4) (i j : Fin N), cloverCoef 0 0 F α β i j = 0 := fun α β i j => by
        fin_cases α <;> fin_cases β <;> simp [cloverCoef]
      ext p q; simp [cloverMatrix, h0]
    have hee : ∀ v : SField S N, eeInverse T U 0 0 v =
        .ok (some fun x => if siteParity T x = 0 then applyClover 1 (v x) else v x) := fun v => by
      unfold eeInverse
      rw [if_neg (by omega), if_pos]
      · simp only [hone, inv_one]
      · intro x _; rw [hone]; simp
    obtain ⟨z, hz⟩ := precondSolve_reconstruct T U 0 0 order inner _ ok y hy
    rw [reconstruct, hee] at hz
    injection hz with hz
    injection hz with h2
    rw [hs] at h2
    have h3 := congrFun (congrFun (congrFun h2 x) 0) ⟨3, hN⟩
    rw [if_pos hx] at h3
    simp only [if_pos hx, eoHop, eoSite_eq _ _ _ _ _ _ hx] at h3
    simp only [applyClover, Matrix.of_apply] at h3
    rw [Finset.sum_eq_single (1 : Fin 4), Finset.sum_eq_single (⟨0, by omega⟩ : Fin N)] at h3
    · rw [dif_pos ⟨by simp; omega, by simp; omega⟩] at h3
      simp at h3
      rw [Matrix.one_apply, if_pos (Fin.ext (by simp))] at h3
      exact one_ne_zero h3
    · intro b _ hb
      have : b.val ≠ 0 := fun hb0 => hb (Fin.ext hb0)
      simp [this]
    · simp
    · intro β _ hβ
      apply Finset.sum_eq_zero
      intro b _
      simp [hβ]
    · simp

/-! ### The hypotheses are met -/

/-- A lattice with even extents; without clover term the diagonal part is the identity. -/
example (U : GField (BoxSite exExt) 3) (κ : ℝ) :
    EvenExtents (boxTorus exExt exExt_pos) ∧ EvenRegular (boxTorus exExt exExt_pos) U κ 0 := by
  refine ⟨fun μ => by fin_cases μ <;> decide, fun x _ w hw => ?_⟩
  simpa [diagSite] using hw

/-- For every gauge field on a finite lattice there is a nonzero hopping parameter for which the full operator has
no zero mode: only finitely many are excluded. -/
example [Finite S] (T : Torus S) (U : GField S 3) : ∃ κ : ℝ, κ ≠ 0 ∧ ∀ v, improvedSpec T U κ 0 v = 0 → v = 0 := by
  cases nonempty_fintype S
  let H : Module.End ℂ (SField S 3) :=
    { toFun := fun v => v - improvedSpec T U 1 0 v
      map_add' := fun a b => by rw [improvedSpec_add]; abel
      map_smul' := fun c a => by rw [improvedSpec_smul, RingHom.id_apply, smul_sub] }
  have hfin : Set.Finite {n : ℕ | H.HasEigenvalue ((n : ℂ) + 1)} :=
    (Module.End.finite_hasEigenvalue H).preimage (fun a _ b _ h => by simpa using h)
  obtain ⟨n, hn⟩ := hfin.exists_notMem
  have hpos : ((n : ℝ) + 1) ≠ 0 := by positivity
  have hposC : ((n : ℂ) + 1) ≠ 0 := by exact_mod_cast hpos
  refine ⟨1 / ((n : ℝ) + 1), by positivity, fun v hv => ?_⟩
  by_contra h0
  apply hn
  refine Module.End.hasEigenvalue_of_hasEigenvector (x := v) ⟨Module.End.mem_eigenspace_iff.2 ?_, h0⟩
  have e : H v = hoppingSpec T U v := by
    show v - improvedSpec T U 1 0 v = _
    rw [improvedSpec_zero, wilsonSpec_eq]; simp
  rw [e]
  rw [improvedSpec_zero, wilsonSpec_eq] at hv
  have : v = ((1 / ((n : ℂ) + 1))) • hoppingSpec T U v := by
    have h1 := eq_neg_of_add_eq_zero_left hv
    rw [neg_smul, neg_neg] at h1
    push_cast at h1
    exact h1
  conv_rhs => rw [this]
  rw [smul_smul, mul_one_div_cancel hposC, one_smul]

/-- Exact inner solvers exist. -/
example [Finite S] (T : Torus S) (hT : EvenExtents T) (U : GField S 3) (κ csw : ℝ) (h : EvenRegular T U κ csw)
    (order : List S) (ho : Visits order) (hD : ∀ v, improvedSpec T U κ csw v = 0 → v = 0) :
    ∃ inner : (SField S 3 → Outcome (Option (SField S 3))) → SField S 3 → Bool × SField S 3,
      ∀ b, evenOddSquare T U κ csw order (inner (evenOddSquare T U κ csw order) b).2 = .ok (some b) := by
  have hs : ∀ b, ∃ v, evenOddSquare T U κ csw order v = .ok (some b) := fun b => by
    obtain ⟨v, hv⟩ := C35_surjective T hT U κ csw h order ho hD b
    obtain ⟨u, hu⟩ := C35_surjective T hT U κ csw h order ho hD v
    exact ⟨u, by simp only [evenOddSquare, thenRun, hu, Outcome.bind, hv]⟩
  choose f hf using hs
  exact ⟨fun _ b => (true, f b), hf⟩

/-- A source that gamma5 changes. -/
example : gamma5Field (fun _ => Matrix.of fun _ _ => 1 : SField (BoxSite exExt) 3) ≠ fun _ => Matrix.of fun _ _ => 1 := by
  intro h
  have := congrFun (congrFun (congrFun h ⟨⟨0, 0, 0, 0⟩, by decide⟩) 2) 0
  simp [gamma5Field, gamma5_apply] at this
  norm_num at this

end Leonard
