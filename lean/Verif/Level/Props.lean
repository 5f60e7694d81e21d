import Verif.Level.Steps

/-!
# C67: the multilevel measurement of Polyakov loop correlators

Exact arithmetic, independent uniform numbers, no MPI; `HeatStream`, `heatMeasure` and `streamDraw` as in C64. `boltzmann E` is the distribution
`exp(-E(U)) dU`, and `∫ corr ∂(numbers × boltzmann E)` the mean of what is written, the configuration being distributed with it.
-/

set_option autoImplicit false

namespace Leonard

open MeasureTheory Set Real Matrix
open scoped ENNReal

variable {S : Type} {N : ℕ} [DecidableEq S] [Fintype S]

/-! ### Specification -/

/-- **Specification.** The correlator of two Polyakov loops in direction 1, `R` sites apart in direction 0: the average of `Re(tr P(x) conj(tr P(x + R)))`
over the loops, divided by `N²`. -/
noncomputable def lineCorrelator (T : Torus S) (U : GField S N) (R : ℕ) : ℝ :=
  (∑ s, if T.coord s 1 = 0 then (trace (polyakovLine T U 1 s) * star (trace (polyakovLine T U 1 ((T.sup 0)^[R] s)))).re else 0)
    / (N ^ 2 * (T.ext 0 * T.ext 2 * T.ext 3))

/-- **Specification.** The line of links in direction 1 through slice `k` above the site `s`. -/
noncomputable def slicePart (T : Torus S) (U : GField S N) (size : ℕ) (s : S) (k : ℕ) : Mat N := holo T U ((T.sup 1)^[k * size] s) (List.replicate size (1, true))

/-- **Specification.** The same with the adjoint lines of the slices of the second loop multiplied in the order of the first loop: `L₁† L₂† ⋯ L_m†` where the
adjoint of the loop is `L_m† ⋯ L₂† L₁†`. -/
noncomputable def disorderedCorrelator (T : Torus S) (U : GField S N) (size m R : ℕ) : ℝ :=
  (∑ s, if T.coord s 1 = 0 then
      (trace (polyakovLine T U 1 s) * trace ((List.range m).map fun k => (slicePart T U size ((T.sup 0)^[R] s) k)ᴴ).prod).re else 0)
    / (N ^ 2 * (T.ext 0 * T.ext 2 * T.ext 3))

/-- The measurement is defined with probability one (no loop runs forever, no division by zero), leaves the configurations distributed as they were, and
has the mean value of `value`. -/
def Measures {D : Type} [MeasurableSpace D] (E : GField S N → ℝ) (P : Measure D) (program : ℕ → D → GField S N → Option (List ℝ × GField S N)) (maxR : ℕ)
    (value : GField S N → ℕ → ℝ) : Prop :=
  ∃ (corr : D → LinkSU S N → ℕ → ℝ) (last : D → LinkSU S N → LinkSU S N),
    (∀ᵐ Q ∂linkMeasure S Measure.haar, ∀ᵐ d ∂P, ∃ n0, ∀ a ≥ n0,
      program a d (linkMat Q) = some ((List.range' 2 (maxR - 1)).map (corr d Q), linkMat (last d Q)))
    ∧ KeepsBoltzmann E P last
    ∧ ∀ R, Integrable (fun z => corr z.1 z.2 R) (P.prod (boltzmann E)) ∧ ∫ z, corr z.1 z.2 R ∂(P.prod (boltzmann E)) = ∫ Q, value (linkMat Q) R ∂boltzmann E

/-- The actions and slices the theorems are about: the action, its staple, and slices that do not interact. -/
inductive SliceAction (T : Torus S) (size : ℕ) (β : ℝ) : (GField S N → ℝ) → (GField S N → S → Fin 4 → Mat N) → Prop
  | wilson (hT : ∀ μ, 2 ≤ T.ext μ) (hs : 0 < size) : SliceAction T size β (wilsonEnergy β T) (wilsonStaple T)
  | improved (u0 : ℝ) (hu : 1 < 10 * u0 ^ 2) (hT : ∀ μ, 3 ≤ T.ext μ) (hs : 2 ≤ size) : SliceAction T size β (improvedEnergy u0 β T) (improvedStaple u0 T)

omit [DecidableEq S] in
theorem levelCorrelator_disordered (T : Torus S) (size m : ℕ) (hs : 0 < size) (hm : 0 < m) (hY : T.ext 1 = size * m) (U : GField S N) (R : ℕ) :
    levelCorrelator T size [U] R = disorderedCorrelator T U size m R := by
  have hd : T.ext 1 / size = m := by rw [hY, Nat.mul_div_cancel_left _ hs]
  unfold levelCorrelator disorderedCorrelator
  rw [show (N : ℝ) * N * T.ext 0 * T.ext 2 * T.ext 3 = N ^ 2 * (T.ext 0 * T.ext 2 * T.ext 3) by ring]
  refine congrArg (fun z => z / _) (Finset.sum_congr rfl fun s _ => ?_)
  split
  · rw [levelSite_lines T size (by omega), hd, lines_prod, mul_comm m size, ← hY]
    simp only [lineOfSlice_eq]
    rfl
  · rfl

omit [DecidableEq S] in
theorem disordered_two (T : Torus S) (size m : ℕ) (hm : m ≤ 2) (hY : T.ext 1 = size * m) (U : GField S N) (R : ℕ) :
    disorderedCorrelator T U size m R = lineCorrelator T U R := by
  unfold disorderedCorrelator lineCorrelator
  refine congrArg (fun z => z / _) (Finset.sum_congr rfl fun s _ => ?_)
  split
  · have e : ∀ x, polyakovLine T U 1 x = ((List.range m).map fun k => slicePart T U size x k).prod := fun x => by
      have := lines_prod T size m U x
      simp only [lineOfSlice_eq] at this
      rw [polyakovLine, hY, mul_comm, ← this]
      rfl
    have e2 : trace ((List.range m).map fun k => (slicePart T U size ((T.sup 0)^[R] s) k)ᴴ).prod = star (trace (polyakovLine T U 1 ((T.sup 0)^[R] s))) := by
      rw [e, ← trace_conjTranspose]
      interval_cases m
      · simp
      · simp
      · simp only [List.range_succ, List.range_zero, List.nil_append, List.map_append, List.map_cons, List.map_nil, List.prod_append, List.prod_cons,
          List.prod_nil, Matrix.mul_one, conjTranspose_mul]
        exact trace_mul_comm _ _
    rw [e2]
  · rfl

/-! ### Theorems -/

/-- **C67, mean value.** For every number of colours, both actions, every number of slices and of subsweeps, every order of the links and `β > 0`: the
measurement is defined with probability one, leaves the configurations distributed with the Boltzmann distribution, and its mean is that of the correlator
with the adjoint lines in the order of the first loop. -/
theorem C67_mean (hN : 2 ≤ N) (T : Torus S) (size m n maxR : ℕ) (hm : 0 < m) (hn : 0 < n) (hY : T.ext 1 = size * m) (hz : T.ext 2 ≤ T.ext 1) (β : ℝ) (hβ : 0 < β)
    (E : GField S N → ℝ) (stap : GField S N → S → Fin 4 → Mat N) (hact : SliceAction T size β E stap) (links : List (Link S)) (hl : links.Nodup) :
    Measures E (Measure.pi fun _ : Fin n × Link S × Fin N × Fin N => heatMeasure)
      (fun a d => levelMeasure T size maxR (heatSweep β stap (sliceLinks T size links)) ((List.finRange n).map fun k i => streamDraw a (d (k, i)))) maxR
      (fun U R => disorderedCorrelator T U size m R) := by
  have hs : 0 < size := by cases hact <;> omega
  unfold Measures
  simp only [← levelCorrelator_disordered T size m hs hm hY]
  cases hact with
  | wilson hT _ =>
    exact level_heat hN T size m n maxR hs hm hn hY hz β hβ _ (continuous_wilsonEnergy β T) _ (fun U s μ V => C20_wilson T hT β U s μ V) (continuous_wilsonStaple T)
      (wilson_moves T hT) (fun U V s μ hu h => wilsonStaple_agree T hY hs U V s μ hu h) links hl
  | improved u0 hu hT hs2 =>
    exact level_heat hN T size m n maxR hs hm hn hY hz β hβ _ (continuous_improvedEnergy u0 β T) _ (fun U s μ V => C20_improved T hT u0 β U s μ V)
      (continuous_improvedStaple u0 T) (improved_moves T hT u0 hu) (fun U V s μ hu' h => improvedStaple_agree T u0 hY hs2 U V s μ hu' h) links hl

/-- **C67, mean value, two colours.** The same for the separate code for two colours. -/
theorem C67_mean_two_colours (T : Torus S) (size m n maxR : ℕ) (hm : 0 < m) (hn : 0 < n) (hY : T.ext 1 = size * m) (hz : T.ext 2 ≤ T.ext 1) (β : ℝ) (hβ : 0 < β)
    (E : GField S 2 → ℝ) (stap : GField S 2 → S → Fin 4 → Mat 2) (hact : SliceAction T size β E stap) (links : List (Link S)) (hl : links.Nodup) :
    Measures E (Measure.pi fun _ : Fin n × Link S => heatMeasure)
      (fun a d => levelMeasure T size maxR (heatSweep2 β stap (sliceLinks T size links)) ((List.finRange n).map fun k i => streamDraw a (d (k, i)))) maxR
      (fun U R => disorderedCorrelator T U size m R) := by
  have hs : 0 < size := by cases hact <;> omega
  unfold Measures
  simp only [← levelCorrelator_disordered T size m hs hm hY]
  cases hact with
  | wilson hT _ =>
    exact level_heat2 T size m n maxR hs hm hn hY hz β hβ _ (continuous_wilsonEnergy β T) _ (fun U s μ V => C20_wilson T hT β U s μ V) (continuous_wilsonStaple T)
      (wilson_moves T hT) (fun Q s μ => isQuat_wilsonStaple T _ (fun s μ => (IsQuat.of_su2 (Q s μ).2).1) s μ)
      (fun U V s μ hu h => wilsonStaple_agree T hY hs U V s μ hu h) links hl
  | improved u0 hu hT hs2 =>
    exact level_heat2 T size m n maxR hs hm hn hY hz β hβ _ (continuous_improvedEnergy u0 β T) _ (fun U s μ V => C20_improved T hT u0 β U s μ V)
      (continuous_improvedStaple u0 T) (improved_moves T hT u0 hu) (fun Q s μ => isQuat_improvedStaple u0 T _ (fun s μ => (IsQuat.of_su2 (Q s μ).2).1) s μ)
      (fun U V s μ hu' h => improvedStaple_agree T u0 hY hs2 U V s μ hu' h) links hl

/-- **C67, unbiased.** With one or two slices the mean of what is written is the mean of the Polyakov loop correlator. Missing: three and more slices, for
which it is false, see `C67_order_counterexample`. -/
theorem C67_unbiased_partial (hN : 2 ≤ N) (T : Torus S) (size m n maxR : ℕ) (hm : 0 < m) (hm2 : m ≤ 2) (hn : 0 < n) (hY : T.ext 1 = size * m)
    (hz : T.ext 2 ≤ T.ext 1) (β : ℝ) (hβ : 0 < β) (E : GField S N → ℝ) (stap : GField S N → S → Fin 4 → Mat N) (hact : SliceAction T size β E stap)
    (links : List (Link S)) (hl : links.Nodup) :
    Measures E (Measure.pi fun _ : Fin n × Link S × Fin N × Fin N => heatMeasure)
      (fun a d => levelMeasure T size maxR (heatSweep β stap (sliceLinks T size links)) ((List.finRange n).map fun k i => streamDraw a (d (k, i)))) maxR
      (fun U R => lineCorrelator T U R) := by
  have h := C67_mean hN T size m n maxR hm hn hY hz β hβ E stap hact links hl
  simp only [disordered_two T size m hm2 hY] at h
  exact h

/-- **C67, unbiased, two colours.** -/
theorem C67_unbiased_two_colours_partial (T : Torus S) (size m n maxR : ℕ) (hm : 0 < m) (hm2 : m ≤ 2) (hn : 0 < n) (hY : T.ext 1 = size * m)
    (hz : T.ext 2 ≤ T.ext 1) (β : ℝ) (hβ : 0 < β) (E : GField S 2 → ℝ) (stap : GField S 2 → S → Fin 4 → Mat 2) (hact : SliceAction T size β E stap)
    (links : List (Link S)) (hl : links.Nodup) :
    Measures E (Measure.pi fun _ : Fin n × Link S => heatMeasure)
      (fun a d => levelMeasure T size maxR (heatSweep2 β stap (sliceLinks T size links)) ((List.finRange n).map fun k i => streamDraw a (d (k, i)))) maxR
      (fun U R => lineCorrelator T U R) := by
  have h := C67_mean_two_colours T size m n maxR hm hn hY hz β hβ E stap hact links hl
  simp only [disordered_two T size m hm2 hY] at h
  exact h

omit [DecidableEq S] in
/-- **C67, the loops.** The number written for the Wilson loops is the average over the sites with even coordinates of `Re tr/N` of the links around the
rectangle. -/
theorem C67_rectangles (T : Torus S) (U : GField S N) (R L : ℕ) :
    rectangleMean T U R L = (∑ s with ∀ μ, T.coord s μ % 2 = 0, (trace (holo T U s (List.replicate R (0, true) ++ List.replicate L (1, true)
      ++ List.replicate R (0, false) ++ List.replicate L (1, false)))).re / N) / (Finset.univ.filter fun s => ∀ μ, T.coord s μ % 2 = 0).card := by
  have up : ∀ μ n (p : Mat N × S), sideUp T U μ n p = (p.1 * holo T U p.2 (List.replicate n (μ, true)), T.walk (List.replicate n (μ, true)) p.2) := by
    intro μ n p
    induction n with
    | zero => simp [sideUp]
    | succ n ih =>
      rw [List.replicate_succ', holo_append, T.walk_append, sideUp]
      simp only [ih, holo_up, holo_nil, Matrix.mul_one, Matrix.mul_assoc, Torus.walk_up, Torus.walk_nil]
  have down : ∀ μ n (p : Mat N × S), sideDown T U μ n p = (p.1 * holo T U p.2 (List.replicate n (μ, false)), T.walk (List.replicate n (μ, false)) p.2) := by
    intro μ n p
    induction n with
    | zero => simp [sideDown]
    | succ n ih =>
      rw [List.replicate_succ', holo_append, T.walk_append, sideDown]
      simp only [ih, holo_down, holo_nil, Matrix.mul_one, Matrix.mul_assoc, Torus.walk_down, Torus.walk_nil]
  have e : ∀ s, rectangleLoop T U R L s = holo T U s (List.replicate R (0, true) ++ List.replicate L (1, true)
      ++ List.replicate R (0, false) ++ List.replicate L (1, false)) := fun s => by
    unfold rectangleLoop
    rw [up, up, down, down]
    simp only [holo_append, T.walk_append, Matrix.one_mul]
  unfold rectangleMean
  simp only [e]
  rw [← Finset.sum_filter, ← Finset.sum_div, div_div, mul_comm (N : ℝ)]

/-! ### What goes wrong -/

/-- The matrices `iσ₁`, `iσ₂`, `iσ₃` of SU(2). -/
noncomputable def iPauli : ℕ → Mat 2
  | 0 => !![0, Complex.I; Complex.I, 0]
  | 1 => !![0, 1; -1, 0]
  | _ => !![Complex.I, 0; 0, -Complex.I]

/-- The links in direction 1 are `iσ₁`, `iσ₂`, `iσ₃` at `y = 0, 1, 2`, all others 1. -/
noncomputable def pauliLinks (T : Torus S) : GField S 2 := fun s μ => if μ = 1 then iPauli (T.coord s 1) else 1

theorem iPauli_mem (k : ℕ) : iPauli k ∈ specialUnitaryGroup (Fin 2) ℂ := by
  rw [mem_specialUnitaryGroup_iff, mem_unitaryGroup_iff]
  match k with
  | 0 => exact ⟨by ext i j; fin_cases i <;> fin_cases j <;> simp [iPauli, Matrix.mul_apply, Fin.sum_univ_two, star_eq_conjTranspose], by simp [iPauli, det_fin_two]⟩
  | 1 => exact ⟨by ext i j; fin_cases i <;> fin_cases j <;> simp [iPauli, Matrix.mul_apply, Fin.sum_univ_two, star_eq_conjTranspose], by simp [iPauli, det_fin_two]⟩
  | _ + 2 => exact ⟨by ext i j; fin_cases i <;> fin_cases j <;> simp [iPauli, Matrix.mul_apply, Fin.sum_univ_two, star_eq_conjTranspose], by simp [iPauli, det_fin_two]⟩

omit [DecidableEq S] [Fintype S] in
theorem pauli_part (T : Torus S) (h3 : T.ext 1 = 3) (s : S) (h0 : T.coord s 1 = 0) (k : ℕ) (hk : k < 3) : slicePart T (pauliLinks T) 1 s k = iPauli k := by
  unfold slicePart
  rw [List.replicate_one, holo_up, holo_nil, Matrix.mul_one, mul_one, pauliLinks, if_pos rfl, T.coord_iterate, h0, h3, zero_add, Nat.mod_eq_of_lt hk]

/-- **C67, counterexample.** Three slices: on a `2 × 3 × 2 × 2` lattice of SU(2) links the number written for the distance two has the wrong sign. With one
subsweep it is minus the correlator of the configuration, which is positive. -/
theorem C67_order_counterexample (hg : (⟨2, 3, 2, 2⟩ : Ext).Pos) {J : Type} (update : J → GField (BoxSite ⟨2, 3, 2, 2⟩) 2 → Option (GField (BoxSite ⟨2, 3, 2, 2⟩) 2))
    (d : J) (V : GField (BoxSite ⟨2, 3, 2, 2⟩) 2) (hV : update d (pauliLinks (boxTorus _ hg)) = some V) :
    (∀ s μ, pauliLinks (boxTorus _ hg) s μ ∈ specialUnitaryGroup (Fin 2) ℂ)
    ∧ levelMeasure (boxTorus _ hg) 1 2 update [d] (pauliLinks (boxTorus _ hg)) = some ([-lineCorrelator (boxTorus _ hg) (pauliLinks (boxTorus _ hg)) 2], V)
    ∧ 0 < lineCorrelator (boxTorus _ hg) (pauliLinks (boxTorus _ hg)) 2 := by
  have e0 : (boxTorus ⟨2, 3, 2, 2⟩ hg).ext 0 = 2 := rfl
  have e1 : (boxTorus ⟨2, 3, 2, 2⟩ hg).ext 1 = 3 := rfl
  have e2 : (boxTorus ⟨2, 3, 2, 2⟩ hg).ext 2 = 2 := rfl
  have e3 : (boxTorus ⟨2, 3, 2, 2⟩ hg).ext 3 = 2 := rfl
  have hne : ∃ s, (boxTorus ⟨2, 3, 2, 2⟩ hg).coord s 1 = 0 := ⟨⟨⟨0, 0, 0, 0⟩, by decide⟩, rfl⟩
  generalize boxTorus ⟨2, 3, 2, 2⟩ hg = T at *
  have hc : ∀ s, T.coord s 1 = 0 → T.coord ((T.sup 0)^[2] s) 1 = 0 := fun s h => by rw [T.coord_iterate_ne 0 1 (by decide), h]
  have hline : ∀ s, T.coord s 1 = 0 → polyakovLine T (pauliLinks T) 1 s = 1 := fun s h => by
    have := lines_prod T 1 3 (pauliLinks T) s
    simp only [lineOfSlice_eq] at this
    rw [polyakovLine, e1]
    rw [mul_one] at this
    rw [← this]
    have e : ((List.range 3).map fun k => slicePart T (pauliLinks T) 1 s k).prod = 1 := by
      simp only [List.range_succ, List.range_zero, List.nil_append, List.map_append, List.map_cons, List.map_nil, List.prod_append, List.prod_cons, List.prod_nil,
        pauli_part T e1 s h 0 (by norm_num), pauli_part T e1 s h 1 (by norm_num), pauli_part T e1 s h 2 (by norm_num), Matrix.mul_one]
      ext i j
      fin_cases i <;> fin_cases j <;> simp [iPauli, Matrix.mul_apply, Fin.sum_univ_two]
    exact e
  have hadj : ∀ s, T.coord s 1 = 0 → ((List.range 3).map fun k => (slicePart T (pauliLinks T) 1 s k)ᴴ).prod = -1 := fun s h => by
    simp only [List.range_succ, List.range_zero, List.nil_append, List.map_append, List.map_cons, List.map_nil, List.prod_append, List.prod_cons, List.prod_nil,
      pauli_part T e1 s h 0 (by norm_num), pauli_part T e1 s h 1 (by norm_num), pauli_part T e1 s h 2 (by norm_num), Matrix.mul_one]
    ext i j
    fin_cases i <;> fin_cases j <;> simp [iPauli, Matrix.mul_apply, Fin.sum_univ_two]
  refine ⟨fun s μ => ?_, ?_, ?_⟩
  · unfold pauliLinks
    split
    · exact iPauli_mem _
    · exact one_mem _
  · unfold levelMeasure
    rw [if_neg (by simp [e1, e2])]
    simp only [levelRun, hV, Option.bind_some, Option.map_some]
    refine congrArg (fun r => some (r, V)) ?_
    change [levelCorrelator T 1 [pauliLinks T] 2] = _
    rw [levelCorrelator_disordered T 1 3 one_pos (by norm_num) (by rw [e1])]
    refine congrArg (fun r => [r]) ?_
    unfold disorderedCorrelator lineCorrelator
    rw [← neg_div, ← Finset.sum_neg_distrib]
    refine congrArg (fun z => z / _) (Finset.sum_congr rfl fun s _ => ?_)
    split
    · rename_i h
      rw [hline s h, hline _ (hc s h), hadj _ (hc s h)]
      simp
    · simp
  · unfold lineCorrelator
    refine div_pos (Finset.sum_pos' (fun s _ => ?_) ?_) (by rw [e0, e2, e3]; norm_num)
    · split
      · rename_i h
        rw [hline s h, hline _ (hc s h)]
        simp
      · exact le_rfl
    · obtain ⟨s, h⟩ := hne
      refine ⟨s, Finset.mem_univ s, ?_⟩
      rw [if_pos h, hline s h, hline _ (hc s h)]
      simp

/-- **C67, counterexample.** A lattice with more sites in direction 2 than in direction 1: an array is indexed outside of its bounds, whatever the slices,
updates and links. -/
theorem C67_bounds_counterexample {J : Type} (size maxR : ℕ) (update : J → GField (BoxSite ⟨4, 4, 6, 4⟩) 3 → Option (GField (BoxSite ⟨4, 4, 6, 4⟩) 3)) (draws : List J)
    (U : GField (BoxSite ⟨4, 4, 6, 4⟩) 3) : levelMeasure (boxTorus ⟨4, 4, 6, 4⟩ (by decide)) size maxR update draws U = none := by
  unfold levelMeasure
  refine if_pos (Or.inr (Or.inr (Or.inr ?_)))
  decide

/-! ### The hypotheses can be met -/

/-- Two slices of two sites. -/
example : ∃ P : (Fin 5 × Link (BoxSite ⟨4, 4, 4, 4⟩) × Fin 3 × Fin 3 → HeatStream) → _ → _ → _,
    Measures (wilsonEnergy 6 (boxTorus ⟨4, 4, 4, 4⟩ (by decide))) (Measure.pi fun _ => heatMeasure) (fun a d => P d a) 3 fun U R => lineCorrelator (N := 3) (boxTorus ⟨4, 4, 4, 4⟩ (by decide)) U R :=
  ⟨_, C67_unbiased_partial (N := 3) (by norm_num) (boxTorus ⟨4, 4, 4, 4⟩ (by decide)) 2 2 5 3 (by norm_num) (by norm_num) (by norm_num) rfl le_rfl 6 (by norm_num) _ _
    (SliceAction.wilson (by decide) (by norm_num))
    (sweepLinks Finset.univ.toList (boardColors (boxTorus ⟨4, 4, 4, 4⟩ (by decide)) Finset.univ.toList)) (C64_order _ _ (by simp) (Finset.nodup_toList _))⟩

/-- The improved action. -/
example : SliceAction (N := 3) (boxTorus ⟨4, 4, 4, 4⟩ (by decide)) 2 6 (improvedEnergy (9 / 10) 6 (boxTorus ⟨4, 4, 4, 4⟩ (by decide))) (improvedStaple (9 / 10) (boxTorus ⟨4, 4, 4, 4⟩ (by decide))) :=
  SliceAction.improved (9 / 10) (by norm_num) (by decide) (by norm_num)

end Leonard
