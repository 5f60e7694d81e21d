import Verif.Histogram.Model
import Verif.Measure.LoopProps
import Mathlib.FieldTheory.IsAlgClosed.Basic
import Mathlib.Analysis.Real.Pi.Bounds
import Mathlib.Analysis.CStarAlgebra.Matrix
import Mathlib.Analysis.CStarAlgebra.Spectrum

/-!
# C80: the histogram of the eigenvalues of the Polyakov loops
-/

set_option autoImplicit false

namespace Leonard

open Matrix

noncomputable section

variable {S : Type} {N : ℕ}

/-- The eigenvalues of the Polyakov loop through `s` in the time direction, with multiplicities. -/
def lineEigenvalues (T : Torus S) (U : GField S N) (s : S) : Multiset ℂ := (polyakovLine T U 3 s).charpoly.roots

/-- The sites of the first time slice. -/
def firstSlice [Fintype S] (T : Torus S) : Finset S := Finset.univ.filter fun s => T.coord s 3 = 0

theorem polyakovField_line (T : Torus S) (U : GField S N) (s : S) (h : T.coord s 3 = 0) : polyakovField T U s = polyakovLine T U 3 s :=
  polyakov_line T U 3 _ s h

theorem eigenvalueBin_iff (z : ℂ) (b : ℕ) : eigenvalueBin z = b ↔ (b : ℝ) / 50 - Real.pi ≤ z.arg ∧ z.arg < ((b : ℝ) + 1) / 50 - Real.pi := by
  unfold eigenvalueBin
  have h0 : 0 ≤ 50 * (z.arg + Real.pi) := by have := Complex.neg_pi_lt_arg z; linarith
  rw [Nat.floor_eq_iff h0]
  constructor
  · rintro ⟨h1, h2⟩
    constructor <;> linarith
  · rintro ⟨h1, h2⟩
    constructor <;> linarith

/-- **C80**: the index is always inside of the array of 315 bins, for every complex number. -/
theorem C80_range (z : ℂ) : eigenvalueBin z < 315 := by
  unfold eigenvalueBin
  have h0 : 0 ≤ 50 * (z.arg + Real.pi) := by have := Complex.neg_pi_lt_arg z; linarith
  rw [Nat.floor_lt h0]
  have h1 := Complex.arg_le_pi z
  have h2 := Real.pi_lt_d4
  push_cast
  linarith

theorem binCount_all [Fintype S] (T : Torus S) (U : GField S N) (b : ℕ) :
    binCount T U (fun _ => True) b = ∑ s ∈ firstSlice T, (lineEigenvalues T U s).countP fun z => eigenvalueBin z = b := by
  unfold binCount firstSlice
  rw [Finset.sum_filter]
  refine Finset.sum_congr rfl fun s _ => ?_
  by_cases h : T.coord s 3 = 0
  · rw [if_pos ⟨trivial, h⟩, if_pos h, polyakovField_line T U s h]
    rfl
  · rw [if_neg (fun e => h e.2), if_neg h]

/-- **C80**: there are 315 numbers, and number `b` counts the eigenvalues of the Polyakov loops of the first time slice, with their multiplicities, which have a
phase from `b/50 - π` to `(b+1)/50 - π`. -/
theorem C80_histogram [Fintype S] (T : Torus S) (U : GField S N) :
    eigenvalueHistogram T U = (List.range 315).map fun b : ℕ =>
      ∑ s ∈ firstSlice T, ((lineEigenvalues T U s).filter fun z => (b : ℝ) / 50 - Real.pi ≤ z.arg ∧ z.arg < ((b : ℝ) + 1) / 50 - Real.pi).card := by
  unfold eigenvalueHistogram
  refine List.map_congr_left fun b _ => ?_
  rw [binCount_all]
  refine Finset.sum_congr rfl fun s _ => ?_
  rw [Multiset.countP_eq_card_filter]
  refine congrArg Multiset.card (Multiset.filter_congr fun z _ => ?_)
  exact eigenvalueBin_iff z b

theorem card_by_bin (m : Multiset ℂ) (n : ℕ) (h : ∀ z ∈ m, eigenvalueBin z < n) : ∑ b ∈ Finset.range n, m.countP (fun z => eigenvalueBin z = b) = m.card := by
  induction m using Multiset.induction with
  | empty => simp
  | cons a m ih =>
    simp only [Multiset.countP_cons, Finset.sum_add_distrib, Multiset.card_cons]
    rw [ih fun z hz => h z (Multiset.mem_cons_of_mem hz), Finset.sum_ite_eq, if_pos (Finset.mem_range.2 (h a (Multiset.mem_cons_self a m)))]

theorem lineEigenvalues_card (T : Torus S) (U : GField S N) (s : S) : (lineEigenvalues T U s).card = N := by
  unfold lineEigenvalues
  rw [IsAlgClosed.card_roots_eq_natDegree, Matrix.charpoly_natDegree_eq_dim, Fintype.card_fin]

/-- **C80**: the numbers add up to the number of colours times the number of sites of the time slice: every eigenvalue is counted, and counted once. -/
theorem C80_total [Fintype S] (T : Torus S) (U : GField S N) : (eigenvalueHistogram T U).sum = N * (firstSlice T).card := by
  unfold eigenvalueHistogram
  rw [← List.sum_toFinset _ List.nodup_range, List.toFinset_range]
  simp only [binCount_all]
  rw [Finset.sum_comm]
  simp only [card_by_bin _ 315 fun z _ => C80_range z, lineEigenvalues_card, Finset.sum_const, smul_eq_mul]
  ring

theorem lineEigenvalues_gauge (T : Torus S) (U : GField S N) (ω : S → Mat N) (hω : ∀ s, ω s ∈ unitaryGroup (Fin N) ℂ) (s : S) :
    lineEigenvalues T (gaugeTransform T ω U) s = lineEigenvalues T U s := by
  unfold lineEigenvalues polyakovLine
  rw [holo_gauge T U ω (fun s => mem_unitaryGroup_iff'.1 (hω s)) (fun s => mem_unitaryGroup_iff.1 (hω s)), walk_replicate, T.period, Matrix.mul_assoc,
    Matrix.charpoly_mul_comm, Matrix.mul_assoc]
  have h : (ω s)ᴴ * ω s = 1 := mem_unitaryGroup_iff'.1 (hω s)
  rw [h, Matrix.mul_one]

theorem phaseAverage_eq [Fintype S] (T : Torus S) (U : GField S N) :
    phaseAverage T U = (∑ s ∈ firstSlice T, (((lineEigenvalues T U s).map Complex.arg).filter fun a => 0 ≤ a).sum) / spatialVolume T := by
  unfold phaseAverage firstSlice
  rw [Finset.sum_filter]
  refine congrArg (· / (spatialVolume T : ℝ)) (Finset.sum_congr rfl fun s _ => ?_)
  by_cases h : T.coord s 3 = 0
  · rw [if_pos h, if_pos h, polyakovField_line T U s h]
    rfl
  · rw [if_neg h, if_neg h]

/-- **C80**: neither the histogram nor the average of the phases changes under gauge transformations. -/
theorem C80_gauge [Fintype S] (T : Torus S) (U : GField S N) (ω : S → Mat N) (hω : ∀ s, ω s ∈ unitaryGroup (Fin N) ℂ) :
    eigenvalueHistogram T (gaugeTransform T ω U) = eigenvalueHistogram T U ∧ phaseAverage T (gaugeTransform T ω U) = phaseAverage T U := by
  constructor
  · rw [C80_histogram, C80_histogram]
    simp only [lineEigenvalues_gauge T U ω hω]
  · rw [phaseAverage_eq, phaseAverage_eq]
    simp only [lineEigenvalues_gauge T U ω hω]

/-- The configuration seen from `a`: all sites one step in direction `μ`. -/
def shiftLinks (T : Torus S) (μ : Fin 4) (U : GField S N) : GField S N := fun s => U (T.sup μ s)

theorem holo_shift (T : Torus S) (U : GField S N) (μ : Fin 4) (p : List Hop) (s : S) : holo T (shiftLinks T μ U) s p = holo T U (T.sup μ s) p := by
  induction p generalizing s with
  | nil => rfl
  | cons h p ih =>
    obtain ⟨ν, b⟩ := h
    cases b
    · rw [holo_down, holo_down, ih]
      unfold shiftLinks
      rw [T.sup_sdn_comm]
    · rw [holo_up, holo_up, ih, T.comm]
      rfl

theorem lineEigenvalues_shift (T : Torus S) (U : GField S N) (s : S) : lineEigenvalues T U (T.sup 3 s) = lineEigenvalues T U s := by
  unfold lineEigenvalues polyakovLine
  obtain ⟨n, hn⟩ : ∃ n, T.ext 3 = n + 1 := ⟨T.ext 3 - 1, by have := T.coord_lt 3 s; omega⟩
  have hw : (T.sup 3)^[n] (T.sup 3 s) = s := by rw [← Function.iterate_succ_apply, Nat.succ_eq_add_one, ← hn, T.period]
  rw [hn]
  conv_lhs => rw [List.replicate_succ', holo_append, walk_replicate, hw]
  conv_rhs => rw [List.replicate_succ, holo_up]
  rw [holo_up, holo_nil, Matrix.mul_one, Matrix.charpoly_mul_comm]

/-- **C80**: the loops of the first time slice stand for all: the histogram does not change under translations in time. -/
theorem C80_time [Fintype S] (T : Torus S) (U : GField S N) : eigenvalueHistogram T (shiftLinks T 3 U) = eigenvalueHistogram T U := by
  rw [C80_histogram, C80_histogram]
  refine List.map_congr_left fun b _ => Finset.sum_congr rfl fun s _ => ?_
  have : lineEigenvalues T (shiftLinks T 3 U) s = lineEigenvalues T U s := by
    rw [← lineEigenvalues_shift T U s]
    unfold lineEigenvalues polyakovLine
    rw [holo_shift]
  rw [this]

open scoped Matrix.Norms.L2Operator in
/-- **C80**: for unitary links the phases tell everything: an eigenvalue is `exp(i phase)`. -/
theorem C80_unimodular (T : Torus S) (U : GField S N) (hU : ∀ s μ, U s μ ∈ unitaryGroup (Fin N) ℂ) (s : S) (z : ℂ) (hz : z ∈ lineEigenvalues T U s) :
    z = Complex.exp (z.arg * Complex.I) := by
  have hP : polyakovLine T U 3 s ∈ unitary (Mat N) := holo_mem_unitary T U hU _ s
  have hs : z ∈ spectrum ℂ (polyakovLine T U 3 s) := Matrix.mem_spectrum_of_isRoot_charpoly (Polynomial.isRoot_of_mem_roots hz)
  have hn := spectrum.subset_circle_of_unitary hP hs
  rw [mem_sphere_zero_iff_norm] at hn
  conv_lhs => rw [← Complex.norm_mul_exp_arg_mul_I z, hn]
  rw [Complex.ofReal_one, one_mul]

/-- **C80** (part): with threads, if all loops are in the hands of the first thread, the numbers are those without threads. -/
theorem C80_threads_partial [Fintype S] (T : Torus S) (U : GField S N) (thread : S → ℕ) (h : ∀ s, T.coord s 3 = 0 → thread s = 0) :
    eigenvalueHistogramThreads T U thread = some (eigenvalueHistogram T U) := by
  unfold eigenvalueHistogramThreads eigenvalueHistogram
  rw [if_pos fun s hs _ => by rw [h s hs]; exact Nat.one_pos]
  refine congrArg some (List.map_congr_left fun b _ => ?_)
  rw [threadsOutside, Finset.sum_range_one]
  unfold binCount
  refine Finset.sum_congr rfl fun s _ => ?_
  by_cases hs : T.coord s 3 = 0
  · rw [if_pos ⟨h s hs, hs⟩, if_pos ⟨trivial, hs⟩]
  · rw [if_neg fun e => hs e.2, if_neg fun e => hs e.2]

/-- **C80** fails with threads: as soon as another thread than the first has a loop, the code writes outside of the array. -/
theorem C80_threads_counterexample [Fintype S] (T : Torus S) (U : GField S N) (hN : 0 < N) (thread : S → ℕ) (s : S) (hs : T.coord s 3 = 0) (ht : 0 < thread s) :
    eigenvalueHistogramThreads T U thread = none := by
  unfold eigenvalueHistogramThreads
  rw [if_neg]
  intro h
  have := h s hs hN
  unfold threadsOutside at this
  omega

/-- All links the identity: the hypotheses of `C80_gauge` and `C80_unimodular` are met, and all eigenvalues are in bin 157. -/
example (T : Torus S) (s : S) : (∀ (s : S) (μ : Fin 4), (fun (_ : S) (_ : Fin 4) => (1 : Mat 3)) s μ ∈ unitaryGroup (Fin 3) ℂ)
    ∧ (1 : ℂ) ∈ lineEigenvalues T (fun _ _ => (1 : Mat 3)) s ∧ eigenvalueBin 1 = 157 := by
  refine ⟨fun _ _ => one_mem _, ?_, ?_⟩
  · unfold lineEigenvalues polyakovLine
    rw [holo_one, Matrix.charpoly_one, ← Polynomial.C_1, Polynomial.mem_roots (pow_ne_zero _ (Polynomial.X_sub_C_ne_zero 1))]
    simp
  · rw [eigenvalueBin_iff, Complex.arg_one]
    have h1 := Real.pi_gt_d4
    have h2 := Real.pi_lt_d4
    constructor <;> push_cast <;> linarith

/-- Two threads on the lattice with three sites in each direction: the hypotheses of `C80_threads_counterexample` are met. -/
example : ∃ (thread : BoxSite exExt3 → ℕ) (s : BoxSite exExt3), (boxTorus exExt3 exExt3_pos).coord s 3 = 0 ∧ 0 < thread s :=
  ⟨fun _ => 1, ⟨⟨0, 0, 0, 0⟩, by decide⟩, rfl, Nat.one_pos⟩

end

end Leonard
