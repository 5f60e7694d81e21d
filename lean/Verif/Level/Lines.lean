import Verif.Level.Chain
import Verif.Gauge.Loops
import Verif.Measure.LoopProps
import Mathlib.LinearAlgebra.Matrix.Kronecker
import Mathlib.LinearAlgebra.Matrix.Trace

/-!
The operators of pairs of lines as Kronecker products.
-/

set_option autoImplicit false

namespace Leonard

open Matrix Kronecker

variable {S : Type} {N : ℕ}

/-- The operator as a matrix on pairs of colours. -/
def tmat (t : TwoLink N) : Matrix (Fin N × Fin N) (Fin N × Fin N) ℂ := fun i j => t i.1 j.1 i.2 j.2

theorem tmat_mul (t u : TwoLink N) : tmat (twoLinkMul t u) = tmat t * tmat u := by
  ext i j
  rw [Matrix.mul_apply, Fintype.sum_prod_type]
  rfl

/-- Two lines. -/
noncomputable def pairMat (A B : Mat N) : Matrix (Fin N × Fin N) (Fin N × Fin N) ℂ := A ⊗ₖ Bᴴ

theorem tmat_fold (f g : GField S N → Mat N) (confs : List (GField S N)) (t : TwoLink N) :
    tmat (confs.foldl (fun t U => twoLinkAdd t (f U) (g U)) t) = tmat t + (confs.map fun U => pairMat (f U) (g U)).sum := by
  induction confs generalizing t with
  | nil => simp
  | cons U confs ih =>
    rw [List.foldl_cons, ih, List.map_cons, List.sum_cons, ← add_assoc]
    refine congrArg (fun z => z + _) ?_
    ext i j
    simp only [tmat, twoLinkAdd, pairMat, Matrix.add_apply, kroneckerMap_apply]

theorem tmat_sliceOperator (T : Torus S) (size : ℕ) (confs : List (GField S N)) (s s' : S) (k : ℕ) :
    tmat (sliceOperator T size confs s s' k)
      = ((confs.length : ℂ)⁻¹) • (confs.map fun U => pairMat (lineOfSlice T size U s k) (lineOfSlice T size U s' k)).sum := by
  unfold sliceOperator
  have h := tmat_fold (fun U => lineOfSlice T size U s k) (fun U => lineOfSlice T size U s' k) confs twoLinkZero
  have h0 : tmat (twoLinkZero : TwoLink N) = 0 := rfl
  rw [h0, zero_add] at h
  rw [← h]
  ext i j
  simp only [tmat, twoLinkNormalize, Matrix.smul_apply, smul_eq_mul]
  rw [div_eq_inv_mul]

theorem tmat_foldl (ops : List (TwoLink N)) (t : TwoLink N) : tmat (ops.foldl twoLinkMul t) = tmat t * (ops.map tmat).prod := by
  induction ops generalizing t with
  | nil => simp
  | cons u ops ih => rw [List.foldl_cons, ih, tmat_mul, List.map_cons, List.prod_cons, Matrix.mul_assoc]

/-- The number of one pair of lines as the trace of a product over the slices. -/
theorem levelSite_eq (T : Torus S) (size : ℕ) (hm : 0 < T.ext 1 / size) (confs : List (GField S N)) (s s' : S) :
    levelSite T size confs s s' = (trace (List.ofFn fun k : Fin (T.ext 1 / size) => tmat (sliceOperator T size confs s s' k)).prod).re := by
  unfold levelSite
  simp only
  generalize sliceOperator T size confs s s' = op
  have e : tmat (((List.range' 1 (T.ext 1 / size - 1)).map op).foldl twoLinkMul (op 0)) = (List.ofFn fun k : Fin (T.ext 1 / size) => tmat (op k)).prod := by
    rw [tmat_foldl]
    obtain ⟨m, hm'⟩ := Nat.exists_eq_succ_of_ne_zero hm.ne'
    rw [hm', List.ofFn_succ, List.prod_cons]
    refine congrArg (fun z => tmat (op 0) * z) ?_
    refine congrArg List.prod ?_
    rw [List.map_map, Nat.succ_sub_one]
    refine List.ext_getElem (by simp) fun i h1 h2 => ?_
    simp [add_comm]
  have e2 : ∀ t : TwoLink N, ∑ a, ∑ b, (t a a b b).re = (trace (tmat t)).re := fun t => by
    rw [Matrix.trace, Complex.re_sum, Fintype.sum_prod_type]
    rfl
  rw [e2, e]

/-- One configuration. -/
theorem levelSite_single (T : Torus S) (size : ℕ) (hm : 0 < T.ext 1 / size) (U : GField S N) (s s' : S) :
    levelSite T size [U] s s' = (trace (List.ofFn fun k : Fin (T.ext 1 / size) => pairMat (lineOfSlice T size U s k) (lineOfSlice T size U s' k)).prod).re := by
  rw [levelSite_eq T size hm]
  simp only [tmat_sliceOperator, List.length_singleton, Nat.cast_one, inv_one, one_smul, List.map_cons, List.map_nil, List.sum_cons, List.sum_nil, add_zero]

/-- The average of products is the average over all choices of a configuration for every slice. -/
theorem levelSite_expand (T : Torus S) (size n : ℕ) (hm : 0 < T.ext 1 / size) (conf : Fin n → GField S N) (s s' : S)
    (V : (Fin (T.ext 1 / size) → Fin n) → GField S N)
    (hV : ∀ (c : Fin (T.ext 1 / size) → Fin n) (k : Fin (T.ext 1 / size)),
      lineOfSlice T size (V c) s k = lineOfSlice T size (conf (c k)) s k ∧ lineOfSlice T size (V c) s' k = lineOfSlice T size (conf (c k)) s' k) :
    levelSite T size (List.ofFn conf) s s' = ((n : ℝ)⁻¹) ^ (T.ext 1 / size) * ∑ c, levelSite T size [V c] s s' := by
  rw [levelSite_eq T size hm]
  simp only [levelSite_single T size hm, (hV _ _).1, (hV _ _).2]
  have h1 : ∀ k : ℕ, tmat (sliceOperator T size (List.ofFn conf) s s' k)
      = ∑ r : Fin n, ((n : ℂ)⁻¹) • pairMat (lineOfSlice T size (conf r) s k) (lineOfSlice T size (conf r) s' k) := fun k => by
    rw [tmat_sliceOperator, List.length_ofFn, List.map_ofFn, List.sum_ofFn, Finset.smul_sum]
    rfl
  simp only [h1]
  have h2 := (MultilinearMap.mkPiAlgebraFin ℂ (T.ext 1 / size) (Matrix (Fin N × Fin N) (Fin N × Fin N) ℂ)).map_sum
    (fun (k : Fin (T.ext 1 / size)) (r : Fin n) => ((n : ℂ)⁻¹) • pairMat (lineOfSlice T size (conf r) s k) (lineOfSlice T size (conf r) s' k))
  rw [MultilinearMap.mkPiAlgebraFin_apply] at h2
  rw [h2, Matrix.trace_sum, Complex.re_sum, Finset.mul_sum]
  refine Finset.sum_congr rfl fun c _ => ?_
  have h3 := (MultilinearMap.mkPiAlgebraFin ℂ (T.ext 1 / size) (Matrix (Fin N × Fin N) (Fin N × Fin N) ℂ)).map_smul_univ (fun _ => (n : ℂ)⁻¹)
    (fun k => pairMat (lineOfSlice T size (conf (c k)) s k) (lineOfSlice T size (conf (c k)) s' k))
  rw [h3, MultilinearMap.mkPiAlgebraFin_apply, Matrix.trace_smul, Finset.prod_const, Finset.card_univ, Fintype.card_fin, smul_eq_mul]
  have h4 : ((n : ℂ)⁻¹) ^ (T.ext 1 / size) = ((((n : ℝ)⁻¹) ^ (T.ext 1 / size) : ℝ) : ℂ) := by push_cast; rfl
  rw [h4, Complex.re_ofReal_mul]

theorem prod_pairMat (l : List ℕ) (A B : ℕ → Mat N) : (l.map fun k => pairMat (A k) (B k)).prod = (l.map A).prod ⊗ₖ (l.map fun k => (B k)ᴴ).prod := by
  induction l with
  | nil => simp
  | cons k l ih =>
    simp only [List.map_cons, List.prod_cons, ih]
    exact (Matrix.mul_kronecker_mul _ _ _ _).symm

/-- What is computed from one configuration: the line, and the adjoint lines of the slices in the order of the first line. -/
theorem levelSite_lines (T : Torus S) (size : ℕ) (hm : 0 < T.ext 1 / size) (U : GField S N) (s s' : S) :
    levelSite T size [U] s s' = (trace ((List.range (T.ext 1 / size)).map fun k => lineOfSlice T size U s k).prod
      * trace ((List.range (T.ext 1 / size)).map fun k => (lineOfSlice T size U s' k)ᴴ).prod).re := by
  rw [levelSite_single T size hm]
  have e : (List.ofFn fun k : Fin (T.ext 1 / size) => pairMat (lineOfSlice T size U s k) (lineOfSlice T size U s' k))
      = (List.range (T.ext 1 / size)).map fun k => pairMat (lineOfSlice T size U s k) (lineOfSlice T size U s' k) := by
    refine List.ext_getElem (by simp) fun i h1 h2 => ?_
    simp
  rw [e, prod_pairMat, trace_kronecker]

/-! ### Lines as paths -/

theorem sliceLine_eq (T : Torus S) (U : GField S N) (s : S) (n : ℕ) : sliceLine T U s n = (holo T U s (List.replicate n (1, true)), (T.sup 1)^[n] s) := by
  induction n with
  | zero => rfl
  | succ n ih =>
    simp only [sliceLine, ih]
    rw [List.replicate_succ', holo_append, walk_replicate, Function.iterate_succ_apply']
    simp

theorem lineOfSlice_eq (T : Torus S) (size : ℕ) (U : GField S N) (s : S) (k : ℕ) :
    lineOfSlice T size U s k = holo T U ((T.sup 1)^[k * size] s) (List.replicate size (1, true)) := by
  rw [lineOfSlice, sliceLine_eq]

/-- The lines of the slices make the line around the lattice. -/
theorem lines_prod (T : Torus S) (size m : ℕ) (U : GField S N) (s : S) :
    ((List.range m).map fun k => lineOfSlice T size U s k).prod = holo T U s (List.replicate (m * size) (1, true)) := by
  induction m with
  | zero => simp
  | succ m ih =>
    rw [List.range_succ, List.map_append, List.prod_append, ih, Nat.succ_mul, List.replicate_add, holo_append, walk_replicate]
    simp [lineOfSlice_eq]

/-- Lines read only links of their slice and links that are never updated. -/
theorem lineOfSlice_agree (T : Torus S) (size m : ℕ) (hY : T.ext 1 = size * m) (hs : 0 < size) (U V : GField S N) (s : S) (h0 : T.coord s 1 = 0) (k : ℕ) (hk : k < m)
    (h : AgreeOn T size k U V) : lineOfSlice T size U s k = lineOfSlice T size V s k := by
  unfold lineOfSlice
  have key : ∀ n ≤ size, sliceLine T U ((T.sup 1)^[k * size] s) n = sliceLine T V ((T.sup 1)^[k * size] s) n := by
    intro n hn
    induction n with
    | zero => rfl
    | succ n ih =>
      have ih := ih (by omega)
      have e : (sliceLine T V ((T.sup 1)^[k * size] s) n).2 = (T.sup 1)^[n + k * size] s := by rw [sliceLine_eq, Function.iterate_add_apply]
      have hc : T.coord ((T.sup 1)^[n + k * size] s) 1 = size * k + n := by
        rw [T.coord_iterate, h0, zero_add, hY, Nat.mod_eq_of_lt]
        · rw [mul_comm]; omega
        · have : size * k + size ≤ size * m := by
            rw [← Nat.mul_succ]
            exact Nat.mul_le_mul_left _ hk
          rw [mul_comm k]; omega
      have hag : U ((T.sup 1)^[n + k * size] s) 1 = V ((T.sup 1)^[n + k * size] s) 1 := by
        refine h _ _ fun _ => ?_
        rw [hc, Nat.mul_add_div hs, Nat.div_eq_of_lt (by omega), add_zero]
      simp only [sliceLine, ih]
      rw [e, hag]
  rw [key size le_rfl]

end Leonard
