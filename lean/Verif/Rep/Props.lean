import Verif.Rep.Generators
import Verif.Rep.AdjointThree
import Mathlib.LinearAlgebra.UnitaryGroup

/-!
# C29 and C30
-/

set_option autoImplicit false

namespace Leonard

open Matrix

/-! ### C30 -/

/-- What a set of generators has to be: Hermitian traceless matrices with `tr(T_a T_b) = δ_ab/2`. -/
structure IsGenerators {N : ℕ} {ι : Type} [DecidableEq ι] (T : ι → Mat N) : Prop where
  hermitian : ∀ a, (T a)ᴴ = T a
  traceless : ∀ a, trace (T a) = 0
  orthonormal : ∀ a b, trace (T a * T b) = if a = b then 1 / 2 else 0

/-- Every traceless matrix is the combination of the generators with the coefficients `2 tr(T_a H)`. -/
def IsComplete {N : ℕ} {ι : Type} [Fintype ι] (T : ι → Mat N) : Prop :=
  ∀ H : Mat N, trace H = 0 → H = ∑ a, (2 * trace (T a * H)) • T a

/-- The generators of the program by their number, `get(c)`. -/
noncomputable def gens (N : ℕ) (a : Fin (lieGenerators N).length) : Mat N := (lieGenerators N)[a]

theorem lieGenerators_length (N : ℕ) : (lieGenerators N).length = (genLabels N).length := by
  unfold lieGenerators; rw [List.length_map]

/-- The loop variables of a generator. -/
def genLabel (N : ℕ) (a : Fin (lieGenerators N).length) : GenLabel N :=
  (genLabels N)[a.val]'(lieGenerators_length N ▸ a.isLt)

theorem gens_eq {N : ℕ} (a : Fin (lieGenerators N).length) : gens N a = (1 / 2 : ℂ) • rawGenerator (genLabel N a) := by
  unfold gens genLabel
  show (lieGenerators N)[a.val] = _
  simp only [lieGenerators, List.getElem_map]

theorem gens_valid {N : ℕ} (a : Fin (lieGenerators N).length) : (genLabel N a).Valid :=
  mem_genLabels.1 (List.getElem_mem _)

theorem genLabel_inj {N : ℕ} (a b : Fin (lieGenerators N).length) : genLabel N a = genLabel N b ↔ a = b := by
  unfold genLabel
  rw [nodup_genLabels.getElem_inj_iff, Fin.ext_iff]

/-- **C30**: there are `N²-1` generators. -/
theorem C30_number (N : ℕ) (hN : 1 ≤ N) : (lieGenerators N).length = N ^ 2 - 1 := by
  unfold lieGenerators
  rw [List.length_map, length_genLabels hN]

/-- **C30**: the generators are Hermitian, traceless and `tr(T_a T_b) = δ_ab/2`, for every number of colours. -/
theorem C30_generators (N : ℕ) : IsGenerators (gens N) := by
  refine ⟨fun a => ?_, fun a => ?_, fun a b => ?_⟩
  · rw [gens_eq, conjTranspose_smul, rawGenerator_hermitian]
    congr 1
    simp
  · rw [gens_eq, trace_smul, trace_rawGenerator (gens_valid a), smul_zero]
  · rw [gens_eq, gens_eq, Matrix.smul_mul, Matrix.mul_smul, trace_smul, trace_smul,
      trace_rawGenerator_mul (gens_valid a) (gens_valid b)]
    simp only [genLabel_inj]
    split <;> norm_num

/-- **C30**: every traceless matrix is a combination of the generators, for every number of colours. -/
theorem C30_complete (N : ℕ) : IsComplete (gens N) := by
  intro H hH
  have hg := C30_generators N
  rw [← sub_eq_zero]
  refine eq_zero_of_orthogonal _ ?_ fun l hl => ?_
  · rw [trace_sub, hH, trace_sum, zero_sub, neg_eq_zero]
    exact Finset.sum_eq_zero fun a _ => by rw [trace_smul, hg.traceless, smul_zero]
  · obtain ⟨i, hi, rfl⟩ := List.getElem_of_mem (mem_genLabels.2 hl)
    let a : Fin (lieGenerators N).length := ⟨i, by rw [lieGenerators_length]; exact hi⟩
    have ha : rawGenerator ((genLabels N)[i]) = (2 : ℂ) • gens N a := by
      rw [gens_eq, smul_smul]; norm_num; rfl
    rw [ha, Matrix.smul_mul, trace_smul, Matrix.mul_sub, trace_sub, Finset.mul_sum, trace_sum]
    have : ∀ b, trace (gens N a * (2 * trace (gens N b * H)) • gens N b)
        = if a = b then trace (gens N b * H) else 0 := by
      intro b
      rw [Matrix.mul_smul, trace_smul, hg.orthonormal]
      split
      · simp; ring
      · simp
    simp only [this]
    rw [Finset.sum_ite_eq Finset.univ a]
    simp

/-- **C30**: a traceless Hermitian matrix is a real combination of the generators. -/
theorem C30_hermitian (N : ℕ) (H : Mat N) (hh : Hᴴ = H) (ht : trace H = 0) :
    ∃ c : Fin (lieGenerators N).length → ℝ, H = ∑ a, (c a : ℂ) • gens N a := by
  refine ⟨fun a => 2 * (trace (gens N a * H)).re, ?_⟩
  conv_lhs => rw [C30_complete N H ht]
  refine Finset.sum_congr rfl fun a _ => ?_
  congr 1
  have : star (trace (gens N a * H)) = trace (gens N a * H) := by
    rw [← trace_conjTranspose, conjTranspose_mul, hh, (C30_generators N).hermitian, trace_mul_comm]
  rw [Complex.star_def, Complex.conj_eq_iff_re] at this
  push_cast
  rw [this]

/-- **C30**: the lists written out for two and three colours are the general ones. -/
theorem C30_special : lieGenerators2 = lieGenerators 2 ∧ lieGenerators3 = lieGenerators 3 := by
  have l2 : genLabels 2 = [.sym 1 0, .asym 1 0, .diag 1] := by decide
  have l3 : genLabels 3 = [.sym 1 0, .sym 2 0, .sym 2 1, .asym 1 0, .asym 2 0, .asym 2 1, .diag 1, .diag 2] := by decide
  have hd1 : diagScale 1 = 1 := by unfold diagScale; norm_num
  have hd2 : diagScale 2 = 1 / Real.sqrt 3 := by
    unfold diagScale
    rw [one_div, ← Real.sqrt_inv]
    norm_num
  constructor
  · unfold lieGenerators2 lieGenerators
    rw [l2]
    simp only [List.map_cons, List.map_nil, List.cons.injEq, and_true]
    refine ⟨?_, ?_, ?_⟩ <;> congr 1 <;> ext i j <;> fin_cases i <;> fin_cases j <;> simp [rawGenerator, hd1]
  · unfold lieGenerators3 lieGenerators
    rw [l3]
    simp only [List.map_cons, List.map_nil, List.cons.injEq, and_true]
    refine ⟨?_, ?_, ?_, ?_, ?_, ?_, ?_, ?_⟩ <;> congr 1 <;> ext i j <;> fin_cases i <;> fin_cases j <;>
      simp [rawGenerator, hd1, hd2]
    ring

/-! ### C29 -/

section
variable {N : ℕ} {ι : Type} [DecidableEq ι] [Fintype ι] {T : ι → Mat N}

theorem trace_real (hT : IsGenerators T) {H : Mat N} (hH : Hᴴ = H) (i : ι) :
    trace (T i * H) = ((trace (T i * H)).re : ℂ) := by
  have : star (trace (T i * H)) = trace (T i * H) := by
    rw [← trace_conjTranspose, conjTranspose_mul, hH, hT.hermitian, trace_mul_comm]
  rw [Complex.star_def, Complex.conj_eq_iff_re] at this
  exact this.symm

theorem toAdjoint_eq (hT : IsGenerators T) (U : Mat N) (i j : ι) :
    (toAdjoint T U i j : ℂ) = 2 * trace (T i * (U * T j * Uᴴ)) := by
  have hH : (U * T j * Uᴴ)ᴴ = U * T j * Uᴴ := by
    rw [conjTranspose_mul, conjTranspose_mul, conjTranspose_conjTranspose, hT.hermitian, Matrix.mul_assoc]
  rw [trace_real hT hH]
  unfold toAdjoint
  push_cast
  simp only [Matrix.mul_assoc]

/-- The adjoint matrix is the action by conjugation: `U T_j U† = Σ_i Ad(U)_ij T_i`. -/
theorem conj_generator (hT : IsGenerators T) (hc : IsComplete T) {U : Mat N} (hU : U ∈ unitaryGroup (Fin N) ℂ) (j : ι) :
    U * T j * Uᴴ = ∑ i, (toAdjoint T U i j : ℂ) • T i := by
  have hU' : Uᴴ * U = 1 := mem_unitaryGroup_iff'.1 hU
  have ht : trace (U * T j * Uᴴ) = 0 := by
    rw [trace_mul_comm, ← Matrix.mul_assoc, hU', Matrix.one_mul, hT.traceless]
  conv_lhs => rw [hc _ ht]
  exact Finset.sum_congr rfl fun i _ => by rw [toAdjoint_eq hT]

theorem toAdjoint_mul (hT : IsGenerators T) (hc : IsComplete T) (U : Mat N) {V : Mat N} (hV : V ∈ unitaryGroup (Fin N) ℂ) :
    toAdjoint T (U * V) = toAdjoint T U * toAdjoint T V := by
  ext i j
  rw [← Complex.ofReal_inj, toAdjoint_eq hT, Matrix.mul_apply, Complex.ofReal_sum]
  have : U * V * T j * (U * V)ᴴ = U * (V * T j * Vᴴ) * Uᴴ := by
    rw [conjTranspose_mul]; simp only [Matrix.mul_assoc]
  rw [this, conj_generator hT hc hV, Finset.mul_sum, Finset.sum_mul, Finset.mul_sum, trace_sum, Finset.mul_sum]
  refine Finset.sum_congr rfl fun k _ => ?_
  rw [Matrix.mul_smul, Matrix.smul_mul, Matrix.mul_smul, trace_smul, Complex.ofReal_mul, toAdjoint_eq hT U i k]
  simp only [smul_eq_mul]
  ring

theorem toAdjoint_conjTranspose (hT : IsGenerators T) (U : Mat N) : toAdjoint T Uᴴ = (toAdjoint T U)ᵀ := by
  ext i j
  rw [← Complex.ofReal_inj, transpose_apply, toAdjoint_eq hT, toAdjoint_eq hT, conjTranspose_conjTranspose]
  congr 1
  rw [trace_mul_comm (T i), trace_mul_comm (T j)]
  calc trace (Uᴴ * T j * U * T i) = trace (Uᴴ * (T j * U * T i)) := by simp only [Matrix.mul_assoc]
    _ = trace (T j * U * T i * Uᴴ) := trace_mul_comm _ _
    _ = trace (T j * (U * T i * Uᴴ)) := by simp only [Matrix.mul_assoc]
    _ = _ := trace_mul_comm _ _

theorem toAdjoint_one (hT : IsGenerators T) : toAdjoint T (1 : Mat N) = 1 := by
  ext i j
  rw [← Complex.ofReal_inj, toAdjoint_eq hT]
  simp only [Matrix.one_mul, conjTranspose_one, Matrix.mul_one]
  rw [hT.orthonormal, Matrix.one_apply]
  split <;> simp

end

/-- **C29**: the adjoint link acts by conjugation on the generators; the adjoint link of a product is the product, of the
inverse the transpose, and of the identity the identity; and it is a real orthogonal matrix. For all unitary matrices and every
number of colours. -/
theorem C29_representation (N : ℕ) (U V : Mat N) (hU : U ∈ unitaryGroup (Fin N) ℂ) (hV : V ∈ unitaryGroup (Fin N) ℂ) :
    (∀ j, U * gens N j * Uᴴ = ∑ i, (toAdjoint (gens N) U i j : ℂ) • gens N i)
    ∧ toAdjoint (gens N) (U * V) = toAdjoint (gens N) U * toAdjoint (gens N) V
    ∧ toAdjoint (gens N) U⁻¹ = (toAdjoint (gens N) U)ᵀ
    ∧ toAdjoint (gens N) 1 = 1
    ∧ toAdjoint (gens N) U ∈ orthogonalGroup (Fin (lieGenerators N).length) ℝ := by
  have hg := C30_generators N
  have hc := C30_complete N
  have hU1 : U * Uᴴ = 1 := mem_unitaryGroup_iff.1 hU
  have hinv : U⁻¹ = Uᴴ := Matrix.inv_eq_right_inv hU1
  have hU' : Uᴴ ∈ unitaryGroup (Fin N) ℂ := by rw [mem_unitaryGroup_iff]; show Uᴴ * (Uᴴ)ᴴ = 1; rw [conjTranspose_conjTranspose]; exact mem_unitaryGroup_iff'.1 hU
  refine ⟨conj_generator hg hc hU, toAdjoint_mul hg hc U hV, ?_, toAdjoint_one hg, ?_⟩
  · rw [hinv, toAdjoint_conjTranspose hg]
  · rw [mem_orthogonalGroup_iff]
    show toAdjoint (gens N) U * (toAdjoint (gens N) U)ᵀ = 1
    rw [← toAdjoint_conjTranspose hg, ← toAdjoint_mul hg hc U hU', hU1, toAdjoint_one hg]

/-- The generators of the lists written out, by number. -/
noncomputable def gens2 (a : Fin 3) : Mat 2 := lieGenerators2[a]
/-- The generators of the lists written out, by number. -/
noncomputable def gens3 (a : Fin 8) : Mat 3 := lieGenerators3[a]

theorem trace_single_conj {N : ℕ} (U : Mat N) (a b c d : Fin N) (x y : ℂ) :
    trace (Matrix.single a b x * U * Matrix.single c d y * Uᴴ) = x * y * (U b c * star (U a d)) := by
  rw [Matrix.mul_assoc, Matrix.mul_assoc, Matrix.trace_single_mul, ← Matrix.mul_assoc]
  show x • ((U * Matrix.single c d y * Uᴴ) b a) = _
  simp only [Matrix.mul_apply, Matrix.single_apply, conjTranspose_apply]
  have : ∀ k : Fin N, (∑ x_1, U b x_1 * if c = x_1 ∧ d = k then y else 0) = if d = k then U b c * y else 0 := by
    intro k
    by_cases h : d = k
    · simp only [h, and_true, if_true, mul_ite, mul_zero]
      rw [Finset.sum_ite_eq Finset.univ c]; simp
    · simp [h]
  simp only [this, ite_mul, zero_mul]
  rw [Finset.sum_ite_eq Finset.univ d]
  simp
  ring

theorem gens2_single :
    gens2 0 = Matrix.single 0 1 (1 / 2) + Matrix.single 1 0 (1 / 2)
    ∧ gens2 1 = Matrix.single 0 1 (-(Complex.I / 2)) + Matrix.single 1 0 (Complex.I / 2)
    ∧ gens2 2 = Matrix.single 0 0 (1 / 2) + Matrix.single 1 1 (-(1 / 2)) := by
  have e0 : gens2 0 = (1 / 2 : ℂ) • !![0, 1; 1, 0] := rfl
  have e1 : gens2 1 = (1 / 2 : ℂ) • !![0, -Complex.I; Complex.I, 0] := rfl
  have e2 : gens2 2 = (1 / 2 : ℂ) • !![1, 0; 0, -1] := rfl
  rw [e0, e1, e2]
  refine ⟨?_, ?_, ?_⟩ <;> ext i j <;> fin_cases i <;> fin_cases j <;>
    simp [Matrix.single_apply] <;> ring

theorem gens3_single :
    gens3 0 = Matrix.single 0 1 (1 / 2) + Matrix.single 1 0 (1 / 2)
    ∧ gens3 1 = Matrix.single 0 2 (1 / 2) + Matrix.single 2 0 (1 / 2)
    ∧ gens3 2 = Matrix.single 1 2 (1 / 2) + Matrix.single 2 1 (1 / 2)
    ∧ gens3 3 = Matrix.single 0 1 (-(Complex.I / 2)) + Matrix.single 1 0 (Complex.I / 2)
    ∧ gens3 4 = Matrix.single 0 2 (-(Complex.I / 2)) + Matrix.single 2 0 (Complex.I / 2)
    ∧ gens3 5 = Matrix.single 1 2 (-(Complex.I / 2)) + Matrix.single 2 1 (Complex.I / 2)
    ∧ gens3 6 = Matrix.single 0 0 (1 / 2) + Matrix.single 1 1 (-(1 / 2))
    ∧ gens3 7 = Matrix.single 0 0 (((Real.sqrt 3)⁻¹ / 2 : ℝ) : ℂ) + Matrix.single 1 1 (((Real.sqrt 3)⁻¹ / 2 : ℝ) : ℂ)
        + Matrix.single 2 2 ((-(Real.sqrt 3)⁻¹ : ℝ) : ℂ) := by
  have e0 : gens3 0 = (1 / 2 : ℂ) • !![0, 1, 0; 1, 0, 0; 0, 0, 0] := rfl
  have e1 : gens3 1 = (1 / 2 : ℂ) • !![0, 0, 1; 0, 0, 0; 1, 0, 0] := rfl
  have e2 : gens3 2 = (1 / 2 : ℂ) • !![0, 0, 0; 0, 0, 1; 0, 1, 0] := rfl
  have e3 : gens3 3 = (1 / 2 : ℂ) • !![0, -Complex.I, 0; Complex.I, 0, 0; 0, 0, 0] := rfl
  have e4 : gens3 4 = (1 / 2 : ℂ) • !![0, 0, -Complex.I; 0, 0, 0; Complex.I, 0, 0] := rfl
  have e5 : gens3 5 = (1 / 2 : ℂ) • !![0, 0, 0; 0, 0, -Complex.I; 0, Complex.I, 0] := rfl
  have e6 : gens3 6 = (1 / 2 : ℂ) • !![1, 0, 0; 0, -1, 0; 0, 0, 0] := rfl
  have e7 : gens3 7 = (1 / 2 : ℂ) • !![((1 / Real.sqrt 3 : ℝ) : ℂ), 0, 0; 0, ((1 / Real.sqrt 3 : ℝ) : ℂ), 0;
      0, 0, ((-2 / Real.sqrt 3 : ℝ) : ℂ)] := rfl
  rw [e0, e1, e2, e3, e4, e5, e6, e7]
  refine ⟨?_, ?_, ?_, ?_, ?_, ?_, ?_, ?_⟩ <;> ext i j <;> fin_cases i <;> fin_cases j <;>
    simp [Matrix.single_apply] <;> ring

/-- **C29**: the formulas written out for two colours are the general ones, for all matrices. -/
theorem C29_two_colours (U : Mat 2) : toAdjoint2 U = toAdjoint gens2 U := by
  obtain ⟨h0, h1, h2⟩ := gens2_single
  ext i j
  fin_cases i <;> fin_cases j <;>
    simp only [toAdjoint2, toAdjoint, Fin.zero_eta, Fin.mk_one, Fin.reduceFinMk, h0, h1, h2, Matrix.add_mul, Matrix.mul_add,
      trace_add, trace_single_conj] <;> simp <;> ring

theorem inv_sqrt_three : (Real.sqrt 3)⁻¹ = Real.sqrt 3 / 3 := by
  have h : Real.sqrt 3 * Real.sqrt 3 = 3 := Real.mul_self_sqrt (by norm_num)
  have h0 : Real.sqrt 3 ≠ 0 := by positivity
  field_simp
  linarith

theorem sqrt_three_sq : Real.sqrt 3 ^ 2 = 3 := Real.sq_sqrt (by norm_num)

theorem toAdjoint3_row0 (U : Mat 3) (j : Fin 8) : toAdjoint3Row0 U j = toAdjoint gens3 U 0 j := by
  obtain ⟨h0, h1, h2, h3, h4, h5, h6, h7⟩ := gens3_single
  fin_cases j <;>
    simp only [toAdjoint3Row0, toAdjoint, Fin.zero_eta, Fin.mk_one, Fin.reduceFinMk, h0, h1, h2, h3, h4, h5, h6, h7,
      Matrix.add_mul, Matrix.mul_add, trace_add, trace_single_conj] <;> simp <;> (try simp only [div_eq_mul_inv, inv_sqrt_three]) <;> (try ring_nf) <;>
    (try simp only [sqrt_three_sq]) <;> (try ring)

theorem toAdjoint3_row1 (U : Mat 3) (j : Fin 8) : toAdjoint3Row1 U j = toAdjoint gens3 U 1 j := by
  obtain ⟨h0, h1, h2, h3, h4, h5, h6, h7⟩ := gens3_single
  fin_cases j <;>
    simp only [toAdjoint3Row1, toAdjoint, Fin.zero_eta, Fin.mk_one, Fin.reduceFinMk, h0, h1, h2, h3, h4, h5, h6, h7,
      Matrix.add_mul, Matrix.mul_add, trace_add, trace_single_conj] <;> simp <;> (try simp only [div_eq_mul_inv, inv_sqrt_three]) <;> (try ring_nf) <;>
    (try simp only [sqrt_three_sq]) <;> (try ring)

theorem toAdjoint3_row2 (U : Mat 3) (j : Fin 8) : toAdjoint3Row2 U j = toAdjoint gens3 U 2 j := by
  obtain ⟨h0, h1, h2, h3, h4, h5, h6, h7⟩ := gens3_single
  fin_cases j <;>
    simp only [toAdjoint3Row2, toAdjoint, Fin.zero_eta, Fin.mk_one, Fin.reduceFinMk, h0, h1, h2, h3, h4, h5, h6, h7,
      Matrix.add_mul, Matrix.mul_add, trace_add, trace_single_conj] <;> simp <;> (try simp only [div_eq_mul_inv, inv_sqrt_three]) <;> (try ring_nf) <;>
    (try simp only [sqrt_three_sq]) <;> (try ring)

theorem toAdjoint3_row3 (U : Mat 3) (j : Fin 8) : toAdjoint3Row3 U j = toAdjoint gens3 U 3 j := by
  obtain ⟨h0, h1, h2, h3, h4, h5, h6, h7⟩ := gens3_single
  fin_cases j <;>
    simp only [toAdjoint3Row3, toAdjoint, Fin.zero_eta, Fin.mk_one, Fin.reduceFinMk, h0, h1, h2, h3, h4, h5, h6, h7,
      Matrix.add_mul, Matrix.mul_add, trace_add, trace_single_conj] <;> simp <;> (try simp only [div_eq_mul_inv, inv_sqrt_three]) <;> (try ring_nf) <;>
    (try simp only [sqrt_three_sq]) <;> (try ring)

theorem toAdjoint3_row4 (U : Mat 3) (j : Fin 8) : toAdjoint3Row4 U j = toAdjoint gens3 U 4 j := by
  obtain ⟨h0, h1, h2, h3, h4, h5, h6, h7⟩ := gens3_single
  fin_cases j <;>
    simp only [toAdjoint3Row4, toAdjoint, Fin.zero_eta, Fin.mk_one, Fin.reduceFinMk, h0, h1, h2, h3, h4, h5, h6, h7,
      Matrix.add_mul, Matrix.mul_add, trace_add, trace_single_conj] <;> simp <;> (try simp only [div_eq_mul_inv, inv_sqrt_three]) <;> (try ring_nf) <;>
    (try simp only [sqrt_three_sq]) <;> (try ring)

theorem toAdjoint3_row5 (U : Mat 3) (j : Fin 8) : toAdjoint3Row5 U j = toAdjoint gens3 U 5 j := by
  obtain ⟨h0, h1, h2, h3, h4, h5, h6, h7⟩ := gens3_single
  fin_cases j <;>
    simp only [toAdjoint3Row5, toAdjoint, Fin.zero_eta, Fin.mk_one, Fin.reduceFinMk, h0, h1, h2, h3, h4, h5, h6, h7,
      Matrix.add_mul, Matrix.mul_add, trace_add, trace_single_conj] <;> simp <;> (try simp only [div_eq_mul_inv, inv_sqrt_three]) <;> (try ring_nf) <;>
    (try simp only [sqrt_three_sq]) <;> (try ring)

theorem toAdjoint3_row6 (U : Mat 3) (j : Fin 8) : toAdjoint3Row6 U j = toAdjoint gens3 U 6 j := by
  obtain ⟨h0, h1, h2, h3, h4, h5, h6, h7⟩ := gens3_single
  fin_cases j <;>
    simp only [toAdjoint3Row6, toAdjoint, Fin.zero_eta, Fin.mk_one, Fin.reduceFinMk, h0, h1, h2, h3, h4, h5, h6, h7,
      Matrix.add_mul, Matrix.mul_add, trace_add, trace_single_conj] <;> simp <;> (try simp only [div_eq_mul_inv, inv_sqrt_three]) <;> (try ring_nf) <;>
    (try simp only [sqrt_three_sq]) <;> (try ring)

theorem toAdjoint3_row7 (U : Mat 3) (j : Fin 8) : toAdjoint3Row7 U j = toAdjoint gens3 U 7 j := by
  obtain ⟨h0, h1, h2, h3, h4, h5, h6, h7⟩ := gens3_single
  fin_cases j <;>
    simp only [toAdjoint3Row7, toAdjoint, Fin.zero_eta, Fin.mk_one, Fin.reduceFinMk, h0, h1, h2, h3, h4, h5, h6, h7,
      Matrix.add_mul, Matrix.mul_add, trace_add, trace_single_conj] <;> simp <;> (try simp only [div_eq_mul_inv, inv_sqrt_three]) <;> (try ring_nf) <;>
    (try simp only [sqrt_three_sq]) <;> (try ring)

/-- **C29**: the table of 64 formulas written out for three colours is the general one, for all matrices. -/
theorem C29_three_colours (U : Mat 3) : toAdjoint3 U = toAdjoint gens3 U := by
  ext i j
  fin_cases i
  · exact toAdjoint3_row0 U j
  · exact toAdjoint3_row1 U j
  · exact toAdjoint3_row2 U j
  · exact toAdjoint3_row3 U j
  · exact toAdjoint3_row4 U j
  · exact toAdjoint3_row5 U j
  · exact toAdjoint3_row6 U j
  · exact toAdjoint3_row7 U j

/-- The hypotheses of `C29_representation` are met by a rotation that is not diagonal. -/
example : (!![0, 1; -1, 0] : Mat 2) ∈ unitaryGroup (Fin 2) ℂ ∧ toAdjoint2 !![0, 1; -1, 0] = !![-1, 0, 0; 0, 1, 0; 0, 0, -1] := by
  constructor
  · rw [mem_unitaryGroup_iff]
    show (!![0, 1; -1, 0] : Mat 2) * (!![0, 1; -1, 0] : Mat 2)ᴴ = 1
    ext i j; fin_cases i <;> fin_cases j <;> simp [Matrix.mul_apply, Fin.sum_univ_two]
  · ext i j; fin_cases i <;> fin_cases j <;> simp [toAdjoint2] <;> norm_num

end Leonard
