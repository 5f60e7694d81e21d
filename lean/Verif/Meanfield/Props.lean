import Verif.Meanfield.Model
import Verif.Scalar.Props

/-!
# C81: the mean values of the scalar fields
-/

set_option autoImplicit false

namespace Leonard

open Matrix

noncomputable section

variable {S : Type} {N nA nF : ℕ}

/-- The mean value of `f` over the fields, the sites of the whole lattice and the `m` components. -/
def fieldMean [Fintype S] {n : ℕ} {ι : Type} [Fintype ι] {A : Type} (m : ℕ) (f : A → ℝ) (φ : Fin n → S → ι → A) : ℝ :=
  (∑ i, ∑ s, ∑ c, f (φ i s c)) / (n * m * Fintype.card S)

theorem localMean_total [Fintype S] {n : ℕ} {ι : Type} [Fintype ι] {A : Type} (processes : ℕ) (rank : S → ℕ) (hr : ∀ s, rank s < processes) (f : A → ℝ)
    (φ : Fin n → S → ι → A) : ∑ r ∈ Finset.range processes, localMean n rank f φ r = ∑ i, ∑ s, ∑ c, f (φ i s c) := by
  unfold localMean
  rw [Finset.sum_comm]
  refine Finset.sum_congr rfl fun i _ => ?_
  rw [Finset.sum_comm]
  refine Finset.sum_congr rfl fun s _ => ?_
  simp only [i.isLt, true_and, Finset.sum_ite_eq, Finset.mem_range, hr s, if_true]

/-- **C81**: however the sites are distributed over the processes, the numbers for the adjoint fields are the mean values of `φ`, `φ²` and `|φ|`. -/
theorem C81_adjoint [Fintype S] (processes : ℕ) (rank : S → ℕ) (hr : ∀ s, rank s < processes) (Φ : Scalars S N nA nF) (hA : 0 < nA) :
    ∃ fund, meanScalarField nA nF processes rank Φ
      = some (some [fieldMean (N * N - 1) (fun x => x) Φ.1, fieldMean (N * N - 1) (fun x => x * x) Φ.1, fieldMean (N * N - 1) (fun x => |x|) Φ.1], fund) := by
  refine ⟨if 0 < nF then some (meanFundamental nF rank Φ) else none, ?_⟩
  unfold meanScalarField meanAdjoint
  rw [if_pos ⟨le_refl _, le_refl _⟩, if_pos hA]
  simp only [List.map_cons, List.map_nil, localMean_total processes rank hr, fieldMean]
  push_cast
  rfl

/-- **C81** (part): if one process has all sites, the numbers for the fundamental fields are the mean values of `Re φ`, `|φ|²` and `|φ|`. -/
theorem C81_fundamental_partial [Fintype S] (processes : ℕ) (rank : S → ℕ) (hr : ∀ s, rank s = 0) (Φ : Scalars S N nA nF) (hF : 0 < nF) :
    ∃ adj, meanScalarField nA nF processes rank Φ
      = some (adj, some [fieldMean N Complex.re Φ.2, fieldMean N (fun z => ‖z‖ ^ 2) Φ.2, fieldMean N (fun z => ‖z‖) Φ.2]) := by
  refine ⟨if 0 < nA then some (meanAdjoint nA processes rank Φ) else none, ?_⟩
  unfold meanScalarField meanFundamental
  rw [if_pos ⟨le_refl _, le_refl _⟩, if_pos hF]
  have h : ∀ f : ℂ → ℝ, localMean nF rank f Φ.2 0 = ∑ i, ∑ s, ∑ c, f (Φ.2 i s c) := by
    intro f
    rw [← localMean_total 1 rank (fun s => by rw [hr s]; exact Nat.one_pos) f Φ.2, Finset.sum_range_one]
  have h2 : (fun z : ℂ => (starRingEnd ℂ z * z).re) = fun z => ‖z‖ ^ 2 := by
    funext z
    rw [mul_comm, Complex.mul_conj, Complex.ofReal_re, Complex.normSq_eq_norm_sq]
  simp only [List.map_cons, List.map_nil, h, h2, fieldMean]
  push_cast
  rfl

/-- **C81** fails for fundamental fields with several processes: the sums are not added. For fields which are one everywhere the three numbers, which should
be one, are the part of the lattice which the writing process has. -/
theorem C81_fundamental_counterexample [Fintype S] [Nonempty S] (hN : 0 < N) (hF : 0 < nF) (processes : ℕ) (rank : S → ℕ) (φ : Fin nA → S → AdjVec N) :
    (∃ adj, meanScalarField nA nF processes rank (φ, fun (_ : Fin nF) (_ : S) (_ : Fin N) => (1 : ℂ))
      = some (adj, some (List.replicate 3 ((Finset.univ.filter fun s => rank s = 0).card / Fintype.card S : ℝ))))
    ∧ fieldMean N Complex.re (fun (_ : Fin nF) (_ : S) (_ : Fin N) => (1 : ℂ)) = 1 := by
  have hV : (Fintype.card S : ℝ) ≠ 0 := by exact_mod_cast Fintype.card_ne_zero
  have hN' : (N : ℝ) ≠ 0 := by exact_mod_cast hN.ne'
  have hF' : (nF : ℝ) ≠ 0 := by exact_mod_cast hF.ne'
  constructor
  · refine ⟨if 0 < nA then some (meanAdjoint nA processes rank (φ, fun (_ : Fin nF) (_ : S) (_ : Fin N) => (1 : ℂ))) else none, ?_⟩
    unfold meanScalarField meanFundamental
    rw [if_pos ⟨le_refl _, le_refl _⟩, if_pos hF]
    have h : ∀ f : ℂ → ℝ, f 1 = 1 → localMean nF rank f (fun (_ : Fin nF) (_ : S) (_ : Fin N) => (1 : ℂ)) 0 / ((nF * N * Fintype.card S : ℕ) : ℝ)
        = (Finset.univ.filter fun s => rank s = 0).card / Fintype.card S := by
      intro f hf
      unfold localMean
      simp only [Fin.is_lt, true_and, hf, Finset.sum_const, Finset.card_univ, Fintype.card_fin, nsmul_eq_mul, mul_one]
      rw [← Finset.sum_filter, Finset.sum_const, nsmul_eq_mul]
      push_cast
      field_simp
    simp only [List.map_cons, List.map_nil]
    rw [h _ (by norm_num), h _ (by norm_num), h _ (by norm_num)]
    rfl
  · unfold fieldMean
    simp only [Complex.one_re, Finset.sum_const, Finset.card_univ, Fintype.card_fin, nsmul_eq_mul, mul_one]
    field_simp

/-- **C81**: the mean values of the squares do not change under gauge transformations. -/
theorem C81_gauge [Fintype S] (ω : S → Mat N) (hω : ∀ s, ω s ∈ unitaryGroup (Fin N) ℂ) (Φ : Scalars S N nA nF) (m : ℕ) :
    fieldMean m (fun x => x * x) (scalarTransform ω Φ).1 = fieldMean m (fun x => x * x) Φ.1
      ∧ fieldMean m (fun z => ‖z‖ ^ 2) (scalarTransform ω Φ).2 = fieldMean m (fun z => ‖z‖ ^ 2) Φ.2 := by
  have hc : ∀ v : FundVec N, (∑ c, ‖v c‖ ^ 2 : ℝ) = (complexDot v v).re := by
    intro v
    unfold complexDot
    rw [Complex.re_sum]
    refine Finset.sum_congr rfl fun c _ => ?_
    rw [mul_comm, Complex.mul_conj, Complex.ofReal_re, Complex.normSq_eq_norm_sq]
  constructor
  · unfold fieldMean
    refine congrArg (· / _) (Finset.sum_congr rfl fun i _ => Finset.sum_congr rfl fun s _ => ?_)
    exact realDot_adjoint (hω s) (Φ.1 i s) (Φ.1 i s)
  · unfold fieldMean
    refine congrArg (· / _) (Finset.sum_congr rfl fun i _ => Finset.sum_congr rfl fun s _ => ?_)
    rw [hc, hc]
    exact congrArg Complex.re (complexDot_unitary (hω s) (Φ.2 i s) (Φ.2 i s))

/-- **C81** fails for the first number: the mean value of the field itself changes sign under the gauge transformation with `-1`. -/
theorem C81_gauge_counterexample [Fintype S] (Φ : Scalars S N nA nF) (m : ℕ) :
    (∀ s : S, (fun _ : S => (-1 : Mat N)) s ∈ unitaryGroup (Fin N) ℂ) ∧ fieldMean m Complex.re (scalarTransform (fun _ => (-1 : Mat N)) Φ).2 = -fieldMean m Complex.re Φ.2 := by
  constructor
  · intro s
    rw [mem_unitaryGroup_iff]
    simp
  · unfold fieldMean scalarTransform
    simp only [neg_mulVec, one_mulVec, Pi.neg_apply, Complex.neg_re, Finset.sum_neg_distrib, neg_div]

/-- **C81**: if the options ask for more fields than there are, the code does not stop but reads outside of the vector of fields. -/
theorem C81_missing_counterexample [Fintype S] (optA optF processes : ℕ) (rank : S → ℕ) (Φ : Scalars S N nA nF) (h : nA < optA ∨ nF < optF) :
    meanScalarField optA optF processes rank Φ = none := by
  unfold meanScalarField
  rw [if_neg]
  omega

/-- Two processes which have half of the four sites each: the hypotheses of `C81_adjoint` are met, and the numbers for the fundamental fields are one half. -/
example : (∀ s : Fin 4, (fun s : Fin 4 => s.val / 2) s < 2)
    ∧ ((Finset.univ.filter fun s : Fin 4 => s.val / 2 = 0).card / Fintype.card (Fin 4) : ℝ) = 1 / 2 := by
  refine ⟨by decide, ?_⟩
  have : (Finset.univ.filter fun s : Fin 4 => s.val / 2 = 0).card = 2 := by decide
  rw [this]
  norm_num

/-- A gauge transformation with a diagonal matrix: the hypothesis of `C81_gauge` is met. -/
example (s : S) : (fun _ : S => (diagonal ![Complex.I, -Complex.I] : Mat 2)) s ∈ unitaryGroup (Fin 2) ℂ := by
  rw [mem_unitaryGroup_iff]
  change diagonal _ * (diagonal _)ᴴ = 1
  rw [diagonal_conjTranspose, diagonal_mul_diagonal, ← diagonal_one]
  congr 1
  funext i
  fin_cases i <;> simp

end

end Leonard
