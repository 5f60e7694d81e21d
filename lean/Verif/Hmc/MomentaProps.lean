/-
C45: random momenta.
-/
import Verif.Hmc.Lemmas

set_option autoImplicit false

namespace Leonard

open Matrix

variable {N : ℕ}

/-- The positions of the numbers drawn for one link: all pairs of colours except the pair of the first colour with itself. -/
abbrev DrawIndex (N : ℕ) := {p : Fin N × Fin N // ¬ (p.1 = p.2 ∧ (p.1 : ℕ) = 0)}

/-- The numbers drawn, at the positions where they are used: `(k,l)` with `k < l` holds the real part and `(l,k)` the imaginary part of the
entries `(k,l)`, `(l,k)`; `(i,i)` holds the number of the diagonal generator `i`. -/
noncomputable def drawAt (x : DrawIndex N → ℝ) (k l : Fin N) : ℝ := if h : ¬ (k = l ∧ (k : ℕ) = 0) then x ⟨(k, l), h⟩ else 0

/-- The momentum of a link for the numbers drawn. -/
noncomputable def momentumOf (x : DrawIndex N → ℝ) : Mat N :=
  randomMomentum (fun k l => drawAt x k l) (fun k l => drawAt x l k) fun i => drawAt x i i

/-! ### The diagonal generators -/

/-- The generator `i` without its normalisation: 1 for the colours before `i`, `-i` for colour `i`. -/
def diagGen (i k : Fin N) : ℝ := if (i : ℕ) = 0 then 0 else if k < i then 1 else if k = i then -(i : ℝ) else 0

/-- The normalisation of generator `i`. -/
noncomputable def diagNorm (i : Fin N) : ℝ := Real.sqrt (2 / ((i : ℝ) * ((i : ℝ) + 1)))

theorem sum_lt (i : Fin N) : ∑ k : Fin N, (if k < i then (1 : ℝ) else 0) = i := by
  rw [Finset.sum_boole]
  have : (Finset.univ.filter fun k : Fin N => k < i) = Finset.Iio i := by ext; simp
  rw [this, Fin.card_Iio]

theorem diagGen_split (i k : Fin N) (hi : (i : ℕ) ≠ 0) :
    diagGen i k = (if k < i then (1 : ℝ) else 0) + (if k = i then -(i : ℝ) else 0) := by
  unfold diagGen
  rw [if_neg hi]
  by_cases h1 : k < i
  · simp [h1, h1.ne]
  · simp [h1]

theorem sum_diagGen (i : Fin N) : ∑ k, diagGen i k = 0 := by
  by_cases hi : (i : ℕ) = 0
  · simp [diagGen, hi]
  · simp only [diagGen_split i _ hi, Finset.sum_add_distrib, sum_lt, Finset.sum_ite_eq', Finset.mem_univ, if_true]
    ring

theorem sum_diagGen_mul_lt (i j : Fin N) (h : i < j) : ∑ k, diagGen i k * diagGen j k = 0 := by
  have : ∀ k, diagGen i k * diagGen j k = diagGen i k := by
    intro k
    by_cases hk : k ≤ i
    · have hk' : k < j := lt_of_le_of_lt hk h
      have hj : (j : ℕ) ≠ 0 := by have : (i : ℕ) < j := h; omega
      simp [diagGen, hj, hk']
    · have hk' : i < k := not_le.mp hk
      have : diagGen i k = 0 := by simp [diagGen, not_lt.mpr hk'.le, hk'.ne']
      rw [this, zero_mul]
  simp only [this, sum_diagGen]

theorem sum_diagGen_sq (i : Fin N) (hi : (i : ℕ) ≠ 0) : ∑ k, diagGen i k * diagGen i k = (i : ℝ) * ((i : ℝ) + 1) := by
  have : ∀ k, diagGen i k * diagGen i k = (if k < i then (1 : ℝ) else 0) + (if k = i then (i : ℝ) * i else 0) := by
    intro k
    unfold diagGen
    rw [if_neg hi]
    by_cases h1 : k < i
    · simp [h1, h1.ne]
    · simp only [h1, if_false]; split <;> simp
  simp only [this, Finset.sum_add_distrib, sum_lt, Finset.sum_ite_eq', Finset.mem_univ, if_true]
  ring

theorem diagNorm_sq (i : Fin N) (hi : (i : ℕ) ≠ 0) : diagNorm i * diagNorm i * ((i : ℝ) * ((i : ℝ) + 1)) = 2 := by
  have h : (0 : ℝ) < (i : ℝ) := by exact_mod_cast Nat.pos_of_ne_zero hi
  unfold diagNorm
  rw [Real.mul_self_sqrt (by positivity)]
  field_simp

/-- The diagonal of the momentum. -/
noncomputable def diagPart (c : Fin N → ℝ) (k : Fin N) : ℝ := ∑ i, c i / 2 * diagNorm i * diagGen i k

theorem randomMomentum_diag (re im : Fin N → Fin N → ℝ) (c : Fin N → ℝ) (k : Fin N) :
    randomMomentum re im c k k = ⟨0, diagPart c k⟩ := by
  have hs : ∀ x : ℝ, 1 / Real.sqrt (x / 2) = Real.sqrt (2 / x) := fun x => by
    rw [one_div, ← Real.sqrt_inv, inv_div]
  unfold randomMomentum
  simp only [Matrix.of_apply, lt_self_iff_false, if_false]
  have e : ∀ i : Fin N, (if (i : ℕ) = 0 then 0
      else if k < i then (⟨0, c i / 2 / Real.sqrt ((i : ℝ) * ((i : ℝ) + 1) / 2)⟩ : ℂ)
      else if k = i then ⟨0, -(c i / 2) * i * Real.sqrt (2 / ((i : ℝ) * ((i : ℝ) + 1)))⟩
      else 0) = ⟨0, c i / 2 * diagNorm i * diagGen i k⟩ := by
    intro i
    unfold diagGen diagNorm
    split
    · simp [Complex.ext_iff]
    split
    · rw [← hs]; simp [Complex.ext_iff, div_eq_mul_inv]
    split
    · simp [Complex.ext_iff]; ring
    · simp [Complex.ext_iff]
  simp only [e]
  unfold diagPart
  rw [Complex.ext_iff, Complex.re_sum, Complex.im_sum]
  simp

theorem sum_diagPart (c : Fin N → ℝ) : ∑ k, diagPart c k = 0 := by
  unfold diagPart
  rw [Finset.sum_comm]
  simp only [← Finset.mul_sum, sum_diagGen, mul_zero, Finset.sum_const_zero]

theorem sum_diagPart_sq (c : Fin N → ℝ) : ∑ k, diagPart c k * diagPart c k = ∑ i : Fin N, if (i : ℕ) = 0 then 0 else c i * c i / 2 := by
  unfold diagPart
  simp only [Finset.sum_mul_sum]
  rw [Finset.sum_comm]
  refine Finset.sum_congr rfl fun i _ => ?_
  rw [Finset.sum_comm]
  have e : ∀ j : Fin N, ∑ k, c i / 2 * diagNorm i * diagGen i k * (c j / 2 * diagNorm j * diagGen j k) =
      (c i / 2 * diagNorm i) * (c j / 2 * diagNorm j) * ∑ k, diagGen i k * diagGen j k := by
    intro j
    rw [Finset.mul_sum]
    refine Finset.sum_congr rfl fun k _ => ?_
    ring
  simp only [e]
  rw [Finset.sum_eq_single i]
  · by_cases hi : (i : ℕ) = 0
    · simp [hi, diagGen]
    · rw [if_neg hi, sum_diagGen_sq i hi]
      have := diagNorm_sq i hi
      calc _ = c i / 2 * (c i / 2) * (diagNorm i * diagNorm i * ((i : ℝ) * ((i : ℝ) + 1))) := by ring
        _ = _ := by rw [this]; ring
  · intro j _ hj
    rcases lt_or_gt_of_ne hj with h | h
    · have := sum_diagGen_mul_lt j i h
      simp only [mul_comm (diagGen j _)] at this
      rw [this, mul_zero]
    · rw [sum_diagGen_mul_lt i j h, mul_zero]
  · simp

/-! ### C45 -/

theorem randomMomentum_anti (re im : Fin N → Fin N → ℝ) (c : Fin N → ℝ) (k l : Fin N) :
    starRingEnd ℂ (randomMomentum re im c l k) = -randomMomentum re im c k l := by
  rcases lt_trichotomy k l with h | h | h
  · simp [randomMomentum, h, not_lt.mpr h.le, Complex.ext_iff]
  · subst h; rw [randomMomentum_diag]; simp [Complex.ext_iff]
  · simp [randomMomentum, h, not_lt.mpr h.le, Complex.ext_iff]

/-- **C45.** The momentum of a link is anti-Hermitian and traceless, for every number of colours and whatever is drawn. -/
theorem C45_lie (re im : Fin N → Fin N → ℝ) (c : Fin N → ℝ) : IsLie (randomMomentum re im c) := by
  constructor
  · ext k l
    exact randomMomentum_anti re im c k l
  · simp only [Matrix.trace, Matrix.diag_apply, randomMomentum_diag]
    rw [Complex.ext_iff, Complex.re_sum, Complex.im_sum]
    simp [sum_diagPart]

theorem energy_eq_normSq {A : Mat N} (hA : Aᴴ = -A) : -(trace (A * A)).re = ∑ k, ∑ l, Complex.normSq (A k l) := by
  have : A * A = -(A * Aᴴ) := by rw [hA]; simp
  rw [this, Matrix.trace_neg, Complex.neg_re, neg_neg]
  simp only [Matrix.trace, Matrix.diag_apply, Matrix.mul_apply, Matrix.conjTranspose_apply, Complex.star_def, Complex.mul_conj]
  rw [Complex.re_sum]
  refine Finset.sum_congr rfl fun k _ => ?_
  rw [Complex.re_sum]
  simp

theorem sum_draws (f : Fin N → Fin N → ℝ) :
    ∑ p : DrawIndex N, f p.1.1 p.1.2 = ∑ k : Fin N, ∑ l : Fin N, if (k = l ∧ (k : ℕ) = 0) then 0 else f k l := by
  rw [← Fintype.sum_prod_type' (f := fun k l : Fin N => if (k = l ∧ (k : ℕ) = 0) then 0 else f k l)]
  rw [← Finset.sum_subtype (Finset.univ.filter fun p : Fin N × Fin N => ¬ (p.1 = p.2 ∧ (p.1 : ℕ) = 0)) (by simp)
    (fun p : Fin N × Fin N => f p.1 p.2), Finset.sum_filter]
  refine Finset.sum_congr rfl fun p _ => ?_
  split_ifs <;> tauto

theorem normSq_momentumOf (x : DrawIndex N → ℝ) (k l : Fin N) : Complex.normSq (momentumOf x k l) =
    if k = l then diagPart (fun i => drawAt x i i) k * diagPart (fun i => drawAt x i i) k
    else (drawAt x k l ^ 2 + drawAt x l k ^ 2) / 4 := by
  by_cases h : k = l
  · subst h
    rw [if_pos rfl]
    unfold momentumOf
    rw [randomMomentum_diag]
    simp [Complex.normSq_mk]
  · rw [if_neg h]
    unfold momentumOf randomMomentum
    rcases lt_or_gt_of_ne h with h1 | h1
    · simp only [Matrix.of_apply, h1, if_true, Complex.normSq_mk]; ring
    · simp only [Matrix.of_apply, not_lt.mpr h1.le, h1, if_true, if_false, Complex.normSq_mk]; ring

/-- **C45, energy.** The kinetic energy of a link is half the sum of the squares of the numbers drawn for it. -/
theorem C45_energy (x : DrawIndex N → ℝ) : -(trace (momentumOf x * momentumOf x)).re = (∑ p, x p ^ 2) / 2 := by
  have hx : ∑ p, x p ^ 2 = ∑ p : DrawIndex N, drawAt x p.1.1 p.1.2 ^ 2 := by
    refine Finset.sum_congr rfl fun p _ => ?_
    unfold drawAt
    rw [dif_pos p.2]
  rw [energy_eq_normSq (A := momentumOf x) (C45_lie _ _ _).1, hx, sum_draws fun k l => drawAt x k l ^ 2]
  simp only [normSq_momentumOf]
  generalize hX : drawAt x = X
  have e1 : ∀ k l : Fin N, (if k = l then diagPart (fun i => X i i) k * diagPart (fun i => X i i) k else (X k l ^ 2 + X l k ^ 2) / 4) =
      (if k = l then diagPart (fun i => X i i) k * diagPart (fun i => X i i) k else 0) +
      ((if k = l then 0 else X k l ^ 2 / 4) + (if l = k then 0 else X l k ^ 2 / 4)) := by
    intro k l
    by_cases h : k = l
    · simp [h]
    · simp only [h, if_false, Ne.symm h]; ring
  have e2 : ∀ k l : Fin N, (if k = l ∧ (k : ℕ) = 0 then 0 else X k l ^ 2) =
      (if k = l then (if (k : ℕ) = 0 then 0 else X k k ^ 2) else 0) + (if k = l then 0 else X k l ^ 2) := by
    intro k l
    by_cases h : k = l
    · subst h; simp
    · simp [h]
  simp only [e1, e2, Finset.sum_add_distrib, Finset.sum_ite_eq, Finset.mem_univ, if_true]
  rw [sum_diagPart_sq, Finset.sum_comm (f := fun k l : Fin N => if l = k then (0 : ℝ) else X l k ^ 2 / 4)]
  have e3 : ∀ k l : Fin N, (if k = l then (0 : ℝ) else X k l ^ 2 / 4) = (if k = l then (0 : ℝ) else X k l ^ 2) / 4 := by
    intro k l; split <;> simp
  have e4 : ∀ i : Fin N, (if (i : ℕ) = 0 then (0 : ℝ) else X i i * X i i / 2) = (if (i : ℕ) = 0 then (0 : ℝ) else X i i ^ 2) / 2 := by
    intro i; split
    · simp
    · ring
  simp only [e3, e4, ← Finset.sum_div]
  ring

theorem drawAt_add (x y : DrawIndex N → ℝ) (k l : Fin N) : drawAt (x + y) k l = drawAt x k l + drawAt y k l := by
  unfold drawAt; split <;> simp

theorem drawAt_smul (r : ℝ) (x : DrawIndex N → ℝ) (k l : Fin N) : drawAt (r • x) k l = r * drawAt x k l := by
  unfold drawAt; split <;> simp

theorem diagPart_add (c d : Fin N → ℝ) (k : Fin N) : diagPart (fun i => c i + d i) k = diagPart c k + diagPart d k := by
  unfold diagPart
  rw [← Finset.sum_add_distrib]
  refine Finset.sum_congr rfl fun i _ => ?_
  ring

theorem diagPart_smul (r : ℝ) (c : Fin N → ℝ) (k : Fin N) : diagPart (fun i => r * c i) k = r * diagPart c k := by
  unfold diagPart
  rw [Finset.mul_sum]
  refine Finset.sum_congr rfl fun i _ => ?_
  ring

/-- The momentum is a linear function of the numbers drawn. -/
noncomputable def momentumLin (N : ℕ) : (DrawIndex N → ℝ) →ₗ[ℝ] Mat N where
  toFun := momentumOf
  map_add' x y := by
    ext k l
    rw [Matrix.add_apply]
    by_cases h : k = l
    · subst h
      unfold momentumOf
      simp only [randomMomentum_diag, drawAt_add, diagPart_add]
      simp [Complex.ext_iff]
    · unfold momentumOf randomMomentum
      rcases lt_or_gt_of_ne h with h1 | h1
      · simp only [Matrix.of_apply, h1, if_true, drawAt_add, Complex.ext_iff, Complex.add_re, Complex.add_im]; constructor <;> ring
      · simp only [Matrix.of_apply, not_lt.mpr h1.le, h1, if_true, if_false, drawAt_add, Complex.ext_iff, Complex.add_re, Complex.add_im]
        constructor <;> ring
  map_smul' r x := by
    ext k l
    rw [Matrix.smul_apply]
    by_cases h : k = l
    · subst h
      unfold momentumOf
      simp only [randomMomentum_diag, drawAt_smul, diagPart_smul]
      simp [Complex.ext_iff]
    · unfold momentumOf randomMomentum
      rcases lt_or_gt_of_ne h with h1 | h1
      · simp only [Matrix.of_apply, h1, if_true, drawAt_smul, Complex.ext_iff, RingHom.id_apply, Complex.smul_re, Complex.smul_im, smul_eq_mul]
        constructor <;> ring
      · simp only [Matrix.of_apply, not_lt.mpr h1.le, h1, if_true, if_false, drawAt_smul, Complex.ext_iff, RingHom.id_apply, Complex.smul_re,
          Complex.smul_im, smul_eq_mul]
        constructor <;> ring

theorem momentumOf_injective : Function.Injective (momentumOf (N := N)) := by
  intro x y h
  have h0 : momentumLin N (x - y) = 0 := by rw [map_sub]; exact sub_eq_zero.mpr h
  have e := C45_energy (x - y)
  change -(trace (momentumLin N (x - y) * momentumLin N (x - y))).re = _ at e
  rw [h0] at e
  simp only [Matrix.mul_zero, Matrix.trace_zero, Complex.zero_re, neg_zero] at e
  have hs : ∑ p, (x - y) p ^ 2 = 0 := by linarith
  funext p
  have := (Finset.sum_eq_zero_iff_of_nonneg (fun p _ => sq_nonneg ((x - y) p))).mp hs p (Finset.mem_univ p)
  exact sub_eq_zero.mp (pow_eq_zero_iff (two_ne_zero) |>.mp this)

/-- Telescoping sum behind the completeness of the diagonal generators. -/
theorem diag_telescope (s : ℕ → ℝ) (hs : s 0 = 0) (k : ℕ) : ∀ n, k < n →
    ∑ i ∈ Finset.range n, (s i / i - s (i + 1) / ((i : ℝ) + 1)) * (if i = 0 then 0 else if k < i then 1 else if k = i then -(i : ℝ) else 0) =
      s (k + 1) - s k - s n / n := by
  intro n hn
  induction n, hn using Nat.le_induction with
  | base =>
    rw [Finset.sum_range_succ, Finset.sum_eq_zero]
    · by_cases hk : k = 0
      · subst hk; simp [hs]
      · have : (k : ℝ) ≠ 0 := Nat.cast_ne_zero.mpr hk
        have h2 : (k : ℝ) + 1 ≠ 0 := by positivity
        simp only [hk, lt_self_iff_false, if_false, if_true]
        push_cast
        field_simp
        ring
    · intro i hi
      have : i < k := Finset.mem_range.mp hi
      simp [not_lt.mpr this.le, this.ne']
  | succ n hn ih =>
    rw [Finset.sum_range_succ, ih]
    have h1 : k < n := hn
    have h2 : n ≠ 0 := by omega
    simp only [h1, h2, if_true, if_false]
    push_cast
    ring

theorem diagPart_complete (a : Fin N → ℝ) (ha : ∑ k, a k = 0) : ∃ c : Fin N → ℝ, ∀ k, diagPart c k = a k := by
  let a' : ℕ → ℝ := fun m => if h : m < N then a ⟨m, h⟩ else 0
  let s : ℕ → ℝ := fun m => ∑ j ∈ Finset.range m, a' j
  have hN : s N = 0 := by
    have : ∑ k : Fin N, a' k = s N := Fin.sum_univ_eq_sum_range a' N
    rw [← this, ← ha]
    refine Finset.sum_congr rfl fun k _ => ?_
    simp [a']
  refine ⟨fun i => 2 * (s i / i - s (i + 1) / ((i : ℝ) + 1)) / diagNorm i, fun k => ?_⟩
  have e : ∀ i : Fin N, 2 * (s i / i - s (i + 1) / ((i : ℝ) + 1)) / diagNorm i / 2 * diagNorm i * diagGen i k =
      (fun m : ℕ => (s m / m - s (m + 1) / ((m : ℝ) + 1)) * (if m = 0 then 0 else if (k : ℕ) < m then 1 else if (k : ℕ) = m then -(m : ℝ) else 0)) i := by
    intro i
    by_cases hi : (i : ℕ) = 0
    · simp [diagGen, hi]
    · have hd : diagNorm i ≠ 0 := by
        intro h0
        have := diagNorm_sq i hi
        rw [h0] at this; norm_num at this
      have hg : diagGen i k = if (i : ℕ) = 0 then 0 else if (k : ℕ) < i then 1 else if (k : ℕ) = i then -(i : ℝ) else 0 := by
        unfold diagGen
        simp only [Fin.lt_def, Fin.ext_iff]
      rw [hg]
      field_simp
  unfold diagPart
  rw [Finset.sum_congr rfl fun i _ => e i]
  refine (Fin.sum_univ_eq_sum_range (fun m : ℕ => (s m / m - s (m + 1) / ((m : ℝ) + 1)) *
    (if m = 0 then 0 else if (k : ℕ) < m then 1 else if (k : ℕ) = m then -(m : ℝ) else 0)) N).trans ?_
  rw [diag_telescope s (by simp [s]) k N k.2, hN]
  simp only [s, Finset.sum_range_succ]
  simp [a']

/-- **C45, all momenta.** Every element of the Lie algebra is the momentum of exactly one set of numbers drawn. -/
theorem C45_bijective (A : Mat N) (hA : IsLie A) : ∃! x : DrawIndex N → ℝ, momentumOf x = A := by
  have htr : ∑ k, (A k k).im = 0 := by
    have := congrArg Complex.im hA.2
    simpa [Matrix.trace, Complex.im_sum] using this
  obtain ⟨c, hc⟩ := diagPart_complete (fun k => (A k k).im) htr
  have hanti : ∀ k l, starRingEnd ℂ (A l k) = -A k l := fun k l => congrFun (congrFun hA.1 k) l
  refine existsUnique_of_exists_of_unique ⟨fun p => if p.1.1 < p.1.2 then 2 * (A p.1.1 p.1.2).re else if p.1.2 < p.1.1 then 2 * (A p.1.2 p.1.1).im else c p.1.1, ?_⟩
    fun x y hx hy => momentumOf_injective (hx.trans hy.symm)
  · beta_reduce
    ext k l
    rcases lt_trichotomy k l with h | h | h
    · have h1 : ¬ (k = l ∧ (k : ℕ) = 0) := fun hh => h.ne hh.1
      have h2 : ¬ (l = k ∧ (l : ℕ) = 0) := fun hh => h.ne' hh.1
      simp [momentumOf, randomMomentum, h, drawAt, h.ne, h.ne', not_lt.mpr h.le, Complex.ext_iff]
    · subst h
      unfold momentumOf
      rw [randomMomentum_diag]
      have hz := hanti k k
      have hre : (A k k).re = 0 := by
        have := congrArg Complex.re hz
        simp at this; linarith
      rw [Complex.ext_iff]
      refine ⟨hre.symm, ?_⟩
      rw [← hc k]
      unfold diagPart
      change (∑ i : Fin N, _ : ℝ) = ∑ i : Fin N, _
      refine Finset.sum_congr rfl fun i _ => ?_
      by_cases hi : (i : ℕ) = 0
      · simp [diagGen, hi]
      · have h1 : ¬ (i = i ∧ (i : ℕ) = 0) := fun hh => hi hh.2
        simp [drawAt, hi]
    · have h1 : ¬ (k = l ∧ (k : ℕ) = 0) := fun hh => h.ne' hh.1
      have h2 : ¬ (l = k ∧ (l : ℕ) = 0) := fun hh => h.ne hh.1
      have hz := hanti k l
      have z1 := congrArg Complex.re hz
      have z2 := congrArg Complex.im hz
      simp only [Complex.conj_re, Complex.conj_im, Complex.neg_re, Complex.neg_im] at z1 z2
      simp [momentumOf, randomMomentum, h, drawAt, h.ne, h.ne', not_lt.mpr h.le, Complex.ext_iff]
      constructor <;> linarith

/-- Three colours have eight independent draws, and a unit draw at the second diagonal position has kinetic energy one half. -/
example : Fintype.card (DrawIndex 3) = 8 := by decide

example : -(trace (momentumOf (N := 2) (fun p => if p.1.1 = p.1.2 then 1 else 0) * momentumOf (fun p => if p.1.1 = p.1.2 then 1 else 0))).re = 1 / 2 := by
  rw [C45_energy, sum_draws fun k l => (if k = l then (1 : ℝ) else 0) ^ 2]
  simp [Fin.sum_univ_two]

/-- A non-zero element of the Lie algebra of two colours. -/
example : ∃! x : DrawIndex 2 → ℝ, momentumOf x = !![Complex.I, 0; 0, -Complex.I] := by
  apply C45_bijective
  constructor
  · ext i j; fin_cases i <;> fin_cases j <;> simp [Matrix.conjTranspose_apply]
  · simp [Matrix.trace_fin_two]

end Leonard
