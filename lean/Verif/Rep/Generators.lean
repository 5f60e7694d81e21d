import Verif.Rep.Model
import Mathlib.Order.Interval.Finset.Fin
import Mathlib.Tactic.FieldSimp
import Mathlib.Tactic.LinearCombination
import Mathlib.Algebra.BigOperators.Fin

/-!
# Lemmas about the generators
-/

set_option autoImplicit false

namespace Leonard

open Matrix

variable {N : ℕ}

/-- A label that occurs in the loops. -/
def GenLabel.Valid : GenLabel N → Prop
  | .sym i j => j < i
  | .asym i j => j < i
  | .diag i => 1 ≤ i.val

theorem mem_lowerPairs {p : Fin N × Fin N} : p ∈ lowerPairs N ↔ p.2 < p.1 := by
  obtain ⟨i, j⟩ := p
  simp [lowerPairs]

theorem nodup_lowerPairs : (lowerPairs N).Nodup := by
  unfold lowerPairs
  rw [List.nodup_flatMap]
  refine ⟨fun i _ => ((List.nodup_finRange N).filter _).map fun a b h => (Prod.mk.inj h).2, ?_⟩
  refine (List.nodup_finRange N).imp fun {a b} hab x hx hy => ?_
  simp only [List.mem_map, List.mem_filter] at hx hy
  obtain ⟨j, _, rfl⟩ := hx
  obtain ⟨k, _, hk⟩ := hy
  exact hab (Prod.mk.inj hk).1.symm

theorem mem_genLabels {l : GenLabel N} : l ∈ genLabels N ↔ l.Valid := by
  cases l <;> simp [genLabels, GenLabel.Valid, mem_lowerPairs]

theorem nodup_genLabels : (genLabels N).Nodup := by
  unfold genLabels
  rw [List.nodup_append, List.nodup_append]
  refine ⟨⟨nodup_lowerPairs.map fun a b h => by obtain ⟨a1, a2⟩ := a; obtain ⟨b1, b2⟩ := b; simpa using h,
    nodup_lowerPairs.map fun a b h => by obtain ⟨a1, a2⟩ := a; obtain ⟨b1, b2⟩ := b; simpa using h, ?_⟩,
    ((List.nodup_finRange N).filter _).map fun a b h => by simpa using h, ?_⟩
  · intro a ha b hb
    simp only [List.mem_map] at ha hb
    obtain ⟨p, _, rfl⟩ := ha
    obtain ⟨q, _, rfl⟩ := hb
    simp
  · intro a ha b hb
    simp only [List.mem_append, List.mem_map, List.mem_filter] at ha hb
    obtain ⟨i, _, rfl⟩ := hb
    rcases ha with ⟨p, _, rfl⟩ | ⟨p, _, rfl⟩ <;> simp

theorem length_lowerPairs : 2 * (lowerPairs N).length + N = N * N := by
  have h1 : (lowerPairs N).length = ∑ i : Fin N, i.val := by
    unfold lowerPairs
    rw [List.length_flatMap]
    have : (List.map (fun i => (List.map (fun j => (i, j)) (List.filter (fun j => decide (j < i)) (List.finRange N))).length)
        (List.finRange N)) = List.map (fun i : Fin N => i.val) (List.finRange N) := by
      refine List.map_congr_left fun i _ => ?_
      rw [List.length_map]
      have h2 : (List.filter (fun j => decide (j < i)) (List.finRange N)).toFinset = Finset.Iio i := by
        ext j; simp
      rw [← List.toFinset_card_of_nodup ((List.nodup_finRange N).filter _), h2, Fin.card_Iio]
    rw [this]
    exact (List.sum_ofFn (f := fun i : Fin N => i.val)) ▸ by rw [List.ofFn_eq_map]
  rw [h1, Fin.sum_univ_eq_sum_range (fun i => i), mul_comm 2, Finset.sum_range_id_mul_two]
  cases N with
  | zero => rfl
  | succ n => simp; ring

theorem length_genLabels (hN : 1 ≤ N) : (genLabels N).length = N ^ 2 - 1 := by
  have h1 := length_lowerPairs (N := N)
  have h2 : ((List.finRange N).filter fun i => 1 ≤ i.val).length = N - 1 := by
    obtain ⟨n, rfl⟩ : ∃ n, N = n + 1 := ⟨N - 1, by omega⟩
    rw [List.finRange_succ, List.filter_cons_of_neg (by simp), List.filter_eq_self.2 (by
      simp
      intro a ha
      have : a.val ≠ 0 := fun h => ha (Fin.ext h)
      omega)]
    simp
  unfold genLabels
  simp only [List.length_append, List.length_map]
  rw [h2, pow_two]
  omega

/-! ### Traces -/

theorem rawGenerator_sym (i j : Fin N) : rawGenerator (.sym i j) = Matrix.single i j 1 + Matrix.single j i 1 := by
  ext m n
  simp only [rawGenerator, Matrix.add_apply, Matrix.single_apply]
  congr 2
  rw [and_comm]

theorem rawGenerator_asym (i j : Fin N) :
    rawGenerator (.asym i j) = Matrix.single i j Complex.I - Matrix.single j i Complex.I := by
  ext m n
  simp only [rawGenerator, Matrix.sub_apply, Matrix.single_apply]
  congr 2
  rw [and_comm]

/-- The diagonal of a diagonal generator. -/
noncomputable def diagWeight (i m : Fin N) : ℝ :=
  (if m ≤ i then diagScale i else 0) - (if m = i then (i.val + 1 : ℝ) * diagScale i else 0)

theorem rawGenerator_diag (i : Fin N) : rawGenerator (.diag i) = Matrix.diagonal fun m => (diagWeight i m : ℂ) := by
  ext m n
  by_cases h : m = n
  · subst h
    simp only [rawGenerator, diagWeight, Matrix.diagonal_apply_eq, true_and]
    push_cast
    split <;> split <;> simp
  · simp [rawGenerator, h]

theorem trace_sym_mul (i j : Fin N) (M : Mat N) : trace (rawGenerator (.sym i j) * M) = M j i + M i j := by
  rw [rawGenerator_sym, Matrix.add_mul, trace_add, Matrix.trace_single_mul, Matrix.trace_single_mul]; simp

theorem trace_asym_mul (i j : Fin N) (M : Mat N) :
    trace (rawGenerator (.asym i j) * M) = Complex.I * (M j i - M i j) := by
  rw [rawGenerator_asym, Matrix.sub_mul, trace_sub, Matrix.trace_single_mul, Matrix.trace_single_mul]; simp; ring

theorem trace_diag_mul (i : Fin N) (M : Mat N) :
    trace (rawGenerator (.diag i) * M) = ∑ m, (diagWeight i m : ℂ) * M m m := by
  rw [rawGenerator_diag, trace]
  simp [Matrix.diagonal_mul]

theorem sum_le_ite (i : Fin N) (c : ℝ) : ∑ m : Fin N, (if m ≤ i then c else 0) = (i.val + 1) * c := by
  rw [← Finset.sum_filter, Finset.sum_const, nsmul_eq_mul]
  congr 1
  have : (Finset.univ.filter fun m => m ≤ i) = Finset.Iic i := by ext; simp
  rw [this, Fin.card_Iic]; push_cast; rfl

theorem sum_diagWeight (i : Fin N) : ∑ m, diagWeight i m = 0 := by
  unfold diagWeight
  rw [Finset.sum_sub_distrib, sum_le_ite, Finset.sum_ite_eq' Finset.univ i]
  simp

theorem diagScale_sq {i : ℕ} (hi : 1 ≤ i) : diagScale i * diagScale i = 2 / ((i + 1) * i) := by
  unfold diagScale
  rw [Real.mul_self_sqrt (by positivity)]
  push_cast; rfl

theorem sum_diagWeight_self (i : Fin N) (hi : 1 ≤ i.val) : ∑ m, diagWeight i m * diagWeight i m = 2 := by
  have h : ∀ m, diagWeight i m * diagWeight i m
      = (if m ≤ i then diagScale i * diagScale i else 0)
        + (if m = i then (-2 * (i.val + 1) + (i.val + 1) ^ 2) * (diagScale i * diagScale i) else 0) := by
    intro m
    unfold diagWeight
    by_cases h1 : m = i
    · subst h1; simp; ring
    · simp only [if_neg h1, sub_zero, add_zero]
      split <;> simp
  simp only [h]
  rw [Finset.sum_add_distrib, sum_le_ite, Finset.sum_ite_eq' Finset.univ i, diagScale_sq hi]
  have : (i.val : ℝ) ≠ 0 := by positivity
  simp
  field_simp
  ring

theorem sum_diagWeight_lt {i k : Fin N} (h : i < k) : ∑ m, diagWeight i m * diagWeight k m = 0 := by
  have hm : ∀ m, diagWeight i m * diagWeight k m = diagWeight i m * diagScale k := by
    intro m
    by_cases h1 : m ≤ i
    · have h2 : m ≤ k := h1.trans h.le
      have h3 : m ≠ k := fun e => absurd (e ▸ h1 : k ≤ i) (not_le.2 h)
      simp only [diagWeight, if_pos h2, if_neg h3, sub_zero]
    · have h2 : m ≠ i := fun e => h1 e.le
      simp only [diagWeight, if_neg h1, if_neg h2, sub_zero, zero_mul]
  simp only [hm]
  rw [← Finset.sum_mul, sum_diagWeight, zero_mul]

theorem sum_diagWeight_mul (i k : Fin N) (hi : 1 ≤ i.val) :
    ∑ m, diagWeight i m * diagWeight k m = if i = k then 2 else 0 := by
  rcases lt_trichotomy i k with h | h | h
  · rw [sum_diagWeight_lt h, if_neg h.ne]
  · subst h; rw [sum_diagWeight_self i hi, if_pos rfl]
  · rw [if_neg h.ne']
    simp only [mul_comm (diagWeight i _)]
    exact sum_diagWeight_lt h

theorem trace_rawGenerator_mul {a b : GenLabel N} (ha : a.Valid) (hb : b.Valid) :
    trace (rawGenerator a * rawGenerator b) = if a = b then 2 else 0 := by
  cases a with
  | sym i j =>
    rw [trace_sym_mul]
    have ha : j < i := ha
    cases b with
    | sym k l =>
      have hb : l < k := hb
      simp only [rawGenerator, GenLabel.sym.injEq]
      by_cases h1 : k = i ∧ l = j
      · obtain ⟨rfl, rfl⟩ := h1
        simp [ha.ne, ha.ne']; norm_num
      · have h0 : ¬ (i = k ∧ j = l) := fun h => h1 ⟨h.1.symm, h.2.symm⟩
        have h2 : ¬ (k = j ∧ l = i) := fun h => absurd hb (by rw [h.1, h.2]; exact not_lt.2 ha.le)
        simp only [if_neg h0, if_neg h1, if_neg h2, add_zero]
    | asym k l => simp only [rawGenerator, reduceCtorEq, if_false]; ring
    | diag k => simp [rawGenerator_diag, ha.ne, ha.ne']
  | asym i j =>
    rw [trace_asym_mul]
    have ha : j < i := ha
    cases b with
    | sym k l =>
      simp only [rawGenerator, reduceCtorEq, if_false]; ring
    | asym k l =>
      have hb : l < k := hb
      simp only [rawGenerator, GenLabel.asym.injEq]
      by_cases h1 : k = i ∧ l = j
      · obtain ⟨rfl, rfl⟩ := h1
        simp [ha.ne, ha.ne']
        linear_combination (-2) * Complex.I_mul_I
      · have h0 : ¬ (i = k ∧ j = l) := fun h => h1 ⟨h.1.symm, h.2.symm⟩
        have h2 : ¬ (k = j ∧ l = i) := fun h => absurd hb (by rw [h.1, h.2]; exact not_lt.2 ha.le)
        simp only [if_neg h0, if_neg h1, if_neg h2, sub_zero, mul_zero]
    | diag k => simp [rawGenerator_diag, ha.ne, ha.ne']
  | diag i =>
    rw [trace_diag_mul]
    cases b with
    | sym k l =>
      have hb : l < k := hb
      simp only [rawGenerator, reduceCtorEq, if_false]
      refine Finset.sum_eq_zero fun m _ => ?_
      have h2 : ¬ (k = m ∧ l = m) := fun h => hb.ne (h.2.trans h.1.symm)
      simp [h2]
    | asym k l => simp only [rawGenerator, reduceCtorEq, if_false]; simp
    | diag k =>
      simp only [rawGenerator_diag, Matrix.diagonal_apply_eq, GenLabel.diag.injEq]
      have := sum_diagWeight_mul i k ha
      rw [← Finset.sum_congr rfl (fun m _ => Complex.ofReal_mul _ _), ← Complex.ofReal_sum, this]
      split <;> simp

theorem rawGenerator_hermitian (a : GenLabel N) : (rawGenerator a)ᴴ = rawGenerator a := by
  cases a with
  | sym i j => rw [rawGenerator_sym, conjTranspose_add, conjTranspose_single, conjTranspose_single, star_one, add_comm]
  | asym i j =>
    rw [rawGenerator_asym, conjTranspose_sub, conjTranspose_single, conjTranspose_single]
    ext m n
    simp [Matrix.single_apply]
    split <;> split <;> ring
  | diag i =>
    rw [rawGenerator_diag, diagonal_conjTranspose]
    congr 1; funext m; simp

theorem trace_rawGenerator {a : GenLabel N} (ha : a.Valid) : trace (rawGenerator a) = 0 := by
  cases a with
  | sym i j =>
    have ha : j < i := ha
    have := trace_sym_mul i j (1 : Mat N)
    rw [Matrix.mul_one] at this; rw [this]; simp [ha.ne, ha.ne']
  | asym i j =>
    have := trace_asym_mul i j (1 : Mat N)
    have ha : j < i := ha
    rw [Matrix.mul_one] at this; rw [this]; simp [ha.ne, ha.ne']
  | diag i =>
    have := trace_diag_mul i (1 : Mat N)
    rw [Matrix.mul_one] at this; rw [this]
    simp only [Matrix.one_apply_eq, mul_one]
    rw [← Complex.ofReal_sum, sum_diagWeight]; rfl

/-- A traceless matrix orthogonal to all generators is zero. -/
theorem eq_zero_of_orthogonal (H : Mat N) (ht : trace H = 0)
    (h : ∀ a : GenLabel N, a.Valid → trace (rawGenerator a * H) = 0) : H = 0 := by
  have off : ∀ i j, j < i → H i j = 0 ∧ H j i = 0 := by
    intro i j hij
    have h1 := h (.sym i j) hij
    have h2 := h (.asym i j) hij
    rw [trace_sym_mul] at h1
    rw [trace_asym_mul] at h2
    have h3 : H j i - H i j = 0 := (mul_eq_zero.1 h2).resolve_left Complex.I_ne_zero
    constructor
    · linear_combination h1 / 2 - h3 / 2
    · linear_combination h1 / 2 + h3 / 2
  have diag : ∀ n (hn : n < N), ∀ m : Fin N, m.val ≤ n → H m m = H ⟨0, by omega⟩ ⟨0, by omega⟩ := by
    intro n
    induction n with
    | zero => intro hn m hm; congr 1 <;> (ext; simpa using hm)
    | succ n ih =>
      intro hn m hm
      rcases Nat.lt_or_ge m.val (n + 1) with hlt | hge
      · exact ih (by omega) m (by omega)
      · have hmn : m = ⟨n + 1, hn⟩ := Fin.ext (by simp; omega)
        have h1 := h (.diag m) (by show 1 ≤ m.val; omega)
        rw [trace_diag_mul] at h1
        set x := H ⟨0, by omega⟩ ⟨0, by omega⟩ with hx
        have hterm : ∀ k : Fin N, (diagWeight m k : ℂ) * H k k
            = (diagWeight m k : ℂ) * x + (if k = m then (diagWeight m m : ℂ) * (H m m - x) else 0) := by
          intro k
          by_cases hk : k = m
          · subst hk; simp; ring
          · rw [if_neg hk, add_zero]
            by_cases hk2 : k ≤ m
            · rw [ih (by omega) k (by
                have : k.val ≤ m.val := hk2
                have : k.val ≠ m.val := fun e => hk (Fin.ext e)
                rw [hmn] at *; simp at *; omega)]
            · simp only [diagWeight, if_neg hk2, if_neg hk]; simp
        simp only [hterm] at h1
        rw [Finset.sum_add_distrib, ← Finset.sum_mul, ← Complex.ofReal_sum, sum_diagWeight,
          Finset.sum_ite_eq' Finset.univ m] at h1
        simp only [Complex.ofReal_zero, zero_mul, zero_add, Finset.mem_univ, if_true] at h1
        have hw : diagWeight m m ≠ 0 := by
          have hd : diagScale m ≠ 0 := by
            intro h0
            have := diagScale_sq (i := m.val) (by omega)
            rw [h0] at this
            have hp : (0 : ℝ) < 2 / ((m.val + 1) * m.val) := by
              have : (0 : ℝ) < m.val := by exact_mod_cast (by omega : 0 < m.val)
              positivity
            rw [← this] at hp; simp at hp
          have hm0 : (m.val : ℝ) ≠ 0 := by exact_mod_cast (by omega : m.val ≠ 0)
          simp only [diagWeight, le_refl, if_true]
          have : diagScale m - (m.val + 1) * diagScale m = -(m.val * diagScale m) := by ring
          rw [this]
          exact neg_ne_zero.2 (mul_ne_zero hm0 hd)
        have := (mul_eq_zero.1 h1).resolve_left (by exact_mod_cast hw)
        exact sub_eq_zero.1 this
  ext i j
  rcases lt_trichotomy i j with hij | hij | hij
  · exact (off j i hij).2
  · subst hij
    have hpos : 0 < N := i.pos
    have hall : ∀ m : Fin N, H m m = H ⟨0, hpos⟩ ⟨0, hpos⟩ := fun m => diag m.val m.isLt m le_rfl
    rw [trace] at ht
    simp only [diag_apply, hall] at ht
    rw [Finset.sum_const, Finset.card_univ, Fintype.card_fin, nsmul_eq_mul] at ht
    rw [hall i]
    exact (mul_eq_zero.1 ht).resolve_left (by exact_mod_cast hpos.ne')
  · exact (off i j hij).1

end Leonard
