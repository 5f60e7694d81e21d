import Mathlib.Probability.ProductMeasure
import Mathlib.Analysis.SpecificLimits.Basic

/-!
Rejection: the first element of a sequence of independent samples that lies in a set.
-/

set_option autoImplicit false

namespace Leonard

open MeasureTheory Set
open scoped ENNReal Classical

variable {Q : Type}

/-- The first element of the sequence in the set. -/
noncomputable def firstHit (K : Set Q) (ω : ℕ → Q) : Q := if h : ∃ k, ω k ∈ K then ω (Nat.find h) else ω 0

/-- Element `k` is the first one in the set. -/
def FirstAt (K : Set Q) (ω : ℕ → Q) (k : ℕ) : Prop := (∀ i < k, ω i ∉ K) ∧ ω k ∈ K

theorem FirstAt.unique {K : Set Q} {ω : ℕ → Q} {j k : ℕ} (hj : FirstAt K ω j) (hk : FirstAt K ω k) : j = k := by
  rcases lt_trichotomy j k with h | h | h
  · exact absurd hj.2 (hk.1 j h)
  · exact h
  · exact absurd hk.2 (hj.1 k h)

theorem FirstAt.hit {K : Set Q} {ω : ℕ → Q} {k : ℕ} (hk : FirstAt K ω k) : firstHit K ω = ω k := by
  have h : ∃ k, ω k ∈ K := ⟨k, hk.2⟩
  have hf : FirstAt K ω (Nat.find h) := ⟨fun i hi => Nat.find_min h hi, Nat.find_spec h⟩
  rw [firstHit, dif_pos h, hf.unique hk]

theorem exists_firstAt {K : Set Q} {ω : ℕ → Q} (h : ∃ k, ω k ∈ K) : ∃ k, FirstAt K ω k :=
  ⟨Nat.find h, fun i hi => Nat.find_min h hi, Nat.find_spec h⟩

variable [MeasurableSpace Q]

theorem measurableSet_firstAt {K : Set Q} (hK : MeasurableSet K) (k : ℕ) : MeasurableSet {ω : ℕ → Q | FirstAt K ω k} := by
  have : {ω : ℕ → Q | FirstAt K ω k} = (⋂ i ∈ Finset.range k, {ω | ω i ∈ Kᶜ}) ∩ {ω | ω k ∈ K} := by
    ext ω
    simp [FirstAt]
  rw [this]
  exact (Finset.measurableSet_biInter _ fun i _ => measurable_pi_apply i hK.compl).inter (measurable_pi_apply k hK)

theorem measurable_firstHit {K : Set Q} (hK : MeasurableSet K) : Measurable (firstHit K) := by
  intro A hA
  have : firstHit K ⁻¹' A = (⋃ k, {ω | FirstAt K ω k} ∩ {ω | ω k ∈ A}) ∪ ((⋂ k, {ω | ω k ∈ Kᶜ}) ∩ {ω | ω 0 ∈ A}) := by
    ext ω
    simp only [mem_preimage, mem_union, mem_iUnion, mem_inter_iff, mem_setOf_eq, mem_iInter, mem_compl_iff]
    by_cases h : ∃ k, ω k ∈ K
    · obtain ⟨k, hk⟩ := exists_firstAt h
      rw [hk.hit]
      constructor
      · intro hA; exact Or.inl ⟨k, hk, hA⟩
      · rintro (⟨j, hj, hjA⟩ | ⟨hn, -⟩)
        · rwa [hk.unique hj]
        · exact absurd h (by push Not; exact hn)
    · rw [firstHit, dif_neg h]
      push Not at h
      constructor
      · intro hA; exact Or.inr ⟨h, hA⟩
      · rintro (⟨j, hj, -⟩ | ⟨-, hA⟩)
        · exact absurd hj.2 (h j)
        · exact hA
  rw [this]
  refine (MeasurableSet.iUnion fun k => (measurableSet_firstAt hK k).inter (measurable_pi_apply k hA)).union ?_
  exact (MeasurableSet.iInter fun k => measurable_pi_apply k hK.compl).inter (measurable_pi_apply 0 hA)

/-- The probability that element `k` is the first one in the set and lies in `A`. -/
theorem measure_firstAt (m : Measure Q) [IsProbabilityMeasure m] {K A : Set Q} (hK : MeasurableSet K) (hA : MeasurableSet A) (k : ℕ) :
    Measure.infinitePi (fun _ : ℕ => m) ({ω | FirstAt K ω k} ∩ {ω | ω k ∈ A}) = m Kᶜ ^ k * m (K ∩ A) := by
  have e : {ω | FirstAt K ω k} ∩ {ω | ω k ∈ A} = Set.pi (Finset.range (k + 1)) fun i => if i = k then K ∩ A else Kᶜ := by
    ext ω
    simp only [mem_inter_iff, mem_setOf_eq, FirstAt, Set.mem_pi, Finset.coe_range, mem_Iio]
    constructor
    · rintro ⟨⟨h1, h2⟩, h3⟩ i hi
      by_cases hik : i = k
      · subst hik; rw [if_pos rfl]; exact ⟨h2, h3⟩
      · rw [if_neg hik]; exact h1 i (by omega)
    · intro h
      have hk := h k (by omega)
      rw [if_pos rfl] at hk
      refine ⟨⟨fun i hi => ?_, hk.1⟩, hk.2⟩
      have := h i (by omega)
      rwa [if_neg (by omega)] at this
  rw [e, Measure.infinitePi_pi]
  · rw [Finset.prod_range_succ, if_pos rfl]
    congr 1
    rw [Finset.prod_congr rfl (g := fun _ => m Kᶜ), Finset.prod_const, Finset.card_range]
    intro i hi
    rw [if_neg (Finset.mem_range.1 hi).ne]
  · intro i _
    split
    · exact hK.inter hA
    · exact hK.compl

/-- Rejection yields the distribution under the condition, and ends with probability one. -/
theorem rejection (m : Measure Q) [IsProbabilityMeasure m] {K : Set Q} (hK : MeasurableSet K) (h0 : m K ≠ 0) :
    (∀ᵐ ω ∂(Measure.infinitePi fun _ : ℕ => m), ∃ k, FirstAt K ω k)
    ∧ (Measure.infinitePi fun _ : ℕ => m).map (firstHit K) = (m K)⁻¹ • m.restrict K := by
  have key : ∀ A, MeasurableSet A → Measure.infinitePi (fun _ : ℕ => m) (⋃ k, {ω | FirstAt K ω k} ∩ {ω | ω k ∈ A}) = (m K)⁻¹ * m (K ∩ A) := by
    intro A hA
    rw [measure_iUnion]
    · simp only [measure_firstAt m hK hA]
      rw [ENNReal.tsum_mul_right, ENNReal.tsum_geometric, prob_compl_eq_one_sub hK, ENNReal.sub_sub_cancel ENNReal.one_ne_top prob_le_one]
    · intro i j hij
      rw [Function.onFun, Set.disjoint_left]
      rintro ω ⟨h1, -⟩ ⟨h2, -⟩
      exact hij (FirstAt.unique h1 h2)
    · exact fun k => (measurableSet_firstAt hK k).inter (measurable_pi_apply k hA)
  have hae : ∀ᵐ ω ∂(Measure.infinitePi fun _ : ℕ => m), ∃ k, FirstAt K ω k := by
    have h1 := key univ MeasurableSet.univ
    rw [inter_univ, ENNReal.inv_mul_cancel h0 (measure_ne_top m K)] at h1
    have hm : MeasurableSet (⋃ k, {ω : ℕ → Q | FirstAt K ω k} ∩ {ω | ω k ∈ (univ : Set Q)}) :=
      MeasurableSet.iUnion fun k => (measurableSet_firstAt hK k).inter (measurable_pi_apply k MeasurableSet.univ)
    have h2 := (mem_ae_iff_prob_eq_one hm).2 h1
    filter_upwards [h2] with ω hω
    simp only [mem_iUnion, mem_inter_iff, mem_setOf_eq, mem_univ, and_true] at hω
    exact hω
  refine ⟨hae, ?_⟩
  ext A hA
  rw [Measure.map_apply (measurable_firstHit hK) hA, Measure.smul_apply, Measure.restrict_apply hA, smul_eq_mul, inter_comm, ← key A hA]
  refine measure_congr ?_
  filter_upwards [hae] with ω hω
  obtain ⟨k, hk⟩ := hω
  refine propext ?_
  change firstHit K ω ∈ A ↔ ω ∈ ⋃ k, {ω | FirstAt K ω k} ∩ {ω | ω k ∈ A}
  rw [hk.hit]
  simp only [mem_iUnion, mem_inter_iff, mem_setOf_eq]
  constructor
  · exact fun h => ⟨k, hk, h⟩
  · rintro ⟨j, hj, h⟩; rwa [hk.unique hj]

end Leonard
