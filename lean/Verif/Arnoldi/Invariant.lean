import Verif.Arnoldi.QR
import Verif.Overlap.Sign
import Mathlib.Algebra.BigOperators.Fin

/-!
# The invariant of the Arnoldi process
-/

set_option autoImplicit false

namespace Leonard

open Matrix

variable {S : Type} [Fintype S] {M : ℕ}

theorem latticeDot_sum {ι : Type} (s : Finset ι) (u : SField S M) (g : ι → SField S M) : latticeDot u (∑ i ∈ s, g i) = ∑ i ∈ s, latticeDot u (g i) := by
  classical
  induction s using Finset.induction_on with
  | empty => rw [Finset.sum_empty, Finset.sum_empty, latticeDot_zero]
  | insert a s ha ih => rw [Finset.sum_insert ha, Finset.sum_insert ha, latticeDot_add, ih]

theorem latticeDot_sub' (u v w : SField S M) : latticeDot u (v - w) = latticeDot u v - latticeDot u w := by
  have h : v - w = v + (-1 : ℂ) • w := by module
  rw [h, latticeDot_add, latticeDot_smul]
  ring

theorem latticeDot_smul_left (c : ℂ) (u v : SField S M) : latticeDot (c • u) v = starRingEnd ℂ c * latticeDot u v := by
  rw [← latticeDot_conj, latticeDot_smul, map_mul, latticeDot_conj]

theorem latticeDot_sum_left {ι : Type} (s : Finset ι) (u : SField S M) (g : ι → SField S M) : latticeDot (∑ i ∈ s, g i) u = ∑ i ∈ s, latticeDot (g i) u := by
  rw [← latticeDot_conj, latticeDot_sum, map_sum]
  exact Finset.sum_congr rfl fun i _ => latticeDot_conj _ _

theorem latticeDot_self (v : SField S M) : latticeDot v v = (latticeNorm2 v : ℂ) := by
  refine Complex.ext ?_ ?_
  · rw [Complex.ofReal_re]
    simp only [latticeDot, latticeNorm2, Complex.re_sum]
  · rw [Complex.ofReal_im]
    exact Complex.conj_eq_iff_im.1 (latticeDot_conj v v)

/-- The relations of an Arnoldi process with last vector `k` in a matrix of `steps` rows. -/
structure Arnoldi (A : SField S M →ₗ[ℂ] SField S M) (steps k : ℕ) (s : ArnoldiState S M) : Prop where
  lt : k < steps
  orth : ∀ i c, i ≤ k → c ≤ k → latticeDot (s.V i) (s.V c) = if i = c then 1 else 0
  rel : ∀ c, c ≤ k → A (s.V c) = (∑ i : Fin steps, s.H i c • s.V i) + if c = k then s.f else 0
  perp : ∀ i, i ≤ k → latticeDot (s.V i) s.f = 0
  hess : ∀ i c, c + 1 < i → s.H i c = 0
  real : ∀ c, (s.H (c + 1) c).im = 0
  zero : ∀ i c, (k < i ∨ k < c) → s.H i c = 0

theorem setEntry_self (H : ℕ → ℕ → ℂ) (i j : ℕ) (z : ℂ) : setEntry H i j z i j = z := if_pos ⟨rfl, rfl⟩

theorem setEntry_ne (H : ℕ → ℕ → ℂ) {i j a b : ℕ} (z : ℂ) (h : ¬(a = i ∧ b = j)) : setEntry H i j z a b = H a b := if_neg h

/-! ## Gram-Schmidt -/

theorem gramFirst_eq (V : ℕ → SField S M) (w : SField S M) (c : ℕ) : ∀ (is : List ℕ), is.Nodup → ∀ (p : SField S M × (ℕ → ℕ → ℂ)),
    (gramFirst V w c is p).1 = p.1 - (is.map fun i => latticeDot (V i) w • V i).sum ∧
    (∀ a b, (gramFirst V w c is p).2 a b = if b = c ∧ a ∈ is then latticeDot (V a) w else p.2 a b) := by
  intro is
  induction is with
  | nil => intro _ p; exact ⟨by simp [gramFirst], fun a b => by simp [gramFirst]⟩
  | cons i is ih =>
    intro hn p
    obtain ⟨h1, h2⟩ := ih (List.nodup_cons.1 hn).2 (p.1 - latticeDot (V i) w • V i, setEntry p.2 i c (latticeDot (V i) w))
    refine ⟨?_, fun a b => ?_⟩
    · rw [gramFirst, h1, List.map_cons, List.sum_cons, sub_sub]
    · rw [gramFirst, h2 a b]
      change (if b = c ∧ a ∈ is then latticeDot (V a) w else setEntry p.2 i c (latticeDot (V i) w) a b) = _
      by_cases hb : b = c
      · by_cases ha : a ∈ is
        · rw [if_pos ⟨hb, ha⟩, if_pos ⟨hb, List.mem_cons_of_mem _ ha⟩]
        · rw [if_neg (fun h => ha h.2)]
          by_cases hai : a = i
          · subst hai; subst hb
            rw [setEntry_self, if_pos ⟨rfl, List.mem_cons_self⟩]
          · rw [setEntry_ne _ _ (fun h => hai h.1), if_neg]
            rintro ⟨_, h⟩
            rcases List.mem_cons.1 h with h | h
            · exact hai h
            · exact ha h
      · rw [if_neg (fun h => hb h.1), if_neg (fun h => hb h.1), setEntry_ne _ _ (fun h => hb h.2)]

theorem gramSecond_eq (V : ℕ → SField S M) (c : ℕ) : ∀ (is : List ℕ) (p : SField S M × (ℕ → ℕ → ℂ)), (∀ i ∈ is, latticeDot (V i) p.1 = 0) → gramSecond V c is p = p := by
  intro is
  induction is with
  | nil => intro p _; rfl
  | cons i is ih =>
    intro p hp
    have h0 := hp i List.mem_cons_self
    have e1 : p.1 - latticeDot (V i) p.1 • V i = p.1 := by rw [h0, zero_smul, sub_zero]
    have e2 : setEntry p.2 i c (p.2 i c + latticeDot (V i) p.1) = p.2 := by
      funext a b
      by_cases h : a = i ∧ b = c
      · obtain ⟨rfl, rfl⟩ := h
        rw [setEntry_self, h0, add_zero]
      · rw [setEntry_ne _ _ h]
    rw [gramSecond, e1, e2]
    exact ih p fun i hi => hp i (List.mem_cons_of_mem _ hi)

theorem sum_fin_below {X : Type} [AddCommMonoid X] {steps m : ℕ} (hm : m ≤ steps) (g : ℕ → X) (h0 : ∀ i, m ≤ i → g i = 0) :
    ∑ i : Fin steps, g i = ∑ i ∈ Finset.range m, g i := by
  rw [Fin.sum_univ_eq_sum_range]
  symm
  refine Finset.sum_subset (fun i hi => ?_) fun i _ hi => ?_
  · rw [Finset.mem_range] at hi ⊢; omega
  · exact h0 i (by rw [Finset.mem_range] at hi; omega)

theorem latticeNorm2_nonneg' (v : SField S M) : 0 ≤ latticeNorm2 v := by
  rw [← fieldNorm_sq]
  positivity

theorem normalised_dot {v : SField S M} (h : √(latticeNorm2 v) ≠ 0) :
    latticeDot ((√(latticeNorm2 v) : ℂ)⁻¹ • v) ((√(latticeNorm2 v) : ℂ)⁻¹ • v) = 1 := by
  have hc : ((√(latticeNorm2 v) : ℝ) : ℂ) ≠ 0 := by exact_mod_cast h
  rw [latticeDot_smul, latticeDot_smul_left, latticeDot_self, map_inv₀, Complex.conj_ofReal]
  have h2 : (latticeNorm2 v : ℂ) = (√(latticeNorm2 v) : ℂ) * (√(latticeNorm2 v) : ℂ) := by
    rw [← Complex.ofReal_mul, Real.mul_self_sqrt (latticeNorm2_nonneg' v)]
  rw [h2]
  field_simp

/-- The start. -/
theorem startArnoldi_inv (A : SField S M →ₗ[ℂ] SField S M) (steps : ℕ) (hs : 0 < steps) (start : SField S M) (old : ℕ → SField S M) (s : ArnoldiState S M)
    (h : startArnoldi A start old = some s) : Arnoldi A steps 0 s := by
  unfold startArnoldi at h
  simp only at h
  split at h
  · cases h
  rename_i hb
  have h := Option.some.inj h
  generalize hv : (√(latticeNorm2 start) : ℂ)⁻¹ • start = v at h
  have hone : latticeDot v v = 1 := by rw [← hv]; exact normalised_dot hb
  have hV : s.V 0 = v := by rw [← h]; simp only [Function.update_self]
  have hf : s.f = A v - latticeDot v (A v) • v := by rw [← h]; simp only [Function.update_self]
  have hH : s.H = setEntry (fun _ _ => 0) 0 0 (latticeDot v (A v)) := by rw [← h]; simp only [Function.update_self]
  have hz : ∀ i c, (0 < i ∨ 0 < c) → s.H i c = 0 := by
    intro i c hic
    rw [hH, setEntry_ne _ _ (by omega)]
  constructor
  · exact hs
  · intro i c hi hc
    have e1 : i = 0 := by omega
    have e2 : c = 0 := by omega
    subst e1; subst e2
    rw [hV, hone, if_pos rfl]
  · intro c hc
    have e2 : c = 0 := by omega
    subst e2
    rw [if_pos rfl, sum_fin_below (m := 1) hs (fun i => s.H i 0 • s.V i), Finset.sum_range_one, hH, setEntry_self, hV, hf]
    · abel
    · intro i hi
      rw [hz i 0 (by omega), zero_smul]
  · intro i hi
    have e1 : i = 0 := by omega
    subst e1
    rw [hV, hf, latticeDot_sub', latticeDot_smul, hone, mul_one, sub_self]
  · intro i c hic
    exact hz i c (by omega)
  · intro c
    rw [hz (c + 1) c (by omega)]; rfl
  · exact hz

/-- One more vector. -/
theorem extendStep_inv (A : SField S M →ₗ[ℂ] SField S M) (steps j : ℕ) (hj : j + 1 < steps) (s t : ArnoldiState S M) (hs : Arnoldi A steps j s)
    (h : extendStep A j s = some t) : Arnoldi A steps (j + 1) t ∧ t.H (j + 1) j ≠ 0 ∧ (∀ i c, i ≤ j → c ≤ j → t.H i c = s.H i c) ∧ (∀ i, i ≤ j → t.V i = s.V i) := by
  unfold extendStep at h
  simp only at h
  split at h
  · cases h
  rename_i hb
  have h := Option.some.inj h
  generalize hv : (√(latticeNorm2 s.f) : ℂ)⁻¹ • s.f = v at h
  have hbc : ((√(latticeNorm2 s.f) : ℝ) : ℂ) ≠ 0 := by exact_mod_cast hb
  have hone : latticeDot v v = 1 := by rw [← hv]; exact normalised_dot hb
  have hfv : s.f = (√(latticeNorm2 s.f) : ℂ) • v := by rw [← hv, smul_smul, mul_inv_cancel₀ hbc, one_smul]
  have hperp : ∀ i, i ≤ j → latticeDot (s.V i) v = 0 := fun i hi => by rw [← hv, latticeDot_smul, hs.perp i hi, mul_zero]
  have hV : t.V = Function.update s.V (j + 1) v := by rw [← h]
  have hVj : t.V (j + 1) = v := by rw [hV, Function.update_self]
  have hVi : ∀ i, i ≤ j → t.V i = s.V i := fun i hi => by rw [hV, Function.update_of_ne (by omega)]
  have horth : ∀ i c, i ≤ j + 1 → c ≤ j + 1 → latticeDot (t.V i) (t.V c) = if i = c then 1 else 0 := by
    intro i c hi hc
    by_cases hij : i = j + 1
    · by_cases hcj : c = j + 1
      · rw [hij, hcj, hVj, hone, if_pos rfl]
      · rw [hij, hVj, hVi c (by omega), if_neg (Ne.symm hcj), dot_swap_zero (hperp c (by omega))]
    · by_cases hcj : c = j + 1
      · rw [hcj, hVj, hVi i (by omega), if_neg hij, hperp i (by omega)]
      · rw [hVi i (by omega), hVi c (by omega), hs.orth i c (by omega) (by omega)]
  rw [← hV] at h
  rw [hVj] at h
  obtain ⟨g1, g2⟩ := gramFirst_eq t.V (A v) (j + 1) (List.range (j + 2)) List.nodup_range (A v, setEntry s.H (j + 1) j (√(latticeNorm2 s.f) : ℂ))
  generalize hp : gramFirst t.V (A v) (j + 1) (List.range (j + 2)) (A v, setEntry s.H (j + 1) j (√(latticeNorm2 s.f) : ℂ)) = p at h g1 g2
  have hsum : ((List.range (j + 2)).map fun i => latticeDot (t.V i) (A v) • t.V i).sum = ∑ i ∈ Finset.range (j + 2), latticeDot (t.V i) (A v) • t.V i := rfl
  rw [hsum] at g1
  have hp0 : ∀ i, i ≤ j + 1 → latticeDot (t.V i) p.1 = 0 := by
    intro i hi
    rw [g1, latticeDot_sub', latticeDot_sum, Finset.sum_eq_single i]
    · rw [latticeDot_smul, horth i i hi hi, if_pos rfl, mul_one, sub_self]
    · intro b hb2 hbi
      rw [latticeDot_smul, horth i b hi (by rw [Finset.mem_range] at hb2; omega), if_neg (Ne.symm hbi), mul_zero]
    · intro hni
      rw [Finset.mem_range] at hni; omega
  rw [gramSecond_eq t.V (j + 1) _ p (fun i hi => hp0 i (by rw [List.mem_range] at hi; omega))] at h
  have hf : t.f = p.1 := by rw [← h]
  have hH : ∀ a b, t.H a b = if b = j + 1 ∧ a < j + 2 then latticeDot (t.V a) (A v) else setEntry s.H (j + 1) j (√(latticeNorm2 s.f) : ℂ) a b := by
    intro a b
    have : t.H = p.2 := by rw [← h]
    rw [this, g2 a b]
    simp only [List.mem_range]
  have hHsub : t.H (j + 1) j = (√(latticeNorm2 s.f) : ℂ) := by
    rw [hH, if_neg (by omega), setEntry_self]
  have hHold : ∀ i c, c ≠ j + 1 → ¬(i = j + 1 ∧ c = j) → t.H i c = s.H i c := by
    intro i c hc hic
    rw [hH, if_neg (by omega), setEntry_ne _ _ hic]
  have hHnew : ∀ i, i ≤ j + 1 → t.H i (j + 1) = latticeDot (t.V i) (A v) := fun i hi => by rw [hH, if_pos ⟨rfl, by omega⟩]
  have hzero : ∀ i c, (j + 1 < i ∨ j + 1 < c) → t.H i c = 0 := by
    intro i c hic
    by_cases hc : c = j + 1
    · rw [hH, if_neg (by omega), setEntry_ne _ _ (by omega), hs.zero i c (by omega)]
    · rw [hHold i c hc (by omega), hs.zero i c (by omega)]
  refine ⟨⟨hj, horth, ?_, ?_, ?_, ?_, hzero⟩, by rw [hHsub]; exact hbc, fun i c hi hc => hHold i c (by omega) (by omega), hVi⟩
  · intro c hc
    rw [sum_fin_below (m := j + 2) hj (fun i => t.H i c • t.V i) (fun i hi => by rw [hzero i c (by omega), zero_smul])]
    by_cases hcj : c = j + 1
    · rw [if_pos hcj, hf, g1, hcj, hVj]
      have : ∑ i ∈ Finset.range (j + 2), t.H i (j + 1) • t.V i = ∑ i ∈ Finset.range (j + 2), latticeDot (t.V i) (A v) • t.V i :=
        Finset.sum_congr rfl fun i hi => by rw [hHnew i (by rw [Finset.mem_range] at hi; omega)]
      rw [this]
      abel
    · rw [if_neg hcj, add_zero, hVi c (by omega), hs.rel c (by omega)]
      rw [sum_fin_below (m := j + 1) (by omega) (fun i => s.H i c • s.V i) (fun i hi => by rw [hs.zero i c (by omega), zero_smul])]
      rw [Finset.sum_range_succ _ (j + 1)]
      congr 1
      · refine Finset.sum_congr rfl fun i hi => ?_
        rw [Finset.mem_range] at hi
        rw [hHold i c hcj (by omega), hVi i (by omega)]
      · by_cases hcj2 : c = j
        · rw [if_pos hcj2, hcj2, hHsub, hVj, ← hfv]
        · rw [if_neg hcj2, hHold (j + 1) c hcj (by omega), hs.zero (j + 1) c (by omega), zero_smul]
  · intro i hi
    rw [hf, hp0 i hi]
  · intro i c hic
    by_cases hc : c = j + 1
    · exact hzero i c (by omega)
    · rw [hHold i c hc (by omega), hs.hess i c hic]
  · intro c
    by_cases hc : c = j
    · rw [hc, hHsub, Complex.ofReal_im]
    · by_cases hc2 : c = j + 1
      · rw [hzero (c + 1) c (by omega)]; rfl
      · rw [hHold (c + 1) c hc2 (by omega), hs.real c]

end Leonard
