/-
Finite termination of the conjugate gradient and GMRESR solvers in exact arithmetic (for C36, C37).
-/
import Verif.Solver.Lemmas

set_option autoImplicit false

namespace Leonard

open Vec

variable {V : Type} [AddCommGroup V] [Module ℂ V] [Vec V]

/-- The vectors orthogonal to `r`, on the left. -/
def leftPerp (r : V) : Submodule ℂ V where
  carrier := {q | dot q r = 0}
  add_mem' := by
    intro a b (ha : dot a r = 0) (hb : dot b r = 0)
    show dot (a + b) r = 0
    rw [add_dot, ha, hb, add_zero]
  zero_mem' := zero_dot r
  smul_mem' := by
    intro a v (hv : dot v r = 0)
    show dot (a • v) r = 0
    rw [smul_dot, hv, mul_zero]

theorem mem_leftPerp {q r : V} : q ∈ leftPerp r ↔ dot q r = 0 := Iff.rfl

theorem HermPos.form_real {A : V → V} (hH : HermPos A) (p : V) : dot p (A p) = ((dot p (A p)).re : ℂ) := by
  have := dot_conj p (A p)
  rw [hH.herm] at this
  exact (Complex.conj_eq_iff_re.mp this).symm

theorem HermPos.form_ne {A : V → V} (hH : HermPos A) {p : V} (hp : p ≠ 0) : dot p (A p) ≠ 0 := by
  intro h
  have := hH.pos p hp
  rw [h] at this
  exact lt_irrefl _ this

theorem HermPos.form_re_ne {A : V → V} (hH : HermPos A) {p : V} (hp : p ≠ 0) : (dot p (A p)).re ≠ 0 :=
  (hH.pos p hp).ne'

/-- The state of the conjugate gradient method: `W` is the space of the earlier directions. -/
structure CgInv (A : V → V) (W : Submodule ℂ V) (r p : V) (norm : ℝ) : Prop where
  norm_eq : norm = norm2 r
  r_ne : r ≠ 0
  perp : ∀ q ∈ W, dot q r = 0
  conjg : ∀ q ∈ W, dot q (A p) = 0
  diff : p - r ∈ W
  image : ∀ q ∈ W, A q ∈ W ⊔ Submodule.span ℂ {p}

theorem CgInv.p_ne {A : V → V} {W : Submodule ℂ V} {r p : V} {norm : ℝ} (h : CgInv A W r p norm) : p ≠ 0 := by
  intro hp
  have h1 := h.diff
  rw [hp, zero_sub] at h1
  have h2 : r ∈ W := by simpa using W.neg_mem h1
  have h3 := h.perp r h2
  have := norm2_pos h.r_ne
  rw [norm2, h3] at this
  exact lt_irrefl _ this

theorem CgInv.dot_p_r {A : V → V} {W : Submodule ℂ V} {r p : V} {norm : ℝ} (h : CgInv A W r p norm) :
    dot p r = (norm : ℂ) := by
  have := h.perp _ h.diff
  rw [sub_dot, dot_self, sub_eq_zero] at this
  rw [this, h.norm_eq]

/-- One step of the method keeps the invariant, with one more direction. -/
theorem CgInv.step {A : V → V} (hA : Linear A) (hH : HermPos A) {W : Submodule ℂ V} {r p : V} {norm : ℝ}
    (h : CgInv A W r p norm) {alpha : ℂ} (ha : alpha = norm / dot p (A p)) {r' : V}
    (hr' : r' = r - alpha • A p) (hne : r' ≠ 0) {p' : V} (hp' : p' = r' + ((norm2 r' / norm : ℝ) : ℂ) • p) :
    CgInv A (W ⊔ Submodule.span ℂ {p}) r' p' (norm2 r') := by
  have hp := h.p_ne
  have hd := hH.form_ne hp
  have hnorm : (norm : ℂ) ≠ 0 := by
    rw [h.norm_eq]; exact_mod_cast (norm2_pos h.r_ne).ne'
  have halpha : alpha ≠ 0 := by rw [ha]; exact div_ne_zero hnorm hd
  have hareal : starRingEnd ℂ alpha = alpha := by
    rw [ha, hH.form_real, map_div₀, Complex.conj_ofReal, Complex.conj_ofReal]
  have hle : ∀ s : Submodule ℂ V, W ≤ s → p ∈ s → W ⊔ Submodule.span ℂ {p} ≤ s := by
    intro s h1 h2
    refine sup_le h1 ?_
    rw [Submodule.span_le]
    intro y hy
    rw [Set.mem_singleton_iff] at hy
    rw [hy]; exact h2
  have hpW : p ∈ W ⊔ Submodule.span ℂ {p} := Submodule.mem_sup_right (Submodule.mem_span_singleton_self p)
  have hWW : W ≤ W ⊔ Submodule.span ℂ {p} := le_sup_left
  have hrW : r ∈ W ⊔ Submodule.span ℂ {p} := by
    have := (W ⊔ Submodule.span ℂ {p}).sub_mem hpW (hWW h.diff)
    simpa using this
  have perp : ∀ q ∈ W ⊔ Submodule.span ℂ {p}, dot q r' = 0 := by
    refine hle (leftPerp r') (fun q hq => ?_) ?_
    · rw [mem_leftPerp, hr', dot_sub, dot_smul, h.perp q hq, h.conjg q hq]; simp
    · rw [mem_leftPerp, hr', dot_sub, dot_smul, h.dot_p_r, ha, div_mul_cancel₀ _ hd, sub_self]
  have hAp : A p = alpha⁻¹ • (r - r') := by
    rw [hr', sub_sub_cancel, smul_smul, inv_mul_cancel₀ halpha, one_smul]
  refine ⟨rfl, hne, perp, ?_, ?_, ?_⟩
  · refine hle (leftPerp (A p')) (fun q hq => ?_) ?_
    · rw [mem_leftPerp, hp', hA.add, hA.smul, dot_add, dot_smul, h.conjg q hq, mul_zero, add_zero, ← hH.herm]
      exact perp _ (h.image q hq)
    · rw [mem_leftPerp, hp', hA.add, hA.smul, dot_add, dot_smul, ← hH.herm p r']
      have e : dot (A p) r' = -(alpha⁻¹ * norm2 r') := by
        rw [hAp, smul_dot, sub_dot, perp r hrW, dot_self, map_inv₀, hareal]
        ring
      rw [e, ha]
      push_cast
      field_simp
      ring
  · rw [hp', add_sub_cancel_left]
    exact Submodule.smul_mem _ _ hpW
  · have hp'in : p' ∈ (W ⊔ Submodule.span ℂ {p}) ⊔ Submodule.span ℂ {p'} :=
      Submodule.mem_sup_right (Submodule.mem_span_singleton_self p')
    have hWin : W ⊔ Submodule.span ℂ {p} ≤ (W ⊔ Submodule.span ℂ {p}) ⊔ Submodule.span ℂ {p'} := le_sup_left
    have hr'in : r' ∈ (W ⊔ Submodule.span ℂ {p}) ⊔ Submodule.span ℂ {p'} := by
      have : r' = p' - ((norm2 r' / norm : ℝ) : ℂ) • p := by rw [hp']; abel
      rw [this]
      exact Submodule.sub_mem _ hp'in (Submodule.smul_mem _ _ (hWin hpW))
    intro q hq
    obtain ⟨w, hw, z, hz, rfl⟩ := Submodule.mem_sup.mp hq
    obtain ⟨a, rfl⟩ := Submodule.mem_span_singleton.mp hz
    rw [hA.add, hA.smul]
    refine Submodule.add_mem _ (hWin (h.image w hw)) (Submodule.smul_mem _ _ ?_)
    rw [hAp]
    exact Submodule.smul_mem _ _ (Submodule.sub_mem _ (hWin hrW) hr'in)

/-- Adding the direction makes the space larger. -/
theorem CgInv.rank {A : V → V} (hH : HermPos A) [FiniteDimensional ℂ V] {W : Submodule ℂ V} {r p : V} {norm : ℝ}
    (h : CgInv A W r p norm) : Module.finrank ℂ W < Module.finrank ℂ ↥(W ⊔ Submodule.span ℂ {p}) := by
  apply Submodule.finrank_lt_finrank_of_lt
  rw [left_lt_sup]
  intro hc
  have : p ∈ W := hc (Submodule.mem_span_singleton_self p)
  exact hH.form_ne h.p_ne (h.conjg p this)

theorem cgLoop_terminates {A : V → V} (hA : Linear A) (hH : HermPos A) [FiniteDimensional ℂ V] {eps : ℝ}
    (heps : 0 < eps) : ∀ (n step : ℕ) (W : Submodule ℂ V) (x r p : V) (norm : ℝ), CgInv A W r p norm →
      Module.finrank ℂ V ≤ Module.finrank ℂ W + n → (cgLoop A eps n step x r (some p) norm).ok = true := by
  intro n
  induction n with
  | zero =>
    intro step W x r p norm h hn
    have h1 := h.rank hH
    have h2 := Submodule.finrank_le (W ⊔ Submodule.span ℂ {p})
    omega
  | succ n ih =>
    intro step W x r p norm h hn
    have hnorm : norm ≠ 0 := by rw [h.norm_eq]; exact (norm2_pos h.r_ne).ne'
    simp only [cgLoop]
    rw [if_neg (hH.form_ne h.p_ne), if_neg hnorm]
    by_cases hs : norm2 (r - ((norm : ℂ) / dot p (A p)) • A p) < eps
    · rw [if_pos hs]
    · rw [if_neg hs]
      have hne : r - ((norm : ℂ) / dot p (A p)) • A p ≠ 0 := by
        intro h0
        rw [h0, norm2_zero] at hs
        exact hs heps
      refine ih _ _ _ _ _ _ (h.step hA hH rfl rfl hne rfl) ?_
      have := h.rank hH
      omega

theorem shiftCgLoop_terminates {A : V → V} (hA : Linear A) (hH : HermPos A) [FiniteDimensional ℂ V] {eps : ℝ}
    (heps : 0 < eps) : ∀ (n : ℕ) (W : Submodule ℂ V) (x r p : V) (norm : ℝ), CgInv A W r p norm →
      Module.finrank ℂ V ≤ Module.finrank ℂ W + n → (shiftCgLoop A eps n x r (some p) norm).1 = true := by
  intro n
  induction n with
  | zero => intro W x r p norm h hn; rfl
  | succ n ih =>
    intro W x r p norm h hn
    have hnorm : norm ≠ 0 := by rw [h.norm_eq]; exact (norm2_pos h.r_ne).ne'
    have hd : ((norm / (dot p (A p)).re : ℝ) : ℂ) = norm / dot p (A p) := by
      rw [Complex.ofReal_div, ← hH.form_real]
    simp only [shiftCgLoop]
    rw [if_neg (hH.form_re_ne h.p_ne), if_neg hnorm, hd]
    by_cases hs : norm2 (r - ((norm : ℂ) / dot p (A p)) • A p) < eps
    · rw [if_pos hs]
    · rw [if_neg hs]
      have hne : r - ((norm : ℂ) / dot p (A p)) • A p ≠ 0 := by
        intro h0
        rw [h0, norm2_zero] at hs
        exact hs heps
      have hst := h.step hA hH rfl rfl hne rfl
      have h1 := h.rank hH
      have h2 := hst.rank hH
      have h3 := Submodule.finrank_le ((W ⊔ Submodule.span ℂ {p}) ⊔
        Submodule.span ℂ {r - ((norm : ℂ) / dot p (A p)) • A p + ((norm2 (r - ((norm : ℂ) / dot p (A p)) • A p) / norm : ℝ) : ℂ) • p})
      rw [if_neg (by omega)]
      exact ih _ _ _ _ _ hst (by omega)

/-- The start of the iteration. -/
theorem CgInv.start {A : V → V} (hA : Linear A) {r : V} (h : r ≠ 0) : CgInv A ⊥ r r (norm2 r) :=
  ⟨rfl, h, fun q hq => by rw [(Submodule.mem_bot ℂ).mp hq, zero_dot], fun q hq => by rw [(Submodule.mem_bot ℂ).mp hq, zero_dot],
    by simp, fun q hq => by rw [(Submodule.mem_bot ℂ).mp hq, hA.zero]; exact Submodule.zero_mem _⟩

/-! ### GMRESR -/

theorem dot_sum {ι : Type} (s : Finset ι) (v : V) (f : ι → V) : dot v (∑ i ∈ s, f i) = ∑ i ∈ s, dot v (f i) := by
  classical
  induction s using Finset.induction_on with
  | empty => simp [dot_zero]
  | insert a s ha ih => rw [Finset.sum_insert ha, Finset.sum_insert ha, dot_add, ih]

/-- The first `k` vectors of the array `c` are orthonormal and orthogonal to the residual. -/
structure GmresOrth (c : ℕ → V) (r : V) (k : ℕ) : Prop where
  unit : ∀ i < k, norm2 (c i) = 1
  orth : ∀ i < k, ∀ l < k, i ≠ l → dot (c i) (c l) = 0
  perp : ∀ i < k, dot (c i) r = 0

theorem GmresOrth.card [FiniteDimensional ℂ V] {c : ℕ → V} {r : V} {k : ℕ} (h : GmresOrth c r k) :
    k ≤ Module.finrank ℂ V := by
  have li : LinearIndependent ℂ fun i : Fin k => c i := by
    rw [Fintype.linearIndependent_iff]
    intro g hg i
    have := congrArg (dot (c i)) hg
    rw [dot_sum, dot_zero, Finset.sum_eq_single i] at this
    · rw [dot_smul, dot_self, h.unit i i.2] at this
      simpa using this
    · intro l _ hl
      rw [dot_smul, h.orth i i.2 l l.2 (fun e => hl (Fin.ext e.symm)), mul_zero]
    · intro hi; exact absurd (Finset.mem_univ i) hi
  have := li.fintype_card_le_finrank
  simpa using this

theorem gmresOrtho_perp (c u : ℕ → V) (cj uj r : V) (k : ℕ) (h : GmresOrth c r k) : ∀ j ≤ k,
    (∀ i < j, dot (c i) (gmresOrtho c u cj uj j).1 = 0) ∧ dot (gmresOrtho c u cj uj j).1 r = dot cj r := by
  intro j
  induction j with
  | zero => intro _; exact ⟨fun i hi => absurd hi (by omega), rfl⟩
  | succ i ih =>
    intro hi
    obtain ⟨h1, h2⟩ := ih (by omega)
    simp only [gmresOrtho]
    refine ⟨fun l hl => ?_, ?_⟩
    · rw [dot_sub, dot_smul]
      rcases Nat.lt_succ_iff_lt_or_eq.mp hl with h3 | h3
      · rw [h1 l h3, h.orth l (by omega) i (by omega) (by omega)]; simp
      · rw [h3, dot_self, h.unit i (by omega)]; simp
    · rw [sub_dot, smul_dot, h.perp i (by omega), h2]; simp

theorem gmresStep_orth {A : V → V} {k : ℕ} {w : V} {st : GmresState V} (h : GmresOrth st.c st.r k)
    (hw : dot (A w) st.r ≠ 0) :
    ∃ st', gmresStep A k w st = some st' ∧ GmresOrth st'.c st'.r (k + 1) := by
  obtain ⟨h1, h2⟩ := gmresOrtho_perp st.c st.u (A w) w st.r k h k le_rfl
  simp only [gmresStep]
  have hne : (gmresOrtho st.c st.u (A w) w k).1 ≠ 0 := by
    intro h0
    rw [h0, zero_dot] at h2
    exact hw h2.symm
  have hn0 := (norm2_pos hne).ne'
  rw [if_neg hn0]
  have hn := normalize_norm2 _ hn0
  refine ⟨_, rfl, ?_⟩
  generalize ((((Real.sqrt (norm2 (gmresOrtho st.c st.u (A w) w k).1))⁻¹ : ℝ) : ℂ)) = s at *
  generalize gmresOrtho st.c st.u (A w) w k = cu at *
  have hc : ∀ i < k, dot (st.c i) (s • cu.1) = 0 := fun i hi => by rw [dot_smul, h1 i hi, mul_zero]
  have hc' : ∀ i < k, dot (s • cu.1) (st.c i) = 0 := fun i hi => by rw [← dot_conj, hc i hi, map_zero]
  have ne : ∀ i < k, i ≠ k := fun i hi => by omega
  refine ⟨?_, ?_, ?_⟩
  · intro i hi
    show norm2 (Function.update st.c k (s • cu.1) i) = 1
    rcases Nat.lt_succ_iff_lt_or_eq.mp hi with h3 | h3
    · rw [Function.update_of_ne (ne i h3)]; exact h.unit i h3
    · rw [h3, Function.update_self]; exact hn
  · intro i hi l hl hil
    show dot (Function.update st.c k (s • cu.1) i) (Function.update st.c k (s • cu.1) l) = 0
    rcases Nat.lt_succ_iff_lt_or_eq.mp hi with h3 | h3 <;> rcases Nat.lt_succ_iff_lt_or_eq.mp hl with h4 | h4
    · rw [Function.update_of_ne (ne i h3), Function.update_of_ne (ne l h4)]; exact h.orth i h3 l h4 hil
    · rw [Function.update_of_ne (ne i h3), h4, Function.update_self]; exact hc i h3
    · rw [Function.update_of_ne (ne l h4), h3, Function.update_self]; exact hc' l h4
    · omega
  · intro i hi
    show dot (Function.update st.c k (s • cu.1) i) (st.r - dot (s • cu.1) st.r • s • cu.1) = 0
    rcases Nat.lt_succ_iff_lt_or_eq.mp hi with h3 | h3
    · rw [Function.update_of_ne (ne i h3), dot_sub, dot_smul, h.perp i h3, hc i h3]; simp
    · rw [h3, Function.update_self, dot_sub, dot_smul, dot_self, hn]; simp

theorem gmresLoop_terminates [FiniteDimensional ℂ V] {A : V → V} {P : ℕ → V → V}
    (hP : ∀ k v, v ≠ 0 → dot v (A (P k v)) ≠ 0) {dim : ℕ} (hd : Module.finrank ℂ V ≤ dim) {prec : ℝ}
    (hprec : 0 < prec) : ∀ (n k : ℕ) (st : GmresState V), GmresOrth st.c st.r k → st.r ≠ 0 →
      Module.finrank ℂ V ≤ k + n → (gmresLoop A P dim prec n k st).ok = true := by
  intro n
  have hw : ∀ (k : ℕ) (st : GmresState V), st.r ≠ 0 → dot (A (P k st.r)) st.r ≠ 0 := by
    intro k st hr h0
    rw [← dot_conj, map_eq_zero] at h0
    exact hP k st.r hr h0
  induction n with
  | zero =>
    intro k st h hr hn
    obtain ⟨st', -, h'⟩ := gmresStep_orth h (hw k st hr)
    have := h'.card
    omega
  | succ n ih =>
    intro k st h hr hn
    obtain ⟨st', hs, h'⟩ := gmresStep_orth h (hw k st hr)
    have := h'.card
    simp only [gmresLoop]
    rw [Nat.mod_eq_of_lt (by omega), hs]
    by_cases hp : norm2 st'.r < prec
    · simp [hp]
    · simp only [hp, if_false]
      refine ih _ _ h' ?_ (by omega)
      intro h0
      rw [h0, norm2_zero] at hp
      exact hp hprec

end Leonard
