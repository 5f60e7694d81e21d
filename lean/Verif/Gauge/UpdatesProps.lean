import Verif.Gauge.UpdatesLemmas
import Verif.Gauge.Props
import Mathlib.Analysis.Normed.Algebra.MatrixExponential

/-!
# C23 Link updates stay in the group, C24 Overrelaxation, C25 Reunitarisation
-/

set_option autoImplicit false

namespace Leonard

open Matrix ComplexConjugate

/-! ## C23 Link updates stay in the gauge group -/

/-- The link `heatBath2` returns is `R† S† / √d`. -/
theorem heatBath2_eq (β : ℝ) (S : Mat 2) (hS : IsQuat S) (d : HeatBathDraw) (V : Mat 2)
    (h : heatBath2 β S d = some V) : quatNorm S ≠ 0 ∧
      ∃ R, randomSu2 (1 / (β * Real.sqrt (quatNorm S))) d = some R ∧ V = ((1 / Real.sqrt (quatNorm S) : ℝ) : ℂ) • (Rᴴ * Sᴴ) := by
  unfold heatBath2 at h
  simp only [hS.norm_det] at h
  split at h
  · exact absurd h (by simp)
  · rename_i h0
    refine ⟨h0, ?_⟩
    rw [Option.map_eq_some_iff] at h
    obtain ⟨R, hR, rfl⟩ := h
    refine ⟨R, hR, ?_⟩
    rw [conjTranspose_smul, conjTranspose_mul, conjTranspose_conjTranspose, Complex.star_def, Complex.conj_ofReal,
      Matrix.mul_smul, Matrix.smul_mul, smul_smul, ← Matrix.mul_assoc, hS.conjTranspose_mul, Matrix.smul_mul,
      Matrix.one_mul, Matrix.smul_mul, smul_smul]
    congr 1
    have : (quatNorm S : ℂ) ≠ 0 := by exact_mod_cast h0
    push_cast
    field_simp

/-- **C23**, heat bath, two colours: on a configuration of SU(2) links the new link is in SU(2), for the Wilson and the
improved action and all random numbers. What is missing: when the staple is exactly zero there is no new link
(`C23_counterexample_zero_staple`). -/
theorem C23_heatbath_two_colours_partial {S : Type} (T : Torus S) (U : GField S 2)
    (hU : ∀ s μ, U s μ ∈ specialUnitaryGroup (Fin 2) ℂ) (s : S) (μ : Fin 4) (β : ℝ) (hβ : 0 ≤ β) (staple : Mat 2)
    (hst : staple = wilsonStaple T U s μ ∨ ∃ u0, staple = improvedStaple u0 T U s μ) (d : HeatBathDraw)
    (hd : d.Uniform) (V : Mat 2) (h : heatBath2 β staple d = some V) : V ∈ specialUnitaryGroup (Fin 2) ℂ := by
  have hq : ∀ s μ, IsQuat (U s μ) := fun s μ => (IsQuat.of_su2 (hU s μ)).1
  have hS : IsQuat staple := by
    rcases hst with rfl | ⟨u0, rfl⟩
    · exact isQuat_wilsonStaple T U hq s μ
    · exact isQuat_improvedStaple u0 T U hq s μ
  obtain ⟨h0, R, hR, rfl⟩ := heatBath2_eq β staple hS d V h
  have hpos : 0 < quatNorm staple := lt_of_le_of_ne IsQuat.quatNorm_nonneg (Ne.symm h0)
  obtain ⟨r1, r2⟩ := randomSu2_mem _ (by positivity) d hd R hR
  refine IsQuat.mem_su2 ((r1.conjTranspose.mul hS.conjTranspose).smul _) ?_
  rw [IsQuat.quatNorm_smul, IsQuat.quatNorm_mul r1.conjTranspose hS.conjTranspose, IsQuat.quatNorm_conjTranspose r1,
    IsQuat.quatNorm_conjTranspose hS, r2, div_pow, Real.sq_sqrt hpos.le]
  field_simp

theorem isQuat_subStaple {N : ℕ} (P : Mat N) (k l : Fin N) : IsQuat (subStaple P k l) := by
  constructor <;> apply Complex.ext <;> simp [subStaple]

theorem quatNorm_subStaple {N : ℕ} (P : Mat N) (k l : Fin N) : quatNorm (subStaple P k l) = subDet P k l := by
  simp [quatNorm, subStaple, subDet, Complex.normSq_apply]; ring

/-- The update matrix of a subgroup is `R† W† / √d`. -/
theorem subUpdate_eq {N : ℕ} (β : ℝ) (P : Mat N) (k l : Fin N) (d : HeatBathDraw) (s : Mat 2)
    (h : subUpdate β P k l d = some s) : subDet P k l ≠ 0 ∧
      ∃ R, randomSu2 (N / (2 * β * Real.sqrt (subDet P k l))) d = some R
        ∧ s = ((1 / Real.sqrt (subDet P k l) : ℝ) : ℂ) • (Rᴴ * (subStaple P k l)ᴴ) := by
  unfold subUpdate at h
  simp only at h
  split at h
  · exact absurd h (by simp)
  · rename_i h0
    refine ⟨h0, ?_⟩
    rw [Option.map_eq_some_iff] at h
    obtain ⟨R, hR, rfl⟩ := h
    refine ⟨R, hR, ?_⟩
    have hW := isQuat_subStaple P k l
    have hn := quatNorm_subStaple P k l
    have hpos : 0 < subDet P k l := lt_of_le_of_ne (hn ▸ IsQuat.quatNorm_nonneg) (Ne.symm h0)
    rw [conjTranspose_mul, conjTranspose_conjTranspose, ← Matrix.mul_assoc, hW.conjTranspose_mul, Matrix.smul_mul,
      Matrix.one_mul, Matrix.smul_mul, smul_smul, hn]
    congr 1
    rw [← Complex.ofReal_mul]
    congr 1
    have e : subDet P k l ^ (3 / 2 : ℝ) = subDet P k l * Real.sqrt (subDet P k l) := by
      rw [Real.sqrt_eq_rpow, ← Real.rpow_one_add' hpos.le (by norm_num)]; norm_num
    rw [e]
    field_simp

theorem subUpdate_mem {N : ℕ} (β : ℝ) (hβ : 0 ≤ β) (P : Mat N) (k l : Fin N) (d : HeatBathDraw) (hd : d.Uniform)
    (s : Mat 2) (h : subUpdate β P k l d = some s) : s ∈ specialUnitaryGroup (Fin 2) ℂ := by
  obtain ⟨h0, R, hR, rfl⟩ := subUpdate_eq β P k l d s h
  have hW := isQuat_subStaple P k l
  have hn := quatNorm_subStaple P k l
  have hpos : 0 < subDet P k l := lt_of_le_of_ne (hn ▸ IsQuat.quatNorm_nonneg) (Ne.symm h0)
  obtain ⟨r1, r2⟩ := randomSu2_mem _ (by positivity) d hd R hR
  refine IsQuat.mem_su2 ((r1.conjTranspose.mul hW.conjTranspose).smul _) ?_
  rw [IsQuat.quatNorm_smul, IsQuat.quatNorm_mul r1.conjTranspose hW.conjTranspose, IsQuat.quatNorm_conjTranspose r1,
    IsQuat.quatNorm_conjTranspose hW, hn, r2, div_pow, Real.sq_sqrt hpos.le]
  field_simp

theorem foldlM_inv {α β : Type} (f : α → β → Option α) (P : α → Prop) (bs : List β)
    (hf : ∀ a, ∀ b ∈ bs, ∀ a', P a → f a b = some a' → P a') (a a' : α) (ha : P a) (h : bs.foldlM f a = some a') : P a' := by
  induction bs generalizing a with
  | nil => simp at h; exact h ▸ ha
  | cons b bs ih =>
    rw [List.foldlM_cons] at h
    cases e : f a b with
    | none => rw [e] at h; exact absurd h (by simp)
    | some a1 =>
      rw [e] at h
      exact ih (fun a c hc => hf a c (List.mem_cons_of_mem _ hc)) a1 (hf a b (List.mem_cons_self ..) a1 ha e) h

theorem subgroupPairs_ne {N : ℕ} (kl : Fin N × Fin N) (h : kl ∈ subgroupPairs N) : kl.1 ≠ kl.2 := by
  simp only [subgroupPairs, List.mem_flatMap, List.mem_finRange, true_and, List.mem_map, List.mem_filter,
    decide_eq_true_eq] at h
  obtain ⟨k, l, hlt, rfl⟩ := h
  exact hlt.ne

/-- **C23**, heat bath, more than two colours: the new link is in SU(N), whatever the staple and the random numbers; and the
plaquette the steps work with stays the product of the current link and the staple. What is missing: when the effective
staple of a subgroup is exactly zero there is no new link. -/
theorem C23_heatbath_more_colours_partial {N : ℕ} (β : ℝ) (hβ : 0 ≤ β) (U staple : Mat N)
    (hU : U ∈ specialUnitaryGroup (Fin N) ℂ) (rnd : Fin N × Fin N → HeatBathDraw) (hd : ∀ kl, (rnd kl).Uniform) :
    (∀ V, heatBathN β U staple rnd = some V → V ∈ specialUnitaryGroup (Fin N) ℂ)
    ∧ ∀ st, (subgroupPairs N).foldlM (heatBathStep β rnd) (U, U * staple) = some st → st.2 = st.1 * staple := by
  have key := foldlM_inv (heatBathStep β rnd)
    (fun st => st.1 ∈ specialUnitaryGroup (Fin N) ℂ ∧ st.2 = st.1 * staple) (subgroupPairs N)
    (by
      intro a kl hkl a' ha h
      unfold heatBathStep at h
      rw [Option.map_eq_some_iff] at h
      obtain ⟨s, hs, rfl⟩ := h
      refine ⟨rowUpdate_mem s (subUpdate_mem β hβ a.2 kl.1 kl.2 (rnd kl) (hd kl) s hs) _ _ (subgroupPairs_ne kl hkl) _ ha.1, ?_⟩
      simp only
      rw [ha.2, rowUpdate_eq_mul, rowUpdate_eq_mul s kl.1 kl.2 a.1, Matrix.mul_assoc])
    (U, U * staple)
  refine ⟨fun V h => ?_, fun st h => (key st ⟨hU, rfl⟩ h).2⟩
  unfold heatBathN at h
  rw [Option.map_eq_some_iff] at h
  obtain ⟨st, h, rfl⟩ := h
  exact (key st ⟨hU, rfl⟩ h).1

/-- The heat bath fails only on a degenerate staple or when `generate_radius` has not ended. -/
theorem C23_heatbath_defined_partial (β : ℝ) (S : Mat 2) (hS : IsQuat S) (h0 : S ≠ 0) (d : HeatBathDraw)
    (hr : generateRadius (1 / (β * Real.sqrt ‖S.det‖)) d.radius ≠ none) : heatBath2 β S d ≠ none := by
  have hne : ‖S.det‖ ≠ 0 := by
    rw [hS.norm_det]
    intro h
    apply h0
    have h1 : Complex.normSq (S 0 0) = 0 := by
      have := Complex.normSq_nonneg (S 0 0); have := Complex.normSq_nonneg (S 0 1); unfold quatNorm at h; linarith
    have h2 : Complex.normSq (S 0 1) = 0 := by
      have := Complex.normSq_nonneg (S 0 0); have := Complex.normSq_nonneg (S 0 1); unfold quatNorm at h; linarith
    rw [Complex.normSq_eq_zero] at h1 h2
    ext i j
    fin_cases i <;> fin_cases j <;> simp [h1, h2, hS.1, hS.2]
  unfold heatBath2 randomSu2
  simp only [if_neg hne]
  simpa using hr

/-- **C23 fails on a zero staple**: there are configurations of SU(2) links for which the heat bath divides by zero and the link
becomes not a number. -/
theorem C23_counterexample_zero_staple {S : Type} [DecidableEq S] (T : Torus S) (hT : ∀ μ, 2 ≤ T.ext μ) (s : S) :
    ∃ U : GField S 2, (∀ s μ, U s μ ∈ specialUnitaryGroup (Fin 2) ℂ) ∧ wilsonStaple T U s 0 = 0
      ∧ ∀ β d, heatBath2 β (wilsonStaple T U s 0) d = none := by
  have hw : T.Wide 1 := fun μ => hT μ
  have hneg : (-1 : Mat 2) ∈ specialUnitaryGroup (Fin 2) ℂ := by
    refine IsQuat.mem_su2 (IsQuat.neg IsQuat.one) ?_
    simp [quatNorm]
  have h0 : wilsonStaple T (fun s' ν => if s' = s ∧ ν ≠ 0 then (-1 : Mat 2) else 1) s 0 = 0 := by
    unfold wilsonStaple
    refine Finset.sum_eq_zero fun ν _ => ?_
    split
    · rename_i hν
      have a1 : T.sup 0 s ≠ s := T.sup_ne (le_refl 1) hw 0 s
      have a2 : T.sdn ν s ≠ s := fun h => T.sup_ne (le_refl 1) hw ν s ((T.sdn_eq_iff _ _ _).1 h).symm
      have a3 : T.sup 0 (T.sdn ν s) ≠ s := by
        rw [T.sup_sdn_comm]
        intro h
        exact T.sup_ne_sup (le_refl 1) hw (Ne.symm hν) s ((T.sdn_eq_iff _ _ _).1 h)
      simp [stapleUp, stapleDown, a1, a2, a3, hν]
    · rfl
  refine ⟨_, fun s' μ => ?_, h0, fun β d => ?_⟩
  · split
    · exact hneg
    · exact one_mem _
  · rw [h0]; simp [heatBath2]

/-! ### Overrelaxation, starting configurations, molecular dynamics -/

/-- For a quaternion staple the reflected link is a group element. -/
theorem overrelax2_mem (U S : Mat 2) (hU : U ∈ specialUnitaryGroup (Fin 2) ℂ) (hS : IsQuat S) :
    overrelax2 U S ∈ specialUnitaryGroup (Fin 2) ℂ := by
  obtain ⟨u1, u2⟩ := IsQuat.of_su2 hU
  unfold overrelax2
  simp only [hS.norm_det]
  split
  · rename_i h
    have h0 : quatNorm S ≠ 0 := by
      intro e; rw [e] at h; norm_num at h
    refine IsQuat.mem_su2 (((hS.conjTranspose.mul u1.conjTranspose).mul hS.conjTranspose).smul _) ?_
    rw [IsQuat.quatNorm_smul, IsQuat.quatNorm_mul (hS.conjTranspose.mul u1.conjTranspose) hS.conjTranspose,
      IsQuat.quatNorm_mul hS.conjTranspose u1.conjTranspose, IsQuat.quatNorm_conjTranspose u1,
      IsQuat.quatNorm_conjTranspose hS, u2]
    field_simp
  · exact hU

theorem scaleFirstRow_mem {N : ℕ} (Q : Mat N) (hQ : Q ∈ unitaryGroup (Fin N) ℂ) (hN : 0 < N) :
    scaleFirstRow (conj Q.det) Q ∈ specialUnitaryGroup (Fin N) ℂ := by
  have hd : conj Q.det * Q.det = 1 := by
    have := Matrix.det_of_mem_unitary hQ
    have h2 := Unitary.star_mul_self_of_mem this
    exact h2
  let D : Fin N → ℂ := fun i => if i.val = 0 then conj Q.det else 1
  have e : scaleFirstRow (conj Q.det) Q = Matrix.diagonal D * Q := by
    ext i j
    rw [Matrix.diagonal_mul]
    simp only [scaleFirstRow, D]
    split
    · ring
    · ring
  have hD : Matrix.diagonal D ∈ unitaryGroup (Fin N) ℂ := by
    rw [mem_unitaryGroup_iff, Matrix.star_eq_conjTranspose, Matrix.diagonal_conjTranspose, Matrix.diagonal_mul_diagonal,
      ← Matrix.diagonal_one]
    congr 1
    funext i
    simp only [D, Pi.star_apply]
    split
    · rw [Complex.star_def, Complex.conj_conj, hd]
    · simp
  refine mem_specialUnitaryGroup_iff.2 ⟨by rw [e]; exact mul_mem hD hQ, ?_⟩
  rw [e, Matrix.det_mul, Matrix.det_diagonal]
  have : ∏ i, D i = conj Q.det := by
    rw [Finset.prod_eq_single (⟨0, hN⟩ : Fin N)]
    · simp [D]
    · intro i _ hi
      have : i.val ≠ 0 := fun h => hi (Fin.ext h)
      simp [D, this]
    · simp
  rw [this, hd]

theorem su_conjTranspose {N : ℕ} {A : Mat N} (h : A ∈ specialUnitaryGroup (Fin N) ℂ) :
    Aᴴ ∈ specialUnitaryGroup (Fin N) ℂ := by
  obtain ⟨h1, h2⟩ := mem_specialUnitaryGroup_iff.1 h
  exact mem_specialUnitaryGroup_iff.2 ⟨Unitary.star_mem h1, by rw [Matrix.det_conjTranspose, h2]; simp⟩

/-- **C23**, overrelaxation: for two colours with the staple of an SU(2) configuration, and for more colours with any unitary
factor `Q`, any energy difference and any random number, the new link is in the group. -/
theorem C23_overrelaxation {S : Type} (T : Torus S) :
    (∀ (U : GField S 2), (∀ s μ, U s μ ∈ specialUnitaryGroup (Fin 2) ℂ) → ∀ s μ (u0 : ℝ),
      overrelax2 (U s μ) (wilsonStaple T U s μ) ∈ specialUnitaryGroup (Fin 2) ℂ
      ∧ overrelax2 (U s μ) (improvedStaple u0 T U s μ) ∈ specialUnitaryGroup (Fin 2) ℂ)
    ∧ ∀ (N : ℕ), 0 < N → ∀ Q U : Mat N, Q ∈ unitaryGroup (Fin N) ℂ → U ∈ specialUnitaryGroup (Fin N) ℂ →
      ∀ delta ξ, overrelaxN Q U delta ξ ∈ specialUnitaryGroup (Fin N) ℂ := by
  refine ⟨fun U hU s μ u0 => ?_, fun N hN Q U hQ hU delta ξ => ?_⟩
  · have hq : ∀ s μ, IsQuat (U s μ) := fun s μ => (IsQuat.of_su2 (hU s μ)).1
    exact ⟨overrelax2_mem _ _ (hU s μ) (isQuat_wilsonStaple T U hq s μ),
      overrelax2_mem _ _ (hU s μ) (isQuat_improvedStaple u0 T U hq s μ)⟩
  · have ht : overrelaxTrial Q U ∈ specialUnitaryGroup (Fin N) ℂ := by
      have := su_conjTranspose (scaleFirstRow_mem Q hQ hN)
      exact mul_mem (mul_mem this (su_conjTranspose hU)) this
    unfold overrelaxN
    split_ifs <;> assumption

/-- **C23**, starting configurations. -/
theorem C23_start : (∀ N, coldLink N ∈ specialUnitaryGroup (Fin N) ℂ)
    ∧ (∀ ξ1 ξ2 ξ3 : ℝ, hotLink2 ξ1 ξ2 ξ3 ∈ specialUnitaryGroup (Fin 2) ℂ)
    ∧ (∀ N, 0 < N → ∀ Q : Mat N, Q ∈ unitaryGroup (Fin N) ℂ → hotLinkN Q ∈ specialUnitaryGroup (Fin N) ℂ) := by
  refine ⟨fun N => ?_, fun ξ1 ξ2 ξ3 => ?_, fun N hN Q hQ => scaleFirstRow_mem Q hQ hN⟩
  · have : coldLink N = 1 := by ext i j; simp [coldLink, Matrix.one_apply]
    rw [this]; exact one_mem _
  · refine IsQuat.mem_su2 ⟨?_, ?_⟩ ?_
    · simp only [hotLink2]
      apply Complex.ext <;> simp
    · simp only [hotLink2]
      apply Complex.ext <;> simp
    · simp only [hotLink2, quatNorm]
      simp only [Matrix.of_apply, Matrix.cons_val', Matrix.cons_val_zero, Matrix.cons_val_one, Complex.normSq_mul,
        Complex.normSq_ofReal, Complex.normSq_mk]
      have h1 := Real.sin_sq_add_cos_sq (2 * Real.pi * ξ1)
      have h2 := Real.sin_sq_add_cos_sq (2 * Real.pi * ξ2)
      have h3 := Real.sin_sq_add_cos_sq (Real.arcsin (ξ3 ^ (1 / 2 : ℝ)))
      generalize Real.sin (2 * Real.pi * ξ1) = a at *
      generalize Real.cos (2 * Real.pi * ξ1) = b at *
      generalize Real.sin (2 * Real.pi * ξ2) = c at *
      generalize Real.cos (2 * Real.pi * ξ2) = d at *
      generalize Real.sin (Real.arcsin (ξ3 ^ (1 / 2 : ℝ))) = e at *
      generalize Real.cos (Real.arcsin (ξ3 ^ (1 / 2 : ℝ))) = f at *
      linear_combination e ^ 2 * h1 + f ^ 2 * h2 + h3

/-- **C23**, molecular dynamics: with orthonormal eigenvectors of a momentum in the Lie algebra, the step multiplies the link by
`exp(ε P)`, and the new link is in the group. -/
theorem C23_md_step {N : ℕ} (ε : ℝ) (P U m : Mat N) (ev : Fin N → ℂ) (hm : m ∈ unitaryGroup (Fin N) ℂ)
    (hP : P = m * Matrix.diagonal ev * mᴴ) (hL : IsLie P) (hU : U ∈ specialUnitaryGroup (Fin N) ℂ) :
    mdLinkUpdate ε ev m U = NormedSpace.exp (ε • P) * U
    ∧ mdLinkUpdate ε ev m U ∈ specialUnitaryGroup (Fin N) ℂ := by
  have hmm : m * mᴴ = 1 := mem_unitaryGroup_iff.1 hm
  have hmm' : mᴴ * m = 1 := mem_unitaryGroup_iff'.1 hm
  have hu : IsUnit m := ⟨⟨m, mᴴ, hmm, hmm'⟩, rfl⟩
  have hinv : m⁻¹ = mᴴ := Matrix.inv_eq_left_inv hmm'
  have hexp : NormedSpace.exp (ε • P) = m * Matrix.diagonal (fun i => Complex.exp (ε * ev i)) * mᴴ := by
    have e : ε • P = m * Matrix.diagonal (fun i => (ε : ℂ) * ev i) * m⁻¹ := by
      rw [hP, hinv]
      have : Matrix.diagonal (fun i => (ε : ℂ) * ev i) = (ε : ℂ) • Matrix.diagonal ev := by
        rw [← Matrix.diagonal_smul]; rfl
      rw [this, Matrix.mul_smul, Matrix.smul_mul]
      rfl
    rw [e, Matrix.exp_conj m _ hu, Matrix.exp_diagonal, hinv]
    congr 3
    funext i
    rw [Pi.coe_exp, ← Complex.exp_eq_exp_ℂ]
  refine ⟨by rw [hexp]; rfl, ?_⟩
  have hX : m * Matrix.diagonal (fun i => Complex.exp (ε * ev i)) * mᴴ ∈ specialUnitaryGroup (Fin N) ℂ := by
    refine mem_specialUnitaryGroup_iff.2 ⟨?_, ?_⟩
    · -- the eigenvalues are imaginary
      have him : ∀ i, conj (ev i) = -ev i := by
        have h1 : Matrix.diagonal ev = mᴴ * P * m := by
          rw [hP]
          simp only [Matrix.mul_assoc, hmm', Matrix.mul_one]
          rw [← Matrix.mul_assoc, hmm', Matrix.one_mul]
        have h2 : (Matrix.diagonal ev)ᴴ = -Matrix.diagonal ev := by
          rw [h1, conjTranspose_mul, conjTranspose_mul, conjTranspose_conjTranspose, hL.1]
          simp [Matrix.mul_assoc]
        intro i
        have := congrFun (congrFun h2 i) i
        simpa using this
      rw [mem_unitaryGroup_iff, Matrix.star_eq_conjTranspose]
      simp only [conjTranspose_mul, conjTranspose_conjTranspose, Matrix.diagonal_conjTranspose]
      have e : Matrix.diagonal (fun i => Complex.exp (ε * ev i))
          * Matrix.diagonal (star fun i => Complex.exp (ε * ev i)) = (1 : Mat N) := by
        rw [Matrix.diagonal_mul_diagonal, ← Matrix.diagonal_one]
        congr 1
        funext i
        rw [Pi.star_apply, Complex.star_def, ← Complex.exp_conj, map_mul, him, Complex.conj_ofReal, ← Complex.exp_add]
        simp
      calc _ = m * (Matrix.diagonal (fun i => Complex.exp (ε * ev i)) * (mᴴ * m)
              * Matrix.diagonal (star fun i => Complex.exp (ε * ev i))) * mᴴ := by simp only [Matrix.mul_assoc]
        _ = 1 := by rw [hmm', Matrix.mul_one, e, Matrix.mul_one, hmm]
    · have htr : ∑ i, ev i = 0 := by
        have := hL.2
        rw [hP, Matrix.trace_mul_comm, ← Matrix.mul_assoc, hmm', Matrix.one_mul, Matrix.trace_diagonal] at this
        exact this
      have hdd : m.det * mᴴ.det = 1 := by rw [← Matrix.det_mul, hmm, Matrix.det_one]
      rw [Matrix.det_mul, Matrix.det_mul, Matrix.det_diagonal, mul_right_comm, hdd, one_mul, ← Complex.exp_sum,
        ← Finset.mul_sum, htr, mul_zero, Complex.exp_zero]
  exact mul_mem hX hU

/-- The eigenvalues and eigenvectors of a momentum of SU(2). -/
example : ∃ (P m : Mat 2) (ev : Fin 2 → ℂ), m ∈ unitaryGroup (Fin 2) ℂ ∧ P = m * Matrix.diagonal ev * mᴴ ∧ IsLie P
    ∧ P ≠ 0 := by
  refine ⟨Matrix.diagonal ![Complex.I, -Complex.I], 1, ![Complex.I, -Complex.I], one_mem _, by simp, ⟨?_, ?_⟩, ?_⟩
  · rw [Matrix.diagonal_conjTranspose, Matrix.diagonal_neg]
    congr 1
    funext i; fin_cases i <;> simp
  · simp [Matrix.trace_diagonal, Fin.sum_univ_two]
  · intro h
    have := congrFun (congrFun h 0) 0
    simp at this

/-- The random numbers can be such that the heat bath ends at once. -/
example : ∃ d : HeatBathDraw, d.Uniform ∧ heatBath2 2 1 d ≠ none := by
  refine ⟨⟨[⟨1, 1, 0, 0⟩], 0, 0⟩, fun x hx => ?_, ?_⟩
  · simp only [List.mem_singleton] at hx
    subst hx; simp
  · refine C23_heatbath_defined_partial 2 1 IsQuat.one one_ne_zero _ ?_
    simp [generateRadius]

end Leonard
