import Verif.Landau.Gluon

/-!
# Momenta, symmetries, three-point function and sum rule of the gluon field
-/

set_option autoImplicit false

namespace Leonard

open Matrix

noncomputable section

variable {S : Type} {N : ℕ}

/-! ### The list of momenta -/

theorem mem_belowReal (m : ℝ) (i : ℕ) : i ∈ belowReal m ↔ (i : ℝ) < m := by
  unfold belowReal
  rw [List.mem_range, Nat.lt_ceil]

theorem momentumDeviation_eq (k : Fin 4 → ℝ) : momentumDeviation k = ∑ μ, |k μ - (∑ ν, k ν) / 4| := by
  rw [Fin.sum_univ_four, Fin.sum_univ_four]; rfl

theorem mem_momentumList (L : Fin 4 → ℕ) (m : Fin 4 → ℝ) (cut : ℝ) (n : Fin 4 → ℕ) :
    n ∈ momentumList L m cut ↔ (∀ μ, (n μ : ℝ) < m μ) ∧ momentumDeviation (waveVector L n) < cut := by
  unfold momentumList
  rw [List.mem_filter, decide_eq_true_iff]
  refine and_congr_left fun _ => ?_
  simp only [List.mem_flatMap, List.mem_map, mem_belowReal]
  constructor
  · rintro ⟨i, hi, j, hj, k, hk, l, hl, rfl⟩ μ
    fin_cases μ <;> assumption
  · intro h
    refine ⟨n 0, h 0, n 1, h 1, n 2, h 2, n 3, h 3, ?_⟩
    funext μ
    fin_cases μ <;> rfl

theorem nodup_momentumList (L : Fin 4 → ℕ) (m : Fin 4 → ℝ) (cut : ℝ) : (momentumList L m cut).Nodup := by
  unfold momentumList
  refine List.Nodup.filter _ ?_
  have h : ∀ x, (belowReal x).Nodup := fun x => List.nodup_range
  refine List.nodup_flatMap.2 ⟨fun i _ => List.nodup_flatMap.2 ⟨fun j _ => List.nodup_flatMap.2 ⟨fun k _ => ?_, ?_⟩, ?_⟩, ?_⟩
  · refine (h _).map fun l l' e => ?_
    have := congrFun e 3
    simpa using this
  · refine (h _).imp fun {a b} hab x hx hy => ?_
    simp only [List.mem_map] at hx hy
    obtain ⟨l, _, rfl⟩ := hx
    obtain ⟨l', _, e⟩ := hy
    have := congrFun e 2
    simp at this
    exact hab this.symm
  · refine (h _).imp fun {a b} hab x hx hy => ?_
    simp only [List.mem_map, List.mem_flatMap] at hx hy
    obtain ⟨_, _, l, _, rfl⟩ := hx
    obtain ⟨_, _, l', _, e⟩ := hy
    have := congrFun e 1
    simp at this
    exact hab this.symm
  · refine (h _).imp fun {a b} hab x hx hy => ?_
    simp only [List.mem_map, List.mem_flatMap] at hx hy
    obtain ⟨_, _, _, _, l, _, rfl⟩ := hx
    obtain ⟨_, _, _, _, l', _, e⟩ := hy
    have := congrFun e 0
    simp at this
    exact hab this.symm

theorem belowReal_cons (m : ℝ) (h : 0 < m) : ∃ l, belowReal m = 0 :: l := by
  unfold belowReal
  obtain ⟨k, hk⟩ : ∃ k, ⌈m⌉₊ = k + 1 := ⟨⌈m⌉₊ - 1, by have := Nat.ceil_pos.2 h; omega⟩
  exact ⟨(List.range k).map Nat.succ, by rw [hk, List.range_succ_eq_map]⟩

theorem momentumList_head (L : Fin 4 → ℕ) (m : Fin 4 → ℝ) (cut : ℝ) (hm : ∀ μ, 0 < m μ) (hc : 0 < cut) :
    ∃ l, momentumList L m cut = 0 :: l := by
  obtain ⟨l0, h0⟩ := belowReal_cons _ (hm 0)
  obtain ⟨l1, h1⟩ := belowReal_cons _ (hm 1)
  obtain ⟨l2, h2⟩ := belowReal_cons _ (hm 2)
  obtain ⟨l3, h3⟩ := belowReal_cons _ (hm 3)
  have hz : (![0, 0, 0, 0] : Fin 4 → ℕ) = 0 := by funext μ; fin_cases μ <;> rfl
  have hd : momentumDeviation (waveVector L 0) < cut := by
    have : waveVector L 0 = 0 := by funext μ; simp [waveVector]
    rw [this]
    simpa [momentumDeviation, meanMomentum] using hc
  unfold momentumList
  rw [h0, h1, h2, h3]
  simp only [List.flatMap_cons, List.map_cons, List.cons_append, hz, List.filter_cons, decide_eq_true_iff, hd, if_true]
  exact ⟨_, rfl⟩

/-! ### When the momentum vanishes -/

theorem momentumModulus_sq (k : Fin 4 → ℝ) : momentumModulus k ^ 2 = ∑ μ, latticeMomentum k μ ^ 2 := by
  unfold momentumModulus
  rw [Real.sq_sqrt (by
    have := fun μ => mul_self_nonneg (latticeMomentum k μ)
    linarith [this 0, this 1, this 2, this 3]), Fin.sum_univ_four]
  ring

theorem momentumModulus_nonneg (k : Fin 4 → ℝ) : 0 ≤ momentumModulus k := Real.sqrt_nonneg _

theorem abs_latticeMomentum_le (k : Fin 4 → ℝ) (μ : Fin 4) : |latticeMomentum k μ| ≤ momentumModulus k := by
  rw [← abs_of_nonneg (momentumModulus_nonneg k), ← sq_le_sq, momentumModulus_sq]
  exact Finset.single_le_sum (f := fun μ => latticeMomentum k μ ^ 2) (fun _ _ => sq_nonneg _) (Finset.mem_univ μ)

theorem latticeMomentum_lower (L n : Fin 4 → ℕ) (μ : Fin 4) (h0 : 0 < n μ) (h1 : n μ < L μ) :
    4 / (L μ : ℝ) ≤ latticeMomentum (waveVector L n) μ := by
  unfold latticeMomentum waveVector
  have hL : (0 : ℝ) < L μ := by exact_mod_cast lt_of_le_of_lt (Nat.zero_le _) h1
  have hn1 : (1 : ℝ) ≤ n μ := by exact_mod_cast h0
  have hn2 : (n μ : ℝ) + 1 ≤ L μ := by exact_mod_cast h1
  have hpi := Real.pi_pos
  have e : (n μ : ℝ) * 2 * Real.pi / L μ / 2 = n μ * Real.pi / L μ := by ring
  rw [e]
  suffices h : 2 / (L μ : ℝ) ≤ Real.sin (n μ * Real.pi / L μ) by
    calc 4 / (L μ : ℝ) = 2 * (2 / (L μ : ℝ)) := by ring
      _ ≤ _ := by linarith
  by_cases hc : (n μ : ℝ) * Real.pi / L μ ≤ Real.pi / 2
  · refine le_trans ?_ (Real.mul_le_sin (by positivity) hc)
    rw [show 2 / Real.pi * (n μ * Real.pi / L μ) = 2 * n μ / (L μ : ℝ) by field_simp]
    gcongr
    linarith
  · push Not at hc
    rw [← Real.sin_pi_sub]
    have e2 : Real.pi - n μ * Real.pi / L μ = (L μ - n μ) * Real.pi / L μ := by field_simp
    refine le_trans ?_ (Real.mul_le_sin ?_ ?_)
    · rw [e2, show 2 / Real.pi * ((L μ - n μ) * Real.pi / L μ) = 2 * (L μ - n μ) / (L μ : ℝ) by field_simp]
      gcongr
      linarith
    · rw [e2]
      have : (0 : ℝ) ≤ L μ - n μ := by linarith
      positivity
    · linarith

theorem momentumModulus_zero (L : Fin 4 → ℕ) : momentumModulus (waveVector L 0) = 0 := by
  simp [momentumModulus, latticeMomentum, waveVector]

/-- The test `modulus < 1e-16` finds the zero momentum. -/
theorem modulus_small_iff (L n : Fin 4 → ℕ) (hn : ∀ μ, n μ < L μ) (hL : ∀ μ, L μ ≤ 10 ^ 16) :
    momentumModulus (waveVector L n) < 0.0000000000000001 ↔ n = 0 := by
  constructor
  · intro h
    by_contra hne
    obtain ⟨μ, hμ⟩ := Function.ne_iff.1 hne
    have h0 : 0 < n μ := Nat.pos_of_ne_zero hμ
    have a := latticeMomentum_lower L n μ h0 (hn μ)
    have b := (le_abs_self _).trans (abs_latticeMomentum_le (waveVector L n) μ)
    have hLp : (0 : ℝ) < L μ := by exact_mod_cast lt_of_le_of_lt (Nat.zero_le _) (hn μ)
    have hLr : (L μ : ℝ) ≤ 10 ^ 16 := by exact_mod_cast hL μ
    have c : (4 : ℝ) / 10 ^ 16 ≤ 4 / L μ := by gcongr
    norm_num at h c
    linarith
  · rintro rfl
    rw [momentumModulus_zero]
    norm_num

theorem modulus_ne_zero (L n : Fin 4 → ℕ) (hn : ∀ μ, n μ < L μ) (h : n ≠ 0) : momentumModulus (waveVector L n) ≠ 0 := by
  obtain ⟨μ, hμ⟩ := Function.ne_iff.1 h
  have a := latticeMomentum_lower L n μ (Nat.pos_of_ne_zero hμ) (hn μ)
  have b := (le_abs_self _).trans (abs_latticeMomentum_le (waveVector L n) μ)
  have hLp : (0 : ℝ) < L μ := by exact_mod_cast lt_of_le_of_lt (Nat.zero_le _) (hn μ)
  have : (0 : ℝ) < 4 / L μ := by positivity
  linarith

/-! ### Symmetries -/

variable [Fintype S]

omit [Fintype S] in
theorem lieField_conj (g A : Mat N) (hg : g ∈ unitaryGroup (Fin N) ℂ) : lieField (g * A * gᴴ) = g * lieField A * gᴴ := by
  have h1 : gᴴ * g = 1 := mem_unitaryGroup_iff'.1 hg
  have h2 : g * gᴴ = 1 := mem_unitaryGroup_iff.1 hg
  have e : (1 / (2 * Complex.I)) • (g * A * gᴴ - (g * A * gᴴ)ᴴ) = g * ((1 / (2 * Complex.I)) • (A - Aᴴ)) * gᴴ := by
    rw [conjTranspose_mul, conjTranspose_mul, conjTranspose_conjTranspose, Matrix.mul_smul, Matrix.smul_mul, Matrix.mul_sub, Matrix.sub_mul,
      ← Matrix.mul_assoc]
  unfold lieField
  simp only
  rw [e]
  generalize (1 / (2 * Complex.I)) • (A - Aᴴ) = B
  have t : trace (g * B * gᴴ) = trace B := by rw [trace_mul_comm, ← Matrix.mul_assoc, h1, Matrix.one_mul]
  rw [t, Matrix.mul_sub, Matrix.sub_mul, Matrix.mul_smul, Matrix.smul_mul, Matrix.mul_one, h2]

theorem gluonWave_global (T : Torus S) (U : GField S N) (g : Mat N) (hg : g ∈ unitaryGroup (Fin N) ℂ) (k : Fin 4 → ℝ) (μ : Fin 4) :
    gluonWave T (gaugeTransform T (fun _ => g) U) k μ = g * gluonWave T U k μ * gᴴ := by
  unfold gluonWave gaugeTransform
  rw [Finset.mul_sum, Finset.sum_mul]
  refine Finset.sum_congr rfl fun s _ => ?_
  rw [lieField_conj g _ hg, Matrix.mul_smul, Matrix.smul_mul]

theorem gluonWave_translate (T : Torus S) (U : GField S N) (n : Fin 4 → ℕ) (ρ μ : Fin 4) :
    gluonWave T (fun s ν => U (T.sup ρ s) ν) (waveVector T.ext n) μ
      = eix (-waveVector T.ext n ρ) • gluonWave T U (waveVector T.ext n) μ := by
  unfold gluonWave
  rw [Finset.smul_sum]
  rw [← Equiv.sum_comp (T.sup ρ) fun s => eix (-waveVector T.ext n ρ) • eix (gluonPhase T (waveVector T.ext n) μ s) • lieField (U s μ)]
  refine Finset.sum_congr rfl fun s _ => ?_
  rw [gluonPhase_eq, gluonPhase_eq, eix_add, eix_add, eix_sup, smul_smul]
  congr 1
  have := eix_mul_neg (waveVector T.ext n ρ)
  linear_combination (-(eix (ghostPhase T (waveVector T.ext n) s) * eix (waveVector T.ext n μ / 2))) * this

/-! ### The three-point function -/

omit [Fintype S] in
/-- Any traceless matrix from its components. -/
theorem sum_gens (X : Mat N) (hX : trace X = 0) : ∑ c, trace (X * gens N c) • gens N c = (1 / 2 : ℂ) • X := by
  conv_rhs => rw [C30_complete N X hX, Finset.smul_sum]
  refine Finset.sum_congr rfl fun c _ => ?_
  rw [smul_smul, trace_mul_comm]
  congr 1
  ring

omit [Fintype S] in
theorem sum_component (M : Mat N) (z : Gen N → ℂ) : ∑ c, trace (M * gens N c) * z c = trace (M * ∑ c, z c • gens N c) := by
  rw [Finset.mul_sum, trace_sum]
  exact Finset.sum_congr rfl fun c _ => by rw [Matrix.mul_smul, trace_smul, smul_eq_mul, mul_comm]

omit [Fintype S] in
theorem sum_three (X Y Z : Mat N) (hX : trace X = 0) (hY : trace Y = 0) (hZ : trace Z = 0) :
    ∑ c1, ∑ c2, ∑ c3, trace ((gens N c1 * gens N c2 - gens N c2 * gens N c1) * gens N c3) * trace (X * gens N c1) * trace (Y * gens N c2)
      * trace (Z * gens N c3) = trace ((X * Y - Y * X) * Z) / 8 := by
  have h3 : ∀ c1 c2, ∑ c3, trace ((gens N c1 * gens N c2 - gens N c2 * gens N c1) * gens N c3) * trace (X * gens N c1) * trace (Y * gens N c2)
      * trace (Z * gens N c3) = trace ((Z * gens N c1 - gens N c1 * Z) * gens N c2) * trace (Y * gens N c2) * (trace (X * gens N c1) / 2) := by
    intro c1 c2
    have a := sum_component (gens N c1 * gens N c2 - gens N c2 * gens N c1) fun c => trace (Z * gens N c)
    rw [sum_gens Z hZ, Matrix.mul_smul, trace_smul, smul_eq_mul] at a
    have b : trace ((gens N c1 * gens N c2 - gens N c2 * gens N c1) * Z) = trace ((Z * gens N c1 - gens N c1 * Z) * gens N c2) := by
      rw [Matrix.sub_mul, Matrix.sub_mul, trace_sub, trace_sub, trace_mul_comm _ Z, ← Matrix.mul_assoc, Matrix.mul_assoc (gens N c2),
        trace_mul_comm (gens N c2)]
    calc _ = (∑ c3, trace ((gens N c1 * gens N c2 - gens N c2 * gens N c1) * gens N c3) * trace (Z * gens N c3))
          * (trace (X * gens N c1) * trace (Y * gens N c2)) := by
          rw [Finset.sum_mul]; exact Finset.sum_congr rfl fun _ _ => by ring
      _ = _ := by rw [a, b]; ring
  have h2 : ∀ c1, ∑ c2, trace ((Z * gens N c1 - gens N c1 * Z) * gens N c2) * trace (Y * gens N c2) * (trace (X * gens N c1) / 2)
      = trace ((Y * Z - Z * Y) * gens N c1) * trace (X * gens N c1) * (1 / 4) := by
    intro c1
    have a := sum_component (Z * gens N c1 - gens N c1 * Z) fun c => trace (Y * gens N c)
    rw [sum_gens Y hY, Matrix.mul_smul, trace_smul, smul_eq_mul] at a
    have b : trace ((Z * gens N c1 - gens N c1 * Z) * Y) = trace ((Y * Z - Z * Y) * gens N c1) := by
      rw [Matrix.sub_mul, Matrix.sub_mul, trace_sub, trace_sub, trace_mul_comm _ Y, ← Matrix.mul_assoc, Matrix.mul_assoc (gens N c1),
        trace_mul_comm (gens N c1)]
    rw [← Finset.sum_mul, a, b]
    ring
  have h1 : ∑ c1, trace ((Y * Z - Z * Y) * gens N c1) * trace (X * gens N c1) * (1 / 4) = trace ((X * Y - Y * X) * Z) / 8 := by
    have a := sum_component (Y * Z - Z * Y) fun c => trace (X * gens N c)
    rw [sum_gens X hX, Matrix.mul_smul, trace_smul, smul_eq_mul] at a
    have b : trace ((Y * Z - Z * Y) * X) = trace ((X * Y - Y * X) * Z) := by
      rw [Matrix.sub_mul, Matrix.sub_mul, trace_sub, trace_sub, trace_mul_comm _ X, ← Matrix.mul_assoc, Matrix.mul_assoc Z,
        trace_mul_comm Z]
    rw [← Finset.sum_mul, a, b]
    ring
  simp only [h3, h2, h1]

/-- The field at zero momentum, contracted with `p`. -/
def zeroWave (T : Torus S) (U : GField S N) (k : Fin 4 → ℝ) : Mat N :=
  ∑ ν, (latticeMomentum k ν : ℂ) • gluonWave T U (waveVector T.ext 0) ν

theorem trace_zeroWave (T : Torus S) (U : GField S N) (k : Fin 4 → ℝ) : trace (zeroWave T U k) = 0 := by
  unfold zeroWave
  rw [trace_sum]
  exact Finset.sum_eq_zero fun ν _ => by rw [trace_smul, trace_gluonWave, smul_zero]

theorem gluonThreePoint_eq (T : Torus S) (U : GField S N) (k : Fin 4 → ℝ) :
    gluonThreePoint T U (gluonPlus T U (waveVector T.ext 0)) k
      = (-Complex.I / 24) * (∑ μ, trace ((gluonWave T U k μ * zeroWave T U k - zeroWave T U k * gluonWave T U k μ) * (gluonWave T U k μ)ᴴ))
        / (momentumModulus k : ℂ) ^ 2 := by
  have key : ∀ μ, trace ((gluonWave T U k μ * zeroWave T U k - zeroWave T U k * gluonWave T U k μ) * (gluonWave T U k μ)ᴴ)
      = 8 * ∑ c1, ∑ c2, ∑ c3, ∑ ν, trace ((gens N c1 * gens N c2 - gens N c2 * gens N c1) * gens N c3) * gluonPlus T U k μ c1
        * gluonPlus T U (waveVector T.ext 0) ν c2 * gluonMinus T U k μ c3 * (latticeMomentum k ν : ℂ) := by
    intro μ
    have ht : trace (gluonWave T U k μ)ᴴ = 0 := by rw [trace_conjTranspose, trace_gluonWave, star_zero]
    have h := sum_three (gluonWave T U k μ) (zeroWave T U k) (gluonWave T U k μ)ᴴ (trace_gluonWave _ _ _ _) (trace_zeroWave _ _ _) ht
    rw [eq_div_iff (by norm_num)] at h
    rw [← h, mul_comm]
    congr 1
    refine Finset.sum_congr rfl fun c1 _ => Finset.sum_congr rfl fun c2 _ => Finset.sum_congr rfl fun c3 _ => ?_
    have hz : trace (zeroWave T U k * gens N c2) = ∑ ν, (latticeMomentum k ν : ℂ) * gluonPlus T U (waveVector T.ext 0) ν c2 := by
      unfold zeroWave
      rw [Finset.sum_mul, trace_sum]
      exact Finset.sum_congr rfl fun ν _ => by rw [Matrix.smul_mul, trace_smul, gluonPlus_eq, smul_eq_mul]
    rw [hz, ← gluonPlus_eq, ← gluonMinus_wave, Finset.mul_sum, Finset.sum_mul]
    exact Finset.sum_congr rfl fun ν _ => by ring
  simp only [key]
  unfold gluonThreePoint
  have e : (⟨0, -2⟩ : ℂ) = -2 * Complex.I := by apply Complex.ext <;> simp
  rw [e]
  have lhs : ∀ c1 c2 c3 μ ν, -2 * Complex.I * trace ((gens N c1 * gens N c2 - gens N c2 * gens N c1) * gens N c3)
      * gluonPlus T U k μ c1 * gluonPlus T U (waveVector T.ext 0) ν c2 * gluonMinus T U k μ c3 * (latticeMomentum k ν : ℂ)
      / (6 * (momentumModulus k : ℂ) * (momentumModulus k : ℂ))
      = (trace ((gens N c1 * gens N c2 - gens N c2 * gens N c1) * gens N c3)
      * gluonPlus T U k μ c1 * gluonPlus T U (waveVector T.ext 0) ν c2 * gluonMinus T U k μ c3 * (latticeMomentum k ν : ℂ))
      * (-Complex.I / 3 / (momentumModulus k : ℂ) ^ 2) := by
    intro c1 c2 c3 μ ν
    ring
  simp only [lhs, ← Finset.sum_mul]
  have swap : ∀ f : Gen N → Gen N → Gen N → Fin 4 → ℂ, ∑ c1, ∑ c2, ∑ c3, ∑ μ, f c1 c2 c3 μ = ∑ μ, ∑ c1, ∑ c2, ∑ c3, f c1 c2 c3 μ := by
    intro f
    rw [Finset.sum_comm' (s := Finset.univ (α := Fin 4)) (t := fun _ => Finset.univ) (t' := Finset.univ) (s' := fun _ => Finset.univ) (by simp)]
    refine Finset.sum_congr rfl fun c1 _ => ?_
    rw [Finset.sum_comm' (s := Finset.univ (α := Fin 4)) (t := fun _ => Finset.univ) (t' := Finset.univ) (s' := fun _ => Finset.univ) (by simp)]
    refine Finset.sum_congr rfl fun c2 _ => ?_
    rw [Finset.sum_comm]
  rw [swap, ← Finset.mul_sum]
  ring

omit [Fintype S] in
theorem trace_commutator_real (X Y : Mat N) (hY : Yᴴ = Y) : (trace ((X * Y - Y * X) * Xᴴ)).im = 0 := by
  have h : star (trace ((X * Y - Y * X) * Xᴴ)) = trace ((X * Y - Y * X) * Xᴴ) := by
    rw [← trace_conjTranspose, conjTranspose_mul, conjTranspose_sub, conjTranspose_mul, conjTranspose_mul, conjTranspose_conjTranspose, hY,
      Matrix.mul_sub, Matrix.sub_mul, trace_sub, trace_sub, ← Matrix.mul_assoc]
    congr 1
    rw [trace_mul_comm, Matrix.mul_assoc, Matrix.mul_assoc, trace_mul_comm, Matrix.mul_assoc]
  have := congrArg Complex.im h
  rw [Complex.star_def, Complex.conj_im] at this
  linarith

theorem zeroWave_herm (T : Torus S) (U : GField S N) (k : Fin 4 → ℝ) : (zeroWave T U k)ᴴ = zeroWave T U k := by
  unfold zeroWave gluonWave
  rw [conjTranspose_sum]
  refine Finset.sum_congr rfl fun ν _ => ?_
  rw [conjTranspose_smul, conjTranspose_sum, Complex.star_def, Complex.conj_ofReal]
  congr 1
  refine Finset.sum_congr rfl fun s _ => ?_
  have : gluonPhase T (waveVector T.ext 0) ν s = 0 := by simp [gluonPhase, waveVector]
  rw [this, eix_zero, conjTranspose_smul, star_one, lieField_herm]

end

end Leonard
