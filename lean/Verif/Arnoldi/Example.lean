import Verif.Arnoldi.Bounds

/-!
# Runs on a lattice of one site
-/

set_option autoImplicit false

namespace Leonard

open Matrix Polynomial

/-- A diagonal operator on one site with one colour. -/
noncomputable def diagLin (d : Fin 4 → ℝ) : SField Unit 1 →ₗ[ℂ] SField Unit 1 where
  toFun v := fun x => Matrix.of fun mu c => (d mu : ℂ) * v x mu c
  map_add' v w := by funext x; ext mu c; exact mul_add _ _ _
  map_smul' z v := by funext x; ext mu c; exact mul_left_comm _ _ _

theorem diagLin_apply (d : Fin 4 → ℝ) (v : SField Unit 1) (x : Unit) (mu : Fin 4) (c : Fin 1) : diagLin d v x mu c = (d mu : ℂ) * v x mu c := rfl

theorem unitDot (v w : SField Unit 1) : latticeDot v w = ∑ mu, starRingEnd ℂ (v () mu 0) * w () mu 0 := by
  unfold latticeDot
  rw [Fintype.sum_unique]
  exact Finset.sum_congr rfl fun mu _ => by rw [Fintype.sum_unique]; rfl

theorem diagLin_hermitian (d : Fin 4 → ℝ) (v w : SField Unit 1) : latticeDot v (diagLin d w) = latticeDot (diagLin d v) w := by
  rw [unitDot, unitDot]
  refine Finset.sum_congr rfl fun mu _ => ?_
  rw [diagLin_apply, diagLin_apply, map_mul, Complex.conj_ofReal]
  ring

theorem unitNorm (v : SField Unit 1) : latticeNorm2 v = ∑ mu, ‖v () mu 0‖ ^ 2 := by
  have h := latticeDot_self v
  rw [unitDot] at h
  have e : ∑ mu, starRingEnd ℂ (v () mu 0) * v () mu 0 = ((∑ mu, ‖v () mu 0‖ ^ 2 : ℝ) : ℂ) := by
    rw [Complex.ofReal_sum]
    exact Finset.sum_congr rfl fun mu _ => by rw [← Complex.normSq_eq_conj_mul_self, Complex.normSq_eq_norm_sq]
  rw [e] at h
  exact_mod_cast h.symm

theorem diagLin_low (d : Fin 4 → ℝ) (a : ℝ) (ha : ∀ mu, a ≤ d mu) (v : SField Unit 1) : a * latticeNorm2 v ≤ (latticeDot v (diagLin d v)).re := by
  have e : latticeDot v (diagLin d v) = ((∑ mu, d mu * ‖v () mu 0‖ ^ 2 : ℝ) : ℂ) := by
    rw [unitDot, Complex.ofReal_sum]
    refine Finset.sum_congr rfl fun mu _ => ?_
    rw [diagLin_apply, Complex.ofReal_mul, ← Complex.normSq_eq_norm_sq, Complex.normSq_eq_conj_mul_self]
    ring
  rw [e, Complex.ofReal_re, unitNorm, Finset.mul_sum]
  exact Finset.sum_le_sum fun mu _ => mul_le_mul_of_nonneg_right (ha mu) (by positivity)

variable {mode : EigenMode}

/-- The first vector is no eigenvector as long as it has components with different eigenvalues. -/
theorem residual_ne {d : Fin 4 → ℝ} (hm : mode.IsReal) {steps : ℕ} {s : ArnoldiState Unit 1} (hs : Arnoldi (modeLin (diagLin d) mode) steps 0 s) (a b : Fin 4) (hab : d a ≠ d b)
    (ha : s.V 0 () a 0 ≠ 0) (hb : s.V 0 () b 0 ≠ 0) : √(latticeNorm2 s.f) ≠ 0 := by
  intro h0
  have h1 : s.f = 0 := latticeNorm2_eq_zero ((Real.sqrt_eq_zero (latticeNorm2_nonneg' _)).1 h0)
  have h2 := hs.rel 0 le_rfl
  rw [if_pos rfl, h1, add_zero, sum_fin_below (m := 1) hs.lt (fun i => s.H i 0 • s.V i) (fun i hi => by rw [hs.zero i 0 (by omega), zero_smul]), Finset.sum_range_one, modeLin_apply] at h2
  obtain ⟨f1, f2⟩ := factor_sign hm
  rw [f1] at h2
  have h3 : ∀ mu, s.V 0 () mu 0 ≠ 0 → (mode.sign : ℂ) * d mu + 7 = s.H 0 0 := by
    intro mu hmu
    have h4 := congrFun (congrFun (congrFun h2 ()) mu) 0
    change (mode.sign : ℂ) * ((d mu : ℂ) * s.V 0 () mu 0) + 7 * s.V 0 () mu 0 = s.H 0 0 * s.V 0 () mu 0 at h4
    refine mul_right_cancel₀ hmu (Eq.trans ?_ h4)
    ring
  have h5 := (h3 a ha).trans (h3 b hb).symm
  have h6 : (mode.sign : ℂ) * (d a : ℂ) = (mode.sign : ℂ) * (d b : ℂ) := add_right_cancel h5
  have h7 : mode.sign * d a = mode.sign * d b := by exact_mod_cast h6
  apply hab
  have h8 := congrArg (fun x => mode.sign * x) h7
  simp only [← mul_assoc, f2, one_mul] at h8
  exact h8

theorem extendStep_some {S : Type} [Fintype S] {M : ℕ} (A : SField S M → SField S M) (j : ℕ) (s : ArnoldiState S M) (h : √(latticeNorm2 s.f) ≠ 0) : ∃ t, extendStep A j s = some t := by
  unfold extendStep
  simp only
  rw [if_neg h]
  exact ⟨_, rfl⟩

theorem extendArnoldi_two {S : Type} [Fintype S] {M : ℕ} (A : SField S M → SField S M) (s : ArnoldiState S M) (h : √(latticeNorm2 s.f) ≠ 0) :
    ∃ t, extendArnoldi A 0 2 s = some t := by
  obtain ⟨t, ht⟩ := extendStep_some A 0 s h
  refine ⟨t, ?_⟩
  change (extendStep A 0 s).bind some = some t
  rw [ht]
  rfl

theorem startArnoldi_some {S : Type} [Fintype S] {M : ℕ} (A : SField S M → SField S M) (start : SField S M) (old : ℕ → SField S M) (h : start ≠ 0) :
    ∃ s, startArnoldi A start old = some s := by
  unfold startArnoldi
  simp only
  rw [if_neg fun h0 => h (latticeNorm2_eq_zero ((Real.sqrt_eq_zero (latticeNorm2_nonneg' _)).1 h0))]
  exact ⟨_, rfl⟩

/-- A run with two vectors that does not break down, without restarts. -/
theorem exists_run {d : Fin 4 → ℝ} (hm : mode.IsReal) (eig : DenseSolver) {n extra : ℕ} (hne : extra + n = 2) (epsilon : ℝ) (start : SField Unit 1) (old : ℕ → SField Unit 1) (a b : Fin 4)
    (hab : d a ≠ d b) (ha : start () a 0 ≠ 0) (hb : start () b 0 ≠ 0) :
    ∃ r, maximumEigenvalues (modeApply (diagLin d) mode) (diagLin d) eig n extra 0 epsilon start old = some r := by
  obtain ⟨s0, h0⟩ := startArnoldi_some (modeLin (diagLin d) mode) start old (fun h => ha (by rw [h]; rfl))
  have hi := startArnoldi_inv (modeLin (diagLin d) mode) 2 (by norm_num) start old s0 h0
  obtain ⟨z, hz⟩ := startArnoldi_vector h0
  have hcomp : ∀ mu, start () mu 0 ≠ 0 → s0.V 0 () mu 0 ≠ 0 := by
    intro mu hmu h1
    apply hmu
    rw [hz]
    change z * s0.V 0 () mu 0 = 0
    rw [h1, mul_zero]
  obtain ⟨s, h1⟩ := extendArnoldi_two (modeLin (diagLin d) mode) s0 (residual_ne hm hi a b hab (hcomp a ha) (hcomp b hb))
  refine ⟨finishArnoldi (diagLin d) eig (extra + n) extra s, ?_⟩
  change (startArnoldi (modeLin (diagLin d) mode) start old).bind _ = _
  rw [h0]
  change (extendArnoldi (modeLin (diagLin d) mode) 0 (extra + n) s0).bind _ = _
  rw [← hne] at h1
  rw [h1]
  rfl

/-- After a restart at most one more component of the first vector vanishes. -/
theorem restart_components {d : Fin 4 → ℝ} (hm : mode.IsReal) (hd : Function.Injective d) {eig : DenseSolver} (he : eig.Correct) {s : ArnoldiState Unit 1}
    (hs : Full (modeLin (diagLin d) mode) (1 + 1) s) (G : Finset (Fin 4)) (hG : ∀ mu ∈ G, s.V 0 () mu 0 ≠ 0) :
    Arnoldi (modeLin (diagLin d) mode) (1 + 1) 0 (restartArnoldi eig (1 + 1) 1 s) ∧
    ∃ G' : Finset (Fin 4), G.card ≤ G'.card + 1 ∧ ∀ mu ∈ G', (restartArnoldi eig (1 + 1) 1 s).V 0 () mu 0 ≠ 0 := by
  classical
  obtain ⟨a1, _, _, r, hr, a4⟩ := restartArnoldi_inv he (n := 1) (extra := 1) le_rfl hs.1 hs.2
  refine ⟨a1, ?_⟩
  have hlen := sortedRitz_length eig (1 + 1) s.H
  generalize sortedRitz eig (1 + 1) s.H = l at hlen a4
  match l, hlen with
  | [x, y], _ =>
    have h1 : modeLin (diagLin d) mode (s.V 0) - y • s.V 0 = r • (restartArnoldi eig (1 + 1) 1 s).V 0 := by
      have h2 : ([x, y].drop 1).map (fun z => modeLin (diagLin d) mode - z • (1 : Module.End ℂ (SField Unit 1))) = [modeLin (diagLin d) mode - y • (1 : Module.End ℂ (SField Unit 1))] := rfl
      rw [h2, List.prod_singleton] at a4
      exact a4
    obtain ⟨f1, f2⟩ := factor_sign hm
    rw [modeLin_apply, f1] at h1
    have h3 : ∀ mu, ((mode.sign : ℂ) * d mu + 7 - y) * s.V 0 () mu 0 = r * (restartArnoldi eig (1 + 1) 1 s).V 0 () mu 0 := by
      intro mu
      have h4 := congrFun (congrFun (congrFun h1 ()) mu) 0
      change (mode.sign : ℂ) * ((d mu : ℂ) * s.V 0 () mu 0) + 7 * s.V 0 () mu 0 - y * s.V 0 () mu 0 = r * (restartArnoldi eig (1 + 1) 1 s).V 0 () mu 0 at h4
      rw [← h4]
      ring
    refine ⟨G.filter fun mu => (mode.sign : ℂ) * d mu + 7 - y ≠ 0, ?_, fun mu hmu => ?_⟩
    · rw [← Finset.card_filter_add_card_filter_not (s := G) fun mu => (mode.sign : ℂ) * d mu + 7 - y ≠ 0]
      refine Nat.add_le_add_left (Finset.card_le_one.2 fun u hu v hv => ?_) _
      have hu2 := not_not.1 (Finset.mem_filter.1 hu).2
      have hv2 := not_not.1 (Finset.mem_filter.1 hv).2
      have h6 : (mode.sign : ℂ) * (d u : ℂ) = (mode.sign : ℂ) * (d v : ℂ) := by linear_combination hu2 - hv2
      have h7 : mode.sign * d u = mode.sign * d v := by exact_mod_cast h6
      have h8 := congrArg (fun x => mode.sign * x) h7
      simp only [← mul_assoc, f2, one_mul] at h8
      exact hd h8
    · obtain ⟨hmu1, hmu2⟩ := Finset.mem_filter.1 hmu
      intro h5
      have h6 := h3 mu
      rw [h5, mul_zero] at h6
      exact mul_ne_zero hmu2 (hG mu hmu1) h6

theorem two_components {G : Finset (Fin 4)} (h : 2 ≤ G.card) : ∃ a ∈ G, ∃ b ∈ G, a ≠ b := Finset.one_lt_card.1 h

/-- A run with one pass of the loop over restarts. -/
theorem exists_run_restart {d : Fin 4 → ℝ} (hm : mode.IsReal) (hd : Function.Injective d) {eig : DenseSolver} (he : eig.Correct) (epsilon : ℝ) (start : SField Unit 1)
    (old : ℕ → SField Unit 1) (hst : ∀ mu, start () mu 0 ≠ 0) :
    ∃ r, maximumEigenvalues (modeApply (diagLin d) mode) (diagLin d) eig 1 1 1 epsilon start old = some r := by
  obtain ⟨s0, h0⟩ := startArnoldi_some (modeLin (diagLin d) mode) start old (fun h => hst 0 (by rw [h]; rfl))
  have hi := startArnoldi_inv (modeLin (diagLin d) mode) 2 (by norm_num) start old s0 h0
  obtain ⟨z, hz⟩ := startArnoldi_vector h0
  have hcomp : ∀ mu, s0.V 0 () mu 0 ≠ 0 := by
    intro mu h1
    apply hst mu
    rw [hz]
    change z * s0.V 0 () mu 0 = 0
    rw [h1, mul_zero]
  obtain ⟨s, h1⟩ := extendArnoldi_two (modeLin (diagLin d) mode) s0 (residual_ne hm hi 0 1 (fun h => absurd (hd h) (by decide)) (hcomp 0) (hcomp 1))
  have hs : Full (modeLin (diagLin d) mode) (1 + 1) s := start_full (n := 1) (extra := 1) le_rfl h0 h1
  have hV : s.V 0 = s0.V 0 := (extendArnoldi_inv _ hi (fun c hc => absurd hc (Nat.not_lt_zero c)) h1).2.2.2 0 le_rfl
  -- the first restart
  obtain ⟨a1, G1, c1, g1⟩ := restart_components hm hd he hs Finset.univ (fun mu _ => by rw [hV]; exact hcomp mu)
  rw [Finset.card_univ, Fintype.card_fin] at c1
  obtain ⟨a, ha, b, hb, hab⟩ := two_components (show 2 ≤ G1.card by omega)
  obtain ⟨s1, e1⟩ := extendArnoldi_two (modeLin (diagLin d) mode) _ (residual_ne hm a1 a b (fun h => hab (hd h)) (g1 a ha) (g1 b hb))
  have hs1 : Full (modeLin (diagLin d) mode) (1 + 1) s1 := cycle_full he (n := 1) (extra := 1) le_rfl hs e1
  have hV1 : s1.V 0 = (restartArnoldi eig (1 + 1) 1 s).V 0 :=
    (extendArnoldi_inv _ a1 (fun c hc => absurd hc (Nat.not_lt_zero c)) e1).2.2.2 0 le_rfl
  -- the second
  obtain ⟨a2, G2, c2, g2⟩ := restart_components hm hd he hs1 G1 (fun mu hmu => by rw [hV1]; exact g1 mu hmu)
  obtain ⟨a', ha', b', hb', hab'⟩ := two_components (show 2 ≤ G2.card by omega)
  obtain ⟨s2, e2⟩ := extendArnoldi_two (modeLin (diagLin d) mode) _ (residual_ne hm a2 a' b' (fun h => hab' (hd h)) (g2 a' ha') (g2 b' hb'))
  refine ⟨finishArnoldi (diagLin d) eig (1 + 1) 1 s2, ?_⟩
  change (startArnoldi (modeLin (diagLin d) mode) start old).bind _ = _
  rw [h0]
  change (extendArnoldi (modeLin (diagLin d) mode) 0 (1 + 1) s0).bind _ = _
  rw [h1]
  change (extendArnoldi (modeLin (diagLin d) mode) 0 (1 + 1) (restartArnoldi eig (1 + 1) 1 s)).bind _ = _
  rw [e1]
  change (extendArnoldi (modeLin (diagLin d) mode) 0 (1 + 1) (restartArnoldi eig (1 + 1) 1 s1)).bind _ = _
  rw [e2]
  change (if (finishArnoldi (diagLin d) eig (1 + 1) 1 s2).2 < epsilon then some (finishArnoldi (diagLin d) eig (1 + 1) 1 s2) else some (finishArnoldi (diagLin d) eig (1 + 1) 1 s2)) = _
  rw [ite_self]

end Leonard
