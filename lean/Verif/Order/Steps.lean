import Verif.Order.Props

/-!
# Number of steps at fixed length: lemmas
-/

set_option autoImplicit false

namespace Leonard

open Filter Asymptotics Finset Matrix
open scoped ContDiff Topology Matrix.Norms.Operator

variable {ι S : Type} {N : ℕ}

section
variable (E : ℝ → Mat N → Mat N → Mat N) (F : ι → GField S N → GField S N)

theorem mdRun_append (l m : List (MdOp ι)) (x : GField S N × GField S N) : mdRun E F (l ++ m) x = mdRun E F m (mdRun E F l x) := by
  simp [mdRun, List.foldl_append]

theorem mdRun_replicate (l : List (MdOp ι)) (n : ℕ) (x : GField S N × GField S N) :
    mdRun E F (List.replicate n l).flatten x = (mdRun E F l)^[n] x := by
  induction n generalizing x with
  | zero => rfl
  | succ n ih => rw [List.replicate_succ, List.flatten_cons, mdRun_append, ih, Function.iterate_succ_apply]

theorem mdRun_mom (f : ι) (a b : ℝ) (x : GField S N × GField S N) :
    mdRun E F [.mom f b] (mdRun E F [.mom f a] x) = mdRun E F [.mom f (a + b)] x := by
  refine Prod.ext rfl ?_
  funext s μ
  simp only [mdRun, List.foldl, mdStep]
  push_cast
  rw [add_smul]
  abel

/-- Merging the updates of the momenta at the ends of consecutive steps. -/
theorem mdRun_merge (f : ι) (a : ℝ) (inner : List (MdOp ι)) (k : ℕ) (x : GField S N × GField S N) :
    mdRun E F ([.mom f a] ++ (List.replicate k (inner ++ [.mom f (a + a)])).flatten ++ inner ++ [.mom f a]) x =
      (mdRun E F ([.mom f a] ++ inner ++ [.mom f a]))^[k + 1] x := by
  induction k generalizing x with
  | zero => simp
  | succ k ih =>
    rw [Function.iterate_succ_apply, ← ih]
    simp only [List.replicate_succ, List.flatten_cons, mdRun_append]
    rw [mdRun_mom]

end

/-- The list performs `n` times the list of one step. -/
def Repeats (n : ℕ) (l l1 : List (MdOp ι)) : Prop :=
  ∀ (S : Type) (N : ℕ) (E : ℝ → Mat N → Mat N → Mat N) (F : ι → GField S N → GField S N) (x : GField S N × GField S N),
    mdRun E F l x = (mdRun E F l1)^[n] x

theorem leapFrog_repeats {f : ι} {fs : List ι} {n : ℕ} {ns : List ℕ} {t : ℝ} {l : List (MdOp ι)} (h : leapFrog (f :: fs) (n :: ns) t = .ok l) :
    ∃ l1, leapFrog (f :: fs) (1 :: ns) (t / n) = .ok l1 ∧ Repeats n l l1 := by
  rw [leapFrog] at h
  split at h
  · cases h
  rename_i hn
  obtain ⟨inner, h1, h2⟩ := outcome_bind_ok h
  cases h2
  rw [leapFrog, if_neg one_ne_zero]
  simp only [Nat.cast_one, div_one]
  rw [h1, ok_bind]
  refine ⟨_, rfl, fun S N E F x => ?_⟩
  obtain ⟨k, rfl⟩ := Nat.exists_eq_succ_of_ne_zero hn
  have := mdRun_merge E F f (t / (k.succ : ℕ) / 2) inner k x
  rw [add_halves] at this
  simpa using this

theorem omelyan_repeats {f : ι} {fs : List ι} {n : ℕ} {ns : List ℕ} {t : ℝ} {l : List (MdOp ι)} (h : omelyan (f :: fs) (n :: ns) t = .ok l) :
    ∃ l1, omelyan (f :: fs) (1 :: ns) (t / n) = .ok l1 ∧ Repeats n l l1 := by
  rw [omelyan] at h
  split at h
  · cases h
  rename_i hn
  obtain ⟨inner, h1, h2⟩ := outcome_bind_ok h
  cases h2
  rw [omelyan, if_neg one_ne_zero]
  simp only [Nat.cast_one, div_one]
  rw [h1, ok_bind]
  refine ⟨_, rfl, fun S N E F x => ?_⟩
  obtain ⟨k, rfl⟩ := Nat.exists_eq_succ_of_ne_zero hn
  set step := t / ((k.succ : ℕ) : ℝ) with hstep
  have := mdRun_merge E F f (omelyanLambda * step) (inner ++ [.mom f ((1 - 2 * omelyanLambda) * step)] ++ inner) k x
  rw [← two_mul, ← mul_assoc] at this
  have e := flatten_replicate_shift (inner ++ [.mom f ((1 - 2 * omelyanLambda) * step)] ++ inner) [MdOp.mom f (2 * omelyanLambda * step)] k
  have e2 : [MdOp.mom f (omelyanLambda * step)] ++ inner ++ [.mom f ((1 - 2 * omelyanLambda) * step)] ++ inner ++
      (List.replicate k ([.mom f (2 * omelyanLambda * step)] ++ inner ++ [.mom f ((1 - 2 * omelyanLambda) * step)] ++ inner)).flatten ++
      [.mom f (omelyanLambda * step)] = [.mom f (omelyanLambda * step)] ++
      (List.replicate k ((inner ++ [.mom f ((1 - 2 * omelyanLambda) * step)] ++ inner) ++ [.mom f (2 * omelyanLambda * step)])).flatten ++
      (inner ++ [.mom f ((1 - 2 * omelyanLambda) * step)] ++ inner) ++ [.mom f (omelyanLambda * step)] := by
    rw [List.append_assoc [MdOp.mom f (omelyanLambda * step)] (List.flatten _), ← e]
    simp only [List.append_assoc]
  simp only [Nat.succ_sub_one, Nat.succ_eq_add_one] at e2 this ⊢
  rw [e2, this]
  simp

theorem fourthOmelyan_repeats {f : ι} {fs : List ι} {n : ℕ} {ns : List ℕ} {t : ℝ} {l : List (MdOp ι)}
    (h : fourthOmelyan (f :: fs) (n :: ns) t = .ok l) : ∃ l1, fourthOmelyan (f :: fs) (1 :: ns) (t / n) = .ok l1 ∧ Repeats n l l1 := by
  rw [fourthOmelyan] at h
  split at h
  · cases h
  rename_i hn
  obtain ⟨inner1, h1, h⟩ := outcome_bind_ok h
  obtain ⟨inner2, h2, h⟩ := outcome_bind_ok h
  obtain ⟨inner3, h3, h⟩ := outcome_bind_ok h
  cases h
  rw [fourthOmelyan, if_neg one_ne_zero]
  simp only [Nat.cast_one, div_one]
  rw [h1, ok_bind, h2, ok_bind, h3, ok_bind]
  refine ⟨_, rfl, fun S N E F x => ?_⟩
  rw [mdRun_replicate]
  simp

/-! ### Compactness -/

variable [Fintype S]

theorem uniform_bound {X : Type*} [TopologicalSpace X] {K : Set X} (hK : IsCompact K) (g : ℝ × X → ℝ) (m : ℕ)
    (h : ∀ x ∈ K, g =O[𝓝 (0, x)] fun q => q.1 ^ m) : ∃ δ > 0, ∃ C, ∀ t : ℝ, |t| < δ → ∀ x ∈ K, |g (t, x)| ≤ C * |t| ^ m := by
  refine hK.induction_on (p := fun K => ∃ δ > 0, ∃ C, ∀ t : ℝ, |t| < δ → ∀ x ∈ K, |g (t, x)| ≤ C * |t| ^ m) ?_ ?_ ?_ ?_
  · exact ⟨1, one_pos, 0, fun t _ x hx => absurd hx (Set.notMem_empty x)⟩
  · rintro s t hst ⟨δ, hδ, C, hC⟩
    exact ⟨δ, hδ, C, fun r hr x hx => hC r hr x (hst hx)⟩
  · rintro s t ⟨δ, hδ, C, hC⟩ ⟨δ', hδ', C', hC'⟩
    refine ⟨min δ δ', lt_min hδ hδ', max C C', fun r hr x hx => ?_⟩
    have hp : (0 : ℝ) ≤ |r| ^ m := by positivity
    rcases hx with hx | hx
    · exact (hC r (hr.trans_le (min_le_left _ _)) x hx).trans (mul_le_mul_of_nonneg_right (le_max_left _ _) hp)
    · exact (hC' r (hr.trans_le (min_le_right _ _)) x hx).trans (mul_le_mul_of_nonneg_right (le_max_right _ _) hp)
  · intro x hx
    obtain ⟨C, hC⟩ := (h x hx).bound
    rw [nhds_prod_eq] at hC
    obtain ⟨p, hp, q, hq, hpq⟩ := Filter.eventually_prod_iff.1 hC
    obtain ⟨δ, hδ, hball⟩ := Metric.eventually_nhds_iff.1 hp
    refine ⟨{y | q y}, mem_nhdsWithin_of_mem_nhds hq, δ, hδ, C, fun t ht y hy => ?_⟩
    have := hpq (hball (y := t) (by simpa using ht)) hy
    simpa [norm_pow] using this

theorem isCompact_su : IsCompact {A : Mat N | A ∈ specialUnitaryGroup (Fin N) ℂ} := by
  haveI : ProperSpace (Mat N) := FiniteDimensional.proper ℝ (Mat N)
  refine Metric.isCompact_of_isClosed_isBounded ?_ ?_
  · have e : {A : Mat N | A ∈ specialUnitaryGroup (Fin N) ℂ} = {A | A * Aᴴ = 1} ∩ {A | A.det = 1} := by
      ext A
      simp [mem_specialUnitaryGroup_iff, mem_unitaryGroup_iff, star_eq_conjTranspose]
    rw [e]
    have h1 : Continuous fun A : Mat N => A * Aᴴ := continuous_id.mul (contDiff_ct contDiff_id).continuous
    have h2 : Continuous fun A : Mat N => A.det := by
      have : ∀ i j, Continuous fun A : Mat N => A i j := fun i j => (contDiff_entry i j).continuous
      simp only [Matrix.det_apply]
      exact continuous_finset_sum _ fun σ _ => (continuous_finset_prod _ fun i _ => this _ _).const_smul _
    exact (isClosed_eq h1 continuous_const).inter (isClosed_eq h2 continuous_const)
  · refine isBounded_iff_forall_norm_le.2 ⟨N, fun A hA => ?_⟩
    rw [Matrix.linfty_opNorm_def]
    have hU : A ∈ unitaryGroup (Fin N) ℂ := (mem_specialUnitaryGroup_iff.1 hA).1
    have hb : ∀ i, ∑ j, ‖A i j‖₊ ≤ (N : NNReal) := by
      intro i
      calc ∑ j, ‖A i j‖₊ ≤ ∑ _j : Fin N, (1 : NNReal) := Finset.sum_le_sum fun j _ => entry_norm_bound_of_unitary hU i j
        _ = N := by simp
    exact_mod_cast Finset.sup_le fun i _ => hb i

/-- The configurations of the program. -/
def suFields (S : Type) (N : ℕ) : Set (GField S N) := {U | ∀ s μ, U s μ ∈ specialUnitaryGroup (Fin N) ℂ}

theorem isCompact_suFields : IsCompact (suFields S N) := by
  have h : suFields S N = Set.univ.pi fun _ => Set.univ.pi fun _ => {A : Mat N | A ∈ specialUnitaryGroup (Fin N) ℂ} := by
    ext U; simp [suFields]
  rw [h]
  exact isCompact_univ_pi fun _ => isCompact_univ_pi fun _ => isCompact_su

/-! ### Bounds along a trajectory -/

/-- Links in the group, and bounded momenta in its Lie algebra. -/
def InBall (R : ℝ) (x : GField S N × GField S N) : Prop := x.1 ∈ suFields S N ∧ (∀ s μ, IsLie (x.2 s μ)) ∧ ‖x.2‖ ≤ R

theorem force_bound {O : Set (GField S N)} (hO : suFields S N ⊆ O) {F : GField S N → GField S N} (hF : ContDiffOn ℝ ∞ F O) :
    ∃ M, 0 ≤ M ∧ ∀ U ∈ suFields S N, ‖F U‖ ≤ M := by
  obtain ⟨M, hM⟩ := isCompact_suFields.exists_bound_of_continuousOn (hF.continuousOn.mono hO)
  exact ⟨max M 0, le_max_right _ _, fun U hU => (hM U hU).trans (le_max_left _ _)⟩

/-- The momenta grow at most in proportion to the length. -/
theorem drift (eig : EigenSolver N) (he : eig.Correct) {O : Set (GField S N)} (hO : suFields S N ⊆ O) {F : ι → GField S N → GField S N}
    (hF : ∀ i, ContDiffOn ℝ ∞ (F i) O) (hlie : ∀ i U s μ, IsLie (F i U s μ)) (l : List (MdOp ι)) :
    ∃ b, 0 ≤ b ∧ ∀ R t x, InBall R x → InBall (R + |t| * b) (mdRun (eigenLink eig) F (l.map (MdOp.scale t)) x) := by
  induction l with
  | nil => exact ⟨0, le_rfl, fun R t x hx => by simpa [mdRun] using hx⟩
  | cons o l ih =>
    obtain ⟨b, hb, ih⟩ := ih
    have key : ∃ c, 0 ≤ c ∧ ∀ R t x, InBall R x → InBall (R + |t| * c) (mdRun (eigenLink eig) F [o.scale t] x) := by
      cases o with
      | link ε =>
        refine ⟨0, le_rfl, fun R t x hx => ?_⟩
        have h1 := C41_group eig he F hlie [MdOp.scale t (.link ε)] x hx.1 hx.2.1
        refine ⟨h1.1, h1.2, ?_⟩
        simpa [mdRun, mdStep, MdOp.scale] using hx.2.2
      | mom i ε =>
        obtain ⟨M, hM0, hM⟩ := force_bound hO (hF i)
        refine ⟨|ε| * M, by positivity, fun R t x hx => ?_⟩
        have h1 := C41_group eig he F hlie [MdOp.scale t (.mom i ε)] x hx.1 hx.2.1
        refine ⟨h1.1, h1.2, ?_⟩
        have e : (mdRun (eigenLink eig) F [MdOp.scale t (.mom i ε)] x).2 = x.2 - (t * ε) • F i x.1 := by
          funext s μ
          simp only [mdRun, List.foldl, mdStep, MdOp.scale]
          change x.2 s μ - ((t * ε : ℝ) : ℂ) • F i x.1 s μ = x.2 s μ - (t * ε) • F i x.1 s μ
          rw [Complex.coe_smul]
        rw [e]
        calc ‖x.2 - (t * ε) • F i x.1‖ ≤ ‖x.2‖ + ‖(t * ε) • F i x.1‖ := norm_sub_le _ _
          _ ≤ R + |t| * (|ε| * M) := by
            refine add_le_add hx.2.2 ?_
            rw [norm_smul, Real.norm_eq_abs, abs_mul, mul_assoc]
            exact mul_le_mul_of_nonneg_left (mul_le_mul_of_nonneg_left (hM _ hx.1) (abs_nonneg ε)) (abs_nonneg t)
    obtain ⟨c, hc, key⟩ := key
    refine ⟨c + b, add_nonneg hc hb, fun R t x hx => ?_⟩
    have := ih _ t _ (key R t x hx)
    rw [List.map_cons, show (o.scale t :: l.map (MdOp.scale t)) = [o.scale t] ++ l.map (MdOp.scale t) from rfl, mdRun_append]
    rw [mul_add, ← add_assoc]
    exact this

/-- Integrations with a number of steps: the energy changes by at most a constant over the square of the number, and the momenta stay bounded. -/
def GoodSteps (eig : EigenSolver N) (energy : GField S N → ℝ) (F : ι → GField S N → GField S N) (integ : ℕ → Outcome (List (MdOp ι))) : Prop :=
  ∀ R, ∃ R' C, 0 ≤ C ∧ ∀ n, n ≠ 0 → ∀ l, integ n = .ok l → ∀ x, InBall R x → InBall R' (mdRun (eigenLink eig) F l x) ∧
    |totalEnergy energy (mdRun (eigenLink eig) F l x) - totalEnergy energy x| ≤ C / n ^ 2

theorem GoodSteps.comp {eig : EigenSolver N} {energy : GField S N → ℝ} {F : ι → GField S N → GField S N} {i1 i2 : ℕ → Outcome (List (MdOp ι))}
    (h1 : GoodSteps eig energy F i1) (h2 : GoodSteps eig energy F i2) {i : ℕ → Outcome (List (MdOp ι))}
    (hi : ∀ n l, i n = .ok l → ∃ l1 l2, i1 n = .ok l1 ∧ i2 n = .ok l2 ∧ l = l1 ++ l2) : GoodSteps eig energy F i := by
  intro R
  obtain ⟨R1, C1, hC1, h1⟩ := h1 R
  obtain ⟨R2, C2, hC2, h2⟩ := h2 R1
  refine ⟨R2, C1 + C2, add_nonneg hC1 hC2, fun n hn l hl x hx => ?_⟩
  obtain ⟨l1, l2, e1, e2, rfl⟩ := hi n l hl
  obtain ⟨a1, b1⟩ := h1 n hn l1 e1 x hx
  obtain ⟨a2, b2⟩ := h2 n hn l2 e2 _ a1
  rw [mdRun_append]
  refine ⟨a2, ?_⟩
  have := abs_add_le (totalEnergy energy (mdRun (eigenLink eig) F l2 (mdRun (eigenLink eig) F l1 x)) -
    totalEnergy energy (mdRun (eigenLink eig) F l1 x)) (totalEnergy energy (mdRun (eigenLink eig) F l1 x) - totalEnergy energy x)
  rw [sub_add_sub_cancel] at this
  rw [add_div]
  linarith

theorem iterate_inBall {f : GField S N × GField S N → GField S N × GField S N} {b : ℝ} (h : ∀ R x, InBall R x → InBall (R + b) (f x)) (n : ℕ) {R : ℝ}
    {x : GField S N × GField S N} (hx : InBall R x) : InBall (R + n * b) (f^[n] x) := by
  induction n generalizing R x with
  | zero => simpa using hx
  | succ n ih =>
    have := ih (h R x hx)
    rw [Function.iterate_succ_apply]
    convert this using 1
    push_cast; ring

theorem goodSteps_base (eig : EigenSolver N) (he : eig.Correct) {O : Set (GField S N)} (hO : suFields S N ⊆ O) {energy : GField S N → ℝ}
    {F : ι → GField S N → GField S N} {forces : List ι} (h : Conservative O energy F forces) (integ : ℕ → ℝ → Outcome (List (MdOp ι)))
    (hrep : ∀ n t l, integ n t = .ok l → ∃ l1, integ 1 (t / n) = .ok l1 ∧ Repeats n l l1)
    (hscale : ∀ t, integ 1 (t * 1) = (integ 1 1).mapOk (List.map (MdOp.scale t)))
    (hp : ∀ l, integ 1 1 = .ok l → ∀ {R : Type} [Ring R] [Algebra ℝ R] (A : R) (B : ι → R),
      AgreeS 3 (runS A B l) (expS (A + (forces.map B).sum))) (t : ℝ) : GoodSteps eig energy F fun n => integ n t := by
  intro R
  cases h1 : integ 1 1 with
  | exit c =>
    refine ⟨R, 0, le_rfl, fun n hn l hl => ?_⟩
    obtain ⟨l1, e, _⟩ := hrep n t l hl
    have := hscale (t / n)
    rw [mul_one, e, h1] at this
    cases this
  | ub =>
    refine ⟨R, 0, le_rfl, fun n hn l hl => ?_⟩
    obtain ⟨l1, e, _⟩ := hrep n t l hl
    have := hscale (t / n)
    rw [mul_one, e, h1] at this
    cases this
  | ok l0 =>
    obtain ⟨b, hb, hdrift⟩ := drift eig he hO h.smooth_force h.lie l0
    set R' := R + |t| * b with hR'
    set K : Set (Phase S N) := suFields S N ×ˢ Metric.closedBall 0 R' with hK
    haveI : ProperSpace (Mat N) := FiniteDimensional.proper ℝ (Mat N)
    have hKc : IsCompact K := isCompact_suFields.prod (isCompact_closedBall _ _)
    obtain ⟨δ, hδ, C, hC⟩ := uniform_bound hKc (fun q : ℝ × Phase S N => bigEnergy energy (flowRun (opFlow F) l0 q.1 q.2) - bigEnergy energy q.2) 3
      fun x hx => energy_uniform (p := 2) h (fun A B => hp l0 h1 A B) x (hO hx.1)
    obtain ⟨M, hM⟩ := hKc.exists_bound_of_continuousOn ((contDiffOn_bigEnergy h.smooth_energy).continuousOn.mono
      (fun y hy => ⟨hO hy.1, trivial⟩ : K ⊆ O ×ˢ Set.univ))
    have hmemK : ∀ R1 ≤ R', ∀ x, InBall R1 x → x ∈ K := fun R1 hR1 x hx =>
      ⟨hx.1, by rw [mem_closedBall_zero_iff]; exact hx.2.2.trans hR1⟩
    refine ⟨R', |C| * |t| ^ 3 + 2 * |M| * (|t| / δ) ^ 2, by positivity, fun n hn l hl x hx => ?_⟩
    have hn' : (0 : ℝ) < n := by exact_mod_cast Nat.pos_of_ne_zero hn
    obtain ⟨l1, e, hr⟩ := hrep n t l hl
    have hl1 : l1 = l0.map (MdOp.scale (t / n)) := by
      have := hscale (t / n)
      rw [mul_one, e, h1] at this
      exact Outcome.ok.inj this
    set f := mdRun (eigenLink eig) F l1 with hf
    have hball : ∀ R x, InBall R x → InBall (R + |t / n| * b) (f x) := fun R x hx => by
      rw [hf, hl1]; exact hdrift R (t / n) x hx
    have habs : (n : ℝ) * |t / n| = |t| := by
      rw [abs_div, abs_of_pos hn']; field_simp
    have hk : ∀ k ≤ n, InBall R' (f^[k] x) := by
      intro k hkn
      have := iterate_inBall hball k hx
      refine ⟨this.1, this.2.1, this.2.2.trans ?_⟩
      rw [hR', ← habs, mul_assoc]
      have : (k : ℝ) * (|t / n| * b) ≤ n * (|t / n| * b) :=
        mul_le_mul_of_nonneg_right (by exact_mod_cast hkn) (by positivity)
      linarith
    rw [hr S N (eigenLink eig) F x]
    refine ⟨hk n le_rfl, ?_⟩
    have hH : ∀ R1 y, InBall R1 y → totalEnergy energy y = bigEnergy energy y := fun R1 y hy => (bigEnergy_eq energy y hy.2.1).symm
    by_cases hsmall : |t / n| < δ
    · have hstep : ∀ k < n, |totalEnergy energy (f^[k + 1] x) - totalEnergy energy (f^[k] x)| ≤ |C| * |t / n| ^ 3 := by
        intro k hkn
        have hy := hk k hkn.le
        have hy' := hk (k + 1) hkn
        rw [hH _ _ hy, hH _ _ hy', Function.iterate_succ_apply']
        have h2 := mdRun_eq_flowRun eig he h.lie l0 (t / n) (f^[k] x) hy.2.1
        rw [show f (f^[k] x) = flowRun (opFlow F) l0 (t / n) (f^[k] x) by rw [← h2.1, hf, hl1]]
        refine (hC (t / n) hsmall (f^[k] x) (hmemK _ le_rfl _ hy)).trans ?_
        exact mul_le_mul_of_nonneg_right (le_abs_self C) (by positivity)
      have hsum : ∀ k ≤ n, |totalEnergy energy (f^[k] x) - totalEnergy energy x| ≤ k * (|C| * |t / n| ^ 3) := by
        intro k
        induction k with
        | zero => intro _; simp
        | succ k ih =>
          intro hkn
          have h3 := abs_add_le (totalEnergy energy (f^[k + 1] x) - totalEnergy energy (f^[k] x)) (totalEnergy energy (f^[k] x) - totalEnergy energy x)
          rw [sub_add_sub_cancel] at h3
          have := ih (by omega)
          have := hstep k (by omega)
          push_cast
          linarith
      refine (hsum n le_rfl).trans ?_
      have e3 : (n : ℝ) * (|C| * |t / n| ^ 3) = |C| * |t| ^ 3 / n ^ 2 := by
        rw [abs_div, abs_of_pos hn']; field_simp
      rw [e3]
      refine div_le_div_of_nonneg_right ?_ (by positivity)
      have : (0 : ℝ) ≤ 2 * |M| * (|t| / δ) ^ 2 := by positivity
      linarith
    · push Not at hsmall
      have h4 : |totalEnergy energy (f^[n] x) - totalEnergy energy x| ≤ 2 * |M| := by
        have hy := hk n le_rfl
        have hx0 : InBall R' x := by simpa using hk 0 (Nat.zero_le n)
        rw [hH _ _ hy, hH _ _ hx0]
        have h5 := hM _ (hmemK _ le_rfl _ hy)
        have h6 := hM _ (hmemK _ le_rfl _ hx0)
        rw [Real.norm_eq_abs] at h5 h6
        have := abs_sub (bigEnergy energy (f^[n] x)) (bigEnergy energy x)
        have := le_abs_self M
        linarith
      refine h4.trans ?_
      have h7 : (1 : ℝ) ≤ (|t| / δ) ^ 2 / n ^ 2 := by
        rw [← div_pow]
        refine one_le_pow₀ ?_
        rw [div_div, le_div_iff₀ (by positivity), one_mul]
        rw [abs_div, abs_of_pos hn', le_div_iff₀ hn'] at hsmall
        exact hsmall
      rw [add_div, mul_div_assoc (2 * |M|)]
      have : (0 : ℝ) ≤ |C| * |t| ^ 3 / n ^ 2 := by positivity
      have : 2 * |M| ≤ 2 * |M| * ((|t| / δ) ^ 2 / n ^ 2) := le_mul_of_one_le_right (by positivity) h7
      linarith

end Leonard
