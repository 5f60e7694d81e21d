import Verif.Fixing.Spec
import Verif.Gauge.ExpMapProps
import Verif.Hmc.MomentaProps
import Verif.Smear.Props

/-!
# Lemmas about gauge fixing
-/

set_option autoImplicit false

namespace Leonard

open Matrix

variable {S : Type} {N : ℕ}

theorem GaugeEquiv.refl (G : Submonoid (Mat N)) (T : Torus S) (U : GField S N) : GaugeEquiv G T U U :=
  ⟨fun _ => 1, fun _ => G.one_mem, by funext s μ; simp [gaugeTransform]⟩

theorem GaugeEquiv.trans {G : Submonoid (Mat N)} {T : Torus S} {U V W : GField S N} (h : GaugeEquiv G T U V) (k : GaugeEquiv G T V W) :
    GaugeEquiv G T U W := by
  obtain ⟨g, hg, rfl⟩ := h
  obtain ⟨k, hk, rfl⟩ := k
  refine ⟨fun s => k s * g s, fun s => G.mul_mem (hk s) (hg s), ?_⟩
  funext s μ
  simp only [gaugeTransform, conjTranspose_mul, Matrix.mul_assoc]

theorem fixTransform_some {T : Torus S} {ω : S → Option (Mat N)} {U V : GField S N} (h : fixTransform T ω U = some V) :
    ∃ g : S → Mat N, (∀ s, ω s = some (g s)) ∧ V = gaugeTransform T g U := by
  unfold fixTransform at h
  split at h
  · rename_i hs
    refine ⟨fun s => (ω s).getD 0, fun s => ?_, ?_⟩
    · obtain ⟨a, ha⟩ := Option.isSome_iff_exists.1 (hs s)
      simp [ha]
    · exact (Option.some.inj h).symm
  · cases h

theorem fixTransform_equiv {G : Submonoid (Mat N)} {T : Torus S} {ω : S → Option (Mat N)} (hω : ∀ s g, ω s = some g → g ∈ G)
    {U V : GField S N} (h : fixTransform T ω U = some V) : GaugeEquiv G T U V := by
  obtain ⟨g, hg, rfl⟩ := fixTransform_some h
  exact ⟨g, fun s => hω s _ (hg s), rfl⟩

/-- What is kept of a replica: it is a transform of the input, with its functional. -/
structure Replica.Good (G : Submonoid (Mat N)) (T : Torus S) (F : GField S N → ℝ) (U : GField S N) (r : Replica S N) : Prop where
  equiv : GaugeEquiv G T U r.conf
  value : r.value = F r.conf

theorem acceptReplica_good {G : Submonoid (Mat N)} {T : Torus S} {F : GField S N → ℝ} {U : GField S N} (β : ℝ) (tmp : Option (GField S N))
    (u : ℝ) (r : Replica S N) (ht : ∀ V, tmp = some V → GaugeEquiv G T U V) (hr : r.Good G T F U) :
    (acceptReplica F β tmp u r).Good G T F U := by
  unfold acceptReplica
  split
  · split <;> exact hr
  · split
    · exact ⟨ht _ rfl, rfl⟩
    · exact hr

theorem improveBest_good {G : Submonoid (Mat N)} {T : Torus S} {F : GField S N → ℝ} {U : GField S N} (tmp : Option (GField S N))
    (r : Replica S N) (ht : ∀ V, tmp = some V → GaugeEquiv G T U V) (hr : r.Good G T F U) :
    (improveBest F tmp r).Good G T F U := by
  unfold improveBest
  split
  · exact hr
  · split
    · exact ⟨ht _ rfl, rfl⟩
    · exact hr

theorem improveBest_le (F : GField S N → ℝ) (tmp : Option (GField S N)) (r : Replica S N) : r.value ≤ (improveBest F tmp r).value := by
  unfold improveBest
  split
  · exact le_refl _
  · split
    · rename_i h; exact h.le
    · exact le_refl _

theorem improveBest_ge (F : GField S N → ℝ) (V : GField S N) (r : Replica S N) : F V ≤ (improveBest F (some V) r).value := by
  unfold improveBest
  simp only
  split
  · exact le_refl _
  · rename_i h; exact not_lt.1 h

structure Tempering.Good (G : Submonoid (Mat N)) (T : Torus S) (F : GField S N → ℝ) (U : GField S N) (x : Tempering S N) : Prop where
  r1 : x.r1.Good G T F U
  r2 : x.r2.Good G T F U
  r3 : x.r3.Good G T F U
  best : x.best.Good G T F U
  le : F U ≤ x.best.value
  le1 : F x.r1.conf ≤ x.best.value
  le2 : F x.r2.conf ≤ x.best.value
  le3 : F x.r3.conf ≤ x.best.value

theorem accept_le_best {F : GField S N → ℝ} (β : ℝ) (tmp : Option (GField S N)) (u : ℝ) (r best : Replica S N)
    (h : F r.conf ≤ best.value) : F (acceptReplica F β tmp u r).conf ≤ (improveBest F tmp best).value := by
  cases tmp with
  | none => unfold acceptReplica; simp only [ite_self]; exact h.trans (improveBest_le F none best)
  | some V =>
    unfold acceptReplica
    simp only
    split
    · exact improveBest_ge F V best
    · exact h.trans (improveBest_le F _ best)

theorem temperStep_good {G : Submonoid (Mat N)} {T : Torus S} {E : Mat N → Option (Mat N)} {threads : Bool} {F : GField S N → ℝ}
    {p : TemperPars} {d : TemperDraw S N} {U : GField S N} {x : Tempering S N}
    (hE : ∀ ε (k : GaugeDraw N) B, E (gaugeAlgebra threads ε k) = some B → B ∈ G) (hx : x.Good G T F U) :
    (temperStep T E threads F p d x).Good G T F U := by
  have htr : ∀ (r : Replica S N) ε (g : S → GaugeDraw N), r.Good G T F U → ∀ V, fixTransform T (randomGauge E threads ε g) r.conf = some V →
      GaugeEquiv G T U V := fun r ε g hr V hV =>
    hr.equiv.trans (fixTransform_equiv (fun s B hB => hE ε (g s) B hB) hV)
  unfold temperStep
  have k1 := acceptReplica_good (G := G) (T := T) (F := F) (U := U) p.β1 _ d.u1 x.r1 (htr x.r1 p.ε1 d.g1 hx.r1) hx.r1
  have k2 := acceptReplica_good (G := G) (T := T) (F := F) (U := U) p.β2 _ d.u2 x.r2 (htr x.r2 p.ε2 d.g2 hx.r2) hx.r2
  have k3 := acceptReplica_good (G := G) (T := T) (F := F) (U := U) p.β3 _ d.u3 x.r3 (htr x.r3 p.ε3 d.g3 hx.r3) hx.r3
  have b1 := improveBest_good (G := G) (T := T) (F := F) (U := U) _ x.best (htr x.r1 p.ε1 d.g1 hx.r1) hx.best
  have b2 := improveBest_good (G := G) (T := T) (F := F) (U := U) _ _ (htr x.r2 p.ε2 d.g2 hx.r2) b1
  have b3 := improveBest_good (G := G) (T := T) (F := F) (U := U) _ _ (htr x.r3 p.ε3 d.g3 hx.r3) b2
  have l1 := accept_le_best p.β1 (fixTransform T (randomGauge E threads p.ε1 d.g1) x.r1.conf) d.u1 x.r1 x.best hx.le1
  have l2 := accept_le_best p.β2 (fixTransform T (randomGauge E threads p.ε2 d.g2) x.r2.conf) d.u2 x.r2 _
    (hx.le2.trans (improveBest_le F (fixTransform T (randomGauge E threads p.ε1 d.g1) x.r1.conf) x.best))
  have l3 := accept_le_best p.β3 (fixTransform T (randomGauge E threads p.ε3 d.g3) x.r3.conf) d.u3 x.r3 _
    ((hx.le3.trans (improveBest_le F (fixTransform T (randomGauge E threads p.ε1 d.g1) x.r1.conf) x.best)).trans
      (improveBest_le F (fixTransform T (randomGauge E threads p.ε2 d.g2) x.r2.conf) _))
  have m1 := improveBest_le F (fixTransform T (randomGauge E threads p.ε1 d.g1) x.r1.conf) x.best
  have m2 := improveBest_le F (fixTransform T (randomGauge E threads p.ε2 d.g2) x.r2.conf)
    (improveBest F (fixTransform T (randomGauge E threads p.ε1 d.g1) x.r1.conf) x.best)
  have m3 := improveBest_le F (fixTransform T (randomGauge E threads p.ε3 d.g3) x.r3.conf)
    (improveBest F (fixTransform T (randomGauge E threads p.ε2 d.g2) x.r2.conf)
      (improveBest F (fixTransform T (randomGauge E threads p.ε1 d.g1) x.r1.conf) x.best))
  have l1' := l1.trans (m2.trans m3)
  have l2' := l2.trans m3
  have l0 := hx.le.trans (m1.trans (m2.trans m3))
  simp only
  split
  · split
    · exact ⟨k3, k1, k2, b3, l0, l3, l1', l2'⟩
    · exact ⟨k1, k3, k2, b3, l0, l1', l3, l2'⟩
  · split
    · exact ⟨k2, k1, k3, b3, l0, l2', l1', l3⟩
    · exact ⟨k1, k2, k3, b3, l0, l1', l2', l3⟩

theorem temper_good {G : Submonoid (Mat N)} {T : Torus S} {E : Mat N → Option (Mat N)} {threads : Bool} {F : GField S N → ℝ}
    (p : TemperPars) (d : ℕ → TemperDraw S N) (U : GField S N)
    (hE : ∀ ε (k : GaugeDraw N) B, E (gaugeAlgebra threads ε k) = some B → B ∈ G) (n : ℕ) :
    (temper T E threads F p d U n).Good G T F U := by
  induction n with
  | zero =>
    have g : (⟨U, F U⟩ : Replica S N).Good G T F U := ⟨GaugeEquiv.refl G T U, rfl⟩
    exact ⟨g, g, g, g, le_refl _, le_refl _, le_refl _, le_refl _⟩
  | succ n ih => exact temperStep_good hE ih

/-! ### The Landau gauge -/

theorem landauLocal_good [Fintype S] {G : Submonoid (Mat N)} {site : Mat N → Option (Mat N)} {T : Torus S} {U : GField S N}
    {localSteps outputSteps : ℕ} {precision : ℝ}
    (hsite : ∀ V, GaugeEquiv G T U V → ∀ s g, site (landauStaple T V s) = some g → g ∈ G) (left : ℕ) :
    ∀ (c : ℝ) (r r' : Replica S N), r.Good G T landauFunctional U → landauLocal site T localSteps outputSteps precision left c r = .ok r' →
      r'.Good G T landauFunctional U ∧ r.value ≤ r'.value := by
  induction left with
  | zero =>
    intro c r r' hr h
    simp only [landauLocal, Outcome.ok.injEq] at h
    subst h
    exact ⟨hr, le_refl _⟩
  | succ left ih =>
    intro c r r' hr h
    rw [landauLocal] at h
    simp only at h
    split at h
    · cases h
    split at h
    · simp only [Outcome.ok.injEq] at h
      subst h
      exact ⟨hr, le_refl _⟩
    split at h
    · exact ih _ _ _ hr h
    · rename_i V hV
      split at h
      · rename_i hpos
        have hG : (⟨V, landauFunctional V⟩ : Replica S N).Good G T landauFunctional U := by
          refine ⟨hr.equiv.trans (fixTransform_equiv (fun s g hg => ?_) hV), rfl⟩
          unfold landauOverrelax at hg
          split at hg
          · exact hsite _ hr.equiv s g hg
          · rw [← Option.some.inj hg]; exact G.one_mem
        obtain ⟨h1, h2⟩ := ih _ _ _ hG h
        refine ⟨h1, le_trans ?_ h2⟩
        show r.value ≤ landauFunctional V
        linarith
      · exact ih _ _ _ hr h

theorem landauFix_good [Fintype S] {G : Submonoid (Mat N)} {E site : Mat N → Option (Mat N)} {threads : Bool} {T : Torus S} {p : TemperPars}
    {steps localSteps outputSteps : ℕ} {precision : ℝ} {d : ℕ → TemperDraw S N} {U : GField S N} {r : Replica S N}
    (hE : ∀ ε (k : GaugeDraw N) B, E (gaugeAlgebra threads ε k) = some B → B ∈ G)
    (hsite : ∀ V, GaugeEquiv G T U V → ∀ s g, site (landauStaple T V s) = some g → g ∈ G)
    (h : landauFix E site threads T p steps localSteps outputSteps precision d U = .ok r) :
    r.Good G T landauFunctional U ∧ landauFunctional U ≤ r.value := by
  have ht := temper_good (G := G) (T := T) (F := landauFunctional) (threads := threads) p d U hE steps
  obtain ⟨h1, h2⟩ := landauLocal_good hsite _ _ _ _ ht.best h
  exact ⟨h1, ht.le.trans h2⟩

theorem landauCopies_mem [Fintype S] {E site : Mat N → Option (Mat N)} {threads : Bool} {T : Torus S} {o : LandauPars}
    {d : ℕ → ℕ → TemperDraw S N} {U : GField S N} (n : ℕ) :
    ∀ l, landauCopies E site threads T o d U n = .ok l → l.length = n ∧ ∀ (i : ℕ) (hi : i < l.length),
      landauFix E site threads T o.temper o.steps o.localSteps o.outputSteps o.precision (d i) U = .ok l[i] := by
  induction n with
  | zero =>
    intro l h
    simp only [landauCopies, Outcome.ok.injEq] at h
    subst h
    exact ⟨rfl, fun i hi => absurd hi (by simp)⟩
  | succ n ih =>
    intro l h
    rw [landauCopies] at h
    obtain ⟨l', h1, h2⟩ := outcome_bind_ok h
    obtain ⟨r, h3, h4⟩ := outcome_bind_ok h2
    simp only [Outcome.ok.injEq] at h4
    subst h4
    obtain ⟨hl, hr⟩ := ih l' h1
    refine ⟨by simp [hl], fun i hi => ?_⟩
    by_cases hin : i < l'.length
    · rw [List.getElem_append_left hin]; exact hr i hin
    · have : i = n := by simp at hi; omega
      subst this
      rw [List.getElem_append_right (by omega)]
      simpa [hl] using h3

/-- The selection loop. -/
theorem select_fold (l : List (Replica S N)) (k : ℕ) (m : ℝ × ℕ) :
    let q := (l.zipIdx k).foldl (fun m r => if m.1 < r.1.value then (r.1.value, r.2) else m) m
    m.1 ≤ q.1 ∧ (∀ r ∈ l, r.value ≤ q.1) ∧ (q = m ∨ ∃ (i : ℕ) (hi : i < l.length), q = (l[i].value, k + i)) := by
  induction l generalizing k m with
  | nil => simp
  | cons r l ih =>
    simp only [List.zipIdx_cons, List.foldl_cons]
    generalize hm' : (if m.1 < r.value then (r.value, k) else m) = m'
    obtain ⟨h1, h2, h3⟩ := ih (k + 1) m'
    have hm : m.1 ≤ m'.1 ∧ r.value ≤ m'.1 := by
      subst hm'
      by_cases h : m.1 < r.value
      · rw [if_pos h]; exact ⟨h.le, le_refl _⟩
      · rw [if_neg h]; exact ⟨le_refl _, not_lt.1 h⟩
    refine ⟨hm.1.trans h1, ?_, ?_⟩
    · intro x hx
      rcases List.mem_cons.1 hx with rfl | hx
      · exact hm.2.trans h1
      · exact h2 x hx
    · rcases h3 with h3 | ⟨i, hi, h3⟩
      · rw [h3]
        by_cases h : m.1 < r.value
        · right
          refine ⟨0, by simp, ?_⟩
          rw [← hm', if_pos h]; simp
        · left
          rw [← hm', if_neg h]
      · right
        refine ⟨i + 1, by simp; omega, ?_⟩
        rw [h3]
        simp only [List.getElem_cons_succ, Prod.mk.injEq, true_and]
        omega

theorem landauSelect_lt (l : List (Replica S N)) (hl : 0 < l.length) : (landauSelect l).2 < l.length := by
  obtain ⟨_, _, h3⟩ := select_fold l 0 (0, 0)
  unfold landauSelect
  rcases h3 with h3 | ⟨i, hi, h3⟩
  · rw [h3]; exact hl
  · rw [h3]; simpa using hi

theorem landauSelect_best (l : List (Replica S N)) (r s : Replica S N) (hr : r ∈ l) (hpos : 0 < r.value)
    (hs : l[(landauSelect l).2]? = some s) : r.value ≤ s.value := by
  obtain ⟨_, h2, h3⟩ := select_fold l 0 (0, 0)
  have h2 := h2 r hr
  unfold landauSelect at hs
  rcases h3 with h3 | ⟨i, hi, h3⟩
  · rw [h3] at h2
    exact absurd h2 (not_le.2 hpos)
  · rw [h3] at h2 hs
    rw [Nat.zero_add, List.getElem?_eq_getElem hi] at hs
    rw [← Option.some.inj hs]
    exact h2

/-! ### The group elements -/

theorem gaugeAlgebra_lie (threads : Bool) (ε : ℝ) (d : GaugeDraw N) : IsLie (gaugeAlgebra threads ε d) := C45_lie _ _ _

theorem expSu2_mem (A B : Mat 2) (hA : IsLie A) (h : expSu2 A = some B) : B ∈ specialUnitaryGroup (Fin 2) ℂ := by
  by_cases h0 : A = 0
  · subst h0
    rw [C26_counterexample_zero.2.1] at h; cases h
  · rw [C26_two_colours_partial A hA h0] at h
    rw [← Option.some.inj h]
    exact exp_mem_su A hA

theorem ofReal_cpow_half (x : ℝ) (hx : 0 ≤ x) : (x : ℂ) ^ (1 / 2 : ℂ) = (Real.sqrt x : ℂ) := by
  have h : (1 / 2 : ℂ) = ((1 / 2 : ℝ) : ℂ) := by norm_num
  rw [h, ← Complex.ofReal_cpow hx, Real.sqrt_eq_rpow]

theorem landauSite2_mem (M B : Mat 2) (hM : IsQuat M) (h : landauSite2 M = some B) : B ∈ specialUnitaryGroup (Fin 2) ℂ := by
  unfold landauSite2 at h
  split at h
  · cases h
  rename_i hdet
  rw [hM.det] at hdet
  have hq : quatNorm M ≠ 0 := fun h0 => hdet (by rw [h0]; simp)
  have hq0 : 0 < quatNorm M := lt_of_le_of_ne IsQuat.quatNorm_nonneg (Ne.symm hq)
  rw [← Option.some.inj h]
  have e : (Matrix.of fun i j => M i j / M.det ^ (1 / 2 : ℂ)) = (((Real.sqrt (quatNorm M))⁻¹ : ℝ) : ℂ) • M := by
    ext i j
    rw [hM.det, ofReal_cpow_half _ IsQuat.quatNorm_nonneg]
    simp [div_eq_inv_mul]
  rw [e]
  have hQ := (hM.smul (Real.sqrt (quatNorm M))⁻¹)
  have hn : quatNorm ((((Real.sqrt (quatNorm M))⁻¹ : ℝ) : ℂ) • M) = 1 := by
    rw [IsQuat.quatNorm_smul, inv_pow, Real.sq_sqrt hq0.le, inv_mul_cancel₀ hq]
  exact IsQuat.mem_su2 hQ.conjTranspose (by rw [IsQuat.quatNorm_conjTranspose hQ, hn])

theorem ct_mem_unitary {A : Mat N} (h : A ∈ unitaryGroup (Fin N) ℂ) : Aᴴ ∈ unitaryGroup (Fin N) ℂ := by
  rw [mem_unitaryGroup_iff, Matrix.star_eq_conjTranspose, conjTranspose_conjTranspose]
  exact mem_unitaryGroup_iff'.1 h

theorem ct_mem_su {A : Mat N} (h : A ∈ specialUnitaryGroup (Fin N) ℂ) : Aᴴ ∈ specialUnitaryGroup (Fin N) ℂ := by
  rw [mem_specialUnitaryGroup_iff] at h ⊢
  exact ⟨ct_mem_unitary h.1, by rw [det_conjTranspose, h.2, star_one]⟩

theorem isQuat_gaugeEquiv {T : Torus S} {U V : GField S 2} (hU : ∀ s μ, U s μ ∈ specialUnitaryGroup (Fin 2) ℂ)
    (h : GaugeEquiv (specialUnitaryGroup (Fin 2) ℂ) T U V) (s : S) (μ : Fin 4) : V s μ ∈ specialUnitaryGroup (Fin 2) ℂ := by
  obtain ⟨g, hg, rfl⟩ := h
  exact mul_mem (mul_mem (hg s) (hU s μ)) (ct_mem_su (hg _))

theorem isQuat_landauStaple {T : Torus S} {V : GField S 2} (hV : ∀ s μ, V s μ ∈ specialUnitaryGroup (Fin 2) ℂ) (s : S) :
    IsQuat (landauStaple T V s) :=
  IsQuat.sum _ _ fun μ _ => (IsQuat.of_su2 (hV s μ)).1.add (IsQuat.of_su2 (hV _ μ)).1.conjTranspose

theorem exists_correctHerm : ∃ eig : EigenSolver N, eig.CorrectHerm := by
  classical
  have key : ∀ A : Mat N, Aᴴ = A → ∃ p : (Fin N → ℂ) × Mat N, p.2 ∈ unitaryGroup (Fin N) ℂ ∧ A = p.2 * Matrix.diagonal p.1 * p.2ᴴ := by
    intro A hA
    obtain ⟨V, ev, hV, h⟩ := lie_diagonal (Complex.I • A) (by rw [conjTranspose_smul, hA]; simp)
    refine ⟨(fun i => ev i, V), hV, ?_⟩
    have e : A = (-Complex.I) • (Complex.I • A) := by rw [smul_smul]; simp
    rw [e, h, ← Matrix.smul_mul, ← Matrix.mul_smul, ← Matrix.diagonal_smul]
    congr 3
    funext i
    show -Complex.I * (Complex.I * ev i) = _
    rw [← mul_assoc]; simp
  refine ⟨fun A => if h : Aᴴ = A then Classical.choose (key A h) else (0, 0), fun A hA => ?_⟩
  simp only [dif_pos hA]
  exact Classical.choose_spec (key A hA)

/-- The eigenvalues of `Q†Q` are not negative. -/
theorem eigenvalue_nonneg {Q m : Mat N} {d : Fin N → ℂ} (hm : m ∈ unitaryGroup (Fin N) ℂ) (h : Qᴴ * Q = m * Matrix.diagonal d * mᴴ)
    (i : Fin N) : ∃ x : ℝ, 0 ≤ x ∧ d i = x := by
  have hmm : mᴴ * m = 1 := mem_unitaryGroup_iff'.1 hm
  have e : Matrix.diagonal d = (Q * m)ᴴ * (Q * m) := by
    rw [conjTranspose_mul, Matrix.mul_assoc, ← Matrix.mul_assoc Qᴴ, h]
    calc Matrix.diagonal d = (mᴴ * m) * Matrix.diagonal d * (mᴴ * m) := by rw [hmm]; simp
      _ = _ := by simp only [Matrix.mul_assoc]
  have hi : d i = ∑ k, star ((Q * m) k i) * (Q * m) k i := by
    have := congrFun (congrFun e i) i
    rw [Matrix.diagonal_apply_eq, Matrix.mul_apply] at this
    simpa [Matrix.conjTranspose_apply] using this
  refine ⟨∑ k, Complex.normSq ((Q * m) k i), Finset.sum_nonneg fun k _ => Complex.normSq_nonneg _, ?_⟩
  rw [hi, Complex.ofReal_sum]
  refine Finset.sum_congr rfl fun k _ => ?_
  rw [Complex.star_def, mul_comm, Complex.mul_conj]

theorem polarFactor_unitary {eig : EigenSolver N} (he : eig.CorrectHerm) {Q ω : Mat N} (h : polarFactor eig Q = some ω) :
    ω ∈ unitaryGroup (Fin N) ℂ := by
  unfold polarFactor at h
  simp only at h
  split at h
  · cases h
  rename_i hne
  push Not at hne
  obtain ⟨hm, hA⟩ := he (Qᴴ * Q) (by rw [conjTranspose_mul, conjTranspose_conjTranspose])
  generalize (eig (Qᴴ * Q)).1 = d at *
  generalize (eig (Qᴴ * Q)).2 = m at *
  rw [← Option.some.inj h]
  have hmm : mᴴ * m = 1 := mem_unitaryGroup_iff'.1 hm
  have hmm' : m * mᴴ = 1 := mem_unitaryGroup_iff.1 hm
  rw [mem_unitaryGroup_iff', Matrix.star_eq_conjTranspose]
  have hd : ∀ i, star (1 / d i ^ (1 / 2 : ℂ)) * d i * (1 / d i ^ (1 / 2 : ℂ)) = 1 := by
    intro i
    obtain ⟨x, hx, hdx⟩ := eigenvalue_nonneg hm hA i
    have hx0 : x ≠ 0 := fun h0 => hne i (by rw [hdx, h0]; simp)
    have hs : (Real.sqrt x : ℂ) ≠ 0 := by
      rw [Ne, Complex.ofReal_eq_zero, Real.sqrt_eq_zero hx]; exact hx0
    rw [hdx, ofReal_cpow_half x hx, star_div₀, star_one, Complex.star_def, Complex.conj_ofReal]
    have hxx : (x : ℂ) = (Real.sqrt x : ℂ) * (Real.sqrt x : ℂ) := by
      rw [← Complex.ofReal_mul, Real.mul_self_sqrt hx]
    rw [hxx]
    field_simp
  generalize hr : (fun i => 1 / d i ^ (1 / 2 : ℂ)) = r at *
  have hr' : ∀ i, star (r i) * d i * r i = 1 := by intro i; rw [← hr]; exact hd i
  have e2 : (Q * m * Matrix.diagonal r * mᴴ)ᴴ * (Q * m * Matrix.diagonal r * mᴴ)
      = m * ((Matrix.diagonal r)ᴴ * (mᴴ * (Qᴴ * Q) * m) * Matrix.diagonal r) * mᴴ := by
    simp only [conjTranspose_mul, conjTranspose_conjTranspose, Matrix.mul_assoc]
  have e3 : mᴴ * (Qᴴ * Q) * m = Matrix.diagonal d := by
    rw [hA]
    calc mᴴ * (m * Matrix.diagonal d * mᴴ) * m = (mᴴ * m) * Matrix.diagonal d * (mᴴ * m) := by simp only [Matrix.mul_assoc]
      _ = _ := by rw [hmm]; simp
  rw [e2, e3, Matrix.diagonal_conjTranspose, Matrix.diagonal_mul_diagonal, Matrix.diagonal_mul_diagonal]
  have : (fun i => (star r) i * d i * r i) = fun _ => 1 := by funext i; exact hr' i
  rw [this, Matrix.diagonal_one, Matrix.mul_one, hmm']

theorem landauSiteN_unitary {eig : EigenSolver N} (he : eig.CorrectHerm) {M g : Mat N} (h : landauSiteN eig M = some g) :
    g ∈ unitaryGroup (Fin N) ℂ := by
  unfold landauSiteN at h
  have key : ∀ (l : List (Fin N × Fin N)) (x : Option (Mat N × Mat N)), (∀ y, x = some y → y.1 ∈ unitaryGroup (Fin N) ℂ) →
      ∀ y, l.foldl (fun x kl => landauPair eig kl x) x = some y → y.1 ∈ unitaryGroup (Fin N) ℂ := by
    intro l
    induction l with
    | nil => intro x hx y hy; exact hx y hy
    | cons kl l ih =>
      intro x hx y hy
      rw [List.foldl_cons] at hy
      refine ih _ ?_ y hy
      intro z hz
      unfold landauPair at hz
      split at hz
      · cases hz
      rename_i g M
      split at hz
      · cases hz
      rename_i ω hω
      have hu := polarFactor_unitary he hω
      split at hz
      · rw [← Option.some.inj hz]; exact hx _ rfl
      · rw [← Option.some.inj hz]
        exact mul_mem (ct_mem_unitary hu) (hx _ rfl)
  rw [Option.map_eq_some_iff] at h
  obtain ⟨y, hy, rfl⟩ := h
  refine key _ _ ?_ y hy
  intro z hz
  rw [← Option.some.inj hz]
  exact one_mem _

end Leonard
