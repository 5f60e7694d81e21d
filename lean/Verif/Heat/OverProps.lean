import Verif.Heat.Reflect
import Verif.Heat.Props

/-!
# C65: overrelaxation keeps the Boltzmann distribution

Exact arithmetic, one process.
-/

set_option autoImplicit false

namespace Leonard

open MeasureTheory Set Real Matrix ComplexConjugate
open scoped ENNReal

variable {N : ℕ} {S : Type} [DecidableEq S]

/-! ### Two colours -/

/-- The reflection of one link. -/
noncomputable def reflect2 (stap : GField S 2 → S → Fin 4 → Mat 2) (s : S) (μ : Fin 4) (Q : LinkSU S 2) (g : SU 2) : SU 2 :=
  if quatNorm (stap (linkMat Q) s μ) > 0.0001 then (dir (coordsOf (stap (linkMat Q) s μ)))⁻¹ * g⁻¹ * (dir (coordsOf (stap (linkMat Q) s μ)))⁻¹ else g

theorem reflect2_val (stap : GField S 2 → S → Fin 4 → Mat 2) (hq : ∀ (Q : LinkSU S 2) s μ, IsQuat (stap (linkMat Q) s μ)) (s : S) (μ : Fin 4)
    (Q : LinkSU S 2) (g : SU 2) : (reflect2 stap s μ Q g).1 = overrelax2 g.1 (stap (linkMat Q) s μ) := by
  have h := hq Q s μ
  unfold reflect2 overrelax2
  simp only [h.norm_det]
  rw [abs_of_nonneg IsQuat.quatNorm_nonneg]
  split
  · rename_i hp
    generalize stap (linkMat Q) s μ = W at h hp
    have hp' : 0 < quatNorm W := lt_trans (by norm_num) hp
    have hs : sqNorm (coordsOf W) = quatNorm W := by rw [← quatNorm_quatOf, quatOf_coordsOf h]
    have hd : (dir (coordsOf W)).1 = ((1 / √(quatNorm W) : ℝ) : ℂ) • W := by
      rw [dir_val (by rw [hs]; exact hp'.ne'), hs, quatOf_coordsOf h]
    have hi : ((dir (coordsOf W))⁻¹).1 = ((1 / √(quatNorm W) : ℝ) : ℂ) • Wᴴ := by
      rw [inv_val, hd, conjTranspose_smul, Complex.star_def, Complex.conj_ofReal]
    change ((dir (coordsOf W))⁻¹).1 * (g⁻¹).1 * ((dir (coordsOf W))⁻¹).1 = _
    rw [hi, inv_val, Matrix.smul_mul, Matrix.smul_mul, Matrix.mul_smul, smul_smul]
    congr 1
    rw [← Complex.ofReal_mul, div_mul_div_comm, one_mul, mul_self_sqrt hp'.le]
  · rfl

variable [Fintype S]

theorem measurable_coords_staple (stap : GField S 2 → S → Fin 4 → Mat 2) (hst : ∀ s μ, Continuous fun U => stap U s μ) (s : S) (μ : Fin 4) :
    Measurable fun Q : LinkSU S 2 => coordsOf (stap (linkMat Q) s μ) := by
  have hc : Continuous fun Q : LinkSU S 2 => stap (linkMat Q) s μ := (hst s μ).comp continuous_linkMat
  have he : ∀ i j, Continuous fun Q : LinkSU S 2 => stap (linkMat Q) s μ i j := fun i j => hc.matrix_elem i j
  unfold coordsOf
  exact ((Complex.continuous_re.comp (he 0 0)).prodMk ((Complex.continuous_im.comp (he 0 0)).prodMk
    ((Complex.continuous_im.comp (he 0 1)).prodMk (Complex.continuous_re.comp (he 0 1))))).measurable

theorem measurable_reflect2 (stap : GField S 2 → S → Fin 4 → Mat 2) (hst : ∀ s μ, Continuous fun U => stap U s μ) (s : S) (μ : Fin 4) :
    Measurable fun z : LinkSU S 2 × SU 2 => reflect2 stap s μ z.1 z.2 := by
  have hW := measurable_coords_staple stap hst s μ
  have hd : Measurable fun z : LinkSU S 2 × SU 2 => (dir (coordsOf (stap (linkMat z.1) s μ)))⁻¹ := (measurable_dir.comp (hW.comp measurable_fst)).inv
  have hn : Measurable fun z : LinkSU S 2 × SU 2 => quatNorm (stap (linkMat z.1) s μ) := by
    have hc : Continuous fun Q : LinkSU S 2 => stap (linkMat Q) s μ := (hst s μ).comp continuous_linkMat
    have h2 : Continuous fun Q : LinkSU S 2 => quatNorm (stap (linkMat Q) s μ) :=
      (Complex.continuous_normSq.comp (hc.matrix_elem 0 0)).add (Complex.continuous_normSq.comp (hc.matrix_elem 0 1))
    exact h2.measurable.comp measurable_fst
  unfold reflect2
  exact Measurable.ite (measurableSet_lt measurable_const hn) ((hd.mul measurable_snd.inv).mul hd) measurable_snd

theorem reflect2_preserving (haar : Measure (SU 2)) [IsFiniteMeasure haar] [haar.IsMulLeftInvariant] (stap : GField S 2 → S → Fin 4 → Mat 2)
    (hst : ∀ s μ, Continuous fun U => stap U s μ) (hloc : ∀ U s μ V, stap (setLink U s μ V) s μ = stap U s μ) (s : S) (μ : Fin 4) :
    MeasurePreserving (fun Q => putLink s μ (reflect2 stap s μ Q (Q s μ)) Q) (linkMeasure S haar) (linkMeasure S haar) := by
  refine fibre_preserving haar s μ (reflect2 stap s μ) (measurable_reflect2 stap hst s μ) (fun Q g => ?_) (fun Q f hf => ?_)
  · funext h
    unfold reflect2
    rw [linkMat_putLink, hloc]
  · unfold reflect2
    split
    · exact lintegral_su_reflect haar _ f hf
    · rfl

/-- Two colours, for any action with a staple. -/
theorem overSweep2_law (haar : Measure (SU 2)) [IsFiniteMeasure haar] [haar.IsMulLeftInvariant] (β : ℝ) (hβ : β ≠ 0)
    (E : GField S 2 → ℝ) (stap : GField S 2 → S → Fin 4 → Mat 2) (hE : LocalEnergy β E stap)
    (hst : ∀ s μ, Continuous fun U => stap U s μ) (hq : ∀ (Q : LinkSU S 2) s μ, IsQuat (stap (linkMat Q) s μ)) (links : List (Link S)) :
    ∃ sweep : LinkSU S 2 → LinkSU S 2, (∀ Q, overSweep2 stap links (linkMat Q) = linkMat (sweep Q))
      ∧ MeasurePreserving sweep (linkMeasure S haar) (linkMeasure S haar) ∧ ∀ Q, E (linkMat (sweep Q)) = E (linkMat Q) := by
  induction links with
  | nil => exact ⟨id, fun Q => rfl, MeasurePreserving.id _, fun Q => rfl⟩
  | cons l links ih =>
    obtain ⟨sweep, h1, h2, h3⟩ := ih
    let T : LinkSU S 2 → LinkSU S 2 := fun Q => putLink l.1 l.2 (reflect2 stap l.1 l.2 Q (Q l.1 l.2)) Q
    have hT : ∀ Q, setLink (linkMat Q) l.1 l.2 (overrelax2 (linkMat Q l.1 l.2) (stap (linkMat Q) l.1 l.2)) = linkMat (T Q) := fun Q => by
      have e : linkMat (T Q) = setLink (linkMat Q) l.1 l.2 (reflect2 stap l.1 l.2 Q (Q l.1 l.2)).1 := linkMat_putLink _ _ _ _
      rw [e, reflect2_val stap hq]
      rfl
    refine ⟨fun Q => sweep (T Q), fun Q => ?_, h2.comp (reflect2_preserving haar stap hst (fun U s μ V => hE.staple_setLink hβ two_pos U s μ V) l.1 l.2), fun Q => ?_⟩
    · unfold overSweep2 at h1 ⊢
      rw [List.foldl_cons, hT]
      exact h1 (T Q)
    · rw [h3, ← hT]
      have h := hE (linkMat Q) l.1 l.2 (overrelax2 (linkMat Q l.1 l.2) (stap (linkMat Q) l.1 l.2))
      have ht := overrelax2_trace (linkMat Q l.1 l.2) (stap (linkMat Q) l.1 l.2) (hq Q l.1 l.2)
      have h0 : deltaAction β (linkMat Q) (overrelax2 (linkMat Q l.1 l.2) (stap (linkMat Q) l.1 l.2)) (stap (linkMat Q) l.1 l.2) l.1 l.2 = 0 := by
        unfold deltaAction
        rw [ht, sub_self]
        simp
      linarith

/-- A map which keeps the Haar measure and the energy keeps the Boltzmann distribution. -/
theorem keepsBoltzmann_of_preserving (E : GField S N → ℝ) (hEm : Measurable fun Q : LinkSU S N => E (linkMat Q)) (sweep : LinkSU S N → LinkSU S N)
    (hp : MeasurePreserving sweep (linkMeasure S Measure.haar) (linkMeasure S Measure.haar)) (hE : ∀ Q, E (linkMat (sweep Q)) = E (linkMat Q)) :
    KeepsBoltzmann E (Measure.dirac ()) fun _ => sweep := by
  intro f hf
  have hw : Measurable fun Q : LinkSU S N => ENNReal.ofReal (exp (-E (linkMat Q))) := (measurable_exp.comp hEm.neg).ennreal_ofReal
  have hfw : Measurable fun Q : LinkSU S N => f Q * ENNReal.ofReal (exp (-E (linkMat Q))) := hf.mul hw
  rw [← hp.lintegral_comp hfw]
  refine lintegral_congr fun Q => ?_
  rw [lintegral_const, measure_univ, mul_one, hE]

/-- Two random changes after each other. -/
theorem KeepsBoltzmann.comp {D D' : Type} [MeasurableSpace D] [MeasurableSpace D'] {E : GField S N → ℝ} {P : Measure D} {P' : Measure D'} [SFinite P] [SFinite P']
    {sweep : D → LinkSU S N → LinkSU S N} {sweep' : D' → LinkSU S N → LinkSU S N} (h : KeepsBoltzmann E P sweep) (h' : KeepsBoltzmann E P' sweep')
    (hm : Measurable fun z : D × LinkSU S N => sweep z.1 z.2) (hm' : Measurable fun z : D' × LinkSU S N => sweep' z.1 z.2) :
    KeepsBoltzmann E (P.prod P') fun d Q => sweep' d.2 (sweep d.1 Q) := by
  intro f hf
  have hF : Measurable fun Q => ∫⁻ d, f (sweep' d Q) ∂P' := by
    have : Measurable fun z : LinkSU S N × D' => f (sweep' z.2 z.1) := hf.comp (hm'.comp measurable_swap)
    exact this.lintegral_prod_right'
  rw [← h' f hf, ← h _ hF]
  refine lintegral_congr fun Q => ?_
  congr 1
  have : Measurable fun d : D × D' => f (sweep' d.2 (sweep d.1 Q)) := by
    have h1 : Measurable fun d : D × D' => sweep d.1 Q := hm.comp (measurable_fst.prodMk measurable_const)
    exact hf.comp (hm'.comp (measurable_snd.prodMk h1))
  rw [lintegral_prod _ this.aemeasurable]

/-! ### More than two colours -/

section
omit [Fintype S]

/-- The unitary factor with determinant one. -/
noncomputable def factorSU (hN : 0 < N) (qr : Mat N → Mat N) (hqr : ∀ M, qr M ∈ unitaryGroup (Fin N) ℂ) (M : Mat N) : SU N :=
  ⟨scaleFirstRow (conj (qr M).det) (qr M), scaleFirstRow_mem (qr M) (hqr M) hN⟩

/-- The proposal as a change of the configuration. -/
noncomputable def reflectN (hN : 0 < N) (qr : Mat N → Mat N) (hqr : ∀ M, qr M ∈ unitaryGroup (Fin N) ℂ) (stap : GField S N → S → Fin 4 → Mat N) (s : S)
    (μ : Fin 4) (Q : LinkSU S N) (g : SU N) : SU N :=
  (factorSU hN qr hqr (stap (linkMat Q) s μ))⁻¹ * g⁻¹ * (factorSU hN qr hqr (stap (linkMat Q) s μ))⁻¹

theorem reflectN_val (hN : 0 < N) (qr : Mat N → Mat N) (hqr : ∀ M, qr M ∈ unitaryGroup (Fin N) ℂ) (stap : GField S N → S → Fin 4 → Mat N) (s : S)
    (μ : Fin 4) (Q : LinkSU S N) (g : SU N) : (reflectN hN qr hqr stap s μ Q g).1 = overrelaxTrial (qr (stap (linkMat Q) s μ)) g.1 := rfl

end

theorem measurable_factorSU {Ω : Type} [MeasurableSpace Ω] (hN : 0 < N) (qr : Mat N → Mat N) (hqr : ∀ M, qr M ∈ unitaryGroup (Fin N) ℂ)
    (hm : Measurable fun (M : Fin N → Fin N → ℂ) (i j : Fin N) => qr (Matrix.of M) i j) (W : Ω → Mat N) (hW : ∀ i j, Measurable fun ω => W ω i j) :
    Measurable fun ω => factorSU hN qr hqr (W ω) := by
  have h1 : ∀ i j, Measurable fun ω => qr (W ω) i j := fun i j => by
    have h2 : Measurable fun ω => (fun i j => W ω i j : Fin N → Fin N → ℂ) := measurable_pi_lambda _ fun i => measurable_pi_lambda _ fun j => hW i j
    exact (measurable_pi_apply j).comp ((measurable_pi_apply i).comp (hm.comp h2))
  have hd : Measurable fun ω => (qr (W ω)).det := by
    simp only [Matrix.det_apply]
    refine Finset.measurable_sum _ fun σ _ => ?_
    have hp : Measurable fun ω => ∏ i, qr (W ω) (σ i) i := Finset.measurable_prod _ fun i _ => h1 _ _
    exact hp.const_smul _
  refine measurable_su_of_entries _ fun i j => ?_
  simp only [factorSU, scaleFirstRow]
  split
  · exact (h1 i j).mul (Complex.continuous_conj.measurable.comp hd)
  · exact h1 i j

/-- One link. -/
theorem overStep_law (haar : Measure (SU N)) [IsFiniteMeasure haar] [haar.IsMulLeftInvariant] (hN : 0 < N) (β : ℝ) (hβ : β ≠ 0)
    (E : GField S N → ℝ) (stap : GField S N → S → Fin 4 → Mat N) (hE : LocalEnergy β E stap) (hEm : Measurable fun Q : LinkSU S N => E (linkMat Q))
    (hst : ∀ s μ, Continuous fun U => stap U s μ) (qr : Mat N → Mat N) (hqr : ∀ M, qr M ∈ unitaryGroup (Fin N) ℂ)
    (hm : Measurable fun (M : Fin N → Fin N → ℂ) (i j : Fin N) => qr (Matrix.of M) i j) (l : Link S) :
    ∃ step : ℝ → LinkSU S N → LinkSU S N, (Measurable fun z : ℝ × LinkSU S N => step z.1 z.2)
      ∧ (∀ ξ Q, setLink (linkMat Q) l.1 l.2 (overrelaxN (qr (stap (linkMat Q) l.1 l.2)) (linkMat Q l.1 l.2)
          (deltaAction β (linkMat Q) (overrelaxTrial (qr (stap (linkMat Q) l.1 l.2)) (linkMat Q l.1 l.2)) (stap (linkMat Q) l.1 l.2) l.1 l.2) ξ)
            = linkMat (step ξ Q))
      ∧ ∀ f : LinkSU S N → ℝ≥0∞, Measurable f → ∫⁻ Q, (∫⁻ ξ, f (step ξ Q) ∂unif) * ENNReal.ofReal (exp (-E (linkMat Q))) ∂linkMeasure S haar
          = ∫⁻ Q, f Q * ENNReal.ofReal (exp (-E (linkMat Q))) ∂linkMeasure S haar := by
  have hloc : ∀ U s μ V, stap (setLink U s μ V) s μ = stap U s μ := fun U s μ V => hE.staple_setLink hβ hN U s μ V
  let τ := reflectN hN qr hqr stap l.1 l.2
  let T : LinkSU S N → LinkSU S N := fun Q => putLink l.1 l.2 (τ Q (Q l.1 l.2)) Q
  have hτi : ∀ Q g, τ (putLink l.1 l.2 g Q) = τ Q := fun Q g => by
    funext h
    simp only [τ, reflectN, linkMat_putLink, hloc]
  have hc : ∀ i j, Measurable fun z : LinkSU S N × SU N => stap (linkMat z.1) l.1 l.2 i j := fun i j =>
    (((hst l.1 l.2).comp continuous_linkMat).matrix_elem i j).measurable.comp measurable_fst
  have hA : Measurable fun z : LinkSU S N × SU N => (factorSU hN qr hqr (stap (linkMat z.1) l.1 l.2))⁻¹ := (measurable_factorSU hN qr hqr hm _ hc).inv
  have hτm : Measurable fun z : LinkSU S N × SU N => τ z.1 z.2 := (hA.mul measurable_snd.inv).mul hA
  have hT : MeasurePreserving T (linkMeasure S haar) (linkMeasure S haar) :=
    fibre_preserving haar l.1 l.2 τ hτm hτi fun Q f hf => lintegral_su_reflect haar _ f hf
  have hTT : ∀ Q, T (T Q) = Q := fun Q => by
    have e1 : τ (T Q) = τ Q := hτi Q _
    have e2 : T Q l.1 l.2 = τ Q (Q l.1 l.2) := putLink_same _ _ _ _
    have e3 : τ Q (τ Q (Q l.1 l.2)) = Q l.1 l.2 := by
      simp only [τ, reflectN]
      group
    change putLink l.1 l.2 (τ (T Q) (T Q l.1 l.2)) (T Q) = Q
    rw [e1, e2, e3]
    change putLink l.1 l.2 _ (putLink l.1 l.2 _ Q) = Q
    rw [putLink_putLink, putLink_self]
  have hTmat : ∀ Q, linkMat (T Q) = setLink (linkMat Q) l.1 l.2 (overrelaxTrial (qr (stap (linkMat Q) l.1 l.2)) (linkMat Q l.1 l.2)) := fun Q =>
    linkMat_putLink _ _ _ _
  let step : ℝ → LinkSU S N → LinkSU S N := fun ξ Q => if metropolisLocal (some (E (linkMat Q))) (some (E (linkMat (T Q)))) ξ = true then T Q else Q
  have hdelta : Measurable fun z : ℝ × LinkSU S N => E (linkMat (T z.2)) - E (linkMat z.2) :=
    (hEm.comp (hT.measurable.comp measurable_snd)).sub (hEm.comp measurable_snd)
  have hstep : Measurable fun z : ℝ × LinkSU S N => step z.1 z.2 := by
    refine Measurable.ite ?_ (hT.measurable.comp measurable_snd) measurable_snd
    simp only [metropolisLocal_iff]
    exact (measurableSet_lt hdelta measurable_const).union (measurableSet_lt measurable_fst (measurable_exp.comp hdelta.neg))
  refine ⟨step, hstep, fun ξ Q => ?_, fun f hf => ?_⟩
  · rw [← hE]
    have e := hTmat Q
    rw [← e]
    unfold overrelaxN
    by_cases h : metropolisLocal (some (E (linkMat Q))) (some (E (linkMat (T Q)))) ξ = true
    · have h' := (metropolisLocal_iff _ _ _).1 h
      have e2 : step ξ Q = T Q := if_pos h
      rw [e2]
      by_cases h1 : E (linkMat (T Q)) - E (linkMat Q) < 0
      · rw [if_pos h1, e]
      · rw [if_neg h1, if_pos (h'.resolve_left h1), e]
    · have h' := mt (metropolisLocal_iff _ _ _).2 h
      have e2 : step ξ Q = Q := if_neg h
      push Not at h'
      rw [e2, if_neg (not_lt.2 h'.1), if_neg (not_lt.2 h'.2)]
      funext s μ
      unfold setLink
      split
      · rename_i h
        rw [h.1, h.2]
      · rfl
  · have h := metropolis_stationary (linkMeasure S haar) T hT hTT (fun Q => E (linkMat Q)) hEm f hf
    rw [← h]
    refine lintegral_congr fun Q => ?_
    congr 1
    have e := lintegral_accept (E (linkMat Q)) (E (linkMat (T Q))) (f (T Q)) (f Q)
    rw [← e]
    refine lintegral_congr fun ξ => ?_
    simp only [step]
    rw [apply_ite f]

/-- More colours, for any action with a staple. -/
theorem overSweep_law (haar : Measure (SU N)) [IsFiniteMeasure haar] [haar.IsMulLeftInvariant] (hN : 0 < N) (β : ℝ) (hβ : β ≠ 0)
    (E : GField S N → ℝ) (stap : GField S N → S → Fin 4 → Mat N) (hE : LocalEnergy β E stap) (hEm : Measurable fun Q : LinkSU S N => E (linkMat Q))
    (hst : ∀ s μ, Continuous fun U => stap U s μ) (qr : Mat N → Mat N) (hqr : ∀ M, qr M ∈ unitaryGroup (Fin N) ℂ)
    (hm : Measurable fun (M : Fin N → Fin N → ℂ) (i j : Fin N) => qr (Matrix.of M) i j) (links : List (Link S)) (hl : links.Nodup) :
    ∃ sweep : (Link S → ℝ) → LinkSU S N → LinkSU S N, (Measurable fun z : (Link S → ℝ) × LinkSU S N => sweep z.1 z.2)
      ∧ (∀ ξ Q, overSweep β stap qr links ξ (linkMat Q) = linkMat (sweep ξ Q))
      ∧ ∀ f : LinkSU S N → ℝ≥0∞, Measurable f →
        ∫⁻ Q, (∫⁻ ξ, f (sweep ξ Q) ∂(Measure.pi fun _ : Link S => unif)) * ENNReal.ofReal (exp (-E (linkMat Q))) ∂linkMeasure S haar
          = ∫⁻ Q, f Q * ENNReal.ofReal (exp (-E (linkMat Q))) ∂linkMeasure S haar := by
  choose step h1 h2 h3 using overStep_law haar hN β hβ E stap hE hEm hst qr hqr hm
  refine ⟨fun ξ Q => links.foldl (fun Q l => step l (ξ l) Q) Q, measurable_foldl step h1 links, fun ξ Q => ?_,
    fun f hf => foldl_stationary unif (linkMeasure S haar) (fun Q : LinkSU S N => ENNReal.ofReal (exp (-E (linkMat Q)))) step h1 h3 links hl f hf⟩
  clear hl
  unfold overSweep
  induction links generalizing Q with
  | nil => rfl
  | cons l links ih =>
    simp only [List.foldl_cons]
    rw [h2, ih]

/-! ### The theorems -/

/-- **C65, two colours.** For both actions, every coupling, lattice and order of the links (with repetitions allowed): the sweep of the overrelaxation is a
change of SU(2) configurations which keeps the Haar measure of the links and the energy, so it keeps the distribution `exp(-S(U)) dU`. -/
theorem C65_two_colours (T : Torus S) (β : ℝ) (hβ : β ≠ 0) (links : List (Link S)) (E : GField S 2 → ℝ) (stap : GField S 2 → S → Fin 4 → Mat 2)
    (hact : (E = wilsonEnergy β T ∧ stap = wilsonStaple T ∧ ∀ μ, 2 ≤ T.ext μ)
      ∨ ∃ u0 : ℝ, E = improvedEnergy u0 β T ∧ stap = improvedStaple u0 T ∧ ∀ μ, 3 ≤ T.ext μ) :
    ∃ sweep : LinkSU S 2 → LinkSU S 2, (∀ Q, overSweep2 stap links (linkMat Q) = linkMat (sweep Q))
      ∧ MeasurePreserving sweep (linkMeasure S Measure.haar) (linkMeasure S Measure.haar)
      ∧ (∀ Q, E (linkMat (sweep Q)) = E (linkMat Q))
      ∧ KeepsBoltzmann E (Measure.dirac ()) fun _ => sweep := by
  rcases hact with ⟨rfl, rfl, hT⟩ | ⟨u0, rfl, rfl, hT⟩
  · obtain ⟨sweep, h1, h2, h3⟩ := overSweep2_law Measure.haar β hβ (wilsonEnergy β T) (wilsonStaple T) (fun U s μ V => C20_wilson T hT β U s μ V)
      (continuous_wilsonStaple T) (fun Q s μ => isQuat_wilsonStaple T _ (fun s μ => (IsQuat.of_su2 (Q s μ).2).1) s μ) links
    exact ⟨sweep, h1, h2, h3, keepsBoltzmann_of_preserving _ (measurable_of_continuous_link _ (continuous_wilsonEnergy β T)) sweep h2 h3⟩
  · obtain ⟨sweep, h1, h2, h3⟩ := overSweep2_law Measure.haar β hβ (improvedEnergy u0 β T) (improvedStaple u0 T) (fun U s μ V => C20_improved T hT u0 β U s μ V)
      (continuous_improvedStaple u0 T) (fun Q s μ => isQuat_improvedStaple u0 T _ (fun s μ => (IsQuat.of_su2 (Q s μ).2).1) s μ) links
    exact ⟨sweep, h1, h2, h3, keepsBoltzmann_of_preserving _ (measurable_of_continuous_link _ (continuous_improvedEnergy u0 β T)) sweep h2 h3⟩

/-- **C65, more colours.** For both actions, every number of colours, coupling, lattice and order of the links, whatever unitary matrix the linear algebra
library computes from the staple: the sweep keeps SU(N) configurations in SU(N) and, averaged over the random numbers, keeps the distribution
`exp(-S(U)) dU`. -/
theorem C65_more_colours (hN : 0 < N) (T : Torus S) (β : ℝ) (hβ : β ≠ 0) (links : List (Link S)) (hl : links.Nodup) (E : GField S N → ℝ)
    (stap : GField S N → S → Fin 4 → Mat N)
    (hact : (E = wilsonEnergy β T ∧ stap = wilsonStaple T ∧ ∀ μ, 2 ≤ T.ext μ)
      ∨ ∃ u0 : ℝ, E = improvedEnergy u0 β T ∧ stap = improvedStaple u0 T ∧ ∀ μ, 3 ≤ T.ext μ)
    (qr : Mat N → Mat N) (hqr : ∀ M, qr M ∈ unitaryGroup (Fin N) ℂ)
    (hm : Measurable fun (M : Fin N → Fin N → ℂ) (i j : Fin N) => qr (Matrix.of M) i j) :
    ∃ sweep : (Link S → ℝ) → LinkSU S N → LinkSU S N, (∀ ξ Q, overSweep β stap qr links ξ (linkMat Q) = linkMat (sweep ξ Q))
      ∧ KeepsBoltzmann E (Measure.pi fun _ => unif) sweep := by
  rcases hact with ⟨rfl, rfl, hT⟩ | ⟨u0, rfl, rfl, hT⟩
  · obtain ⟨sweep, -, h1, h2⟩ := overSweep_law Measure.haar hN β hβ (wilsonEnergy β T) (wilsonStaple T) (fun U s μ V => C20_wilson T hT β U s μ V)
      (measurable_of_continuous_link _ (continuous_wilsonEnergy β T)) (continuous_wilsonStaple T) qr hqr hm links hl
    exact ⟨sweep, h1, h2⟩
  · obtain ⟨sweep, -, h1, h2⟩ := overSweep_law Measure.haar hN β hβ (improvedEnergy u0 β T) (improvedStaple u0 T) (fun U s μ V => C20_improved T hT u0 β U s μ V)
      (measurable_of_continuous_link _ (continuous_improvedEnergy u0 β T)) (continuous_improvedStaple u0 T) qr hqr hm links hl
    exact ⟨sweep, h1, h2⟩

example : ∃ sweep : LinkSU _ 2 → LinkSU _ 2, KeepsBoltzmann (wilsonEnergy (5 / 2) (boxTorus exExt exExt_pos)) (Measure.dirac ()) fun _ => sweep := by
  obtain ⟨sweep, -, -, -, h⟩ := C65_two_colours (boxTorus exExt exExt_pos) (5 / 2) (by norm_num)
    (sweepLinks Finset.univ.toList (boardColors (boxTorus exExt exExt_pos) Finset.univ.toList)) _ _ (Or.inl ⟨rfl, rfl, by decide⟩)
  exact ⟨sweep, h⟩

example : ∃ sweep : (Link (BoxSite exExt3) → ℝ) → LinkSU _ 3 → LinkSU _ 3,
    KeepsBoltzmann (improvedEnergy 1 6 (boxTorus exExt3 exExt3_pos)) (Measure.pi fun _ => unif) sweep := by
  obtain ⟨sweep, -, h⟩ := C65_more_colours (N := 3) (by norm_num) (boxTorus exExt3 exExt3_pos) 6 (by norm_num)
    (sweepLinks Finset.univ.toList (boardColors (boxTorus exExt3 exExt3_pos) Finset.univ.toList)) (C64_order _ _ (by simp) (Finset.nodup_toList _)) _ _
    (Or.inr ⟨1, rfl, rfl, by decide⟩) (fun _ => 1) (fun _ => one_mem _) measurable_const
  exact ⟨sweep, h⟩

end Leonard
