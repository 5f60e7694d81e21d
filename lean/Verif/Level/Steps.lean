import Verif.Level.Law

/-!
The steps of the heat bath inside the slices.
-/

set_option autoImplicit false

namespace Leonard

open MeasureTheory Set Real Matrix
open scoped ENNReal

variable {S : Type} {N : ℕ} [DecidableEq S]

/-- Staples of updated links read only the slice and links that are never updated. -/
def SliceStaple (T : Torus S) (size : ℕ) (stap : GField S N → S → Fin 4 → Mat N) : Prop :=
  ∀ U V s μ, Upd size (T.coord s 1) μ → AgreeOn T size (T.coord s 1 / size) U V → stap U s μ = stap V s μ

theorem heatSt_apply (β : ℝ) (stap : GField S N → S → Fin 4 → Mat N) (i : Link S × Fin N × Fin N) (ω : HeatStream) (Q : LinkSU S N) (s : S) (μ : Fin 4) :
    heatSt β stap i ω Q s μ = (if s = i.1.1 ∧ μ = i.1.2 then embedSU i.2.1 i.2.2 (subElement β (plaqMat stap i.1.1 i.1.2 Q) i.2.1 i.2.2 ω) else 1) * Q s μ := rfl

/-- The steps of the heat bath in different slices do not influence each other. -/
theorem heat_local (T : Torus S) (size : ℕ) (β : ℝ) (stap : GField S N → S → Fin 4 → Mat N) (hstap : SliceStaple T size stap) (l : List (Link S × Fin N × Fin N))
    (hl : ∀ i ∈ l, Upd size (T.coord i.1.1 1) i.1.2) :
    Local (heatSt β stap) l (fun i => T.coord i.1.1 1 / size) (fun k => AgreeOn T size k) where
  refl _ _ _ _ _ := rfl
  trans _ _ _ _ h1 h2 s μ hi := (h1 s μ hi).trans (h2 s μ hi)
  inside i hi ω Q Q' h s μ hR := by
    have e : plaqMat stap i.1.1 i.1.2 Q = plaqMat stap i.1.1 i.1.2 Q' := by
      unfold plaqMat
      rw [h i.1.1 i.1.2 (fun _ => rfl), hstap (linkMat Q) (linkMat Q') i.1.1 i.1.2 (hl i hi) fun s μ hR => congrArg Subtype.val (h s μ hR)]
    rw [heatSt_apply, heatSt_apply, e, h s μ hR]
  outside i hi k hk ω Q s μ hR := by
    rw [heatSt_apply, if_neg, one_mul]
    rintro ⟨rfl, rfl⟩
    exact hk (hR (hl i hi))

theorem sliceLinks_upd (T : Torus S) (size : ℕ) (links : List (Link S)) (l : Link S) (h : l ∈ sliceLinks T size links) : Upd size (T.coord l.1 1) l.2 := by
  rw [sliceLinks, List.mem_filter, insideSlice_iff] at h
  exact h.2

variable [Fintype S]

/-- Any number of colours. -/
theorem level_heat (hN : 2 ≤ N) (T : Torus S) (size m n maxR : ℕ) (hs : 0 < size) (hm : 0 < m) (hn : 0 < n) (hY : T.ext 1 = size * m) (hz : T.ext 2 ≤ T.ext 1)
    (β : ℝ) (hβ : 0 < β) (E : GField S N → ℝ) (hEc : Continuous E) (stap : GField S N → S → Fin 4 → Mat N) (hE : LocalEnergy β E stap)
    (hst : ∀ s μ, Continuous fun U => stap U s μ) (hmv : ∀ s μ, StapleMoves stap s μ) (hstap : SliceStaple T size stap) (links : List (Link S)) (hl : links.Nodup) :
    ∃ (corr : (Fin n × Link S × Fin N × Fin N → HeatStream) → LinkSU S N → ℕ → ℝ)
      (last : (Fin n × Link S × Fin N × Fin N → HeatStream) → LinkSU S N → LinkSU S N),
      (∀ᵐ Q ∂linkMeasure S Measure.haar, ∀ᵐ d ∂(Measure.pi fun _ => heatMeasure), ∃ n0, ∀ a ≥ n0,
        levelMeasure T size maxR (heatSweep β stap (sliceLinks T size links)) ((List.finRange n).map fun k i => streamDraw a (d (k, i))) (linkMat Q)
          = some ((List.range' 2 (maxR - 1)).map (corr d Q), linkMat (last d Q)))
      ∧ KeepsBoltzmann E (Measure.pi fun _ => heatMeasure) last
      ∧ ∀ R, Integrable (fun z => corr z.1 z.2 R) ((Measure.pi fun _ => heatMeasure).prod (boltzmann E))
        ∧ ∫ z, corr z.1 z.2 R ∂((Measure.pi fun _ => heatMeasure).prod (boltzmann E)) = ∫ Q, levelCorrelator T size [linkMat Q] R ∂boltzmann E := by
  have hN0 : 0 < N := by omega
  have hN' : (0 : ℝ) < N := by exact_mod_cast hN0
  refine level_law T size m n maxR hs hm hn hY hz E hEc (heatSt β stap) (measurable_heatSt β stap hst)
    (heatSt_stationary Measure.haar β hβ hN0 E stap hE (measurable_of_continuous_link _ hEc) hst) (HeatGood β stap) (measurableSet_heatGood β stap hst)
    (heatList N (sliceLinks T size links)) (heatList_nodup _ (hl.filter _)) (fun i hi => ?_) (fun i => T.coord i.1.1 1 / size)
    (heat_local T size β stap hstap _ fun i hi => ?_) _ fun d Q _ hg => heatSweep_good hE hβ.ne' hN0 _ d Q hg
  · have hlt : i.2.1 < i.2.2 := by
      simp only [heatList, List.mem_flatMap, List.mem_map] at hi
      obtain ⟨l, _, kl, hkl, rfl⟩ := hi
      exact subgroupPairs_lt kl hkl
    filter_upwards [ae_subDet_ne Measure.haar hN stap i.1.1 i.1.2 (hst _ _) (hmv _ _) i.2.1 i.2.2 hlt] with Q hQ
    have hp : 0 < subDet (plaqMat stap i.1.1 i.1.2 Q) i.2.1 i.2.2 := lt_of_le_of_ne (subDet_nonneg _ _ _) (Ne.symm hQ)
    have hb : 0 < (N : ℝ) / (2 * β * √(subDet (plaqMat stap i.1.1 i.1.2 Q) i.2.1 i.2.2)) := by
      have := sqrt_pos.2 hp
      positivity
    filter_upwards [ae_goodStream _ hb] with ω hω using ⟨hQ, hω⟩
  · simp only [heatList, List.mem_flatMap, List.mem_map] at hi
    obtain ⟨l, hl', kl, -, rfl⟩ := hi
    exact sliceLinks_upd T size links l hl'

/-- Two colours. -/
theorem level_heat2 (T : Torus S) (size m n maxR : ℕ) (hs : 0 < size) (hm : 0 < m) (hn : 0 < n) (hY : T.ext 1 = size * m) (hz : T.ext 2 ≤ T.ext 1)
    (β : ℝ) (hβ : 0 < β) (E : GField S 2 → ℝ) (hEc : Continuous E) (stap : GField S 2 → S → Fin 4 → Mat 2) (hE : LocalEnergy β E stap)
    (hst : ∀ s μ, Continuous fun U => stap U s μ) (hmv : ∀ s μ, StapleMoves stap s μ) (hq : ∀ (Q : LinkSU S 2) s μ, IsQuat (stap (linkMat Q) s μ))
    (hstap : SliceStaple T size stap) (links : List (Link S)) (hl : links.Nodup) :
    ∃ (corr : (Fin n × Link S → HeatStream) → LinkSU S 2 → ℕ → ℝ) (last : (Fin n × Link S → HeatStream) → LinkSU S 2 → LinkSU S 2),
      (∀ᵐ Q ∂linkMeasure S Measure.haar, ∀ᵐ d ∂(Measure.pi fun _ => heatMeasure), ∃ n0, ∀ a ≥ n0,
        levelMeasure T size maxR (heatSweep2 β stap (sliceLinks T size links)) ((List.finRange n).map fun k i => streamDraw a (d (k, i))) (linkMat Q)
          = some ((List.range' 2 (maxR - 1)).map (corr d Q), linkMat (last d Q)))
      ∧ KeepsBoltzmann E (Measure.pi fun _ => heatMeasure) last
      ∧ ∀ R, Integrable (fun z => corr z.1 z.2 R) ((Measure.pi fun _ => heatMeasure).prod (boltzmann E))
        ∧ ∫ z, corr z.1 z.2 R ∂((Measure.pi fun _ => heatMeasure).prod (boltzmann E)) = ∫ Q, levelCorrelator T size [linkMat Q] R ∂boltzmann E := by
  have hloc := heat_local T size β stap hstap ((sliceLinks T size links).map fun l => (l, (0 : Fin 2), (1 : Fin 2))) (fun i hi => by
    rw [List.mem_map] at hi
    obtain ⟨l, hl', rfl⟩ := hi
    exact sliceLinks_upd T size links l hl')
  refine level_law T size m n maxR hs hm hn hY hz E hEc (fun l : Link S => heatSt β stap (l, 0, 1)) (fun l => measurable_heatSt β stap hst (l, 0, 1))
    (fun l => heatSt_stationary Measure.haar β hβ two_pos E stap hE (measurable_of_continuous_link _ hEc) hst (l, 0, 1)) (fun l => HeatGood β stap (l, 0, 1))
    (fun l => measurableSet_heatGood β stap hst (l, 0, 1)) (sliceLinks T size links) (hl.filter _) (fun l _ => ?_) (fun l => T.coord l.1 1 / size)
    ⟨hloc.refl, hloc.trans, fun l hl' => hloc.inside (l, 0, 1) (List.mem_map_of_mem hl'), fun l hl' => hloc.outside (l, 0, 1) (List.mem_map_of_mem hl')⟩ _
    fun d Q hu hg => ?_
  · filter_upwards [ae_subDet_ne Measure.haar le_rfl stap l.1 l.2 (hst _ _) (hmv _ _) 0 1 (by decide)] with Q hQ
    have hp : 0 < subDet (plaqMat stap l.1 l.2 Q) 0 1 := lt_of_le_of_ne (subDet_nonneg _ _ _) (Ne.symm hQ)
    have hb : 0 < ((2 : ℕ) : ℝ) / (2 * β * √(subDet (plaqMat stap l.1 l.2 Q) 0 1)) := by
      have := sqrt_pos.2 hp
      positivity
    filter_upwards [ae_goodStream _ hb] with ω hω using ⟨hQ, hω⟩
  · have hg' : AllGood (heatSt β stap) (HeatGood β stap) (heatList 2 (sliceLinks T size links)) (fun i : Link S × Fin 2 × Fin 2 => d i.1) Q := by
      rw [heatList_two, allGood_map]
      exact hg
    obtain ⟨n0, hn⟩ := heatSweep_good hE hβ.ne' two_pos (sliceLinks T size links) (fun i => d i.1) Q hg'
    refine ⟨n0, fun a ha => ?_⟩
    have e := hn a ha
    rw [heatSweep_two β hβ.le stap hq _ (fun i => streamDraw a (d i.1)) (fun i => hu i.1 a) Q] at e
    rw [e, heatList_two, heatTotal, List.foldl_map]
    rfl

end Leonard
