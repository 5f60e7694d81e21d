import Verif.Level.Lines
import Mathlib.MeasureTheory.Integral.Bochner.Basic

/-!
The mean value of the multilevel measurement.
-/

set_option autoImplicit false

namespace Leonard

open MeasureTheory Set Real Matrix
open scoped ENNReal

variable {S : Type} {N : ℕ}

section run
variable {J D X : Type}

/-- The steps of the rounds `ks`. -/
def roundList {K : Type} (l0 : List J) (ks : List K) : List (K × J) := ks.flatMap fun k => l0.map fun j => (k, j)

theorem roundList_nodup {K : Type} (l0 : List J) (h0 : l0.Nodup) (ks : List K) (h : ks.Nodup) : (roundList l0 ks).Nodup := by
  unfold roundList
  rw [List.nodup_flatMap]
  refine ⟨fun k _ => h0.map fun a b hab => (Prod.mk.inj hab).2, ?_⟩
  refine h.imp fun {a b} hab i hi hj => ?_
  simp only [List.mem_map] at hi hj
  obtain ⟨j, -, rfl⟩ := hi
  obtain ⟨j', -, hj⟩ := hj
  exact hab (Prod.mk.inj hj).1.symm

theorem runSteps_map {K : Type} (st : J → D → X → X) (l0 : List J) (k : K) (d : K × J → D) (x : X) :
    runSteps (fun i : K × J => st i.2) (l0.map fun j => (k, j)) d x = runSteps st l0 (fun j => d (k, j)) x := by
  unfold runSteps
  rw [List.foldl_map]

/-- The run of the program, with an update for every round. -/
theorem levelRun_eq {K Y : Type} (lift : Y → GField S N) (st : J → D → Y → Y) (l0 : List J) (Good : J → D → Y → Prop) (upd : ℕ → (J → D) → GField S N → Option (GField S N))
    (ok : D → Prop)
    (hprog : ∀ d y, (∀ j, ok (d j)) → AllGood st Good l0 d y → ∃ n0, ∀ n ≥ n0, upd n d (lift y) = some (lift (runSteps st l0 d y)))
    (d : K × J → D) (hd : ∀ i, ok (d i)) (ks : List K) (y : Y) (hg : AllGood (fun i : K × J => st i.2) (fun i => Good i.2) (roundList l0 ks) d y) :
    ∃ n0, ∀ n ≥ n0, levelRun (upd n) (ks.map fun k j => d (k, j)) (lift y)
      = some ((List.range ks.length).map fun r => lift (runSteps (fun i : K × J => st i.2) (roundList l0 (ks.take r)) d y),
        lift (runSteps (fun i : K × J => st i.2) (roundList l0 ks) d y)) := by
  induction ks generalizing y with
  | nil => exact ⟨0, fun n _ => rfl⟩
  | cons k ks ih =>
    have hL : ∀ ks' : List K, roundList l0 (k :: ks') = (l0.map fun j => (k, j)) ++ roundList l0 ks' := fun ks' => by simp [roundList]
    rw [hL, allGood_append] at hg
    have hg1 := (allGood_map (fun i : K × J => st i.2) (fun i => Good i.2) (fun j => (k, j)) l0 d y).1 hg.1
    obtain ⟨n1, h1⟩ := hprog (fun j => d (k, j)) y (fun j => hd (k, j)) hg1
    obtain ⟨n2, h2⟩ := ih _ hg.2
    refine ⟨max n1 n2, fun n hn => ?_⟩
    have i1 := h1 n (le_trans (le_max_left _ _) hn)
    have i2 := h2 n (le_trans (le_max_right _ _) hn)
    have e : runSteps (fun i : K × J => st i.2) (l0.map fun j => (k, j)) d y = runSteps st l0 (fun j => d (k, j)) y := runSteps_map st l0 k d y
    rw [List.map_cons]
    simp only [levelRun]
    rw [i1, Option.bind_some, ← e]
    have i2' : levelRun (upd n) (ks.map fun k j => d (k, j)) (lift (runSteps (fun i : K × J => st i.2) (l0.map fun j => (k, j)) d y)) = _ := i2
    rw [i2', Option.map_some]
    refine congrArg some (Prod.ext ?_ ?_)
    · simp only [List.length_cons]
      rw [List.range_succ_eq_map, List.map_cons, List.map_map]
      refine congrArg₂ List.cons rfl ?_
      refine List.map_congr_left fun r _ => ?_
      simp only [Function.comp, List.take_succ_cons, hL, runSteps_append]
      rfl
    · simp only [hL, runSteps_append]
      rfl

end run

variable [Fintype S]

/-- The distribution `exp(-E(U)) dU` of configurations. -/
noncomputable def boltzmann (E : GField S N → ℝ) : Measure (LinkSU S N) := (linkMeasure S Measure.haar).withDensity fun Q => ENNReal.ofReal (exp (-E (linkMat Q)))

theorem measurable_weight (E : GField S N → ℝ) (hE : Continuous E) : Measurable fun Q : LinkSU S N => ENNReal.ofReal (exp (-E (linkMat Q))) :=
  (measurable_exp.comp (measurable_of_continuous_link _ hE).neg).ennreal_ofReal

theorem boltzmann_finite (E : GField S N → ℝ) (hE : Continuous E) : IsFiniteMeasure (boltzmann E) := by
  obtain ⟨C, hC⟩ := (isCompact_univ (X := LinkSU S N)).exists_bound_of_continuousOn (f := fun Q => exp (-E (linkMat Q)))
    (continuous_exp.comp (hE.comp continuous_linkMat).neg).continuousOn
  refine isFiniteMeasure_withDensity (ne_of_lt ?_)
  calc ∫⁻ Q, ENNReal.ofReal (exp (-E (linkMat Q))) ∂linkMeasure S Measure.haar ≤ ∫⁻ _, ENNReal.ofReal C ∂linkMeasure S Measure.haar :=
        lintegral_mono fun Q => ENNReal.ofReal_le_ofReal (le_trans (le_abs_self _) (hC Q (mem_univ Q)))
    _ < ∞ := by
      rw [lintegral_const]
      exact ENNReal.mul_lt_top ENNReal.ofReal_lt_top (measure_lt_top _ _)

/-- A change of configurations that keeps the Boltzmann distribution, as a map of measures. -/
theorem KeepsBoltzmann.map_eq {D : Type} [MeasurableSpace D] {E : GField S N → ℝ} (hE : Continuous E) {P : Measure D} [SFinite P]
    {sweep : D → LinkSU S N → LinkSU S N} (h : KeepsBoltzmann E P sweep) (hm : Measurable fun z : D × LinkSU S N => sweep z.1 z.2) :
    Measure.map (fun z : D × LinkSU S N => sweep z.1 z.2) (P.prod (boltzmann E)) = boltzmann E := by
  haveI := boltzmann_finite E hE
  refine Measure.ext_of_lintegral _ fun f hf => ?_
  have hfm : Measurable fun z : D × LinkSU S N => f (sweep z.1 z.2) := hf.comp hm
  have hin : Measurable fun Q => ∫⁻ d, f (sweep d Q) ∂P := (hfm.comp measurable_swap).lintegral_prod_right'
  rw [lintegral_map hf hm, lintegral_prod_symm' _ hfm]
  unfold boltzmann
  rw [lintegral_withDensity_eq_lintegral_mul _ (measurable_weight E hE) hin, lintegral_withDensity_eq_lintegral_mul _ (measurable_weight E hE) hf]
  simp only [Pi.mul_apply]
  have := h f hf
  simp only [mul_comm (ENNReal.ofReal (exp _))]
  exact this

theorem KeepsBoltzmann.integral {D : Type} [MeasurableSpace D] {E : GField S N → ℝ} (hE : Continuous E) {P : Measure D} [SFinite P]
    {sweep : D → LinkSU S N → LinkSU S N} (h : KeepsBoltzmann E P sweep) (hm : Measurable fun z : D × LinkSU S N => sweep z.1 z.2)
    (g : LinkSU S N → ℝ) (hg : Continuous g) :
    ∫ z, g (sweep z.1 z.2) ∂(P.prod (boltzmann E)) = ∫ Q, g Q ∂boltzmann E := by
  have e := h.map_eq hE hm
  rw [← integral_map (φ := fun z : D × LinkSU S N => sweep z.1 z.2) hm.aemeasurable hg.measurable.aestronglyMeasurable, e]

theorem continuous_lineOfSlice (T : Torus S) (size : ℕ) (s : S) (k : ℕ) : Continuous fun U : GField S N => lineOfSlice T size U s k := by
  have h : ∀ n s, Continuous fun U : GField S N => (sliceLine T U s n).1 := by
    intro n s
    induction n with
    | zero => exact continuous_const
    | succ n ih =>
      have e : ∀ U : GField S N, (sliceLine T U s (n + 1)).1 = (sliceLine T U s n).1 * U ((T.sup 1)^[n] s) 1 := fun U => by
        simp only [sliceLine]
        rw [sliceLine_eq]
      simp only [e]
      exact ih.matrix_mul (continuous_link _ _)
  exact h size _

theorem continuous_levelCorrelator (T : Torus S) (size : ℕ) (hm : 0 < T.ext 1 / size) (R : ℕ) : Continuous fun U : GField S N => levelCorrelator T size [U] R := by
  unfold levelCorrelator
  simp only [levelSite_lines T size hm]
  refine Continuous.div_const (continuous_finsetSum _ fun s _ => continuous_ite_zero _ _ ?_) _
  refine Complex.continuous_re.comp (Continuous.mul (Continuous.matrix_trace ?_) (Continuous.matrix_trace ?_))
  · exact continuous_list_prod _ fun k _ => continuous_lineOfSlice T size _ k
  · exact continuous_list_prod _ fun k _ => (continuous_lineOfSlice T size _ k).matrix_conjTranspose

variable [DecidableEq S]

/-- The multilevel measurement: defined with probability one, keeps the Boltzmann distribution, and has the mean value of what it computes from a single
configuration. -/
theorem level_law {J : Type} [Fintype J] [DecidableEq J] (T : Torus S) (size m n maxR : ℕ) (hs : 0 < size) (hm : 0 < m) (hn : 0 < n) (hY : T.ext 1 = size * m)
    (hz : T.ext 2 ≤ T.ext 1) (E : GField S N → ℝ) (hE : Continuous E) (st : J → HeatStream → LinkSU S N → LinkSU S N)
    (hst : ∀ j, Measurable fun z : HeatStream × LinkSU S N => st j z.1 z.2)
    (hstat : ∀ j (f : LinkSU S N → ℝ≥0∞), Measurable f →
      ∫⁻ Q, (∫⁻ ω, f (st j ω Q) ∂heatMeasure) * ENNReal.ofReal (exp (-E (linkMat Q))) ∂linkMeasure S Measure.haar
        = ∫⁻ Q, f Q * ENNReal.ofReal (exp (-E (linkMat Q))) ∂linkMeasure S Measure.haar)
    (Good : J → HeatStream → LinkSU S N → Prop) (hG : ∀ j, MeasurableSet {z : HeatStream × LinkSU S N | Good j z.1 z.2}) (l0 : List J) (hl0 : l0.Nodup)
    (hae : ∀ j ∈ l0, ∀ᵐ Q ∂linkMeasure S Measure.haar, ∀ᵐ ω ∂heatMeasure, Good j ω Q) (part : J → ℕ) (hloc : Local st l0 part (AgreeOn T size))
    (update : (J → HeatBathDraw) → GField S N → Option (GField S N))
    (hprog : ∀ (d : J → HeatStream) (Q : LinkSU S N), (∀ j a, (streamDraw a (d j)).Uniform) → AllGood st Good l0 d Q →
      ∃ n0, ∀ a ≥ n0, update (fun j => streamDraw a (d j)) (linkMat Q) = some (linkMat (runSteps st l0 d Q))) :
    ∃ (corr : (Fin n × J → HeatStream) → LinkSU S N → ℕ → ℝ) (last : (Fin n × J → HeatStream) → LinkSU S N → LinkSU S N),
      (∀ᵐ Q ∂linkMeasure S Measure.haar, ∀ᵐ d ∂(Measure.pi fun _ => heatMeasure), ∃ n0, ∀ a ≥ n0,
        levelMeasure T size maxR update ((List.finRange n).map fun k j => streamDraw a (d (k, j))) (linkMat Q)
          = some ((List.range' 2 (maxR - 1)).map (corr d Q), linkMat (last d Q)))
      ∧ KeepsBoltzmann E (Measure.pi fun _ => heatMeasure) last
      ∧ ∀ R, Integrable (fun z => corr z.1 z.2 R) ((Measure.pi fun _ => heatMeasure).prod (boltzmann E))
        ∧ ∫ z, corr z.1 z.2 R ∂((Measure.pi fun _ => heatMeasure).prod (boltzmann E)) = ∫ Q, levelCorrelator T size [linkMat Q] R ∂boltzmann E := by
  have hdiv : T.ext 1 / size = m := by rw [hY, Nat.mul_div_cancel_left _ hs]
  have hEm : Measurable fun Q : LinkSU S N => E (linkMat Q) := measurable_of_continuous_link _ hE
  have hw := measurable_weight E hE
  let ST : Fin n × J → HeatStream → LinkSU S N → LinkSU S N := fun i => st i.2
  have hST : ∀ i, Measurable fun z : HeatStream × LinkSU S N => ST i z.1 z.2 := fun i => hst i.2
  have keeps : ∀ l : List (Fin n × J), l.Nodup → KeepsBoltzmann E (Measure.pi fun _ => heatMeasure) fun d Q => runSteps ST l d Q := fun l hl f hf =>
    foldl_stationary heatMeasure (linkMeasure S Measure.haar) (fun Q : LinkSU S N => ENNReal.ofReal (exp (-E (linkMat Q)))) ST hST (fun i => hstat i.2) l hl f hf
  have hmeas : ∀ l : List (Fin n × J), Measurable fun z : (Fin n × J → HeatStream) × LinkSU S N => runSteps ST l z.1 z.2 := fun l => measurable_foldl ST hST l
  let rounds : ℕ → List (Fin n × J) := fun r => roundList l0 ((List.finRange n).take r)
  have hrn : ∀ r, (rounds r).Nodup := fun r => roundList_nodup l0 hl0 _ ((List.nodup_finRange n).take)
  let conf : (Fin n × J → HeatStream) → LinkSU S N → Fin n → GField S N := fun d Q r => linkMat (runSteps ST (rounds r) d Q)
  refine ⟨fun d Q R => levelCorrelator T size (List.ofFn (conf d Q)) R, fun d Q => runSteps ST (roundList l0 (List.finRange n)) d Q, ?_, ?_, ?_⟩
  · have hall := ae_allGood heatMeasure (linkMeasure S Measure.haar) (fun Q : LinkSU S N => ENNReal.ofReal (exp (-E (linkMat Q)))) hw
      (fun Q => by rw [Ne, ENNReal.ofReal_eq_zero, not_le]; exact exp_pos _) ST hST (fun i => hstat i.2) (fun i => Good i.2) (fun i => hG i.2)
      (roundList l0 (List.finRange n)) (roundList_nodup l0 hl0 _ (List.nodup_finRange n)) (fun i hi => by
        simp only [roundList, List.mem_flatMap, List.mem_map] at hi
        obtain ⟨k, -, j, hj, rfl⟩ := hi
        exact hae j hj)
    have hu : ∀ᵐ d ∂(Measure.pi fun _ : Fin n × J => heatMeasure), ∀ i a, (streamDraw a (d i)).Uniform := by
      rw [ae_all_iff]
      exact fun i => (measurePreserving_eval (fun _ : Fin n × J => heatMeasure) i).quasiMeasurePreserving.ae ae_uniform
    filter_upwards [hall] with Q hQ
    filter_upwards [hQ, hu] with d hd hud
    obtain ⟨n0, h0⟩ := levelRun_eq (K := Fin n) linkMat st l0 Good (fun a d => update fun j => streamDraw a (d j)) (fun ω => ∀ a, (streamDraw a ω).Uniform)
      (fun d Q h1 h2 => hprog d Q h1 h2) d hud (List.finRange n) Q hd
    refine ⟨n0, fun a ha => ?_⟩
    unfold levelMeasure
    have hdr : ((List.finRange n).map fun k j => streamDraw a (d (k, j))) ≠ [] := by
      intro hc
      have := congrArg List.length hc
      simp at this
      omega
    rw [if_neg (by rintro (h | h | h | h); exacts [hs.ne' h, hdr h, by omega, by omega])]
    have e : levelRun update ((List.finRange n).map fun k j => streamDraw a (d (k, j))) (linkMat Q)
        = levelRun (fun d => update fun j => streamDraw a (d j)) ((List.finRange n).map fun k j => d (k, j)) (linkMat Q) := by
      have gen : ∀ (ks : List (Fin n)) U, levelRun update (ks.map fun k j => streamDraw a (d (k, j))) U
          = levelRun (fun d => update fun j => streamDraw a (d j)) (ks.map fun k j => d (k, j)) U := by
        intro ks
        induction ks with
        | nil => intro U; rfl
        | cons k ks ih =>
          intro U
          simp only [List.map_cons, levelRun, ih]
      exact gen _ _
    rw [e, h0 a ha, Option.map_some]
    refine congrArg some (Prod.ext ?_ rfl)
    simp only
    have hc : (List.range (List.finRange n).length).map (fun r => linkMat (runSteps (fun i : Fin n × J => st i.2) (roundList l0 ((List.finRange n).take r)) d Q)) = List.ofFn (conf d Q) := by
      refine List.ext_getElem (by simp) fun i h1 h2 => ?_
      simp [conf, rounds, ST]
    rw [hc]
  · exact keeps _ (roundList_nodup l0 hl0 _ (List.nodup_finRange n))
  · intro R
    -- one run for every choice of a round in every slice
    let cc : (Fin (T.ext 1 / size) → Fin n) → ℕ → ℕ := fun c k => if h : k < T.ext 1 / size then c ⟨k, h⟩ else 0
    let ml : (Fin (T.ext 1 / size) → Fin n) → List (Fin n × J) := fun c => mixedList (fun i : Fin n × J => part i.2) rounds (cc c) (List.range (T.ext 1 / size))
    have hlocS : Local ST (roundList l0 (List.finRange n)) (fun i : Fin n × J => part i.2) (AgreeOn T size) :=
      ⟨hloc.refl, hloc.trans, fun i hi => hloc.inside i.2 (by
        simp only [roundList, List.mem_flatMap, List.mem_map] at hi
        obtain ⟨k, -, j, hj, rfl⟩ := hi
        exact hj), fun i hi => hloc.outside i.2 (by
        simp only [roundList, List.mem_flatMap, List.mem_map] at hi
        obtain ⟨k, -, j, hj, rfl⟩ := hi
        exact hj)⟩
    have hsub : ∀ r, ∀ i ∈ rounds r, i ∈ roundList l0 (List.finRange n) := fun r i hi => by
      simp only [rounds, roundList, List.mem_flatMap] at hi ⊢
      obtain ⟨k, -, hk⟩ := hi
      exact ⟨k, List.mem_finRange k, hk⟩
    have hexp : ∀ d Q, levelCorrelator T size (List.ofFn (conf d Q)) R
        = ((n : ℝ)⁻¹) ^ (T.ext 1 / size) * ∑ c, levelCorrelator T size [linkMat (runSteps ST (ml c) d Q)] R := by
      intro d Q
      unfold levelCorrelator
      rw [← Finset.sum_div, mul_div_assoc', Finset.sum_comm, Finset.mul_sum]
      refine congrArg (fun z => z / _) (Finset.sum_congr rfl fun s _ => ?_)
      by_cases h0 : T.coord s 1 = 0
      · simp only [if_pos h0]
        refine levelSite_expand T size n (by omega) (conf d Q) s _ (fun c => linkMat (runSteps ST (ml c) d Q)) fun c k => ?_
        have hag := hlocS.mixed (fun k x y h s μ hi => (h s μ hi).symm) rounds hsub (cc c) (List.range (T.ext 1 / size)) List.nodup_range k
          (List.mem_range.2 k.2) d Q
        have hck : cc c k = c k := by simp only [cc, k.2, dif_pos]
        rw [hck] at hag
        have hag' : AgreeOn T size k (linkMat (runSteps ST (ml c) d Q)) (conf d Q (c k)) := fun s μ hi => congrArg Subtype.val (hag s μ hi)
        have hkm : (k : ℕ) < m := by have := k.2; omega
        refine ⟨lineOfSlice_agree T size m hY hs _ _ s h0 k hkm hag', lineOfSlice_agree T size m hY hs _ _ _ ?_ k hkm hag'⟩
        rw [T.coord_iterate_ne 0 1 (by decide), h0]
      · simp only [if_neg h0, Finset.sum_const_zero, mul_zero]
    have hg : Continuous fun Q : LinkSU S N => levelCorrelator T size [linkMat Q] R := (continuous_levelCorrelator T size (by omega) R).comp continuous_linkMat
    haveI := boltzmann_finite E hE
    obtain ⟨C, hC⟩ := (isCompact_univ (X := LinkSU S N)).exists_bound_of_continuousOn hg.continuousOn
    have hint : ∀ c, Integrable (fun z : (Fin n × J → HeatStream) × LinkSU S N => levelCorrelator T size [linkMat (runSteps ST (ml c) z.1 z.2)] R)
        ((Measure.pi fun _ => heatMeasure).prod (boltzmann E)) := fun c =>
      Integrable.of_bound (hg.measurable.comp (hmeas (ml c))).aestronglyMeasurable C (Filter.Eventually.of_forall fun z => hC _ (mem_univ _))
    have hval : ∀ c, ∫ z, levelCorrelator T size [linkMat (runSteps ST (ml c) z.1 z.2)] R ∂((Measure.pi fun _ => heatMeasure).prod (boltzmann E))
        = ∫ Q, levelCorrelator T size [linkMat Q] R ∂boltzmann E := fun c =>
      (keeps (ml c) (mixedList_nodup _ rounds hrn (cc c) _ List.nodup_range)).integral hE (hmeas (ml c)) (fun Q => levelCorrelator T size [linkMat Q] R) hg
    simp only [hexp]
    refine ⟨(integrable_finsetSum _ fun c _ => hint c).const_mul _, ?_⟩
    rw [integral_const_mul, integral_finset_sum _ fun c _ => hint c]
    simp only [hval]
    rw [Finset.sum_const, Finset.card_univ, Fintype.card_fun, Fintype.card_fin, Fintype.card_fin, nsmul_eq_mul, ← mul_assoc]
    have hn' : (n : ℝ) ≠ 0 := by exact_mod_cast hn.ne'
    have : ((n : ℝ)⁻¹) ^ (T.ext 1 / size) * ((n ^ (T.ext 1 / size) : ℕ) : ℝ) = 1 := by
      push_cast
      rw [← mul_pow, inv_mul_cancel₀ hn', one_pow]
    rw [this, one_mul]

end Leonard
