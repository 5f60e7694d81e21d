/-
C57 (the Metropolis updater of the scalar fields).
-/
import Verif.Scalar.Metropolis
import Verif.Scalar.CounterProps

set_option autoImplicit false

namespace Leonard

open Matrix MeasureTheory ProbabilityTheory
open scoped ENNReal

variable {S : Type} {N nA nF trials : ℕ}

/-! ### Stationarity -/

/-- The distribution of the random numbers of one hit: two normal numbers with variance one half and one uniform number. -/
noncomputable def hitLaw : Measure HitDraw :=
  ((gaussianReal 0 (1 / 2)).prod (gaussianReal 0 (1 / 2))).prod (volume.restrict (Set.Ico (0 : ℝ) 1))

instance : IsProbabilityMeasure (volume.restrict (Set.Ico (0 : ℝ) 1)) := ⟨by simp⟩

instance : IsProbabilityMeasure hitLaw := by unfold hitLaw; infer_instance

theorem gaussian_neg (v : NNReal) : MeasurePreserving (fun x : ℝ => -x) (gaussianReal 0 v) (gaussianReal 0 v) := by
  refine ⟨measurable_neg, ?_⟩
  rw [gaussianReal_map_neg, neg_zero]

theorem continuous_scalarEnergy [Fintype S] (c : ScalarCouplings) (T : Torus S) (U : GField S N) :
    Continuous fun Φ : Scalars S N nA nF => scalarEnergy c T U Φ := by
  have h1 : ∀ (i : Fin nA) (s : S) (k : Fin (lieGenerators N).length), Continuous fun Φ : Scalars S N nA nF => Φ.1 i s k := fun i s k => by fun_prop
  have h2 : ∀ (i : Fin nF) (s : S) (k : Fin N), Continuous fun Φ : Scalars S N nA nF => Φ.2 i s k := fun i s k => by fun_prop
  simp only [scalarEnergy_eq, adjointKinetic, fundamentalKinetic, potentialEnergy_eq, realDot, complexDot, mulVec, dotProduct, atSite]
  fun_prop

theorem measurable_hitShift [Fintype S] [DecidableEq S] (ε : ℝ) (h : Hit S N nA nF trials) : Measurable (hitShift ε h) := by
  cases h with
  | adjoint s i t k =>
    refine Measurable.prodMk ?_ measurable_const
    refine measurable_pi_iff.2 fun i' => measurable_pi_iff.2 fun s' => measurable_pi_iff.2 fun k' => ?_
    by_cases h : i' = i ∧ s' = s ∧ k' = k
    · simp only [if_pos h]; fun_prop
    · simp only [if_neg h]; fun_prop
  | fundamental s i t k =>
    refine Measurable.prodMk measurable_const ?_
    refine measurable_pi_iff.2 fun i' => measurable_pi_iff.2 fun s' => measurable_pi_iff.2 fun k' => ?_
    have hc : Measurable fun g : ℝ × ℝ => (⟨g.1, g.2⟩ : ℂ) := Complex.measurableEquivRealProd.symm.measurable
    by_cases h : i' = i ∧ s' = s ∧ k' = k
    · simp only [if_pos h]; exact measurable_const.add (hc.const_mul _)
    · simp only [if_neg h]; exact measurable_const

theorem hitShift_odd [DecidableEq S] (ε : ℝ) (h : Hit S N nA nF trials) (g : ℝ × ℝ) : hitShift ε h (-g) = -hitShift ε h g := by
  cases h with
  | adjoint s i t k =>
    change addAdjoint 0 i s k (ε * -g.1) = -addAdjoint 0 i s k (ε * g.1)
    rw [mul_neg, addAdjoint_neg]
  | fundamental s i t k =>
    change addFundamental 0 i s k ((ε : ℂ) * ⟨-g.1, -g.2⟩) = -addFundamental 0 i s k ((ε : ℂ) * ⟨g.1, g.2⟩)
    have : (⟨-g.1, -g.2⟩ : ℂ) = -⟨g.1, g.2⟩ := rfl
    rw [this, mul_neg, addFundamental_neg]

instance [Fintype S] : MeasurableAdd₂ (Scalars S N nA nF) :=
  ⟨((measurable_fst.comp measurable_fst).add (measurable_fst.comp measurable_snd)).prodMk
    ((measurable_snd.comp measurable_fst).add (measurable_snd.comp measurable_snd))⟩

instance [Fintype S] : MeasurableSub₂ (Scalars S N nA nF) :=
  ⟨((measurable_fst.comp measurable_fst).sub (measurable_fst.comp measurable_snd)).prodMk
    ((measurable_snd.comp measurable_fst).sub (measurable_snd.comp measurable_snd))⟩

instance [Fintype S] : SigmaFinite (volume : Measure (Fin nA → S → AdjVec N)) :=
  haveI : SigmaFinite (volume : Measure (S → AdjVec N)) := inferInstanceAs (SigmaFinite (Measure.pi fun _ => volume))
  inferInstanceAs (SigmaFinite (Measure.pi fun _ => volume))

instance [Fintype S] : SigmaFinite (volume : Measure (Fin nF → S → FundVec N)) :=
  haveI : SigmaFinite (volume : Measure (FundVec N)) := inferInstanceAs (SigmaFinite (Measure.pi fun _ => volume))
  haveI : SigmaFinite (volume : Measure (S → FundVec N)) := inferInstanceAs (SigmaFinite (Measure.pi fun _ => volume))
  inferInstanceAs (SigmaFinite (Measure.pi fun _ => volume))

instance [Fintype S] : SigmaFinite (volume : Measure (Scalars S N nA nF)) :=
  inferInstanceAs (SigmaFinite (Measure.prod volume volume))

instance [Fintype S] : (volume : Measure (Fin nA → S → AdjVec N)).IsAddLeftInvariant :=
  haveI : SigmaFinite (volume : Measure (S → AdjVec N)) := inferInstanceAs (SigmaFinite (Measure.pi fun _ => volume))
  haveI : (volume : Measure (S → AdjVec N)).IsAddLeftInvariant := Measure.pi.isAddLeftInvariant _
  Measure.pi.isAddLeftInvariant _

instance [Fintype S] : (volume : Measure (Fin nF → S → FundVec N)).IsAddLeftInvariant :=
  haveI : SigmaFinite (volume : Measure (FundVec N)) := inferInstanceAs (SigmaFinite (Measure.pi fun _ => volume))
  haveI : SigmaFinite (volume : Measure (S → FundVec N)) := inferInstanceAs (SigmaFinite (Measure.pi fun _ => volume))
  haveI : (volume : Measure (FundVec N)).IsAddLeftInvariant := Measure.pi.isAddLeftInvariant _
  haveI : (volume : Measure (S → FundVec N)).IsAddLeftInvariant := Measure.pi.isAddLeftInvariant _
  Measure.pi.isAddLeftInvariant _

instance [Fintype S] : (volume : Measure (Scalars S N nA nF)).IsAddLeftInvariant :=
  inferInstanceAs (Measure.prod volume volume).IsAddLeftInvariant

/-- **C57, stationarity.** A sweep of the Metropolis updater leaves the distribution with density `exp(-energy)` invariant: for every function of
the fields its average after the sweep is its average before.  For every lattice on which no site is its own neighbour, all couplings, all links,
numbers of fields and hits, every width of the proposals and every order in which each site is visited at most once. -/
theorem C57_stationary [Fintype S] [DecidableEq S] (T : Torus S) (hT : ∀ μ s, T.sup μ s ≠ s) (c : ScalarCouplings) (ε : ℝ) (U : GField S N)
    (sites : List S) (hs : sites.Nodup) (f : Scalars S N nA nF → ℝ≥0∞) (hf : Measurable f) :
    ∫⁻ Φ, (∫⁻ d, f (scalarSweep c ε T U sites d Φ) ∂(Measure.pi fun _ : Hit S N nA nF trials => hitLaw))
        * ENNReal.ofReal (Real.exp (-scalarEnergy c T U Φ)) =
      ∫⁻ Φ, f Φ * ENNReal.ofReal (Real.exp (-scalarEnergy c T U Φ)) := by
  have hE : Measurable fun Φ : Scalars S N nA nF => scalarEnergy c T U Φ := (continuous_scalarEnergy c T U).measurable
  have hγ : MeasurePreserving (fun g : ℝ × ℝ => -g) ((gaussianReal 0 (1 / 2)).prod (gaussianReal 0 (1 / 2)))
      ((gaussianReal 0 (1 / 2)).prod (gaussianReal 0 (1 / 2))) := (gaussian_neg _).prod (gaussian_neg _)
  simp only [scalarSweep_hits c ε T hT U, hitStep_eq c ε T hT U]
  exact foldl_stationary hitLaw volume (fun Φ => ENNReal.ofReal (Real.exp (-scalarEnergy c T U Φ)))
    (fun h d Φ => shiftStep (scalarEnergy c T U) (hitShift ε h) d Φ)
    (fun h => measurable_shiftStep _ hE _ (measurable_hitShift ε h))
    (fun h f hf => shiftStep_stationary volume _ hγ _ hE _ (measurable_hitShift ε h) (hitShift_odd ε h) f hf) _ (nodup_sweepHits T sites hs) f hf

/-! ### Order of the sites -/

/-- The fields agree at a site. -/
def AgreeAt (Φ Ψ : Scalars S N nA nF) (s : S) : Prop := (∀ i, Φ.1 i s = Ψ.1 i s) ∧ ∀ i, Φ.2 i s = Ψ.2 i s

/-- The site and its neighbours. -/
def Near (T : Torus S) (s s' : S) : Prop := s' = s ∨ ∃ μ, s' = T.sup μ s ∨ s' = T.sdn μ s

/-- A function that changes the fields at `s` only, depending on the fields at `s` and its neighbours. -/
structure LocalAt (T : Torus S) (s : S) (g : Scalars S N nA nF → Scalars S N nA nF) : Prop where
  other : ∀ Φ s', s' ≠ s → AgreeAt (g Φ) Φ s'
  depends : ∀ Φ Ψ, (∀ s', Near T s s' → AgreeAt Φ Ψ s') → AgreeAt (g Φ) (g Ψ) s

theorem AgreeAt.trans {Φ Ψ X : Scalars S N nA nF} {s : S} (h : AgreeAt Φ Ψ s) (h' : AgreeAt Ψ X s) : AgreeAt Φ X s :=
  ⟨fun i => (h.1 i).trans (h'.1 i), fun i => (h.2 i).trans (h'.2 i)⟩

theorem AgreeAt.symm {Φ Ψ : Scalars S N nA nF} {s : S} (h : AgreeAt Φ Ψ s) : AgreeAt Ψ Φ s := ⟨fun i => (h.1 i).symm, fun i => (h.2 i).symm⟩

theorem agree_ext {Φ Ψ : Scalars S N nA nF} (h : ∀ s, AgreeAt Φ Ψ s) : Φ = Ψ :=
  Prod.ext (funext fun i => funext fun s => (h s).1 i) (funext fun i => funext fun s => (h s).2 i)

theorem LocalAt.near {T : Torus S} {s : S} {g : Scalars S N nA nF → Scalars S N nA nF} (hg : LocalAt T s g) (Φ Ψ : Scalars S N nA nF)
    (h : ∀ s', Near T s s' → AgreeAt Φ Ψ s') : ∀ s', Near T s s' → AgreeAt (g Φ) (g Ψ) s' := by
  intro s' hs
  by_cases e : s' = s
  · subst e; exact hg.depends Φ Ψ h
  · exact ((hg.other Φ s' e).trans (h s' hs)).trans (hg.other Ψ s' e).symm

theorem localAt_foldl {T : Torus S} {s : S} {α : Type} (g : Scalars S N nA nF → α → Scalars S N nA nF) (l : List α)
    (hg : ∀ a ∈ l, LocalAt T s fun Φ => g Φ a) : LocalAt T s fun Φ => l.foldl g Φ := by
  induction l with
  | nil => exact ⟨fun Φ s' _ => ⟨fun _ => rfl, fun _ => rfl⟩, fun Φ Ψ h => h s (Or.inl rfl)⟩
  | cons a l ih =>
    have h1 := hg a List.mem_cons_self
    have h2 := ih fun b hb => hg b (List.mem_cons_of_mem _ hb)
    exact ⟨fun Φ s' hs => (h2.other _ s' hs).trans (h1.other Φ s' hs), fun Φ Ψ h => h2.depends _ _ (h1.near Φ Ψ h)⟩

theorem LocalAt.commute {T : Torus S} {s s' : S} {g g' : Scalars S N nA nF → Scalars S N nA nF} (hg : LocalAt T s g) (hg' : LocalAt T s' g')
    (h : ¬Near T s s') (h' : ¬Near T s' s) (Φ : Scalars S N nA nF) : g (g' Φ) = g' (g Φ) := by
  have hne : s ≠ s' := fun e => h (Or.inl e.symm)
  refine agree_ext fun x => ?_
  by_cases hx : x = s
  · subst hx
    have h1 : AgreeAt (g (g' Φ)) (g Φ) x := hg.depends _ _ fun y hy => hg'.other Φ y fun e => h (e ▸ hy)
    exact h1.trans (hg'.other (g Φ) x hne).symm
  · by_cases hx' : x = s'
    · subst hx'
      have h1 : AgreeAt (g' (g Φ)) (g' Φ) x := hg'.depends _ _ fun y hy => hg.other Φ y fun e => h' (e ▸ hy)
      exact (hg.other (g' Φ) x hx).trans h1.symm
    · exact ((hg.other _ x hx).trans (hg'.other Φ x hx')).trans ((hg'.other _ x hx').trans (hg.other Φ x hx)).symm

theorem atSite_agree {Φ Ψ : Scalars S N nA nF} {s : S} (h : AgreeAt Φ Ψ s) : atSite Φ.1 s = atSite Ψ.1 s ∧ atSite Φ.2 s = atSite Ψ.2 s :=
  ⟨funext h.1, funext h.2⟩

theorem addAdjoint_agree [DecidableEq S] {Φ Ψ : Scalars S N nA nF} {s : S} (h : AgreeAt Φ Ψ s) (i : Fin nA) (s' : S)
    (k : Fin (lieGenerators N).length) (x : ℝ) : AgreeAt (addAdjoint Φ i s' k x) (addAdjoint Ψ i s' k x) s := by
  refine ⟨fun j => ?_, h.2⟩
  funext k'
  simp only [addAdjoint, congrFun (h.1 j) k']

theorem addFundamental_agree [DecidableEq S] {Φ Ψ : Scalars S N nA nF} {s : S} (h : AgreeAt Φ Ψ s) (i : Fin nF) (s' : S) (k : Fin N) (x : ℂ) :
    AgreeAt (addFundamental Φ i s' k x) (addFundamental Ψ i s' k x) s := by
  refine ⟨h.1, fun j => ?_⟩
  funext k'
  simp only [addFundamental, congrFun (h.2 j) k']

theorem localAt_hitStep [DecidableEq S] (c : ScalarCouplings) (ε : ℝ) (T : Torus S) (U : GField S N) (h : Hit S N nA nF trials) (d : HitDraw) :
    LocalAt T h.site (hitStep c ε T U h d) := by
  cases h with
  | adjoint s i t k =>
    refine ⟨fun Φ s' hs => ⟨fun j => (adjointHit_other c ε _ s i k d Φ).1 j s' hs, fun j => congrFun (congrFun (adjointHit_other c ε _ s i k d Φ).2 j) s'⟩, ?_⟩
    intro Φ Ψ h
    have hs : AgreeAt Φ Ψ s := h s (Or.inl rfl)
    have hK : adjointCoupling T U (Φ.1 i) s = adjointCoupling T U (Ψ.1 i) s := adjointCoupling_congr T U _ _ s fun μ =>
      ⟨(h _ (Or.inr ⟨μ, Or.inl rfl⟩)).1 i, (h _ (Or.inr ⟨μ, Or.inr rfl⟩)).1 i⟩
    change AgreeAt (adjointHit c ε (adjointCoupling T U (Φ.1 i) s) s i k d Φ) (adjointHit c ε (adjointCoupling T U (Ψ.1 i) s) s i k d Ψ) s
    rw [hK]
    have h1 := addAdjoint_agree hs i s k (ε * d.1.1)
    unfold adjointHit
    simp only [(atSite_agree hs).1, (atSite_agree hs).2, (atSite_agree h1).1, (atSite_agree h1).2]
    split
    · exact h1
    · split
      · exact h1
      · exact addAdjoint_agree h1 i s k _
  | fundamental s i t k =>
    refine ⟨fun Φ s' hs => ⟨fun j => congrFun (congrFun (fundamentalHit_other c ε _ s i k d Φ).2 j) s', fun j => (fundamentalHit_other c ε _ s i k d Φ).1 j s' hs⟩, ?_⟩
    intro Φ Ψ h
    have hs : AgreeAt Φ Ψ s := h s (Or.inl rfl)
    have hK : fundamentalCoupling T U (Φ.2 i) s = fundamentalCoupling T U (Ψ.2 i) s := fundamentalCoupling_congr T U _ _ s fun μ =>
      ⟨(h _ (Or.inr ⟨μ, Or.inl rfl⟩)).2 i, (h _ (Or.inr ⟨μ, Or.inr rfl⟩)).2 i⟩
    change AgreeAt (fundamentalHit c ε (fundamentalCoupling T U (Φ.2 i) s) s i k d Φ) (fundamentalHit c ε (fundamentalCoupling T U (Ψ.2 i) s) s i k d Ψ) s
    rw [hK]
    have h1 := addFundamental_agree hs i s k ((ε : ℂ) * ⟨d.1.1, d.1.2⟩)
    unfold fundamentalHit
    simp only [(atSite_agree hs).1, (atSite_agree hs).2, (atSite_agree h1).1, (atSite_agree h1).2]
    split
    · exact h1
    · split
      · exact h1
      · exact addFundamental_agree h1 i s k _

theorem sup_ne_of_even (T : Torus S) (he : ∀ μ, Even (T.ext μ)) (μ : Fin 4) (s : S) : T.sup μ s ≠ s := fun e => by
  have h := coordSum_sup T he μ s
  rw [e] at h
  omega

theorem near_colour (T : Torus S) (he : ∀ μ, Even (T.ext μ)) (s s' : S) (hs : s ≠ s') (h : coordSum T s % 2 = coordSum T s' % 2) : ¬Near T s s' := by
  rintro (rfl | ⟨μ, rfl | rfl⟩)
  · exact hs rfl
  · have := coordSum_sup T he μ s
    omega
  · have := coordSum_sup T he μ (T.sdn μ s)
    rw [T.sup_sdn] at this
    omega

theorem localAt_updateSite [DecidableEq S] (c : ScalarCouplings) (ε : ℝ) (T : Torus S) (hT : ∀ μ s, T.sup μ s ≠ s) (U : GField S N)
    (d : Hit S N nA nF trials → HitDraw) (s : S) : LocalAt T s fun Φ => updateSite c ε T U d Φ s := by
  simp only [updateSite_hits c ε T hT U d]
  refine localAt_foldl _ _ fun h hh => ?_
  have := localAt_hitStep c ε T U h (d h)
  rwa [mem_siteHits s h hh] at this

/-- **C57, order.** For a lattice with even extensions the result of a sweep does not depend on the order in which the loop over the sites visits
them, as it must not because the loop is shared between threads: for the same random numbers at every site, two orders give the same fields. -/
theorem C57_order [DecidableEq S] (T : Torus S) (he : ∀ μ, Even (T.ext μ)) (c : ScalarCouplings) (ε : ℝ) (U : GField S N) (sites sites' : List S)
    (hp : sites.Perm sites') (d : Hit S N nA nF trials → HitDraw) (Φ : Scalars S N nA nF) :
    scalarSweep c ε T U sites d Φ = scalarSweep c ε T U sites' d Φ := by
  have hT := sup_ne_of_even T he
  have hc : ∀ (b : ℕ) (X : Scalars S N nA nF), (sites.filter fun s => coordSum T s % 2 = b).foldl (fun Φ s => updateSite c ε T U d Φ s) X =
      (sites'.filter fun s => coordSum T s % 2 = b).foldl (fun Φ s => updateSite c ε T U d Φ s) X := by
    intro b X
    refine (hp.filter _).foldl_eq' (fun s hs s' hs' Y => ?_) X
    rw [List.mem_filter] at hs hs'
    have e : coordSum T s % 2 = coordSum T s' % 2 := (of_decide_eq_true hs.2).trans (of_decide_eq_true hs'.2).symm
    by_cases hne : s = s'
    · subst hne; rfl
    · exact (localAt_updateSite c ε T hT U d s').commute (localAt_updateSite c ε T hT U d s) (near_colour T he s' s (Ne.symm hne) e.symm)
        (near_colour T he s s' hne e) Y
  rw [scalarSweep_sites, scalarSweep_sites]
  unfold sweepSites
  rw [List.foldl_append, List.foldl_append, hc, hc]

/-- **C57, all sites.** A sweep updates every site of the list exactly once, the sites with an even sum of coordinates before the others. -/
theorem C57_visits [DecidableEq S] (T : Torus S) (c : ScalarCouplings) (ε : ℝ) (U : GField S N) (sites : List S) :
    ∃ order : List S, order.Perm sites ∧
      order.Pairwise (fun s s' => Odd (T.coord s 0 + T.coord s 1 + T.coord s 2 + T.coord s 3) → Odd (T.coord s' 0 + T.coord s' 1 + T.coord s' 2 + T.coord s' 3)) ∧
      ∀ (d : Hit S N nA nF trials → HitDraw) (Φ : Scalars S N nA nF),
        scalarSweep c ε T U sites d Φ = order.foldl (fun Φ s => updateSite c ε T U d Φ s) Φ := by
  refine ⟨sweepSites T sites, ?_, ?_, fun d Φ => scalarSweep_sites c ε T U sites d Φ⟩
  · have h := List.filter_append_perm (fun s => decide (coordSum T s % 2 = 0)) sites
    have e : (fun s => decide (coordSum T s % 2 = 1)) = fun s => !decide (coordSum T s % 2 = 0) := by
      funext s
      rcases Nat.mod_two_eq_zero_or_one (coordSum T s) with h0 | h0 <;> simp [h0]
    unfold sweepSites
    rw [e]
    exact h
  · unfold sweepSites
    rw [List.pairwise_append]
    refine ⟨?_, ?_, ?_⟩
    · refine List.pairwise_of_forall_mem_list ?_
      intro s hs s' _ h
      rw [List.mem_filter] at hs
      have h0 : coordSum T s % 2 = 0 := of_decide_eq_true hs.2
      exact absurd (Nat.odd_iff.1 h) (by unfold coordSum at h0; omega)
    · refine List.pairwise_of_forall_mem_list ?_
      intro s _ s' hs' _
      rw [List.mem_filter] at hs'
      exact Nat.odd_iff.2 (of_decide_eq_true hs'.2)
    · intro s _ s' hs' _
      rw [List.mem_filter] at hs'
      exact Nat.odd_iff.2 (of_decide_eq_true hs'.2)

/-! ### Numbers of fields -/

/-- **C57, options.** The updater ends the program, with exit code 109 or 107, exactly when a number of fields in the options is not the number of
fields of the environment; otherwise it does the sweep. -/
theorem C57_fields [DecidableEq S] (optA optF : ℕ) (c : ScalarCouplings) (ε : ℝ) (T : Torus S) (U : GField S N) (sites : List S)
    (d : Hit S N nA nF trials → HitDraw) (Φ : Scalars S N nA nF) :
    (scalarExecute optA optF c ε T U sites d Φ = .ok (scalarSweep c ε T U sites d Φ) ↔ optA = nA ∧ optF = nF) ∧
      (optA ≠ nA → scalarExecute optA optF c ε T U sites d Φ = .exit 109) ∧
      (optA = nA → optF ≠ nF → scalarExecute optA optF c ε T U sites d Φ = .exit 107) := by
  unfold scalarExecute
  refine ⟨?_, fun h => if_pos h, fun h h' => by rw [if_neg (not_not.2 h), if_pos h']⟩
  by_cases h : optA = nA
  · by_cases h' : optF = nF
    · simp [h, h']
    · simp [h, h']
  · simp [h]

end Leonard
