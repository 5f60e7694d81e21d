import Verif.Heat.Model
import Verif.Heat.Chain
import Verif.Heat.Staples

/-!
The sweep of the program and its total version.
-/

set_option autoImplicit false

namespace Leonard

open MeasureTheory Set Real Matrix ComplexConjugate
open scoped ENNReal

variable {N : ℕ} {S : Type} [DecidableEq S]

/-- One step on a configuration, labelled by link and subgroup. -/
noncomputable def heatSt (β : ℝ) (stap : GField S N → S → Fin 4 → Mat N) (i : Link S × Fin N × Fin N) (ω : HeatStream) (Q : LinkSU S N) : LinkSU S N :=
  heatStepSU β stap i.1.1 i.1.2 i.2.1 i.2.2 ω Q

/-- The condition for a step to be defined. -/
def HeatGood (β : ℝ) (stap : GField S N → S → Fin 4 → Mat N) (i : Link S × Fin N × Fin N) (ω : HeatStream) (Q : LinkSU S N) : Prop :=
  subDet (plaqMat stap i.1.1 i.1.2 Q) i.2.1 i.2.2 ≠ 0 ∧ GoodStream (N / (2 * β * √(subDet (plaqMat stap i.1.1 i.1.2 Q) i.2.1 i.2.2))) ω

/-- The steps of a sweep. -/
def heatList (N : ℕ) (links : List (Link S)) : List (Link S × Fin N × Fin N) := links.flatMap fun l => (subgroupPairs N).map fun kl => (l, kl)

/-- The sweep as a total function. -/
noncomputable def heatTotal (β : ℝ) (stap : GField S N → S → Fin 4 → Mat N) (l : List (Link S × Fin N × Fin N)) (d : Link S × Fin N × Fin N → HeatStream)
    (Q : LinkSU S N) : LinkSU S N := l.foldl (fun Q i => heatSt β stap i (d i) Q) Q

theorem subUpdate_good {β : ℝ} {P : Mat N} {k l : Fin N} {ω : HeatStream} (h : subDet P k l ≠ 0) (hω : GoodStream (N / (2 * β * √(subDet P k l))) ω) :
    ∃ n0, ∀ n ≥ n0, subUpdate β P k l (streamDraw n ω) = some (subElement β P k l ω).1 := by
  obtain ⟨n0, hn⟩ := randomSu2_good hω
  refine ⟨n0, fun n hn' => ?_⟩
  rw [subUpdate_of_random h _ _ (hn n hn'), subElement, if_neg h]

theorem plaqMat_rotateLink {β : ℝ} {E : GField S N → ℝ} {stap : GField S N → S → Fin 4 → Mat N} (hE : LocalEnergy β E stap) (hβ : β ≠ 0) (hN : 0 < N) (s : S)
    (μ : Fin 4) (k l : Fin N) (hkl : k ≠ l) (a : SU 2) (Q : LinkSU S N) :
    plaqMat stap s μ (rotateLink s μ k l a Q) = rowUpdate a.1 k l (plaqMat stap s μ Q) := by
  have e1 := rotateLink_mat s μ k l hkl a Q
  have e2 : ((rotateLink s μ k l a Q) s μ).1 = rowUpdate a.1 k l (linkMat Q s μ) := by
    have e3 := congrFun (congrFun e1 s) μ
    have e4 : setLink (linkMat Q) s μ (rowUpdate a.1 k l (linkMat Q s μ)) s μ = rowUpdate a.1 k l (linkMat Q s μ) := by simp [setLink]
    exact e3.trans e4
  simp only [plaqMat]
  rw [e2, e1, hE.staple_setLink hβ hN, rowUpdate_eq_mul, Matrix.mul_assoc, ← rowUpdate_eq_mul]
  rfl

theorem setLink_setLink (U : GField S N) (s : S) (μ : Fin 4) (V W : Mat N) : setLink (setLink U s μ V) s μ W = setLink U s μ W := by
  funext s' μ'
  simp only [setLink]
  split <;> rfl

theorem setLink_get (U : GField S N) (s : S) (μ : Fin 4) : setLink U s μ (U s μ) = U := by
  funext s' μ'
  simp only [setLink]
  split
  · rename_i h; rw [h.1, h.2]
  · rfl

/-- The steps of one link. -/
theorem heat_link {β : ℝ} {E : GField S N → ℝ} {stap : GField S N → S → Fin 4 → Mat N} (hE : LocalEnergy β E stap) (hβ : β ≠ 0) (hN : 0 < N) (l : Link S)
    (ps : List (Fin N × Fin N)) (hps : ∀ p ∈ ps, p.1 ≠ p.2) (d : Link S × Fin N × Fin N → HeatStream) (Q : LinkSU S N)
    (hg : AllGood (heatSt β stap) (HeatGood β stap) (ps.map fun kl => (l, kl)) d Q) :
    ∃ n0, ∀ n ≥ n0, ps.foldlM (heatBathStep β fun kl => streamDraw n (d (l, kl))) (linkMat Q l.1 l.2, plaqMat stap l.1 l.2 Q)
        = some (linkMat (heatTotal β stap (ps.map fun kl => (l, kl)) d Q) l.1 l.2, plaqMat stap l.1 l.2 (heatTotal β stap (ps.map fun kl => (l, kl)) d Q))
      ∧ linkMat (heatTotal β stap (ps.map fun kl => (l, kl)) d Q)
        = setLink (linkMat Q) l.1 l.2 (linkMat (heatTotal β stap (ps.map fun kl => (l, kl)) d Q) l.1 l.2) := by
  induction ps generalizing Q with
  | nil => exact ⟨0, fun n _ => ⟨rfl, (setLink_get _ _ _).symm⟩⟩
  | cons p ps ih =>
    obtain ⟨h1, h2⟩ := hg
    have hne := hps p List.mem_cons_self
    obtain ⟨n1, hn1⟩ := subUpdate_good h1.1 h1.2
    obtain ⟨n2, hn2⟩ := ih (fun q hq => hps q (List.mem_cons_of_mem p hq)) _ h2
    refine ⟨max n1 n2, fun n hn => ?_⟩
    let a : SU 2 := subElement β (plaqMat stap l.1 l.2 Q) p.1 p.2 (d (l, p))
    have hQ : heatSt β stap (l, p) (d (l, p)) Q = rotateLink l.1 l.2 p.1 p.2 a Q := rfl
    have hm := rotateLink_mat l.1 l.2 p.1 p.2 hne a Q
    have hget : linkMat (rotateLink l.1 l.2 p.1 p.2 a Q) l.1 l.2 = rowUpdate a.1 p.1 p.2 (linkMat Q l.1 l.2) := by
      rw [hm]
      simp [setLink]
    have hP := plaqMat_rotateLink hE hβ hN l.1 l.2 p.1 p.2 hne a Q
    have hstep : heatBathStep β (fun kl => streamDraw n (d (l, kl))) (linkMat Q l.1 l.2, plaqMat stap l.1 l.2 Q) p
        = some (linkMat (heatSt β stap (l, p) (d (l, p)) Q) l.1 l.2, plaqMat stap l.1 l.2 (heatSt β stap (l, p) (d (l, p)) Q)) := by
      unfold heatBathStep
      simp only
      rw [hn1 n (le_trans (le_max_left _ _) hn), Option.map_some, hQ, hget, hP]
    obtain ⟨i1, i2⟩ := hn2 n (le_trans (le_max_right _ _) hn)
    have hT : heatTotal β stap ((p :: ps).map fun kl => (l, kl)) d Q = heatTotal β stap (ps.map fun kl => (l, kl)) d (heatSt β stap (l, p) (d (l, p)) Q) := rfl
    rw [hT]
    refine ⟨?_, ?_⟩
    · rw [List.foldlM_cons, hstep]
      exact i1
    · have i4 := i2
      rw [hQ] at i4 ⊢
      generalize heatTotal β stap (ps.map fun kl => (l, kl)) d (rotateLink l.1 l.2 p.1 p.2 a Q) = W at i4 ⊢
      rw [hm, setLink_setLink] at i4
      exact i4

/-- The sweep of the program is the total function when every step is defined. -/
theorem heatSweep_good {β : ℝ} {E : GField S N → ℝ} {stap : GField S N → S → Fin 4 → Mat N} (hE : LocalEnergy β E stap) (hβ : β ≠ 0) (hN : 0 < N)
    (links : List (Link S)) (d : Link S × Fin N × Fin N → HeatStream) (Q : LinkSU S N)
    (hg : AllGood (heatSt β stap) (HeatGood β stap) (heatList N links) d Q) :
    ∃ n0, ∀ n ≥ n0, heatSweep β stap links (fun i => streamDraw n (d i)) (linkMat Q) = some (linkMat (heatTotal β stap (heatList N links) d Q)) := by
  induction links generalizing Q with
  | nil => exact ⟨0, fun n _ => rfl⟩
  | cons l links ih =>
    have hL : heatList N (l :: links) = ((subgroupPairs N).map fun kl => (l, kl)) ++ heatList N links := by simp [heatList]
    rw [hL] at hg ⊢
    rw [allGood_append] at hg
    obtain ⟨n1, h1⟩ := heat_link hE hβ hN l (subgroupPairs N) (fun p hp => subgroupPairs_ne p hp) d Q hg.1
    obtain ⟨n2, h2⟩ := ih _ hg.2
    refine ⟨max n1 n2, fun n hn => ?_⟩
    obtain ⟨i1, i2⟩ := h1 n (le_trans (le_max_left _ _) hn)
    have i3 := h2 n (le_trans (le_max_right _ _) hn)
    have hT : heatTotal β stap (((subgroupPairs N).map fun kl => (l, kl)) ++ heatList N links) d Q
        = heatTotal β stap (heatList N links) d (heatTotal β stap ((subgroupPairs N).map fun kl => (l, kl)) d Q) := List.foldl_append
    rw [hT]
    unfold heatSweep at i3 ⊢
    rw [List.foldlM_cons]
    have hb : heatBathN β (linkMat Q l.1 l.2) (stap (linkMat Q) l.1 l.2) (fun kl => streamDraw n (d (l, kl)))
        = some (linkMat (heatTotal β stap ((subgroupPairs N).map fun kl => (l, kl)) d Q) l.1 l.2) := by
      unfold heatBathN
      have : (linkMat Q l.1 l.2, linkMat Q l.1 l.2 * stap (linkMat Q) l.1 l.2) = (linkMat Q l.1 l.2, plaqMat stap l.1 l.2 Q) := rfl
      rw [this, i1]
      rfl
    rw [hb, Option.map_some, ← i2]
    exact i3

theorem subgroupPairs_lt (p : Fin N × Fin N) (hp : p ∈ subgroupPairs N) : p.1 < p.2 := by
  simp only [subgroupPairs, List.mem_flatMap, List.mem_map, List.mem_filter] at hp
  obtain ⟨k, -, l, ⟨-, hl⟩, rfl⟩ := hp
  simpa using hl

theorem subgroupPairs_nodup : (subgroupPairs N).Nodup := by
  unfold subgroupPairs
  rw [List.nodup_flatMap]
  refine ⟨fun k _ => ((List.nodup_finRange N).filter _).map fun a b h => (Prod.ext_iff.1 h).2, ?_⟩
  refine (List.nodup_finRange N).imp fun {a b} hab => ?_
  intro x hx hy
  simp only [List.mem_map] at hx hy
  obtain ⟨_, _, rfl⟩ := hx
  obtain ⟨_, _, h⟩ := hy
  exact hab (Prod.ext_iff.1 h).1.symm

theorem heatList_nodup (links : List (Link S)) (h : links.Nodup) : (heatList N links).Nodup := by
  unfold heatList
  rw [List.nodup_flatMap]
  refine ⟨fun l _ => subgroupPairs_nodup.map fun a b h => (Prod.ext_iff.1 h).2, ?_⟩
  refine h.imp fun {a b} hab => ?_
  intro x hx hy
  simp only [List.mem_map] at hx hy
  obtain ⟨_, _, rfl⟩ := hx
  obtain ⟨_, _, h⟩ := hy
  exact hab (Prod.ext_iff.1 h).1.symm

variable [Fintype S]

theorem measurable_heatSt (β : ℝ) (stap : GField S N → S → Fin 4 → Mat N) (hst : ∀ s μ, Continuous fun U => stap U s μ) (i : Link S × Fin N × Fin N) :
    Measurable fun z : HeatStream × LinkSU S N => heatSt β stap i z.1 z.2 := measurable_heatStepSU β stap i.1.1 i.1.2 (hst _ _) i.2.1 i.2.2

theorem measurableSet_heatGood (β : ℝ) (stap : GField S N → S → Fin 4 → Mat N) (hst : ∀ s μ, Continuous fun U => stap U s μ) (i : Link S × Fin N × Fin N) :
    MeasurableSet {z : HeatStream × LinkSU S N | HeatGood β stap i z.1 z.2} := by
  have hc : Continuous fun Q : LinkSU S N => subDet (plaqMat stap i.1.1 i.1.2 Q) i.2.1 i.2.2 := by
    have : (fun Q : LinkSU S N => subDet (plaqMat stap i.1.1 i.1.2 Q) i.2.1 i.2.2) = fun Q => sqNorm (coordsOf (subStaple (plaqMat stap i.1.1 i.1.2 Q) i.2.1 i.2.2)) := by
      funext Q
      rw [sqNorm_coords_subStaple]
    rw [this]
    exact continuous_sqNorm.comp ((continuous_subStaple_coords _ _).comp (continuous_plaqMat stap _ _ (hst _ _)))
  have hd : Measurable fun z : HeatStream × LinkSU S N => subDet (plaqMat stap i.1.1 i.1.2 z.2) i.2.1 i.2.2 := hc.measurable.comp measurable_snd
  have h1 : MeasurableSet {z : HeatStream × LinkSU S N | subDet (plaqMat stap i.1.1 i.1.2 z.2) i.2.1 i.2.2 ≠ 0} := (hd (measurableSet_singleton 0)).compl
  have hr : Measurable fun z : HeatStream × LinkSU S N => √(subDet (plaqMat stap i.1.1 i.1.2 z.2) i.2.1 i.2.2) := Real.continuous_sqrt.measurable.comp hd
  have hb : Measurable fun z : HeatStream × LinkSU S N => (N : ℝ) / (2 * β * √(subDet (plaqMat stap i.1.1 i.1.2 z.2) i.2.1 i.2.2)) :=
    measurable_const.div (measurable_const.mul hr)
  have hp : Measurable fun z : HeatStream × LinkSU S N => ((N : ℝ) / (2 * β * √(subDet (plaqMat stap i.1.1 i.1.2 z.2) i.2.1 i.2.2)), z.1) := hb.prodMk measurable_fst
  exact h1.inter (hp measurableSet_goodStream)

theorem rotateLink_diag (s : S) (μ : Fin 4) (k : Fin N) (a : SU 2) (Q : LinkSU S N) : rotateLink s μ k k a Q = Q := by
  have e : embedSU k k a = 1 := by
    change (if h : k ≠ k then (⟨rowUpdate a.1 k k 1, rowUpdate_mem a.1 a.2 k k h 1 (one_mem _)⟩ : SU N) else 1) = 1
    rw [dif_neg (fun h => h rfl)]
  unfold rotateLink
  rw [e]
  have : (fun s' μ' => if s' = s ∧ μ' = μ then (1 : SU N) else 1 : LinkSU S N) = 1 := by
    funext s' μ'
    split <;> rfl
  rw [this, one_mul]

/-- Every step keeps the Boltzmann weight. -/
theorem heatSt_stationary (haar : Measure (SU N)) [IsFiniteMeasure haar] [haar.IsMulLeftInvariant] (β : ℝ) (hβ : 0 < β) (hN : 0 < N)
    (E : GField S N → ℝ) (stap : GField S N → S → Fin 4 → Mat N) (hE : LocalEnergy β E stap) (hEm : Measurable fun Q : LinkSU S N => E (linkMat Q))
    (hst : ∀ s μ, Continuous fun U => stap U s μ) (i : Link S × Fin N × Fin N) (f : LinkSU S N → ℝ≥0∞) (hf : Measurable f) :
    ∫⁻ Q, (∫⁻ ω, f (heatSt β stap i ω Q) ∂heatMeasure) * ENNReal.ofReal (exp (-E (linkMat Q))) ∂linkMeasure S haar
      = ∫⁻ Q, f Q * ENNReal.ofReal (exp (-E (linkMat Q))) ∂linkMeasure S haar := by
  by_cases h : i.2.1 = i.2.2
  · have e : ∀ ω Q, heatSt β stap i ω Q = Q := fun ω Q => by
      unfold heatSt heatStepSU
      rw [← h, rotateLink_diag]
    simp only [e, lintegral_const, measure_univ, mul_one]
  · exact heatStep_stationary haar β hβ hN E stap hE hEm i.1.1 i.1.2 (hst _ _) i.2.1 i.2.2 h f hf

/-- The sweep of the program is almost surely defined and keeps the Boltzmann distribution. -/
theorem heatSweep_law (haar : Measure (SU N)) [IsFiniteMeasure haar] [haar.IsMulLeftInvariant] (β : ℝ) (hβ : 0 < β) (hN : 2 ≤ N)
    (E : GField S N → ℝ) (stap : GField S N → S → Fin 4 → Mat N) (hE : LocalEnergy β E stap) (hEm : Measurable fun Q : LinkSU S N => E (linkMat Q))
    (hst : ∀ s μ, Continuous fun U => stap U s μ) (hmv : ∀ s μ, StapleMoves stap s μ) (links : List (Link S)) (hl : links.Nodup) :
    ∃ sweep : (Link S × Fin N × Fin N → HeatStream) → LinkSU S N → LinkSU S N,
      (Measurable fun z : (Link S × Fin N × Fin N → HeatStream) × LinkSU S N => sweep z.1 z.2)
      ∧ (∀ᵐ Q ∂linkMeasure S haar, ∀ᵐ d ∂(Measure.pi fun _ : Link S × Fin N × Fin N => heatMeasure), ∃ n0, ∀ n ≥ n0,
          heatSweep β stap links (fun i => streamDraw n (d i)) (linkMat Q) = some (linkMat (sweep d Q)))
      ∧ ∀ f : LinkSU S N → ℝ≥0∞, Measurable f →
        ∫⁻ Q, (∫⁻ d, f (sweep d Q) ∂(Measure.pi fun _ : Link S × Fin N × Fin N => heatMeasure)) * ENNReal.ofReal (exp (-E (linkMat Q))) ∂linkMeasure S haar
          = ∫⁻ Q, f Q * ENNReal.ofReal (exp (-E (linkMat Q))) ∂linkMeasure S haar := by
  have hN0 : 0 < N := by omega
  have hN' : (0 : ℝ) < N := by exact_mod_cast hN0
  have hw : Measurable fun Q : LinkSU S N => ENNReal.ofReal (exp (-E (linkMat Q))) := (measurable_exp.comp hEm.neg).ennreal_ofReal
  have hstat := heatSt_stationary haar β hβ hN0 E stap hE hEm hst
  refine ⟨heatTotal β stap (heatList N links), ?_, ?_, ?_⟩
  · exact measurable_foldl (heatSt β stap) (measurable_heatSt β stap hst) (heatList N links)
  · have h := ae_allGood heatMeasure (linkMeasure S haar) (fun Q : LinkSU S N => ENNReal.ofReal (exp (-E (linkMat Q)))) hw
      (fun Q => by rw [Ne, ENNReal.ofReal_eq_zero, not_le]; exact exp_pos _) (heatSt β stap) (measurable_heatSt β stap hst) hstat (HeatGood β stap)
      (measurableSet_heatGood β stap hst) (heatList N links) (heatList_nodup links hl) (fun i hi => by
        have hlt : i.2.1 < i.2.2 := by
          simp only [heatList, List.mem_flatMap, List.mem_map] at hi
          obtain ⟨l, _, kl, hkl, rfl⟩ := hi
          exact subgroupPairs_lt kl hkl
        filter_upwards [ae_subDet_ne haar hN stap i.1.1 i.1.2 (hst _ _) (hmv _ _) i.2.1 i.2.2 hlt] with Q hQ
        have hp : 0 < subDet (plaqMat stap i.1.1 i.1.2 Q) i.2.1 i.2.2 := lt_of_le_of_ne (subDet_nonneg _ _ _) (Ne.symm hQ)
        have hb : 0 < (N : ℝ) / (2 * β * √(subDet (plaqMat stap i.1.1 i.1.2 Q) i.2.1 i.2.2)) := by
          have := sqrt_pos.2 hp
          positivity
        filter_upwards [ae_goodStream _ hb] with ω hω using ⟨hQ, hω⟩)
    filter_upwards [h] with Q hQ
    filter_upwards [hQ] with d hd
    exact heatSweep_good hE hβ.ne' hN0 links d Q hd
  · intro f hf
    exact foldl_stationary heatMeasure (linkMeasure S haar) (fun Q : LinkSU S N => ENNReal.ofReal (exp (-E (linkMat Q)))) (heatSt β stap)
      (measurable_heatSt β stap hst) hstat (heatList N links) (heatList_nodup links hl) f hf

/-! ### Two colours -/

theorem subStaple_quat {X : Mat 2} (h : IsQuat X) : subStaple X 0 1 = X := by
  obtain ⟨a1, a2⟩ := h
  ext i j
  fin_cases i <;> fin_cases j <;> apply Complex.ext <;> simp [subStaple, a1, a2]

theorem rowUpdate_two (a X : Mat 2) : rowUpdate a 0 1 X = a * X := by
  ext i j
  fin_cases i <;> simp [rowUpdate, Matrix.mul_apply, Fin.sum_univ_two]

/-- The two versions of the update agree for two colours. -/
theorem heatBathN_two (β : ℝ) (U W : Mat 2) (hU : U ∈ specialUnitaryGroup (Fin 2) ℂ) (hW : IsQuat W) (rnd : Fin 2 × Fin 2 → HeatBathDraw) :
    heatBathN β U W rnd = heatBath2 β W (rnd (0, 1)) := by
  obtain ⟨hq, hn⟩ := IsQuat.of_su2 hU
  have hP : subStaple (U * W) 0 1 = U * W := subStaple_quat (hq.mul hW)
  have hd : subDet (U * W) 0 1 = quatNorm W := by rw [← quatNorm_subStaple, hP, hq.quatNorm_mul hW, hn, one_mul]
  have hpairs : subgroupPairs 2 = [(0, 1)] := by decide
  have e1 : heatBathN β U W rnd = (subUpdate β (U * W) 0 1 (rnd (0, 1))).map fun s => s * U := by
    unfold heatBathN
    rw [hpairs, List.foldlM_cons]
    unfold heatBathStep
    simp only
    cases subUpdate β (U * W) 0 1 (rnd (0, 1)) with
    | none => rfl
    | some s => simp only [Option.map_some, rowUpdate_two]; rfl
  rw [e1]
  by_cases h0 : quatNorm W = 0
  · have a1 : subUpdate β (U * W) 0 1 (rnd (0, 1)) = none := by
      unfold subUpdate
      simp only [hd, if_pos h0]
    have a2 : heatBath2 β W (rnd (0, 1)) = none := by
      unfold heatBath2
      simp only [hW.norm_det, if_pos h0]
    rw [a1, a2]
    rfl
  have hb : ((2 : ℕ) : ℝ) / (2 * β * √(quatNorm W)) = 1 / (β * √(quatNorm W)) := by
    push_cast
    rw [mul_assoc, div_mul_eq_div_div, div_self two_ne_zero]
  cases hR : randomSu2 (1 / (β * √(quatNorm W))) (rnd (0, 1)) with
  | none =>
    have a1 : subUpdate β (U * W) 0 1 (rnd (0, 1)) = none := by
      unfold subUpdate
      simp only [hd, if_neg h0, hb, hR, Option.map_none]
    have a2 : heatBath2 β W (rnd (0, 1)) = none := by
      unfold heatBath2
      simp only [hW.norm_det, if_neg h0, hR, Option.map_none]
    rw [a1, a2]
    rfl
  | some R =>
    cases h1 : subUpdate β (U * W) 0 1 (rnd (0, 1)) with
    | none =>
      unfold subUpdate at h1
      simp only [hd, if_neg h0, hb, hR, Option.map_some] at h1
      exact absurd h1 (by simp)
    | some s =>
      cases h2 : heatBath2 β W (rnd (0, 1)) with
      | none =>
        unfold heatBath2 at h2
        simp only [hW.norm_det, if_neg h0, hR, Option.map_some] at h2
        exact absurd h2 (by simp)
      | some V =>
        obtain ⟨-, R1, hR1, rfl⟩ := subUpdate_eq β (U * W) 0 1 (rnd (0, 1)) s h1
        obtain ⟨-, R2, hR2, rfl⟩ := heatBath2_eq β W hW (rnd (0, 1)) V h2
        rw [hd, hb, hR] at hR1
        rw [hR] at hR2
        injection hR1 with hR1
        injection hR2 with hR2
        rw [Option.map_some, ← hR1, ← hR2, hd, hP, conjTranspose_mul, Matrix.smul_mul, Matrix.mul_assoc, Matrix.mul_assoc, hq.conjTranspose_mul, hn,
          Complex.ofReal_one, one_smul, Matrix.mul_one]

theorem heatBath2_mem (β : ℝ) (hβ : 0 ≤ β) (W : Mat 2) (hW : IsQuat W) (d : HeatBathDraw) (hd : d.Uniform) (V : Mat 2) (h : heatBath2 β W d = some V) :
    V ∈ specialUnitaryGroup (Fin 2) ℂ := by
  obtain ⟨h0, R, hR, rfl⟩ := heatBath2_eq β W hW d V h
  have hpos : 0 < quatNorm W := lt_of_le_of_ne IsQuat.quatNorm_nonneg (Ne.symm h0)
  have hs := sqrt_pos.2 hpos
  obtain ⟨r1, r2⟩ := randomSu2_mem _ (by positivity) d hd R hR
  have hq := r1.conjTranspose.mul hW.conjTranspose
  refine IsQuat.mem_su2 (hq.smul _) ?_
  rw [IsQuat.quatNorm_smul, r1.conjTranspose.quatNorm_mul hW.conjTranspose, r1.quatNorm_conjTranspose, hW.quatNorm_conjTranspose, r2, one_mul, div_pow,
    sq_sqrt hpos.le, one_pow, one_div, inv_mul_cancel₀ h0]

theorem heatSweep_two (β : ℝ) (hβ : 0 ≤ β) (stap : GField S 2 → S → Fin 4 → Mat 2) (hq : ∀ (Q : LinkSU S 2) s μ, IsQuat (stap (linkMat Q) s μ))
    (links : List (Link S)) (draw : Link S × Fin 2 × Fin 2 → HeatBathDraw) (hu : ∀ i, (draw i).Uniform) (Q : LinkSU S 2) :
    heatSweep β stap links draw (linkMat Q) = heatSweep2 β stap links (fun l => draw (l, 0, 1)) (linkMat Q) := by
  induction links generalizing Q with
  | nil => rfl
  | cons l links ih =>
    unfold heatSweep heatSweep2 at ih ⊢
    have e0 := heatBathN_two β (linkMat Q l.1 l.2) _ (Q l.1 l.2).2 (hq Q l.1 l.2) fun kl => draw (l, kl)
    rw [List.foldlM_cons, List.foldlM_cons, e0]
    cases h : heatBath2 β (stap (linkMat Q) l.1 l.2) (draw (l, 0, 1)) with
    | none => rfl
    | some V =>
      have hV : V ∈ specialUnitaryGroup (Fin 2) ℂ := heatBath2_mem β hβ _ (hq Q l.1 l.2) _ (hu _) V h
      have e : setLink (linkMat Q) l.1 l.2 V = linkMat (fun s μ => if s = l.1 ∧ μ = l.2 then (⟨V, hV⟩ : SU 2) else Q s μ) := by
        funext s μ
        simp only [setLink, linkMat]
        split <;> rfl
      simp only [Option.map_some]
      have := ih (fun s μ => if s = l.1 ∧ μ = l.2 then (⟨V, hV⟩ : SU 2) else Q s μ)
      rw [← e] at this
      exact this

theorem ae_uniform : ∀ᵐ ω ∂heatMeasure, ∀ n, (streamDraw n ω).Uniform := by
  have h0 : ∀ᵐ x ∂unif, x ∈ Ico (0 : ℝ) 1 := ae_restrict_mem measurableSet_Ico
  have h1 : ∀ᵐ q ∂unif4, q.1 ∈ Ico (0 : ℝ) 1 := Measure.quasiMeasurePreserving_fst.ae h0
  have h2 : ∀ᵐ q ∂unif4, q.2.1 ∈ Ico (0 : ℝ) 1 := by
    have h3 : ∀ᵐ q ∂(unif.prod (unif.prod unif)), q.1 ∈ Ico (0 : ℝ) 1 := Measure.quasiMeasurePreserving_fst.ae h0
    exact Measure.quasiMeasurePreserving_snd.ae h3
  have h4 : ∀ᵐ ω ∂(Measure.infinitePi fun _ : ℕ => unif4), ∀ k, (ω k).1 ∈ Ico (0 : ℝ) 1 ∧ (ω k).2.1 ∈ Ico (0 : ℝ) 1 := by
    rw [ae_all_iff]
    intro k
    exact (measurePreserving_eval_infinitePi (fun _ : ℕ => unif4) k).quasiMeasurePreserving.ae (h1.and h2)
  have h5 : ∀ᵐ ω ∂heatMeasure, ∀ k, (ω.1 k).1 ∈ Ico (0 : ℝ) 1 ∧ (ω.1 k).2.1 ∈ Ico (0 : ℝ) 1 := Measure.quasiMeasurePreserving_fst.ae h4
  filter_upwards [h5] with ω h n x hx
  simp only [streamDraw, List.mem_map] at hx
  obtain ⟨k, -, rfl⟩ := hx
  exact ⟨⟨(h k).1.1, (h k).1.2.le⟩, ⟨(h k).2.1, (h k).2.2.le⟩⟩

theorem allGood_map {ι κ D X : Type} (st : ι → D → X → X) (Good : ι → D → X → Prop) (e : κ → ι) (l : List κ) (d : ι → D) (x : X) :
    AllGood st Good (l.map e) d x ↔ AllGood (fun k => st (e k)) (fun k => Good (e k)) l (fun k => d (e k)) x := by
  induction l generalizing x with
  | nil => rfl
  | cons k l ih => simp only [List.map_cons, AllGood, ih]

theorem heatList_two (links : List (Link S)) : heatList 2 links = links.map fun l => (l, (0 : Fin 2), (1 : Fin 2)) := by
  have hpairs : subgroupPairs 2 = [(0, 1)] := by decide
  simp only [heatList, hpairs, List.map_cons, List.map_nil]
  induction links with
  | nil => rfl
  | cons l links ih => rw [List.flatMap_cons, ih]; rfl

/-- The sweep for two colours. -/
theorem heatSweep2_law (haar : Measure (SU 2)) [Fintype S] [IsFiniteMeasure haar] [haar.IsMulLeftInvariant] (β : ℝ) (hβ : 0 < β)
    (E : GField S 2 → ℝ) (stap : GField S 2 → S → Fin 4 → Mat 2) (hE : LocalEnergy β E stap) (hEm : Measurable fun Q : LinkSU S 2 => E (linkMat Q))
    (hst : ∀ s μ, Continuous fun U => stap U s μ) (hmv : ∀ s μ, StapleMoves stap s μ) (hq : ∀ (Q : LinkSU S 2) s μ, IsQuat (stap (linkMat Q) s μ))
    (links : List (Link S)) (hl : links.Nodup) :
    ∃ sweep : (Link S → HeatStream) → LinkSU S 2 → LinkSU S 2,
      (Measurable fun z : (Link S → HeatStream) × LinkSU S 2 => sweep z.1 z.2)
      ∧ (∀ᵐ Q ∂linkMeasure S haar, ∀ᵐ d ∂(Measure.pi fun _ : Link S => heatMeasure), ∃ n0, ∀ n ≥ n0,
          heatSweep2 β stap links (fun l => streamDraw n (d l)) (linkMat Q) = some (linkMat (sweep d Q)))
      ∧ ∀ f : LinkSU S 2 → ℝ≥0∞, Measurable f →
        ∫⁻ Q, (∫⁻ d, f (sweep d Q) ∂(Measure.pi fun _ : Link S => heatMeasure)) * ENNReal.ofReal (exp (-E (linkMat Q))) ∂linkMeasure S haar
          = ∫⁻ Q, f Q * ENNReal.ofReal (exp (-E (linkMat Q))) ∂linkMeasure S haar := by
  let st : Link S → HeatStream → LinkSU S 2 → LinkSU S 2 := fun l => heatSt β stap (l, 0, 1)
  have hmeas : ∀ l, Measurable fun z : HeatStream × LinkSU S 2 => st l z.1 z.2 := fun l => measurable_heatSt β stap hst (l, 0, 1)
  have hw : Measurable fun Q : LinkSU S 2 => ENNReal.ofReal (exp (-E (linkMat Q))) := (measurable_exp.comp hEm.neg).ennreal_ofReal
  have hstat : ∀ (l : Link S) (f : LinkSU S 2 → ℝ≥0∞), Measurable f →
      ∫⁻ Q, (∫⁻ ω, f (st l ω Q) ∂heatMeasure) * ENNReal.ofReal (exp (-E (linkMat Q))) ∂linkMeasure S haar
        = ∫⁻ Q, f Q * ENNReal.ofReal (exp (-E (linkMat Q))) ∂linkMeasure S haar :=
    fun l => heatSt_stationary haar β hβ two_pos E stap hE hEm hst (l, 0, 1)
  refine ⟨fun d Q => links.foldl (fun Q l => st l (d l) Q) Q, measurable_foldl st hmeas links, ?_,
    fun f hf => foldl_stationary heatMeasure (linkMeasure S haar) (fun Q : LinkSU S 2 => ENNReal.ofReal (exp (-E (linkMat Q)))) st hmeas hstat links hl f hf⟩
  have h := ae_allGood heatMeasure (linkMeasure S haar) (fun Q : LinkSU S 2 => ENNReal.ofReal (exp (-E (linkMat Q)))) hw
    (fun Q => by rw [Ne, ENNReal.ofReal_eq_zero, not_le]; exact exp_pos _) st hmeas hstat (fun l => HeatGood β stap (l, 0, 1))
    (fun l => measurableSet_heatGood β stap hst (l, 0, 1)) links hl (fun l _ => by
      filter_upwards [ae_subDet_ne haar le_rfl stap l.1 l.2 (hst _ _) (hmv _ _) 0 1 (by decide)] with Q hQ
      have hp : 0 < subDet (plaqMat stap l.1 l.2 Q) 0 1 := lt_of_le_of_ne (subDet_nonneg _ _ _) (Ne.symm hQ)
      have hb : 0 < ((2 : ℕ) : ℝ) / (2 * β * √(subDet (plaqMat stap l.1 l.2 Q) 0 1)) := by
        have := sqrt_pos.2 hp
        positivity
      filter_upwards [ae_goodStream _ hb] with ω hω using ⟨hQ, hω⟩)
  have hu : ∀ᵐ d ∂(Measure.pi fun _ : Link S => heatMeasure), ∀ l n, (streamDraw n (d l)).Uniform := by
    rw [ae_all_iff]
    exact fun l => (measurePreserving_eval (fun _ : Link S => heatMeasure) l).quasiMeasurePreserving.ae ae_uniform
  filter_upwards [h] with Q hQ
  filter_upwards [hQ, hu] with d hd hud
  have hg : AllGood (heatSt β stap) (HeatGood β stap) (heatList 2 links) (fun i : Link S × Fin 2 × Fin 2 => d i.1) Q := by
    rw [heatList_two, allGood_map]
    exact hd
  obtain ⟨n0, hn⟩ := heatSweep_good hE hβ.ne' two_pos links (fun i => d i.1) Q hg
  refine ⟨n0, fun n hn' => ?_⟩
  have e := hn n hn'
  rw [heatSweep_two β hβ.le stap hq links (fun i => streamDraw n (d i.1)) (fun i => hud i.1 n) Q] at e
  rw [e, heatList_two, heatTotal, List.foldl_map]

end Leonard
