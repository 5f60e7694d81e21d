import Verif.Stout.Props

/-!
# C69: where the force of smeared fermions is wrong
-/

set_option autoImplicit false

namespace Leonard

open Matrix Filter
open scoped ContDiff Topology Matrix.Norms.Operator

variable {S : Type} {N M : ℕ}

/-! ### Smearing near the identity -/

/-- What is exponentiated, as a function of the link times the staple. -/
noncomputable def stoutLin (r : ℝ) : Mat N →L[ℝ] Mat N :=
  LinearMap.toContinuousLinearMap
    { toFun := fun Z => stoutGenerator r 1 Z
      map_add' := fun A B => by
        simp only [stoutGenerator, conjTranspose_add, conjTranspose_smul, conjTranspose_mul, conjTranspose_one, conjTranspose_conjTranspose, smul_add,
          one_mul, mul_one, trace_smul, trace_sub, trace_add]
        ext i j
        simp
        ring
      map_smul' := fun c A => by
        simp only [stoutGenerator, conjTranspose_smul, conjTranspose_mul, conjTranspose_one, conjTranspose_conjTranspose,
          one_mul, mul_one, trace_smul, trace_sub, RingHom.id_apply, ← Complex.coe_smul]
        ext i j
        simp
        ring }

theorem stoutLin_apply (r : ℝ) (Z : Mat N) : stoutLin r Z = stoutGenerator r 1 Z := rfl

theorem stoutGenerator_eq (r : ℝ) (U st : Mat N) : stoutGenerator r U st = stoutLin r (U * st) := by
  rw [stoutLin_apply]
  simp only [stoutGenerator, conjTranspose_smul, conjTranspose_mul, conjTranspose_one, conjTranspose_conjTranspose, one_mul, mul_one, Matrix.smul_mul,
    Matrix.mul_smul]

theorem stoutLin_lie (r : ℝ) {X : Mat N} (hX : IsLie X) : stoutLin r X = (-r) • X := by
  rw [stoutLin_apply]
  simp only [stoutGenerator, conjTranspose_smul, conjTranspose_mul, conjTranspose_one, conjTranspose_conjTranspose, one_mul, mul_one, hX.1, trace_smul,
    trace_sub, smul_neg, trace_neg, hX.2]
  ext i j
  have h1 : starRingEnd ℂ (X j i) = -X i j := congrFun (congrFun hX.1 i) j
  simp [← Complex.coe_smul, h1, hX.2]
  ring

theorem stoutLin_one (r a : ℝ) : stoutLin r (a • (1 : Mat N)) = 0 := by
  rw [map_smul, stoutLin_apply]
  simp only [stoutGenerator, conjTranspose_smul, conjTranspose_mul, conjTranspose_one, one_mul, mul_one]
  ext i j
  simp

/-- The velocity of a smeared link near the identity. -/
theorem stout_near_one (r a k : ℝ) {W st : ℝ → Mat N} {X Y : Mat N} (hX : IsLie X) (h0 : W 0 = 1) (hs : st 0 = a • 1) (hW : HasDerivAt W Y 0)
    (hp : HasDerivAt (fun t => W t * st t) (k • X) 0) :
    HasDerivAt (fun t => NormedSpace.exp (stoutGenerator r (W t) (st t)) * W t) ((-(r * k)) • X + Y) 0 := by
  have h1 : HasDerivAt (fun t => stoutLin r (W t * st t)) (stoutLin r (k • X)) 0 := (stoutLin r).hasFDerivAt.comp_hasDerivAt (0 : ℝ) hp
  have e0 : stoutLin r (W 0 * st 0) = 0 := by rw [h0, hs, one_mul, stoutLin_one]
  have h2 : HasDerivAt (fun t => NormedSpace.exp (stoutLin r (W t * st t))) (stoutLin r (k • X)) 0 := by
    have h3 : HasFDerivAt (NormedSpace.exp : Mat N → Mat N) (1 : Mat N →L[ℝ] Mat N) (stoutLin r (W 0 * st 0)) := by
      rw [e0]; exact hasFDerivAt_exp_zero
    exact HasFDerivAt.comp_hasDerivAt (f' := stoutLin r (k • X)) (0 : ℝ) h3 h1
  have h4 : HasDerivAt (fun t => NormedSpace.exp (stoutLin r (W t * st t)) * W t)
      (stoutLin r (k • X) * W 0 + NormedSpace.exp (stoutLin r (W 0 * st 0)) * Y) 0 := h2.mul hW
  have e1 : stoutLin r (k • X) = (-(r * k)) • X := by
    rw [map_smul, stoutLin_lie r hX, smul_smul]; congr 1; ring
  rw [e0, NormedSpace.exp_zero, h0, mul_one, one_mul, e1] at h4
  simp only [stoutGenerator_eq]
  exact h4

theorem stoutLinks_one (T : Torus S) (r : ℝ) : stoutLinks T r (fun _ _ => (1 : Mat N)) = fun _ _ => 1 := by
  funext s μ
  have e : wilsonStaple T (fun _ _ => (1 : Mat N)) s μ = (6 : ℝ) • 1 := by
    unfold wilsonStaple stapleUp stapleDown
    fin_cases μ <;> simp [Fin.sum_univ_four] <;> module
  unfold stoutLinks
  rw [stoutGenerator_eq, e, one_mul, stoutLin_one, NormedSpace.exp_zero, mul_one]

theorem hasDerivAt_exp_line (X : Mat N) : HasDerivAt (fun t : ℝ => NormedSpace.exp (t • X)) X 0 := by
  have h := hasDerivAt_exp_smul_const (𝕂 := ℝ) X 0
  simp only [zero_smul, NormedSpace.exp_zero, one_mul] at h
  exact h

section
variable [DecidableEq S]

/-- Turning one link of the identity changes its own smeared link. -/
theorem stout_own_link (T : Torus S) (hT : T.Wide 1) (r : ℝ) (s : S) (μ : Fin 4) {X : Mat N} (hX : IsLie X) :
    HasDerivAt (fun t : ℝ => stoutLinks T r (setLink (fun _ _ => 1) s μ (NormedSpace.exp (t • X))) s μ) ((1 - 6 * r) • X) 0 := by
  have e : ∀ V : Mat N, wilsonStaple T (setLink (fun _ _ => 1) s μ V) s μ = (6 : ℝ) • 1 := by
    intro V
    unfold wilsonStaple
    have h : ∀ ν, (if ν ≠ μ then stapleUp T (setLink (fun _ _ => (1 : Mat N)) s μ V) s μ ν + stapleDown T (setLink (fun _ _ => 1) s μ V) s μ ν else 0)
        = if ν ≠ μ then 2 else 0 := by
      intro ν
      split
      · rename_i hν
        unfold stapleUp stapleDown
        rw [setLink_dir _ _ hν, setLink_dir _ _ hν, setLink_dir _ _ hν, setLink_dir _ _ hν, setLink_site _ _ (T.sup_ne le_rfl hT ν s),
          setLink_site _ _ (stout_sdn_ne le_rfl hT ν s)]
        simp [one_add_one_eq_two]
      · rfl
    rw [Finset.sum_congr rfl fun ν _ => h ν]
    have h2 : (2 : Mat N) = (2 : ℝ) • 1 := by rw [two_smul, one_add_one_eq_two]
    rw [h2]
    fin_cases μ <;> simp [Fin.sum_univ_four] <;> module
  have hs : ∀ V : Mat N, setLink (fun _ _ => (1 : Mat N)) s μ V s μ = V := fun V => if_pos ⟨rfl, rfl⟩
  have hW := hasDerivAt_exp_line X
  have hp : HasDerivAt (fun t : ℝ => NormedSpace.exp (t • X) * ((6 : ℝ) • (1 : Mat N))) ((6 : ℝ) • X) 0 := by
    refine HasDerivAt.congr_deriv (hW.mul_const _) ?_
    simp
  have h := stout_near_one r 6 6 hX (W := fun t => NormedSpace.exp (t • X)) (st := fun _ => (6 : ℝ) • 1) (by simp) rfl hW hp
  unfold stoutLinks
  simp only [e, hs]
  refine HasDerivAt.congr_deriv h ?_
  module

/-- Turning one link of the identity changes the smeared link of the neighbour on the other side when there are only two sites. -/
theorem stout_neighbour (T : Torus S) (hT : T.Wide 1) (r : ℝ) (s : S) {μ ν : Fin 4} (hν : ν ≠ μ) (h2 : T.ext ν = 2) {X : Mat N} (hX : IsLie X) :
    HasDerivAt (fun t : ℝ => stoutLinks T r (setLink (fun _ _ => 1) s μ (NormedSpace.exp (t • X))) (T.sup ν s) μ) ((2 * r) • X) 0 := by
  have hback : T.sup ν (T.sup ν s) = s := by
    have := T.period ν s
    rw [h2] at this
    exact this
  have hback' : T.sdn ν (T.sup ν s) = s := T.sdn_sup ν s
  have e : ∀ V : Mat N, wilsonStaple T (setLink (fun _ _ => 1) s μ V) (T.sup ν s) μ = (4 : ℝ) • 1 + (2 : ℝ) • Vᴴ := by
    intro V
    unfold wilsonStaple
    have h : ∀ l, (if l ≠ μ then stapleUp T (setLink (fun _ _ => (1 : Mat N)) s μ V) (T.sup ν s) μ l
        + stapleDown T (setLink (fun _ _ => 1) s μ V) (T.sup ν s) μ l else 0) = (if l ≠ μ then 2 else 0) + if l = ν then 2 * Vᴴ - 2 else 0 := by
      intro l
      by_cases hl : l = μ
      · rw [if_neg (not_not.2 hl), if_neg (not_not.2 hl), if_neg (fun e => hν (e.symm.trans hl)), add_zero]
      · rw [if_pos hl, if_pos hl]
        unfold stapleUp stapleDown
        rw [setLink_dir _ _ hl, setLink_dir _ _ hl, setLink_dir _ _ hl, setLink_dir _ _ hl]
        by_cases hlν : l = ν
        · rw [if_pos hlν, hlν, hback, hback']
          have hs : setLink (fun _ _ => (1 : Mat N)) s μ V s μ = V := if_pos ⟨rfl, rfl⟩
          rw [hs]
          simp [two_mul]
        · have n1 : T.sup l (T.sup ν s) ≠ s := T.sup_sup_ne_of_ne le_rfl hT hlν s
          have n2 : T.sdn l (T.sup ν s) ≠ s := by
            intro e
            rw [T.sdn_eq_iff] at e
            exact T.sup_ne_sup le_rfl hT hlν s e.symm
          rw [setLink_site _ _ n1, setLink_site _ _ n2, if_neg hlν]
          simp [one_add_one_eq_two]
    rw [Finset.sum_congr rfl fun l _ => h l, Finset.sum_add_distrib, Finset.sum_ite_eq' _ ν, if_pos (Finset.mem_univ _)]
    have h2 : (2 : Mat N) = (2 : ℝ) • 1 := by rw [two_smul, one_add_one_eq_two]
    have e6 : (∑ l : Fin 4, if l ≠ μ then (2 : ℝ) • (1 : Mat N) else 0) = (6 : ℝ) • 1 := by
      fin_cases μ <;> simp [Fin.sum_univ_four] <;> module
    rw [h2, e6, Matrix.smul_mul, one_mul]
    module
  have hs : ∀ V : Mat N, setLink (fun _ _ => (1 : Mat N)) s μ V (T.sup ν s) μ = 1 := fun V => setLink_site _ _ (T.sup_ne le_rfl hT ν s)
  have hc : HasDerivAt (fun t : ℝ => (NormedSpace.exp (t • X))ᴴ) (-X) 0 := by
    have := ctL.hasFDerivAt.comp_hasDerivAt (0 : ℝ) (hasDerivAt_exp_line X)
    refine HasDerivAt.congr_deriv this ?_
    exact hX.1
  have hp : HasDerivAt (fun t : ℝ => (1 : Mat N) * ((4 : ℝ) • 1 + (2 : ℝ) • (NormedSpace.exp (t • X))ᴴ)) ((-2 : ℝ) • X) 0 := by
    simp only [one_mul]
    refine HasDerivAt.congr_deriv ((hc.const_smul (2 : ℝ)).const_add ((4 : ℝ) • (1 : Mat N))) ?_
    module
  have h := stout_near_one r 6 (-2) hX (W := fun _ => (1 : Mat N)) (st := fun t => (4 : ℝ) • 1 + (2 : ℝ) • (NormedSpace.exp (t • X))ᴴ) rfl
    (by simp only [zero_smul, NormedSpace.exp_zero, conjTranspose_one]; module) (hasDerivAt_const _ _) hp
  unfold stoutLinks
  simp only [e, hs]
  refine HasDerivAt.congr_deriv h ?_
  module

end

/-! ### Two sites in a direction -/

theorem trace_gens_self (N : ℕ) (c : Fin (lieGenerators N).length) : trace (gens N c * gens N c) = 1 / 2 := by
  rw [(C30_generators N).orthonormal, if_pos rfl]

theorem lieGenerators_pos (hN : 2 ≤ N) : 0 < (lieGenerators N).length := by
  rw [C30_number N (by omega)]
  have : 2 ^ 2 ≤ N ^ 2 := Nat.pow_le_pow_left hN 2
  omega

/-- **C69**, counterexample: on a lattice with two sites in a direction, the smeared links above and below a link in that direction are the same
and the program counts them twice.  For every such lattice with at least two sites in each direction, every number of colours greater than one
and every coefficient of smearing that is not zero, there are matrices `D` for which the force of the program, even with exact derivatives, is
not the sum over all smeared links, at the identity links. -/
theorem C69_extent_counterexample [Fintype S] [DecidableEq S] (T : Torus S) (hT : ∀ μ, 2 ≤ T.ext μ) (ν : Fin 4) (h2 : T.ext ν = 2) (s : S)
    (hN : 2 ≤ N) (r : ℝ) (hr : r ≠ 0) : ∃ (μ : Fin 4) (D : GField S N),
    smearingForce (fun f => deriv f 0) (fundamentalRep N) T r D (fun _ _ => 1) s μ ≠
      ∑ c, (Complex.I * ((∑ s', ∑ μ', deriv (fun ε : ℝ => (trace (D s' μ' * stoutLinks T r
        (setLink (fun _ _ => 1) s μ (NormedSpace.exp (ε • (Complex.I • gens N c)))) s' μ')).re) 0 : ℝ) : ℂ)) • gens N c := by
  obtain ⟨μ, hμ⟩ : ∃ μ : Fin 4, ν ≠ μ := by
    by_cases h : ν = 0
    · exact ⟨1, by rw [h]; decide⟩
    · exact ⟨0, h⟩
  have hT1 : T.Wide 1 := hT
  have i0 : Fin (lieGenerators N).length := ⟨0, lieGenerators_pos hN⟩
  obtain ⟨D, hD⟩ : ∃ D : GField S N, D = oneLink (T.sup ν s) μ (Complex.I • gens N i0) := ⟨_, rfl⟩
  have hD0 : ∀ s' μ', ¬ (s' = T.sup ν s ∧ μ' = μ) → D s' μ' = 0 := fun s' μ' h => by rw [hD]; exact oneLink_ne _ h
  have hz : ∀ s' μ', ¬ (s' = T.sup ν s ∧ μ' = μ) → smearTerm (fun f => deriv f 0) (fundamentalRep N) T r D (fun _ _ => 1) s μ s' μ' = 0 := by
    intro s' μ' h
    unfold smearTerm
    refine Finset.sum_eq_zero fun c _ => ?_
    rw [hD0 s' μ' h]
    simp
  obtain ⟨R, hR⟩ : ∃ R, R = smearTerm (fun f => deriv f 0) (fundamentalRep N) T r D (fun _ _ => 1) s μ (T.sup ν s) μ := ⟨_, rfl⟩
  have hback : T.sdn ν s = T.sup ν s := by
    rw [T.sdn_eq_iff]
    have := T.period ν s
    rw [h2] at this
    exact this.symm
  have hleft : smearingForce (fun f => deriv f 0) (fundamentalRep N) T r D (fun _ _ => 1) s μ = R + R := by
    have z1 : ∀ f : Fin 4 → S, (∑ l, if l ≠ μ then smearTerm (fun f => deriv f 0) (fundamentalRep N) T r D (fun _ _ => 1) s μ (f l) l else 0) = 0 := by
      intro f
      refine Finset.sum_eq_zero fun l _ => ?_
      split
      · rename_i hl
        exact hz _ _ fun h => hl h.2
      · rfl
    have z2 : ∀ f : Fin 4 → S, f ν = T.sup ν s → (∀ l, l ≠ ν → f l ≠ T.sup ν s) →
        (∑ l, if l ≠ μ then smearTerm (fun f => deriv f 0) (fundamentalRep N) T r D (fun _ _ => 1) s μ (f l) μ else 0) = R := by
      intro f hf hne
      rw [Finset.sum_eq_single ν]
      · rw [if_pos hμ, hf, hR]
      · intro l _ hl
        split
        · exact hz _ _ fun h => hne l hl h.1
        · rfl
      · simp
    unfold smearingForce
    rw [z1 (fun _ => T.sup μ s), z1 (fun _ => s), z1 (fun l => T.sup μ (T.sdn l s)), z1 (fun l => T.sdn l s),
      z2 (fun l => T.sup l s) rfl (fun l hl => T.sup_ne_sup le_rfl hT1 hl s),
      z2 (fun l => T.sdn l s) hback (fun l hl h => by
        rw [T.sdn_eq_iff] at h
        exact T.sup_sup_ne_of_ne le_rfl hT1 hl s h.symm),
      hz s μ (fun h => T.sup_ne le_rfl hT1 ν s h.1.symm)]
    abel
  have hright : (∑ c, (Complex.I * ((∑ s', ∑ μ', deriv (fun ε : ℝ => (trace (D s' μ' * stoutLinks T r
        (setLink (fun _ _ => 1) s μ (NormedSpace.exp (ε • (Complex.I • gens N c)))) s' μ')).re) 0 : ℝ) : ℂ)) • gens N c) = R := by
    rw [hR]
    unfold smearTerm
    refine Finset.sum_congr rfl fun c _ => ?_
    rw [Finset.sum_eq_single (T.sup ν s), Finset.sum_eq_single μ]
    · simp only [mul_one]
      rfl
    · intro μ' _ h
      rw [hD0 _ _ fun e => h e.2]
      simp
    · simp
    · intro s' _ h
      refine Finset.sum_eq_zero fun μ' _ => ?_
      rw [hD0 _ _ fun e => h e.1]
      simp
    · simp
  refine ⟨μ, D, ?_⟩
  rw [hleft, hright]
  intro h
  have hR0 : R = 0 := by simpa using h
  -- the component along the generator
  have hc : ∀ c, HasDerivAt (fun ε : ℝ => (trace (D (T.sup ν s) μ * stoutLinks T r
      (setLink (fun _ _ => 1) s μ (NormedSpace.exp (ε • (Complex.I • gens N c)))) (T.sup ν s) μ)).re)
      (-(2 * r) * (if i0 = c then 1 / 2 else 0)) 0 := by
    intro c
    have h1 := trL.hasFDerivAt.comp_hasDerivAt (0 : ℝ) ((stout_neighbour T hT1 r s hμ h2 (isLie_I_gens c)).const_mul (D (T.sup ν s) μ))
    refine HasDerivAt.congr_deriv h1 ?_
    refine (trL_apply _).trans ?_
    rw [hD, oneLink_same, Matrix.mul_smul, Matrix.smul_mul, Matrix.mul_smul, trace_smul, trace_smul, trace_smul, (C30_generators N).orthonormal]
    split
    · simp [Complex.smul_re]
    · simp
  have hR1 : R = ∑ c, (Complex.I * ((-(2 * r) * (if i0 = c then 1 / 2 else 0) : ℝ) : ℂ)) • gens N c := by
    rw [hR]
    unfold smearTerm
    refine Finset.sum_congr rfl fun c _ => ?_
    rw [← (hc c).deriv]
    simp only [mul_one]
    rfl
  have hR2 : R = (Complex.I * ((-r : ℝ) : ℂ)) • gens N i0 := by
    rw [hR1, Finset.sum_eq_single i0]
    · rw [if_pos rfl]
      congr 3
      ring
    · intro c _ hc
      rw [if_neg (Ne.symm hc)]
      simp
    · simp
  have h3 := congrArg (fun Z => trace (gens N i0 * Z)) (hR2.symm.trans hR0)
  simp only [Matrix.mul_smul, trace_smul, trace_gens_self, Matrix.mul_zero, trace_zero, smul_eq_mul] at h3
  have h4 : (r : ℂ) ≠ 0 := Complex.ofReal_ne_zero.2 hr
  simp [Complex.I_ne_zero, h4] at h3

/-! ### Two flavours -/

theorem hop_first_order_field [Fintype S] (T : Torus S) (hT : T.Wide 2) (s : S) (μ : Fin 4) (V : GField S M) (hV : V s μ ≠ 0) :
    ∃ X : SField S M, rdot X (hopLin T 1 V (gamma5Field X)) ≠ 0 := by
  classical
  obtain ⟨X, hX⟩ : ∃ X : SField S M, rdot X (hopLin T 1 (oneLink s μ (V s μ)) (gamma5Field X)) ≠ 0 ∧ ∀ x, x ≠ s → x ≠ T.sup μ s → X x = 0 := by
    have hs := T.sup_ne (by norm_num) hT μ s
    obtain ⟨a, b, hab⟩ : ∃ a b, V s μ a b ≠ 0 := by
      by_contra h
      push Not at h
      exact hV (by ext a b; simpa using h a b)
    refine ⟨twoSites s (T.sup μ s) a b (starRingEnd ℂ (V s μ a b)), ?_, ?_⟩
    · exact hop_two_sites_ne T s μ hs (V s μ) a b hab
    · intro x h1 h2
      unfold twoSites
      rw [if_neg h1, if_neg h2]
  refine ⟨X, ?_⟩
  have e : rdot X (hopLin T 1 V (gamma5Field X)) = rdot X (hopLin T 1 (oneLink s μ (V s μ)) (gamma5Field X)) := by
    conv_lhs => rw [sum_oneLink V]
    rw [map_sum, LinearMap.sum_apply]
    change rdotL X _ = _
    rw [map_sum]
    have z : ∀ x l, ¬ (x = s ∧ l = μ) → rdotL X (hopLin T 1 (oneLink x l (V x l)) (gamma5Field X)) = 0 := by
      intro x l h
      rw [rdotL_apply, hop_first_order]
      have : X x = 0 ∨ X (T.sup l x) = 0 := by
        by_contra hc
        push Not at hc
        have c1 : x = s ∨ x = T.sup μ s := by
          by_contra h'
          push Not at h'
          exact hc.1 (hX.2 x h'.1 h'.2)
        have c2 : T.sup l x = s ∨ T.sup l x = T.sup μ s := by
          by_contra h'
          push Not at h'
          exact hc.2 (hX.2 _ h'.1 h'.2)
        rcases c1 with rfl | rfl
        · rcases c2 with c2 | c2
          · exact T.sup_ne (by norm_num) hT l _ c2
          · by_cases hl : l = μ
            · exact h ⟨rfl, hl⟩
            · exact T.sup_ne_sup (by norm_num) hT hl _ c2
        · rcases c2 with c2 | c2
          · by_cases hl : l = μ
            · rw [hl] at c2
              exact T.sup_sup_ne le_rfl hT μ s c2
            · exact T.sup_sup_ne_of_ne (by norm_num) hT hl s c2
          · exact T.sup_ne (by norm_num) hT l _ c2
      rcases this with h0 | h0
      · rw [h0]; simp
      · rw [h0]; simp
    rw [Finset.sum_eq_single s]
    · rw [map_sum, LinearMap.sum_apply, map_sum, Finset.sum_eq_single μ]
      · rfl
      · exact fun l _ hl => z s l fun e => hl e.2
      · simp
    · intro x _ hx
      rw [map_sum, LinearMap.sum_apply, map_sum]
      exact Finset.sum_eq_zero fun l _ => z x l fun e => hx e.1
    · simp
  rw [e]
  exact hX.1

/-- **C69**, two flavours, counterexample: the two flavour action computes its force as if the links were not smeared, while its energy is that
on the smeared links.  On every lattice with at least three sites in each direction, for every number of colours greater than one and every
coefficient of smearing that is not zero, there are a hopping parameter, a pseudofermion field and momenta for which, at the identity links,
with periodic boundary conditions, an invertible Dirac operator and an exact solver, the total energy changes along the motion at a rate that
is not zero. -/
theorem C69_two_flavor_counterexample [Fintype S] [Nonempty S] (T : Torus S) (hT : ∀ μ, 3 ≤ T.ext μ) (hN : 2 ≤ N) (r : ℝ) (hr : r ≠ 0) :
    ∃ (κ : ℝ) (φ : SField S N) (P : GField S N), (∀ s μ, IsLie (P s μ)) ∧
      Function.Injective (optMul T (smearedFermionLinks (fundamentalRep N) T "fermion_periodic" 1 r fun _ _ => 1) κ true) ∧
      ∀ solve : GField S N → SField S N → SField S N,
        (∀ L v, Function.Injective (optMul T L κ true) → optMul T L κ true (solve L v) = v) →
        ∃ rate : ℝ, rate ≠ 0 ∧ HasDerivAt (fun t : ℝ => totalEnergy
          (fun U => twoFlavorFermionEnergy solve (smearedFermionLinks (fundamentalRep N) T "fermion_periodic" 1 r U) φ)
          (fun s μ => NormedSpace.exp (t • P s μ) * 1, fun s μ => P s μ - (t : ℂ) •
            twoFlavorUpdateForce (fundamentalRep N) (wilsonDerivative T κ) solve
              (smearedFermionLinks (fundamentalRep N) T "fermion_periodic" 1 r fun _ _ => 1) (fun _ _ => 1) φ s μ)) rate 0 := by
  classical
  have hT2 : T.Wide 2 := hT
  obtain ⟨s⟩ := ‹Nonempty S›
  have i0 : Fin (lieGenerators N).length := ⟨0, lieGenerators_pos hN⟩
  have hX := isLie_I_gens i0
  have hX0 : Complex.I • gens N i0 ≠ 0 := by
    intro h
    have h0 : gens N i0 = 0 := (smul_eq_zero.1 h).resolve_left Complex.I_ne_zero
    have := trace_gens_self N i0
    rw [h0] at this
    simp at this
  have h1s : stoutLinks T r (fun _ _ => (1 : Mat N)) = fun _ _ => 1 := stoutLinks_one T r
  have hLs : smearedFermionLinks (fundamentalRep N) T "fermion_periodic" 1 r (fun _ _ => 1) =
      fermionLinks (fundamentalRep N) T "fermion_periodic" fun _ _ => 1 := by
    change fermionLinks (fundamentalRep N) T "fermion_periodic" (stoutLinks T r fun _ _ => 1) = _
    rw [h1s]
  have hL1 : fermionLinks (fundamentalRep N) T "fermion_periodic" (fun _ _ => (1 : Mat N)) = fun _ _ => 1 := by
    funext x l
    rw [fermionLinks_eq, bcFactor_periodic, one_smul]
    rfl
  obtain ⟨P, hPd⟩ : ∃ P : GField S N, P = oneLink s 0 (Complex.I • gens N i0) := ⟨_, rfl⟩
  have hP : ∀ s μ, IsLie (P s μ) := by rw [hPd]; exact isLie_oneLink hX s 0
  obtain ⟨Q, hQ, hm⟩ := stout_velocity T r (fun _ _ => (1 : Mat N)) P hP
  have hQs : Q s 0 = (1 - 6 * r) • (Complex.I • gens N i0) := by
    have h1 := hm s 0
    rw [h1s, mul_one] at h1
    refine h1.unique ?_
    have h2 := stout_own_link T (fun μ => by have := hT μ; omega) r s 0 hX
    rw [hPd]
    simp only [← setLink_move, mul_one]
    exact h2
  set L := fermionLinks (fundamentalRep N) T "fermion_periodic" fun _ _ => (1 : Mat N) with hL
  obtain ⟨V, hVd⟩ : ∃ V, V = linkVelocity (fundamentalRep N) Q L - linkVelocity (fundamentalRep N) P L := ⟨_, rfl⟩
  have hlv : ∀ (Z : GField S N), (∀ s μ, IsLie (Z s μ)) → linkVelocity (fundamentalRep N) Z L s 0 = Z s 0 := by
    intro Z hZ
    rw [hL1]
    unfold linkVelocity
    conv_rhs => rw [C30_complete N (Z s 0) (hZ s 0).2]
    refine Finset.sum_congr rfl fun i _ => ?_
    rw [mul_one]
    rfl
  have hV : V s 0 ≠ 0 := by
    rw [hVd]
    change linkVelocity (fundamentalRep N) Q L s 0 - linkVelocity (fundamentalRep N) P L s 0 ≠ 0
    rw [hlv Q hQ, hlv P hP, hQs, hPd, oneLink_same]
    have : (1 - 6 * r) • (Complex.I • gens N i0) - Complex.I • gens N i0 = (-6 * r) • (Complex.I • gens N i0) := by module
    rw [this]
    exact smul_ne_zero (by simpa using hr) hX0
  obtain ⟨X, hXX⟩ := hop_first_order_field T hT2 s 0 V hV
  obtain ⟨κ, _, hu, φ, hφ⟩ := normForm_ne T L V X hXX
  have hinj := (injective_iff_isUnit (wilson_isDirac T κ) L).2 hu
  refine ⟨κ, φ, P, hP, by rw [hLs]; exact hinj, fun solve hsol => ⟨normForm rdotB (wilsonFamily T κ) φ L V, hφ, ?_⟩⟩
  have hvel := hasDerivAt_smearedLinks (fundamentalRep N) (fundamental_lawful N) T "fermion_periodic" r (fun _ _ => 1) P Q hQ hm
  rw [h1s, ← hL] at hvel
  have hA := wilson_isDirac (M := N) T κ
  have h0 : fermionLinks (fundamentalRep N) T "fermion_periodic" (stoutLinks T r (moveLinks P (fun _ _ => 1) 0)) = L := by
    rw [moveLinks_zero, h1s]
  have hE := hA.family.hasDerivAt_norm φ hvel (by rw [h0]; exact hu)
  rw [h0] at hE
  have hE2 : HasDerivAt (fun t : ℝ => twoFlavorFermionEnergy solve (smearedFermionLinks (fundamentalRep N) T "fermion_periodic" 1 r
      (moveLinks P (fun _ _ => 1) t)) φ) (normForm rdotB (wilsonFamily T κ) φ L (linkVelocity (fundamentalRep N) Q L)) 0 := by
    refine hE.congr_of_eventuallyEq ?_
    have hcont := hvel.continuousAt
    have hopen : {L : GField S N | IsUnit (wilsonFamily T κ L)} ∈ 𝓝 (fermionLinks (fundamentalRep N) T "fermion_periodic"
        (stoutLinks T r (moveLinks P (fun _ _ => 1) 0))) := by
      rw [h0]
      exact (hA.family.isOpen_norm contDiff_id).mem_nhds hu
    filter_upwards [hcont.eventually_mem hopen] with t ht
    exact twoFlavor_energy_eq hA hsol φ _ ht
  have hF : ∀ x l, twoFlavorUpdateForce (fundamentalRep N) (wilsonDerivative T κ) solve L (fun _ _ => 1) φ x l =
      gradField (fundamentalRep N) L (normForm rdotB (wilsonFamily T κ) φ L) x l := by
    intro x l
    have := twoFlavor_force_eq (fundamentalRep N) (fundamental_lawful N) T "fermion_periodic" hA (wilson_isLinkDerivative T κ) solve φ (fun _ _ => 1)
      (fun _ _ => Or.inl (by simp)) (fun h => by simp at h) hinj (fun v => hsol _ v hinj) x l
    rw [show forceFactor T "fermion_periodic" x l = 1 from rfl, one_smul] at this
    exact this
  rw [hLs]
  simp only [hF]
  refine HasDerivAt.congr_deriv ((hasDerivAt_momentaEnergy P _).add hE2) ?_
  have hg := gradField_conserves (fundamentalRep N) L (normForm rdotB (wilsonFamily T κ) φ L) P hP
  rw [hVd, map_sub]
  linarith

/-! ### The hypotheses can be met -/

/-- A lattice with two sites in each direction, and one with three. -/
example : (∀ μ, 2 ≤ (boxTorus ⟨2, 2, 2, 2⟩ (by decide)).ext μ) ∧ ∀ μ, 3 ≤ (boxTorus ⟨3, 4, 5, 6⟩ (by decide)).ext μ := by
  constructor <;> intro μ <;> fin_cases μ <;> decide

end Leonard
