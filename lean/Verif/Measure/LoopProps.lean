import Verif.Measure.Energy
import Verif.Gauge.Props
import Verif.Gauge.Torus
import Verif.Rep.Props

/-!
# C60 Glueball operators, correlators of Polyakov loops, adjoint Polyakov loops
-/

set_option autoImplicit false

namespace Leonard

open Matrix

variable {S : Type} {N : ℕ}

/-! ### Specification -/

/-- **Specification.** The Polyakov loop through `x` in direction `ν`: the product of the links around the lattice. -/
noncomputable def polyakovLine (T : Torus S) (U : GField S N) (ν : Fin 4) (x : S) : Mat N :=
  holo T U x (List.replicate (T.ext ν) (ν, true))

/-- **Specification.** `Re tr` of the plaquette at `x` in the plane of `μ` and `ν`. -/
noncomputable def plaquetteAt (T : Torus S) (U : GField S N) (μ ν : Fin 4) (x : S) : ℝ :=
  (trace (holo T U x [(μ, true), (ν, true), (μ, false), (ν, false)])).re

/-! ### Glueball operators -/

theorem glueballPlaquette_eq (T : Torus S) (U : GField S N) (μ ν : Fin 4) (x : S) : glueballPlaquette U T μ ν x = plaquetteAt T U μ ν x := by
  unfold glueballPlaquette plaquetteAt
  simp only [holo_up, holo_down, holo_nil, Matrix.mul_one, Torus.walk_nil]
  rw [T.comm ν μ, T.sdn_sup, T.sdn_sup]
  simp only [Matrix.mul_assoc]

theorem plaquetteAt_swap (T : Torus S) (U : GField S N) (μ ν : Fin 4) (x : S) : plaquetteAt T U ν μ x = plaquetteAt T U μ ν x := by
  unfold plaquetteAt
  have h := holo_plaq_rev T U (μ, true) (ν, true) x
  change (holo T U x [(μ, true), (ν, true), (μ, false), (ν, false)])ᴴ = holo T U x [(ν, true), (μ, true), (ν, false), (μ, false)] at h
  rw [← h, trace_conjTranspose, Complex.star_def, Complex.conj_re]

/-- **C60**: the scalar glueball operator on time slice `t` is the sum over the sites of the slice and over the three spatial planes of `Re tr` of
the plaquette, and the tensor operator is the difference of the planes (01) and (02), both divided by the spatial volume. -/
theorem C60_glueball [Fintype S] (T : Torus S) (U : GField S N) (t : ℕ) :
    glueballZero T U t = (∑ x, if T.coord x 3 = t then plaquetteAt T U 0 1 x + plaquetteAt T U 0 2 x + plaquetteAt T U 1 2 x else 0)
      / (T.ext 0 * T.ext 1 * T.ext 2 : ℕ)
    ∧ glueballTwo T U t = (∑ x, if T.coord x 3 = t then plaquetteAt T U 0 1 x - plaquetteAt T U 0 2 x else 0)
      / (T.ext 0 * T.ext 1 * T.ext 2 : ℕ) := by
  unfold glueballZero glueballTwo
  simp only [glueballPlaquette_eq, plaquetteAt_swap T U 0 1, plaquetteAt_swap T U 0 2, plaquetteAt_swap T U 1 2]
  exact ⟨rfl, rfl⟩

/-- **C60**, gauge invariance of the glueball operators. -/
theorem C60_glueball_gauge [Fintype S] (T : Torus S) (U : GField S N) (ω : S → Mat N) (hω : ∀ s, ω s ∈ unitaryGroup (Fin N) ℂ) (t : ℕ) :
    glueballZero T (gaugeTransform T ω U) t = glueballZero T U t ∧ glueballTwo T (gaugeTransform T ω U) t = glueballTwo T U t := by
  have h : ∀ μ ν x, plaquetteAt T (gaugeTransform T ω U) μ ν x = plaquetteAt T U μ ν x := by
    intro μ ν x
    unfold plaquetteAt
    rw [trace_holo_gauge T U ω (fun s => mem_unitaryGroup_iff'.1 (hω s)) (fun s => mem_unitaryGroup_iff.1 (hω s))]
    change T.sdn ν (T.sdn μ (T.sup ν (T.sup μ x))) = x
    rw [T.comm ν μ, T.sdn_sup, T.sdn_sup]
  rw [(C60_glueball T _ t).1, (C60_glueball T _ t).2, (C60_glueball T _ t).1, (C60_glueball T _ t).2]
  simp only [h, and_self]

/-- `Re tr` of the plaquette of two hops. -/
noncomputable def plaqHop (T : Torus S) (U : GField S N) (a b : Hop) (x : S) : ℝ := (trace (holo T U x [a, b, a.rev, b.rev])).re

/-- The sum over a time slice of a plaquette does not depend on the sense in which its sides are run through. -/
theorem sum_plaqHop_rev [Fintype S] (T : Torus S) (U : GField S N) (a b : Hop) (t : ℕ) (ha : a.1 ≠ 3) :
    (∑ x, if T.coord x 3 = t then plaqHop T U a.rev b x else 0) = ∑ x, if T.coord x 3 = t then plaqHop T U a b x else 0 := by
  have hc : ∀ x, T.coord (T.hop a x) 3 = T.coord x 3 := by
    obtain ⟨μ, s⟩ := a
    intro x
    cases s
    · have := T.coord_sup_ne μ 3 (T.sdn μ x) ha
      rw [T.sup_sdn] at this
      exact this.symm
    · exact T.coord_sup_ne μ 3 x ha
  have hbij : Function.Bijective (T.hop a) :=
    ⟨fun x y h => by rw [← hop_rev T a x, h, hop_rev], fun y => ⟨T.hop a.rev y, by have := hop_rev T a.rev y; rwa [rev_rev] at this⟩⟩
  rw [← (Function.Bijective.sum_comp hbij fun x => if T.coord x 3 = t then plaqHop T U a.rev b x else 0)]
  refine Finset.sum_congr rfl fun x _ => ?_
  rw [hc]
  split
  swap
  · rfl
  unfold plaqHop
  have e1 : holo T U (T.hop a x) [a.rev, b, a.rev.rev, b.rev]
      = (hopMat T U x a)ᴴ * (hopMat T U x b * hopMat T U (T.hop b x) a * hopMat T U (T.hop a (T.hop b x)) b.rev) := by
    simp only [holo, rev_rev]
    rw [hop_rev, hopMat_rev]
    simp only [Matrix.mul_one, Matrix.mul_assoc]
  have e2 : (holo T U x [a, b, a.rev, b.rev])ᴴ = hopMat T U x b * (hopMat T U (T.hop b x) a * hopMat T U (T.hop a (T.hop b x)) b.rev * (hopMat T U x a)ᴴ) := by
    rw [holo_plaq_rev]
    simp only [holo, Matrix.mul_one, Matrix.mul_assoc]
    rw [hop_comm T a b x, hop_rev T b, hopMat_rev T U a]
  rw [e1]
  have e3 : (trace (holo T U x [a, b, a.rev, b.rev])).re = (trace (holo T U x [a, b, a.rev, b.rev])ᴴ).re := by
    rw [trace_conjTranspose, Complex.star_def, Complex.conj_re]
  rw [e3, e2, trace_mul_comm]
  simp only [Matrix.mul_assoc]

/-- **C60**, symmetry: any reflection or permutation of the three spatial axes leaves the scalar operator as it is, and the exchange of the axes
1 and 2 changes the sign of the tensor operator. -/
theorem C60_glueball_symmetry [Fintype S] (T : Torus S) (R : LatticeSymmetry T) (h3 : R.axis 3 = 3)
    (ht : ∀ x, T.coord (R.map x) 3 = T.coord x 3) (U : GField S N) (t : ℕ) :
    glueballZero T (R.pull U) t = glueballZero T U t
    ∧ (R.axis = Equiv.swap 1 2 → glueballTwo T (R.pull U) t = -glueballTwo T U t)
    ∧ (R.axis = 1 → glueballTwo T (R.pull U) t = glueballTwo T U t) := by
  let P : Fin 4 → Fin 4 → ℝ := fun μ ν => ∑ x, if T.coord x 3 = t then plaquetteAt T U μ ν x else 0
  have hP : ∀ μ ν, P μ ν = P ν μ := fun μ ν => by
    exact Finset.sum_congr rfl fun x _ => by rw [plaquetteAt_swap T U ν μ]
  have hsum : ∀ μ ν, μ ≠ 3 → ν ≠ 3 → (∑ x, if T.coord x 3 = t then plaquetteAt T (R.pull U) μ ν x else 0) = P (R.axis μ) (R.axis ν) := by
    intro μ ν hμ hν
    have hne : ∀ ρ, ρ ≠ 3 → R.axis ρ ≠ 3 := fun ρ h h' => h (R.axis.injective (h'.trans h3.symm))
    have e : ∀ x, plaquetteAt T (R.pull U) μ ν x = plaqHop T U (R.axis μ, R.fwd μ) (R.axis ν, R.fwd ν) (R.map x) := by
      intro x
      unfold plaquetteAt plaqHop
      rw [R.holo_pull]
      rfl
    have e' : (∑ x, if T.coord x 3 = t then plaquetteAt T (R.pull U) μ ν x else 0)
        = ∑ x, if T.coord x 3 = t then plaqHop T U (R.axis μ, R.fwd μ) (R.axis ν, R.fwd ν) x else 0 := by
      rw [← Equiv.sum_comp R.map fun x => if T.coord x 3 = t then plaqHop T U (R.axis μ, R.fwd μ) (R.axis ν, R.fwd ν) x else 0]
      exact Finset.sum_congr rfl fun x _ => by rw [e, ht]
    have sw : ∀ a b, (∑ x, if T.coord x 3 = t then plaqHop T U a b x else 0) = ∑ x, if T.coord x 3 = t then plaqHop T U b a x else 0 := by
      intro a b
      refine Finset.sum_congr rfl fun x _ => ?_
      unfold plaqHop
      rw [← holo_plaq_rev T U a b, trace_conjTranspose, Complex.star_def, Complex.conj_re]
    have f1 : ∀ b, (∑ x, if T.coord x 3 = t then plaqHop T U (R.axis μ, R.fwd μ) b x else 0)
        = ∑ x, if T.coord x 3 = t then plaqHop T U (R.axis μ, true) b x else 0 := by
      intro b
      cases R.fwd μ
      · exact sum_plaqHop_rev T U (R.axis μ, true) b t (hne μ hμ)
      · rfl
    have f2 : ∀ a, (∑ x, if T.coord x 3 = t then plaqHop T U a (R.axis ν, R.fwd ν) x else 0)
        = ∑ x, if T.coord x 3 = t then plaqHop T U a (R.axis ν, true) x else 0 := by
      intro a
      rw [sw, sw a]
      cases R.fwd ν
      · exact sum_plaqHop_rev T U (R.axis ν, true) a t (hne ν hν)
      · rfl
    rw [e', f1, f2]
    rfl
  have hadd : ∀ f g h : S → ℝ, (∑ x, if T.coord x 3 = t then f x + g x + h x else 0)
      = (∑ x, if T.coord x 3 = t then f x else 0) + (∑ x, if T.coord x 3 = t then g x else 0) + ∑ x, if T.coord x 3 = t then h x else 0 := by
    intro f g h
    rw [← Finset.sum_add_distrib, ← Finset.sum_add_distrib]
    exact Finset.sum_congr rfl fun x _ => by split <;> simp
  have hsub : ∀ f g : S → ℝ, (∑ x, if T.coord x 3 = t then f x - g x else 0)
      = (∑ x, if T.coord x 3 = t then f x else 0) - ∑ x, if T.coord x 3 = t then g x else 0 := by
    intro f g
    rw [← Finset.sum_sub_distrib]
    exact Finset.sum_congr rfl fun x _ => by split <;> simp
  have z0 : ∀ V : GField S N, glueballZero T V t = ((∑ x, if T.coord x 3 = t then plaquetteAt T V 0 1 x else 0)
      + (∑ x, if T.coord x 3 = t then plaquetteAt T V 0 2 x else 0) + ∑ x, if T.coord x 3 = t then plaquetteAt T V 1 2 x else 0)
      / (T.ext 0 * T.ext 1 * T.ext 2 : ℕ) := fun V => by rw [(C60_glueball T V t).1, hadd]
  have z2 : ∀ V : GField S N, glueballTwo T V t = ((∑ x, if T.coord x 3 = t then plaquetteAt T V 0 1 x else 0)
      - ∑ x, if T.coord x 3 = t then plaquetteAt T V 0 2 x else 0)
      / (T.ext 0 * T.ext 1 * T.ext 2 : ℕ) := fun V => by rw [(C60_glueball T V t).2, hsub]
  have n01 : (0 : Fin 4) ≠ 3 := by decide
  have n1 : (1 : Fin 4) ≠ 3 := by decide
  have n2 : (2 : Fin 4) ≠ 3 := by decide
  refine ⟨?_, fun hax => ?_, fun hax => ?_⟩
  · rw [z0, z0, hsum 0 1 n01 n1, hsum 0 2 n01 n2, hsum 1 2 n1 n2]
    refine congrArg (fun r : ℝ => r / _) ?_
    change _ = P 0 1 + P 0 2 + P 1 2
    have key : ∀ π : Equiv.Perm (Fin 4), π 3 = 3 → ∀ Q : Fin 4 → Fin 4 → ℝ, (∀ μ ν, Q μ ν = Q ν μ) →
        Q (π 0) (π 1) + Q (π 0) (π 2) + Q (π 1) (π 2) = Q 0 1 + Q 0 2 + Q 1 2 := by
      intro π hπ Q hQ
      have hcases : ∀ π : Equiv.Perm (Fin 4), π 3 = 3 → (π 0 = 0 ∧ π 1 = 1 ∧ π 2 = 2) ∨ (π 0 = 0 ∧ π 1 = 2 ∧ π 2 = 1)
          ∨ (π 0 = 1 ∧ π 1 = 0 ∧ π 2 = 2) ∨ (π 0 = 1 ∧ π 1 = 2 ∧ π 2 = 0) ∨ (π 0 = 2 ∧ π 1 = 0 ∧ π 2 = 1) ∨ (π 0 = 2 ∧ π 1 = 1 ∧ π 2 = 0) := by
        decide +kernel
      rcases hcases π hπ with ⟨a, b, c⟩ | ⟨a, b, c⟩ | ⟨a, b, c⟩ | ⟨a, b, c⟩ | ⟨a, b, c⟩ | ⟨a, b, c⟩ <;> rw [a, b, c] <;>
        simp only [hQ 1 0, hQ 2 0, hQ 2 1] <;> ring
    exact key R.axis h3 P hP
  · rw [z2, z2, hsum 0 1 n01 n1, hsum 0 2 n01 n2, hax]
    have s0 : Equiv.swap (1 : Fin 4) 2 0 = 0 := by decide
    have s1 : Equiv.swap (1 : Fin 4) 2 1 = 2 := by decide
    have s2 : Equiv.swap (1 : Fin 4) 2 2 = 1 := by decide
    rw [s0, s1, s2, ← neg_div, neg_sub]
  · rw [z2, z2, hsum 0 1 n01 n1, hsum 0 2 n01 n2, hax]
    rfl

/-- The hypotheses are met: the exchange of two axes of the same extent. -/
example (hg : (⟨3, 4, 4, 5⟩ : Ext).Pos) : ∃ R : LatticeSymmetry (boxTorus ⟨3, 4, 4, 5⟩ hg), R.axis = Equiv.swap 1 2 ∧ R.axis 3 = 3 ∧
    ∀ x, (boxTorus ⟨3, 4, 4, 5⟩ hg).coord (R.map x) 3 = (boxTorus ⟨3, 4, 4, 5⟩ hg).coord x 3 := by
  refine ⟨boxSymmetry _ hg (Equiv.swap 1 2) (by decide) fun _ => true, rfl, show Equiv.swap (1 : Fin 4) 2 3 = 3 by decide, fun x => ?_⟩
  change ((boxMap _ hg _ _ x).1.get 3).toNat = (x.1.get 3).toNat
  rw [boxMap_get]
  have h := x.2.get 3
  have e : (Equiv.swap (1 : Fin 4) 2).symm 3 = 3 := by decide
  rw [e, if_pos rfl, Int.emod_eq_of_lt h.1 h.2]

/-! ### Correlator of Polyakov loops -/

/-- **C60**: the entry with number `l` of the correlator of Polyakov loops is the one of distance `l + 1`: the sum over the first time slice of
`tr P(x)* tr P(x + (l+1) e₀)`, divided by the number of colours and the spatial volume. -/
theorem C60_correlator [Fintype S] (T : Torus S) (U : GField S N) (l : ℕ) (hl : l < T.ext 0 / 2) :
    (polyakovCorrelator T U)[l]? = some ((∑ x, if T.coord x 3 = 0 then
        star (trace (polyakovLine T U 3 x)) * trace (polyakovLine T U 3 ((T.sup 0)^[l + 1] x)) else 0)
      / ((N * (T.ext 0 * T.ext 1 * T.ext 2) : ℕ) : ℂ))
    ∧ (polyakovCorrelator T U).length = T.ext 0 / 2 := by
  have hc : ∀ (n : ℕ) (x : S), T.coord ((T.sup 0)^[n] x) 3 = T.coord x 3 := by
    intro n
    induction n with
    | zero => intro x; rfl
    | succ n ih => intro x; rw [Function.iterate_succ_apply, ih, T.coord_sup_ne 0 3 x (by decide)]
  constructor
  · unfold polyakovCorrelator
    rw [List.getElem?_map, List.getElem?_range hl, Option.map_some]
    refine congrArg some (congrArg (fun z : ℂ => z / _) (Finset.sum_congr rfl fun x _ => ?_))
    split
    · rename_i h
      rw [shiftField_eq]
      unfold polyakovField
      rw [polyakov_line T U 3 _ x h, polyakov_line T U 3 _ _ ((hc _ x).trans h)]
      rfl
    · rfl
  · simp [polyakovCorrelator]

/-- **C60**, gauge invariance of the correlator. -/
theorem C60_correlator_gauge [Fintype S] (T : Torus S) (U : GField S N) (ω : S → Mat N) (hω : ∀ s, ω s ∈ unitaryGroup (Fin N) ℂ) :
    polyakovCorrelator T (gaugeTransform T ω U) = polyakovCorrelator T U := by
  refine List.ext_getElem? fun l => ?_
  by_cases hl : l < T.ext 0 / 2
  · rw [(C60_correlator T _ l hl).1, (C60_correlator T _ l hl).1]
    have h : ∀ x, trace (polyakovLine T (gaugeTransform T ω U) 3 x) = trace (polyakovLine T U 3 x) := fun x =>
      trace_holo_gauge T U ω (fun s => mem_unitaryGroup_iff'.1 (hω s)) (fun s => mem_unitaryGroup_iff.1 (hω s)) _ x
        (by rw [walk_replicate, T.period])
    simp only [h]
  · rw [List.getElem?_eq_none, List.getElem?_eq_none] <;> simp [polyakovCorrelator] <;> omega

/-- The hypotheses are met: extent 4 in direction 0 gives two entries, and there are gauge transformations other than constants. -/
example : (∀ hg : (⟨4, 4, 4, 4⟩ : Ext).Pos, 1 < (boxTorus ⟨4, 4, 4, 4⟩ hg).ext 0 / 2)
    ∧ ∀ s : BoxSite exExt3, (if s.1.get 0 = 0 then -1 else 1 : Mat 2) ∈ unitaryGroup (Fin 2) ℂ := by
  refine ⟨fun hg => ?_, fun s => ?_⟩
  · change 1 < (4 : ℤ).toNat / 2
    simp
  · split
    · rw [mem_unitaryGroup_iff]; simp
    · exact one_mem _

theorem card_timeslice (g : Ext) (hg : g.Pos) :
    (Finset.univ.filter fun x => (boxTorus g hg).coord x 3 = 0).card
      = (boxTorus g hg).ext 0 * (boxTorus g hg).ext 1 * (boxTorus g hg).ext 2 := by
  have h := card_eq_slice (boxTorus g hg) 3
  rw [card_boxSite] at h
  have hp : 0 < (g.get 3).toNat := by have := hg.get 3; omega
  refine Nat.eq_of_mul_eq_mul_left hp ?_
  change (g.get 3).toNat * _ = (g.get 3).toNat * ((g.get 0).toNat * (g.get 1).toNat * (g.get 2).toNat)
  rw [mul_comm (g.get 3).toNat (_ * _)]
  exact h.symm

theorem spatial_ne_zero (g : Ext) (hg : g.Pos) : (boxTorus g hg).ext 0 * (boxTorus g hg).ext 1 * (boxTorus g hg).ext 2 ≠ 0 := by
  have h : ∀ μ, (boxTorus g hg).ext μ ≠ 0 := fun μ => by
    have := hg.get μ
    change (g.get μ).toNat ≠ 0
    omega
  exact mul_ne_zero (mul_ne_zero (h 0) (h 1)) (h 2)

/-- **C60**, range: for unitary links no entry of the correlator is larger than the number of colours, and the configuration with all links the
identity reaches that value. -/
theorem C60_correlator_bound (hN : 0 < N) (g : Ext) (hg : g.Pos) (l : ℕ) (hl : l < (boxTorus g hg).ext 0 / 2) :
    (∀ U : GField (BoxSite g) N, (∀ s μ, U s μ ∈ unitaryGroup (Fin N) ℂ) → ∀ c, (polyakovCorrelator (boxTorus g hg) U)[l]? = some c → ‖c‖ ≤ N)
    ∧ (polyakovCorrelator (boxTorus g hg) fun _ _ => (1 : Mat N))[l]? = some (N : ℂ) := by
  have hv := spatial_ne_zero g hg
  have hN' : (N : ℂ) ≠ 0 := by exact_mod_cast hN.ne'
  constructor
  · intro U hU c hc
    rw [(C60_correlator (boxTorus g hg) U l hl).1] at hc
    have hc := (Option.some.inj hc).symm
    rw [hc, norm_div, Complex.norm_natCast, div_le_iff₀ (by exact_mod_cast Nat.pos_of_ne_zero (mul_ne_zero hN.ne' hv))]
    rw [← Finset.sum_filter]
    refine (norm_sum_le _ _).trans ?_
    have hb : ∀ x, ‖trace (polyakovLine (boxTorus g hg) U 3 x)‖ ≤ N := fun x => norm_trace_unitary_le (holo_mem_unitary _ U hU _ _)
    calc _ ≤ ∑ x ∈ Finset.univ.filter fun x => (boxTorus g hg).coord x 3 = 0, (N : ℝ) * N := by
          refine Finset.sum_le_sum fun x _ => ?_
          rw [norm_mul, norm_star]
          exact mul_le_mul (hb _) (hb _) (norm_nonneg _) (Nat.cast_nonneg _)
      _ = N * (N * ((boxTorus g hg).ext 0 * (boxTorus g hg).ext 1 * (boxTorus g hg).ext 2) : ℕ) := by
          rw [Finset.sum_const, card_timeslice, nsmul_eq_mul]
          push_cast
          ring
  · rw [(C60_correlator (boxTorus g hg) _ l hl).1]
    refine congrArg some ?_
    unfold polyakovLine
    simp only [holo_one, trace_one, Fintype.card_fin]
    rw [← Finset.sum_filter, Finset.sum_const, card_timeslice, nsmul_eq_mul]
    have hv' : (((boxTorus g hg).ext 0 * (boxTorus g hg).ext 1 * (boxTorus g hg).ext 2 : ℕ) : ℂ) ≠ 0 := by exact_mod_cast hv
    rw [Nat.cast_mul N, Complex.star_def, Complex.conj_natCast]
    field_simp

/-- **C60**, counterexample to the normalisation: on the trivial configuration the Polyakov loop which the program writes is one and its correlator is
not, for three colours. -/
theorem C60_normalisation_counterexample (hg : (⟨4, 4, 4, 4⟩ : Ext).Pos) :
    polyakovLoop (boxTorus ⟨4, 4, 4, 4⟩ hg) (fun _ _ => (1 : Mat 3)) 3 = 1
    ∧ polyakovCorrelator (boxTorus ⟨4, 4, 4, 4⟩ hg) (fun _ _ => (1 : Mat 3)) = [3, 3] := by
  refine ⟨C49_polyakov_unit_partial (by norm_num) _ hg 3 rfl, List.ext_getElem? fun l => ?_⟩
  have hx : (boxTorus ⟨4, 4, 4, 4⟩ hg).ext 0 / 2 = 2 := by
    change (4 : ℤ).toNat / 2 = 2
    simp
  by_cases hl : l < 2
  · rw [(C60_correlator_bound (N := 3) (by norm_num) ⟨4, 4, 4, 4⟩ hg l (by rw [hx]; exact hl)).2]
    interval_cases l <;> norm_num
  · rw [List.getElem?_eq_none, List.getElem?_eq_none]
    · exact not_lt.1 hl
    · simpa [polyakovCorrelator, hx] using not_lt.1 hl

/-- The links of the next counterexample: the time links change sign from one site to the next in direction 0. -/
def alternatingLinks (hg : (⟨2, 1, 1, 1⟩ : Ext).Pos) : GField (BoxSite ⟨2, 1, 1, 1⟩) 2 := fun x μ =>
  if μ = 3 ∧ (boxTorus ⟨2, 1, 1, 1⟩ hg).coord x 0 = 1 then -1 else 1

/-- **C60**, counterexample to the distance: the first entry is not the correlator at distance zero. Here it is `-2`, whereas the correlator of a
Polyakov loop with itself, divided in the same way, is `2`. -/
theorem C60_distance_counterexample (hg : (⟨2, 1, 1, 1⟩ : Ext).Pos) :
    (∀ s μ, alternatingLinks hg s μ ∈ specialUnitaryGroup (Fin 2) ℂ)
    ∧ polyakovCorrelator (boxTorus ⟨2, 1, 1, 1⟩ hg) (alternatingLinks hg) = [-2]
    ∧ (∑ x, if (boxTorus ⟨2, 1, 1, 1⟩ hg).coord x 3 = 0 then star (trace (polyakovLine (boxTorus ⟨2, 1, 1, 1⟩ hg) (alternatingLinks hg) 3 x))
        * trace (polyakovLine (boxTorus ⟨2, 1, 1, 1⟩ hg) (alternatingLinks hg) 3 x) else 0) / (2 * 2) = 2 := by
  have hx : (boxTorus ⟨2, 1, 1, 1⟩ hg).ext 0 / 2 = 1 := by
    change (2 : ℤ).toNat / 2 = 1
    simp
  have hvol : (boxTorus ⟨2, 1, 1, 1⟩ hg).ext 0 * (boxTorus ⟨2, 1, 1, 1⟩ hg).ext 1 * (boxTorus ⟨2, 1, 1, 1⟩ hg).ext 2 = 2 := by
    change (2 : ℤ).toNat * (1 : ℤ).toNat * (1 : ℤ).toNat = 2
    simp
  have hc : ∀ x, (boxTorus ⟨2, 1, 1, 1⟩ hg).coord ((boxTorus ⟨2, 1, 1, 1⟩ hg).sup 0 x) 0 = ((boxTorus ⟨2, 1, 1, 1⟩ hg).coord x 0 + 1) % 2 :=
    fun x => (boxTorus ⟨2, 1, 1, 1⟩ hg).coord_sup 0 x
  have hlt : ∀ x, (boxTorus ⟨2, 1, 1, 1⟩ hg).coord x 0 < 2 := fun x => (boxTorus ⟨2, 1, 1, 1⟩ hg).coord_lt 0 x
  have hline : ∀ x, trace (polyakovLine (boxTorus ⟨2, 1, 1, 1⟩ hg) (alternatingLinks hg) 3 x)
      = if (boxTorus ⟨2, 1, 1, 1⟩ hg).coord x 0 = 1 then -2 else 2 := by
    intro x
    have e : polyakovLine (boxTorus ⟨2, 1, 1, 1⟩ hg) (alternatingLinks hg) 3 x = alternatingLinks hg x 3 * 1 := rfl
    rw [e, Matrix.mul_one]
    unfold alternatingLinks
    simp only [true_and]
    split <;> simp
  have hcard : ((Finset.univ.filter fun x => (boxTorus ⟨2, 1, 1, 1⟩ hg).coord x 3 = 0).card : ℂ) = 2 := by
    rw [card_timeslice, hvol]
    rfl
  refine ⟨fun s μ => ?_, ?_, ?_⟩
  · unfold alternatingLinks
    split
    · rw [mem_specialUnitaryGroup_iff, mem_unitaryGroup_iff]
      exact ⟨by simp, by simp [det_fin_two]⟩
    · exact one_mem _
  · have h0 := C60_correlator (boxTorus ⟨2, 1, 1, 1⟩ hg) (alternatingLinks hg) 0 (by rw [hx]; norm_num)
    have hlen : (polyakovCorrelator (boxTorus ⟨2, 1, 1, 1⟩ hg) (alternatingLinks hg)).length = 1 := h0.2.trans hx
    obtain ⟨c, hcl⟩ := List.length_eq_one_iff.1 hlen
    rw [hcl] at h0 ⊢
    have h1 : c = _ := Option.some.inj h0.1
    rw [h1]
    refine congrArg (fun c : ℂ => [c]) ?_
    rw [← Finset.sum_filter, hvol]
    have hval : ∀ x, star (trace (polyakovLine (boxTorus ⟨2, 1, 1, 1⟩ hg) (alternatingLinks hg) 3 x))
        * trace (polyakovLine (boxTorus ⟨2, 1, 1, 1⟩ hg) (alternatingLinks hg) 3 (((boxTorus ⟨2, 1, 1, 1⟩ hg).sup 0)^[0 + 1] x)) = -4 := by
      intro x
      rw [zero_add, Function.iterate_one, hline, hline, hc]
      have := hlt x
      interval_cases (boxTorus ⟨2, 1, 1, 1⟩ hg).coord x 0 <;> norm_num
    rw [Finset.sum_congr rfl fun x _ => hval x, Finset.sum_const, nsmul_eq_mul, hcard]
    norm_num
  · rw [← Finset.sum_filter]
    have hval : ∀ x, star (trace (polyakovLine (boxTorus ⟨2, 1, 1, 1⟩ hg) (alternatingLinks hg) 3 x))
        * trace (polyakovLine (boxTorus ⟨2, 1, 1, 1⟩ hg) (alternatingLinks hg) 3 x) = 4 := by
      intro x
      rw [hline]
      split <;> norm_num
    rw [Finset.sum_congr rfl fun x _ => hval x, Finset.sum_const, nsmul_eq_mul, hcard]
    norm_num

/-! ### Adjoint Polyakov loops -/

/-- The trace in the adjoint representation. -/
theorem trace_toAdjoint {ι : Type} [Fintype ι] [DecidableEq ι] {G : ι → Mat N} (hG : IsGenerators G) (hc : IsComplete G) (hN : 0 < N) {P : Mat N}
    (hP : P ∈ unitaryGroup (Fin N) ℂ) : trace (toAdjoint G P) = ‖trace P‖ ^ 2 - 1 := by
  have hN' : (N : ℂ) ≠ 0 := by exact_mod_cast hN.ne'
  have hPP : P * Pᴴ = 1 := mem_unitaryGroup_iff.1 hP
  have hsum : ∀ X : Mat N, X = (trace X / N) • (1 : Mat N) + ∑ a, (2 * trace (G a * X)) • G a := by
    intro X
    have h0 : trace (X - (trace X / N) • (1 : Mat N)) = 0 := by
      rw [trace_sub, trace_smul, trace_one, Fintype.card_fin, smul_eq_mul, div_mul_cancel₀ _ hN', sub_self]
    have h1 := hc _ h0
    have h2 : ∀ a, trace (G a * (X - (trace X / N) • (1 : Mat N))) = trace (G a * X) := by
      intro a
      rw [Matrix.mul_sub, trace_sub, Matrix.mul_smul, Matrix.mul_one, trace_smul, hG.traceless, smul_zero, sub_zero]
    simp only [h2] at h1
    rw [← h1]
    abel
  have key : ∀ i j, (P * single i j (1 : ℂ) * Pᴴ) i j = ((trace (single i j (1 : ℂ)) / N) • (P * Pᴴ)) i j
      + ∑ a, 2 * trace (G a * single i j (1 : ℂ)) * (P * G a * Pᴴ) i j := by
    intro i j
    conv_lhs => rw [hsum (single i j (1 : ℂ))]
    rw [Matrix.mul_add, Matrix.add_mul, Matrix.mul_smul, Matrix.mul_one, Matrix.smul_mul, Finset.mul_sum, Finset.sum_mul, Matrix.add_apply,
      Matrix.sum_apply]
    congr 1
    refine Finset.sum_congr rfl fun a _ => ?_
    rw [Matrix.mul_smul, Matrix.smul_mul, Matrix.smul_apply, smul_eq_mul]
  have hl : ∑ i : Fin N, ∑ j : Fin N, (P * single i j (1 : ℂ) * Pᴴ) i j = trace P * star (trace P) := by
    have : ∀ i j, (P * single i j (1 : ℂ) * Pᴴ) i j = P i i * star (P j j) := by
      intro i j
      rw [Matrix.mul_assoc, Matrix.mul_apply, Finset.sum_eq_single i]
      · rw [Matrix.mul_apply, Finset.sum_eq_single j]
        · simp
        · intro k _ hk; simp [single, hk.symm]
        · simp
      · intro k _ hk
        rw [Matrix.mul_apply]
        simp [single, hk.symm]
      · simp
    simp only [this, ← Finset.mul_sum, ← Finset.sum_mul]
    simp [Matrix.trace]
  have hg : ∀ (i j : Fin N) (a : ι), trace (G a * single i j (1 : ℂ)) = G a j i := by
    intro i j a
    simp [trace_mul_single]
  have hr : ∑ i : Fin N, ∑ j : Fin N, (((trace (single i j (1 : ℂ)) / N) • (P * Pᴴ)) i j + ∑ a, 2 * trace (G a * single i j (1 : ℂ)) * (P * G a * Pᴴ) i j)
      = 1 + ∑ a, 2 * trace (G a * (P * G a * Pᴴ)) := by
    simp only [Finset.sum_add_distrib, hg, hPP]
    congr 1
    · have : ∀ i j : Fin N, ((trace (single i j (1 : ℂ)) / N) • (1 : Mat N)) i j = if i = j then (1 / N : ℂ) else 0 := by
        intro i j
        by_cases h : i = j
        · subst h; simp
        · simp [h]
      simp only [this]
      simp
      field_simp
    · have e : ∀ a, ∑ i, ∑ j, 2 * G a j i * (P * G a * Pᴴ) i j = 2 * trace (G a * (P * G a * Pᴴ)) := by
        intro a
        rw [Finset.sum_comm]
        simp only [Matrix.trace, Matrix.diag, Matrix.mul_apply (M := G a), Finset.mul_sum, mul_assoc]
      simp only [← e]
      rw [Finset.sum_comm (s := (Finset.univ : Finset ι))]
      refine Finset.sum_congr rfl fun i _ => ?_
      rw [Finset.sum_comm (s := (Finset.univ : Finset ι))]
  have hfin : trace P * star (trace P) = 1 + ∑ a, 2 * trace (G a * (P * G a * Pᴴ)) := by
    rw [← hl, ← hr]
    exact Finset.sum_congr rfl fun i _ => Finset.sum_congr rfl fun j _ => key i j
  rw [← Complex.ofReal_inj]
  have ht : ((trace (toAdjoint G P) : ℝ) : ℂ) = ∑ a, 2 * trace (G a * (P * G a * Pᴴ)) := by
    simp only [Matrix.trace, Matrix.diag, Complex.ofReal_sum]
    exact Finset.sum_congr rfl fun a _ => toAdjoint_eq hG P a a
  rw [ht, Complex.ofReal_sub, Complex.ofReal_one, Complex.ofReal_pow, ← Complex.mul_conj']
  rw [Complex.star_def] at hfin
  rw [hfin]
  ring

/-- **C60**, what is written for direction `ν`: on unitary links the average, over the sites where the coordinate `ν` is zero, of `|tr P|² - 1`,
which is the character of the adjoint representation of the Polyakov line `P`, divided by its dimension and by the volume of a timeslice. -/
theorem C60_adjoint [Fintype S] {ι : Type} [Fintype ι] [DecidableEq ι] {G : ι → Mat N} (hG : IsGenerators G) (hc : IsComplete G) (hN : 0 < N) (T : Torus S)
    {U : GField S N} (hU : ∀ s μ, U s μ ∈ unitaryGroup (Fin N) ℂ) (ν : Fin 4) : adjointPolyakov G T U ν
      = (∑ x, if T.coord x ν = 0 then ‖trace (polyakovLine T U ν x)‖ ^ 2 - 1 else 0) / (((N * N - 1) * (T.ext 0 * T.ext 1 * T.ext 2) : ℕ) : ℝ) := by
  unfold adjointPolyakov
  refine congrArg (fun r : ℝ => r / _) (Finset.sum_congr rfl fun x _ => ?_)
  split
  · rename_i h
    rw [polyakov_line T U ν _ x h, trace_toAdjoint hG hc hN (holo_mem_unitary T U hU _ _)]
    rfl
  · rfl

/-- **C60**, gauge invariance and blindness to phases: a gauge transformation does not change the adjoint Polyakov loops, and neither does a
multiplication of the links by numbers of modulus one, for example by an element of the centre on one timeslice. -/
theorem C60_adjoint_gauge [Fintype S] {ι : Type} [Fintype ι] [DecidableEq ι] {G : ι → Mat N} (hG : IsGenerators G) (hc : IsComplete G) (hN : 0 < N) (T : Torus S)
    {U : GField S N} (hU : ∀ s μ, U s μ ∈ unitaryGroup (Fin N) ℂ) :
    (∀ ω : S → Mat N, (∀ s, ω s ∈ unitaryGroup (Fin N) ℂ) → adjointPolyakovRows G T (gaugeTransform T ω U) = adjointPolyakovRows G T U)
    ∧ ∀ z : S → Fin 4 → ℂ, (∀ s μ, ‖z s μ‖ = 1) → adjointPolyakovRows G T (fun s μ => z s μ • U s μ) = adjointPolyakovRows G T U := by
  constructor
  · intro ω hω
    have h1 : ∀ s, (ω s)ᴴ * ω s = 1 := fun s => mem_unitaryGroup_iff'.1 (hω s)
    have h2 : ∀ s, ω s * (ω s)ᴴ = 1 := fun s => mem_unitaryGroup_iff.1 (hω s)
    have hU' : ∀ s μ, gaugeTransform T ω U s μ ∈ unitaryGroup (Fin N) ℂ := fun s μ =>
      mul_mem (mul_mem (hω s) (hU s μ)) (mem_unitaryGroup_iff.2 (by rw [star_eq_conjTranspose, conjTranspose_conjTranspose]; exact h1 _))
    unfold adjointPolyakovRows
    refine congrArg (fun f : Fin 4 → ℝ => [3, 2, 1, 0].map f) (funext fun ν => ?_)
    rw [C60_adjoint hG hc hN T hU', C60_adjoint hG hc hN T hU]
    refine congrArg (fun r : ℝ => r / _) (Finset.sum_congr rfl fun x _ => ?_)
    have : trace (polyakovLine T (gaugeTransform T ω U) ν x) = trace (polyakovLine T U ν x) :=
      trace_holo_gauge T U ω h1 h2 _ x (by rw [walk_replicate, T.period])
    rw [this]
  · intro z hz
    have hU' : ∀ s μ, z s μ • U s μ ∈ unitaryGroup (Fin N) ℂ := fun s μ => by
      have h := mem_unitaryGroup_iff.1 (hU s μ)
      rw [mem_unitaryGroup_iff, star_smul, Matrix.smul_mul, Matrix.mul_smul, smul_smul, h, Complex.star_def, Complex.mul_conj', hz]
      simp
    have hl : ∀ (ν : Fin 4) (n : ℕ) (x : S), ∃ c : ℂ, ‖c‖ = 1 ∧ holo T (fun s μ => z s μ • U s μ) x (List.replicate n (ν, true))
        = c • holo T U x (List.replicate n (ν, true)) := by
      intro ν n
      induction n with
      | zero => exact fun x => ⟨1, by simp, by simp⟩
      | succ n ih =>
        intro x
        obtain ⟨c, hc, he⟩ := ih (T.sup ν x)
        refine ⟨z x ν * c, by rw [norm_mul, hz, hc, mul_one], ?_⟩
        change (z x ν • U x ν) * holo T _ (T.sup ν x) (List.replicate n (ν, true)) = _ • (U x ν * holo T U (T.sup ν x) (List.replicate n (ν, true)))
        rw [he, Matrix.smul_mul, Matrix.mul_smul, smul_smul]
    unfold adjointPolyakovRows
    refine congrArg (fun f : Fin 4 → ℝ => [3, 2, 1, 0].map f) (funext fun ν => ?_)
    rw [C60_adjoint hG hc hN T hU', C60_adjoint hG hc hN T hU]
    refine congrArg (fun r : ℝ => r / _) (Finset.sum_congr rfl fun x _ => ?_)
    obtain ⟨c, hc, he⟩ := hl ν (T.ext ν) x
    unfold polyakovLine
    rw [he, trace_smul, norm_smul, hc, one_mul]

/-- **C60**, range of the adjoint Polyakov loop in the time direction: between `-1/(N² - 1)` and one, reached on the trivial configuration. -/
theorem C60_adjoint_bound {ι : Type} [Fintype ι] [DecidableEq ι] {G : ι → Mat N} (hG : IsGenerators G) (hc : IsComplete G) (hN : 2 ≤ N) (g : Ext)
    (hg : g.Pos) : (∀ U : GField (BoxSite g) N, (∀ s μ, U s μ ∈ unitaryGroup (Fin N) ℂ) →
      -1 / ((N : ℝ) ^ 2 - 1) ≤ adjointPolyakov G (boxTorus g hg) U 3 ∧ adjointPolyakov G (boxTorus g hg) U 3 ≤ 1)
    ∧ adjointPolyakov G (boxTorus g hg) (fun _ _ => 1) 3 = 1 := by
  have hv : (0 : ℝ) < (((boxTorus g hg).ext 0 * (boxTorus g hg).ext 1 * (boxTorus g hg).ext 2 : ℕ) : ℝ) := by
    exact_mod_cast Nat.pos_of_ne_zero (spatial_ne_zero g hg)
  have hN2 : (2 : ℝ) ≤ N := by exact_mod_cast hN
  have hd : (0 : ℝ) < (N : ℝ) ^ 2 - 1 := by nlinarith
  have hnn : ((N * N - 1 : ℕ) : ℝ) = (N : ℝ) ^ 2 - 1 := by
    rw [Nat.cast_sub (by nlinarith), Nat.cast_mul, Nat.cast_one, sq]
  constructor
  · intro U hU
    rw [C60_adjoint hG hc (by omega) _ hU, ← Finset.sum_filter, Nat.cast_mul, hnn]
    have hb : ∀ x, ‖trace (polyakovLine (boxTorus g hg) U 3 x)‖ ≤ N := fun x => norm_trace_unitary_le (holo_mem_unitary _ U hU _ _)
    have hcard := card_timeslice g hg
    constructor
    · rw [div_le_div_iff₀ hd (mul_pos hd hv)]
      have : -(((boxTorus g hg).ext 0 * (boxTorus g hg).ext 1 * (boxTorus g hg).ext 2 : ℕ) : ℝ)
          ≤ ∑ x ∈ Finset.univ.filter fun x => (boxTorus g hg).coord x 3 = 0, (‖trace (polyakovLine (boxTorus g hg) U 3 x)‖ ^ 2 - 1) := by
        rw [← hcard]
        calc _ = ∑ x ∈ Finset.univ.filter fun x => (boxTorus g hg).coord x 3 = 0, (-1 : ℝ) := by simp
          _ ≤ _ := Finset.sum_le_sum fun x _ => by nlinarith [norm_nonneg (trace (polyakovLine (boxTorus g hg) U 3 x))]
      nlinarith
    · rw [div_le_one (mul_pos hd hv)]
      calc _ ≤ ∑ x ∈ Finset.univ.filter fun x => (boxTorus g hg).coord x 3 = 0, ((N : ℝ) ^ 2 - 1) :=
            Finset.sum_le_sum fun x _ => by nlinarith [norm_nonneg (trace (polyakovLine (boxTorus g hg) U 3 x)), hb x]
        _ = _ := by rw [Finset.sum_const, hcard, nsmul_eq_mul, mul_comm]
  · rw [C60_adjoint hG hc (by omega) _ (fun _ _ => one_mem _), ← Finset.sum_filter, Nat.cast_mul, hnn]
    unfold polyakovLine
    simp only [holo_one, trace_one, Fintype.card_fin, Complex.norm_natCast]
    rw [Finset.sum_const, card_timeslice, nsmul_eq_mul, mul_comm, div_self (mul_pos hd hv).ne']

/-- **C60**, the generators of the program meet the hypotheses. -/
theorem C60_adjoint_gens (hN : 2 ≤ N) (g : Ext) (hg : g.Pos) (U : GField (BoxSite g) N) (hU : ∀ s μ, U s μ ∈ unitaryGroup (Fin N) ℂ) :
    -1 / ((N : ℝ) ^ 2 - 1) ≤ adjointPolyakov (gens N) (boxTorus g hg) U 3 ∧ adjointPolyakov (gens N) (boxTorus g hg) U 3 ≤ 1 :=
  (C60_adjoint_bound (C30_generators N) (C30_complete N) hN g hg).1 U hU

/-- **C60**, counterexample to the normalisation in the other directions: they are divided by the volume of a timeslice as well, so on the trivial
configuration of a lattice with extents 2, 2, 2 and 4 the spatial adjoint Polyakov loops are 2, not 1. -/
theorem C60_adjoint_counterexample (hg : (⟨2, 2, 2, 4⟩ : Ext).Pos) :
    adjointPolyakovRows (gens 3) (boxTorus ⟨2, 2, 2, 4⟩ hg) (fun _ _ => 1) = [1, 2, 2, 2] := by
  have hv : (boxTorus ⟨2, 2, 2, 4⟩ hg).ext 0 * (boxTorus ⟨2, 2, 2, 4⟩ hg).ext 1 * (boxTorus ⟨2, 2, 2, 4⟩ hg).ext 2 = 8 := by
    change (2 : ℤ).toNat * (2 : ℤ).toNat * (2 : ℤ).toNat = 8
    simp
  have hval : ∀ ν, adjointPolyakov (gens 3) (boxTorus ⟨2, 2, 2, 4⟩ hg) (fun _ _ => 1) ν
      = ((Finset.univ.filter fun x => (boxTorus ⟨2, 2, 2, 4⟩ hg).coord x ν = 0).card : ℝ) / 8 := by
    intro ν
    rw [C60_adjoint (C30_generators 3) (C30_complete 3) (by norm_num) _ (fun _ _ => one_mem _), ← Finset.sum_filter, hv]
    unfold polyakovLine
    simp only [holo_one, trace_one, Fintype.card_fin, Complex.norm_natCast]
    rw [Finset.sum_const, nsmul_eq_mul]
    norm_num
    ring
  have hs : ∀ ν : Fin 4, ((boxTorus ⟨2, 2, 2, 4⟩ hg).ext ν) * (Finset.univ.filter fun x => (boxTorus ⟨2, 2, 2, 4⟩ hg).coord x ν = 0).card = 32 := by
    intro ν
    rw [← card_eq_slice, card_boxSite]
    change (2 : ℤ).toNat * (2 : ℤ).toNat * (2 : ℤ).toNat * (4 : ℤ).toNat = 32
    rfl
  have h3 : (Finset.univ.filter fun x => (boxTorus ⟨2, 2, 2, 4⟩ hg).coord x 3 = 0).card = 8 := by
    have := hs 3
    change 4 * _ = 32 at this
    omega
  have h2 : (Finset.univ.filter fun x => (boxTorus ⟨2, 2, 2, 4⟩ hg).coord x 2 = 0).card = 16 := by
    have := hs 2
    change 2 * _ = 32 at this
    omega
  have h1 : (Finset.univ.filter fun x => (boxTorus ⟨2, 2, 2, 4⟩ hg).coord x 1 = 0).card = 16 := by
    have := hs 1
    change 2 * _ = 32 at this
    omega
  have h0 : (Finset.univ.filter fun x => (boxTorus ⟨2, 2, 2, 4⟩ hg).coord x 0 = 0).card = 16 := by
    have := hs 0
    change 2 * _ = 32 at this
    omega
  simp only [adjointPolyakovRows, List.map_cons, List.map_nil, hval, h0, h1, h2, h3]
  norm_num

end Leonard
