import Verif.Fixing.Lemmas

/-!
# Lemmas about the maximal abelian gauge
-/

set_option autoImplicit false

namespace Leonard

open Matrix

variable {S : Type} [DecidableEq S]

/-- The gauge transformation of one site. -/
def siteGauge (s : S) (g : Mat 2) : S → Mat 2 := fun x => if x = s then gᴴ else 1

theorem abelianMove_apply (T : Torus S) (g : Mat 2) (s : S) (U : GField S 2) (μ : Fin 4) (x : S) (ν : Fin 4) :
    abelianMove T g s U μ x ν = if ν = μ then gaugeTransform T (siteGauge s g) U x ν else U x ν := by
  unfold abelianMove
  by_cases h : ν = μ
  · subst h
    simp only [setLink, gaugeTransform, siteGauge, and_true, if_true]
    have hsd : (T.sup ν x = s) ↔ (x = T.sdn ν s) := T.sup_eq_iff ν x s
    by_cases h1 : x = T.sdn ν s
    · rw [if_pos h1, if_pos (hsd.2 h1), conjTranspose_conjTranspose]
      by_cases h2 : x = s
      · rw [if_pos h2, if_pos (by rw [← h1, h2]), h2]
      · rw [if_neg h2, if_neg (by rw [← h1]; exact h2), h1, Matrix.one_mul]
    · rw [if_neg h1, if_neg (mt hsd.1 h1), conjTranspose_one, Matrix.mul_one]
      by_cases h2 : x = s
      · rw [if_pos h2, if_pos h2, h2]
      · rw [if_neg h2, if_neg h2, Matrix.one_mul]
  · simp [setLink, h]

theorem abelianMoves (T : Torus S) (g : Mat 2) (s : S) (U : GField S 2) :
    (List.finRange 4).foldl (abelianMove T g s) U = gaugeTransform T (siteGauge s g) U := by
  funext x ν
  have e : List.finRange 4 = [0, 1, 2, 3] := by decide
  rw [e]
  simp only [List.foldl_cons, List.foldl_nil]
  fin_cases ν <;> simp [abelianMove_apply, gaugeTransform]

theorem abelianRestores (T : Torus S) (g : Mat 2) (s : S) (U : GField S 2) :
    (List.finRange 4).foldl (abelianRestore T s U) (gaugeTransform T (siteGauge s g) U) = U := by
  have key : ∀ (V : GField S 2) (μ : Fin 4) (x : S) (ν : Fin 4), abelianRestore T s U V μ x ν
      = if ν = μ ∧ (x = s ∨ x = T.sdn μ s) then U x ν else V x ν := by
    intro V μ x ν
    unfold abelianRestore
    by_cases h : ν = μ
    · subst h
      simp only [setLink, and_true, true_and]
      by_cases h1 : x = T.sdn ν s
      · rw [if_pos h1, if_pos (Or.inr h1), h1]
      · by_cases h2 : x = s
        · rw [if_neg h1, if_pos h2, if_pos (Or.inl h2), h2]
        · rw [if_neg h1, if_neg h2, if_neg (by tauto)]
    · simp [setLink, h]
  have hout : ∀ x ν, ¬(x = s ∨ x = T.sdn ν s) → gaugeTransform T (siteGauge s g) U x ν = U x ν := by
    intro x ν h
    have h2 : T.sup ν x ≠ s := fun h3 => h (Or.inr ((T.sup_eq_iff ν x s).1 h3))
    simp [gaugeTransform, siteGauge, h2, show x ≠ s from fun h3 => h (Or.inl h3)]
  funext x ν
  have e : List.finRange 4 = [0, 1, 2, 3] := by decide
  rw [e]
  simp only [List.foldl_cons, List.foldl_nil, key]
  have := hout x ν
  fin_cases ν <;> simp <;> tauto

/-- The update of a site is the transform by the matrix of the site, or nothing. -/
theorem abelianSite_eq (T : Torus S) (ω : S → Option (Mat 2)) (U V : GField S 2) (s : S) (h : abelianSite T ω (some U) s = some V) :
    ∃ g, ω s = some g ∧ (V = gaugeTransform T (siteGauge s g) U ∧ abelianLocal T s U ≤ abelianLocal T s V ∨ V = U) := by
  unfold abelianSite at h
  split at h
  · rename_i U' g hU hg
    cases hU
    refine ⟨g, hg, ?_⟩
    rw [abelianMoves] at h
    simp only at h
    rw [abelianRestores] at h
    have h := Option.some.inj h
    split at h
    · exact Or.inr h.symm
    · rename_i hle
      subst h
      exact Or.inl ⟨rfl, not_lt.1 hle⟩
  · cases h

theorem abelianSites_equiv {G : Submonoid (Mat 2)} (hG : ∀ g ∈ G, gᴴ ∈ G) (T : Torus S) (ω : S → Option (Mat 2))
    (hω : ∀ s g, ω s = some g → g ∈ G) (order : List S) :
    ∀ (U V : GField S 2), order.foldl (abelianSite T ω) (some U) = some V → GaugeEquiv G T U V := by
  have hnone : ∀ (l : List S), l.foldl (abelianSite T ω) none = none := by
    intro l
    induction l with
    | nil => rfl
    | cons s l ih => rw [List.foldl_cons]; exact ih
  induction order with
  | nil =>
    intro U V h
    rw [← Option.some.inj h]
    exact GaugeEquiv.refl G T U
  | cons s l ih =>
    intro U V h
    rw [List.foldl_cons] at h
    cases hs : abelianSite T ω (some U) s with
    | none => rw [hs, hnone] at h; cases h
    | some W =>
      rw [hs] at h
      obtain ⟨g, hg, hW⟩ := abelianSite_eq T ω U W s hs
      refine GaugeEquiv.trans ?_ (ih W V h)
      rcases hW with ⟨rfl, _⟩ | rfl
      · refine ⟨siteGauge s g, fun x => ?_, rfl⟩
        unfold siteGauge
        split
        · exact hG g (hω s g hg)
        · exact G.one_mem
      · exact GaugeEquiv.refl G T _

theorem abelianStep_good [Fintype S] {G : Submonoid (Mat 2)} (hG : ∀ g ∈ G, gᴴ ∈ G) {T : Torus S} {E : Mat 2 → Option (Mat 2)}
    {threads : Bool} {order : List S} {ε β : ℝ} {g : S → GaugeDraw 2} {u : ℝ} {U : GField S 2} {x : Replica S 2 × Replica S 2}
    (hE : ∀ ε (k : GaugeDraw 2) B, E (gaugeAlgebra threads ε k) = some B → B ∈ G)
    (h1 : x.1.Good G T abelianFunctional U) (h2 : x.2.Good G T abelianFunctional U) :
    (abelianStep E threads T order ε β g u x).1.Good G T abelianFunctional U
      ∧ (abelianStep E threads T order ε β g u x).2.Good G T abelianFunctional U
      ∧ x.2.value ≤ (abelianStep E threads T order ε β g u x).2.value := by
  have ht : ∀ V, order.foldl (abelianSite T (randomGauge E threads ε g)) (some x.1.conf) = some V → GaugeEquiv G T U V := fun V hV =>
    h1.equiv.trans (abelianSites_equiv hG T _ (fun s B hB => hE ε (g s) B hB) order _ V hV)
  exact ⟨acceptReplica_good β _ u _ ht h1, improveBest_good _ _ ht h2, improveBest_le _ _ _⟩

theorem abelianPhase_good [Fintype S] {G : Submonoid (Mat 2)} (hG : ∀ g ∈ G, gᴴ ∈ G) {T : Torus S} {E : Mat 2 → Option (Mat 2)}
    {threads : Bool} {order : List S} {ε β : ℝ} {d : ℕ → (S → GaugeDraw 2) × ℝ} {U : GField S 2} {n : ℕ} {x y : Replica S 2 × Replica S 2}
    (hE : ∀ ε (k : GaugeDraw 2) B, E (gaugeAlgebra threads ε k) = some B → B ∈ G)
    (h1 : x.1.Good G T abelianFunctional U) (h2 : x.2.Good G T abelianFunctional U)
    (h : abelianPhase E threads T order ε β d n x = .ok y) :
    y.1.Good G T abelianFunctional U ∧ y.2.Good G T abelianFunctional U ∧ x.2.value ≤ y.2.value := by
  unfold abelianPhase at h
  split at h
  · cases h
  simp only [Outcome.ok.injEq] at h
  subst h
  have key : ∀ (l : List ℕ) (z : Replica S 2 × Replica S 2), z.1.Good G T abelianFunctional U → z.2.Good G T abelianFunctional U →
      (l.foldl (fun x i => abelianStep E threads T order ε β (d i).1 (d i).2 x) z).1.Good G T abelianFunctional U
      ∧ (l.foldl (fun x i => abelianStep E threads T order ε β (d i).1 (d i).2 x) z).2.Good G T abelianFunctional U
      ∧ z.2.value ≤ (l.foldl (fun x i => abelianStep E threads T order ε β (d i).1 (d i).2 x) z).2.value := by
    intro l
    induction l with
    | nil => intro z a b; exact ⟨a, b, le_refl _⟩
    | cons i l ih =>
      intro z a b
      obtain ⟨a', b', c'⟩ := abelianStep_good (order := order) (ε := ε) (β := β) (g := (d i).1) (u := (d i).2) hG hE a b
      obtain ⟨a'', b'', c''⟩ := ih _ a' b'
      exact ⟨a'', b'', c'.trans c''⟩
  exact key _ _ h1 h2

/-! ### The local decision is about the functional -/

theorem sup_ne_self (T : Torus S) (μ : Fin 4) (h : 1 < T.ext μ) (s : S) : T.sdn μ s ≠ s := by
  intro e
  have h1 : T.sup μ s = s := by conv_lhs => rw [← e]; rw [T.sup_sdn]
  have h2 := T.coord_sup μ s
  rw [h1] at h2
  have h3 := T.coord_lt μ s
  by_cases h4 : T.coord s μ + 1 < T.ext μ
  · rw [Nat.mod_eq_of_lt h4] at h2; omega
  · have : T.coord s μ + 1 = T.ext μ := by omega
    rw [this, Nat.mod_self] at h2
    omega

theorem abelianFunctional_site [Fintype S] (T : Torus S) (hT : T.Wide 1) (g : Mat 2) (s : S) (U : GField S 2) :
    abelianFunctional (gaugeTransform T (siteGauge s g) U) - abelianFunctional U
      = abelianLocal T s (gaugeTransform T (siteGauge s g) U) - abelianLocal T s U := by
  generalize hV : gaugeTransform T (siteGauge s g) U = V
  have hout : ∀ x ν, x ≠ s → x ≠ T.sdn ν s → V x ν = U x ν := by
    intro x ν h1 h2
    have h3 : T.sup ν x ≠ s := fun h3 => h2 ((T.sup_eq_iff ν x s).1 h3)
    rw [← hV]
    simp [gaugeTransform, siteGauge, h1, h3]
  unfold abelianFunctional abelianLocal
  rw [Finset.sum_comm, Finset.sum_comm (s := Finset.univ (α := S)), ← Finset.sum_sub_distrib, ← Finset.sum_sub_distrib]
  refine Finset.sum_congr rfl fun μ _ => ?_
  rw [← Finset.sum_sub_distrib]
  have hne : s ≠ T.sdn μ s := (sup_ne_self T μ (hT μ) s).symm
  rw [← Finset.sum_subset (Finset.subset_univ {s, T.sdn μ s}), Finset.sum_pair hne]
  · ring
  · intro x _ hx
    simp only [Finset.mem_insert, Finset.mem_singleton, not_or] at hx
    rw [hout x μ hx.1 hx.2, sub_self]

end Leonard
