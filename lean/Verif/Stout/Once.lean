import Verif.Stout.Ridder

/-!
# Which smeared links contain a link
-/

set_option autoImplicit false

namespace Leonard

open Matrix

variable {S : Type} {N M : ℕ} [DecidableEq S]

theorem setLink_other (U : GField S N) {s s' : S} {μ μ' : Fin 4} (V : Mat N) (h : ¬ (s' = s ∧ μ' = μ)) : setLink U s μ V s' μ' = U s' μ' :=
  if_neg h

theorem setLink_dir (U : GField S N) {s s' : S} {μ μ' : Fin 4} (V : Mat N) (h : μ' ≠ μ) : setLink U s μ V s' μ' = U s' μ' :=
  if_neg fun e => h e.2

theorem setLink_site (U : GField S N) {s s' : S} {μ μ' : Fin 4} (V : Mat N) (h : s' ≠ s) : setLink U s μ V s' μ' = U s' μ' :=
  if_neg fun e => h e.1

/-- A smeared link in the direction of the link that is changed. -/
theorem stoutLinks_same_dir (T : Torus S) (r : ℝ) (U : GField S N) (s s' : S) (μ : Fin 4) (V : Mat N) (h0 : s' ≠ s)
    (h1 : ∀ ν, ν ≠ μ → s' ≠ T.sup ν s) (h2 : ∀ ν, ν ≠ μ → s' ≠ T.sdn ν s) :
    stoutLinks T r (setLink U s μ V) s' μ = stoutLinks T r U s' μ := by
  have e : wilsonStaple T (setLink U s μ V) s' μ = wilsonStaple T U s' μ := by
    unfold wilsonStaple
    refine Finset.sum_congr rfl fun ν _ => ?_
    by_cases hν : ν = μ
    · rw [if_neg (not_not.2 hν), if_neg (not_not.2 hν)]
    rw [if_pos hν, if_pos hν]
    unfold stapleUp stapleDown
    rw [setLink_dir _ _ hν, setLink_dir _ _ hν, setLink_dir _ _ hν, setLink_dir _ _ hν,
      setLink_site _ _ fun e => h2 ν hν (by rw [← e, T.sdn_sup]), setLink_site _ _ fun e => h1 ν hν (by rw [← e, T.sup_sdn])]
  unfold stoutLinks
  rw [e, setLink_site _ _ h0]

/-- A smeared link in another direction. -/
theorem stoutLinks_other_dir (T : Torus S) (r : ℝ) (U : GField S N) (s s' : S) {μ ν : Fin 4} (hν : ν ≠ μ) (V : Mat N) (h0 : s' ≠ s)
    (h1 : s' ≠ T.sup μ s) (h2 : s' ≠ T.sdn ν s) (h3 : s' ≠ T.sup μ (T.sdn ν s)) :
    stoutLinks T r (setLink U s μ V) s' ν = stoutLinks T r U s' ν := by
  have e : wilsonStaple T (setLink U s μ V) s' ν = wilsonStaple T U s' ν := by
    unfold wilsonStaple
    refine Finset.sum_congr rfl fun ρ _ => ?_
    by_cases hρ : ρ = ν
    · rw [if_neg (not_not.2 hρ), if_neg (not_not.2 hρ)]
    rw [if_pos hρ, if_pos hρ]
    unfold stapleUp stapleDown
    rw [setLink_dir _ (s' := T.sup ρ s') _ hν, setLink_dir _ (s' := T.sdn ρ s') _ hν]
    by_cases hρ' : ρ = μ
    · subst hρ'
      rw [setLink_site _ _ fun e => h2 (by rw [← e, T.sdn_sup]), setLink_site _ _ h0,
        setLink_site _ _ fun e => h3 (by rw [← e, T.sdn_sup, T.sup_sdn]),
        setLink_site _ _ fun e => h1 (by rw [← e, T.sup_sdn])]
    · rw [setLink_dir _ _ hρ', setLink_dir _ _ hρ', setLink_dir _ _ hρ', setLink_dir _ _ hρ']
  unfold stoutLinks
  rw [e, setLink_dir _ _ hν]

theorem stout_sdn_ne {T : Torus S} {k : ℕ} (hk : 1 ≤ k) (h : T.Wide k) (μ : Fin 4) (s : S) : T.sdn μ s ≠ s := by
  intro e
  exact T.sup_ne hk h μ s (by rw [T.sup_eq_iff, e])

/-- A sum over all sites of something that vanishes on sites that are not neighbours in other directions. -/
theorem sum_same_dir [Fintype S] {A : Type*} [AddCommMonoid A] (T : Torus S) (hT : T.Wide 2) (s : S) (μ : Fin 4) (F : S → A)
    (hF : ∀ s', s' ≠ s → (∀ ν, ν ≠ μ → s' ≠ T.sup ν s) → (∀ ν, ν ≠ μ → s' ≠ T.sdn ν s) → F s' = 0) :
    ∑ s', F s' = F s + (∑ ν, if ν ≠ μ then F (T.sup ν s) else 0) + ∑ ν, if ν ≠ μ then F (T.sdn ν s) else 0 := by
  have key : ∀ s', F s' = (if s' = s then F s else 0) + (∑ ν, if ν ≠ μ then (if s' = T.sup ν s then F (T.sup ν s) else 0) else 0)
      + ∑ ν, if ν ≠ μ then (if s' = T.sdn ν s then F (T.sdn ν s) else 0) else 0 := by
    intro s'
    by_cases h0 : s' = s
    · subst h0
      rw [if_pos rfl, Finset.sum_eq_zero fun ν _ => by rw [if_neg (T.sup_ne (by norm_num) hT ν s').symm]; simp,
        Finset.sum_eq_zero fun ν _ => by rw [if_neg (stout_sdn_ne (by norm_num) hT ν s').symm]; simp, add_zero, add_zero]
    rw [if_neg h0, zero_add]
    by_cases h1 : ∃ ν, ν ≠ μ ∧ s' = T.sup ν s
    · obtain ⟨ν, hν, rfl⟩ := h1
      rw [Finset.sum_eq_single ν, if_pos hν, if_pos rfl, Finset.sum_eq_zero, add_zero]
      · intro ρ _
        refine (congrArg (fun x => if ρ ≠ μ then x else 0) (if_neg ?_)).trans (ite_self 0)
        intro e
        have e2 : T.sup ρ (T.sup ν s) = s := by rw [e, T.sup_sdn]
        by_cases hρ : ρ = ν
        · exact T.sup_sup_ne (by norm_num) hT ν s (hρ ▸ e2)
        · exact T.sup_sup_ne_of_ne (by norm_num) hT hρ s e2
      · intro ρ _ hρ
        rw [if_neg (T.sup_ne_sup (by norm_num) hT hρ s).symm, ite_self]
      · simp
    by_cases h2 : ∃ ν, ν ≠ μ ∧ s' = T.sdn ν s
    · obtain ⟨ν, hν, rfl⟩ := h2
      rw [Finset.sum_eq_zero, zero_add, Finset.sum_eq_single ν, if_pos hν, if_pos rfl]
      · intro ρ _ hρ
        refine (congrArg (fun x => if ρ ≠ μ then x else 0) (if_neg ?_)).trans (ite_self 0)
        intro e
        have e2 : T.sup ν (T.sdn ρ s) = s := by rw [← e, T.sup_sdn]
        rw [T.sup_sdn_comm, T.sdn_eq_iff] at e2
        exact T.sup_ne_sup (by norm_num) hT hρ s e2.symm
      · simp
      · intro ρ _
        by_cases hρ : ρ ≠ μ
        · rw [if_pos hρ, if_neg fun e => h1 ⟨ρ, hρ, e⟩]
        · rw [if_neg hρ]
    rw [hF s' h0 (fun ν hν e => h1 ⟨ν, hν, e⟩) fun ν hν e => h2 ⟨ν, hν, e⟩]
    rw [Finset.sum_eq_zero, Finset.sum_eq_zero, add_zero]
    · intro ρ _
      by_cases hρ : ρ ≠ μ
      · rw [if_pos hρ, if_neg fun e => h2 ⟨ρ, hρ, e⟩]
      · rw [if_neg hρ]
    · intro ρ _
      by_cases hρ : ρ ≠ μ
      · rw [if_pos hρ, if_neg fun e => h1 ⟨ρ, hρ, e⟩]
      · rw [if_neg hρ]
  rw [Finset.sum_congr rfl fun s' _ => key s', Finset.sum_add_distrib, Finset.sum_add_distrib, Finset.sum_ite_eq' _ s, if_pos (Finset.mem_univ _),
    Finset.sum_comm, Finset.sum_comm (f := fun s' ν => if ν ≠ μ then (if s' = T.sdn ν s then F (T.sdn ν s) else 0) else 0)]
  congr 1
  · congr 1
    refine Finset.sum_congr rfl fun ν _ => ?_
    by_cases hν : ν ≠ μ
    · simp only [if_pos hν]; rw [Finset.sum_ite_eq' _ (T.sup ν s) fun _ => F (T.sup ν s), if_pos (Finset.mem_univ _)]
    · simp only [if_neg hν]; exact Finset.sum_const_zero
  · refine Finset.sum_congr rfl fun ν _ => ?_
    by_cases hν : ν ≠ μ
    · simp only [if_pos hν]; rw [Finset.sum_ite_eq' _ (T.sdn ν s) fun _ => F (T.sdn ν s), if_pos (Finset.mem_univ _)]
    · simp only [if_neg hν]; exact Finset.sum_const_zero

/-- A sum over all sites of something that vanishes outside the corners of a plaquette. -/
theorem sum_other_dir [Fintype S] {A : Type*} [AddCommMonoid A] (T : Torus S) (hT : T.Wide 2) (s : S) {μ ν : Fin 4} (hν : ν ≠ μ) (F : S → A)
    (hF : ∀ s', s' ≠ s → s' ≠ T.sup μ s → s' ≠ T.sdn ν s → s' ≠ T.sup μ (T.sdn ν s) → F s' = 0) :
    ∑ s', F s' = F (T.sup μ s) + F s + F (T.sup μ (T.sdn ν s)) + F (T.sdn ν s) := by
  have a1 : T.sup μ s ≠ s := T.sup_ne (by norm_num) hT μ s
  have a2 : T.sdn ν s ≠ s := stout_sdn_ne (by norm_num) hT ν s
  have a3 : T.sup μ (T.sdn ν s) ≠ T.sdn ν s := T.sup_ne (by norm_num) hT μ _
  have a4 : T.sup μ (T.sdn ν s) ≠ T.sup μ s := fun e => a2 ((T.sup μ).injective e)
  have a5 : T.sup μ (T.sdn ν s) ≠ s := by
    rw [T.sup_sdn_comm]
    intro e
    rw [T.sdn_eq_iff] at e
    exact T.sup_ne_sup (by norm_num) hT hν s e.symm
  have a6 : T.sup μ s ≠ T.sdn ν s := by
    intro e
    exact T.sup_sup_ne_of_ne (by norm_num) hT hν s (by rw [e, T.sup_sdn])
  have hs : ∑ s', F s' = ∑ s' ∈ ({T.sup μ s, s, T.sup μ (T.sdn ν s), T.sdn ν s} : Finset S), F s' := by
    refine (Finset.sum_subset (Finset.subset_univ _) fun s' _ h => ?_).symm
    simp only [Finset.mem_insert, Finset.mem_singleton, not_or] at h
    exact hF s' h.2.1 h.1 h.2.2.2 h.2.2.1
  rw [hs, Finset.sum_insert, Finset.sum_insert, Finset.sum_insert, Finset.sum_singleton, add_assoc, add_assoc]
  · simpa using a3
  · simp only [Finset.mem_insert, Finset.mem_singleton, not_or]; exact ⟨a5.symm, a2.symm⟩
  · simp only [Finset.mem_insert, Finset.mem_singleton, not_or]; exact ⟨a1, a4.symm, a6⟩

/-- The seven kinds of terms are all links, each once. -/
theorem seven_terms [Fintype S] {A : Type*} [AddCommMonoid A] (T : Torus S) (hT : T.Wide 2) (s : S) (μ : Fin 4) (F : S → Fin 4 → A)
    (h1 : ∀ s', s' ≠ s → (∀ ν, ν ≠ μ → s' ≠ T.sup ν s) → (∀ ν, ν ≠ μ → s' ≠ T.sdn ν s) → F s' μ = 0)
    (h2 : ∀ ν, ν ≠ μ → ∀ s', s' ≠ s → s' ≠ T.sup μ s → s' ≠ T.sdn ν s → s' ≠ T.sup μ (T.sdn ν s) → F s' ν = 0) :
    F s μ + (∑ ν, if ν ≠ μ then F (T.sup μ s) ν else 0) + (∑ ν, if ν ≠ μ then F (T.sup ν s) μ else 0)
      + (∑ ν, if ν ≠ μ then F s ν else 0) + (∑ ν, if ν ≠ μ then F (T.sup μ (T.sdn ν s)) ν else 0)
      + (∑ ν, if ν ≠ μ then F (T.sdn ν s) μ else 0) + (∑ ν, if ν ≠ μ then F (T.sdn ν s) ν else 0) = ∑ s', ∑ μ', F s' μ' := by
  rw [Finset.sum_comm]
  have h3 : ∀ ν, ∑ s', F s' ν = (if ν = μ then F s μ + (∑ ν, if ν ≠ μ then F (T.sup ν s) μ else 0) + ∑ ν, if ν ≠ μ then F (T.sdn ν s) μ else 0
      else 0) + if ν ≠ μ then F (T.sup μ s) ν + F s ν + F (T.sup μ (T.sdn ν s)) ν + F (T.sdn ν s) ν else 0 := by
    intro ν
    by_cases hν : ν = μ
    · subst hν
      rw [if_pos rfl, if_neg (not_not.2 rfl), add_zero]
      exact sum_same_dir T hT s ν (fun s' => F s' ν) h1
    · rw [if_neg hν, if_pos hν, zero_add]
      exact sum_other_dir T hT s hν (fun s' => F s' ν) (h2 ν hν)
  rw [Finset.sum_congr rfl fun ν _ => h3 ν, Finset.sum_add_distrib, Finset.sum_ite_eq' _ μ, if_pos (Finset.mem_univ _)]
  have h4 : (∑ ν, if ν ≠ μ then F (T.sup μ s) ν + F s ν + F (T.sup μ (T.sdn ν s)) ν + F (T.sdn ν s) ν else 0) =
      (∑ ν, if ν ≠ μ then F (T.sup μ s) ν else 0) + (∑ ν, if ν ≠ μ then F s ν else 0) + (∑ ν, if ν ≠ μ then F (T.sup μ (T.sdn ν s)) ν else 0)
        + ∑ ν, if ν ≠ μ then F (T.sdn ν s) ν else 0 := by
    rw [← Finset.sum_add_distrib, ← Finset.sum_add_distrib, ← Finset.sum_add_distrib]
    refine Finset.sum_congr rfl fun ν _ => ?_
    split <;> simp
  rw [h4]
  abel

end Leonard
