/-
When block Gram-Schmidt succeeds, and the loops of restriction and prolongation.
-/
import Verif.Multigrid.Lemmas
import Mathlib.Data.List.OfFn
import Mathlib.Algebra.BigOperators.Group.Finset.Sigma

set_option autoImplicit false

namespace Leonard

noncomputable section

variable {P κ R B : Type} [Fintype P] [Fintype κ] [DecidableEq R] [DecidableEq B]

/-- The part of a vector that lives on the block of the site `p`. -/
def blockPart (blk : P → B) (p : P) : (P → κ → ℂ) →ₗ[ℂ] ({q // blk q = blk p} → κ → ℂ) where
  toFun v := fun q k => v q.1 k
  map_add' _ _ := rfl
  map_smul' _ _ := rfl

section
variable (blk : P → B)

theorem blockDot_part (w v : P → κ → ℂ) (p : P) :
    blockDot blk w v (blk p) = ∑ q, ∑ k, starRingEnd ℂ (blockPart blk p w q k) * blockPart blk p v q k := by
  rw [blockDot_eq]
  exact Finset.sum_subtype _ (by simp) fun q => ∑ k, starRingEnd ℂ (w q k) * v q k

theorem blockPart_project {us : List (P → κ → ℂ)} (h : BlockOrtho blk us) (v : P → κ → ℂ) (p : P) :
    blockPart blk p (us.foldl (blockProject blk) v) = blockPart blk p v - (us.map fun u => blockDot blk u v (blk p) • blockPart blk p u).sum := by
  have hsum : ∀ (l : List (P → κ → ℂ)) (q : {q // blk q = blk p}) (k : κ),
      (l.map fun u => blockDot blk u v (blk p) • blockPart blk p u).sum q k = (l.map fun u => blockDot blk u v (blk p) * u q.1 k).sum := by
    intro l q k
    induction l with
    | nil => rfl
    | cons u l ih =>
      rw [List.map_cons, List.sum_cons, List.map_cons, List.sum_cons, ← ih]
      rfl
  funext q k
  rw [foldl_blockProject blk h.1]
  change v q.1 k - _ = v q.1 k - _
  rw [hsum, q.2]

theorem mem_span_iff {us : List (P → κ → ℂ)} (h : BlockOrtho blk us) (v : P → κ → ℂ) (p : P) :
    blockPart blk p (us.foldl (blockProject blk) v) = 0 ↔ blockPart blk p v ∈ Submodule.span ℂ {x | ∃ u ∈ us, x = blockPart blk p u} := by
  have hs : (us.map fun u => blockDot blk u v (blk p) • blockPart blk p u).sum ∈ Submodule.span ℂ {x | ∃ u ∈ us, x = blockPart blk p u} := by
    refine list_sum_mem fun x hx => ?_
    obtain ⟨u, hu, rfl⟩ := List.mem_map.1 hx
    exact Submodule.smul_mem _ _ (Submodule.subset_span ⟨u, hu, rfl⟩)
  rw [blockPart_project blk h]
  constructor
  · intro h0
    rw [sub_eq_zero] at h0
    rw [h0]
    exact hs
  · intro hv
    have hmem : blockPart blk p (us.foldl (blockProject blk) v) ∈ Submodule.span ℂ {x | ∃ u ∈ us, x = blockPart blk p u} := by
      rw [blockPart_project blk h]
      exact Submodule.sub_mem _ hv hs
    have horth : ∀ x ∈ Submodule.span ℂ {x | ∃ u ∈ us, x = blockPart blk p u},
        ∑ q, ∑ k, starRingEnd ℂ (blockPart blk p (us.foldl (blockProject blk) v) q k) * x q k = 0 := by
      intro x hx
      refine Submodule.span_induction ?_ ?_ ?_ ?_ hx
      · rintro x ⟨u, hu, rfl⟩
        rw [← blockDot_part, ← blockDot_conj, foldl_blockProject_ortho blk h v u hu, map_zero]
      · simp
      · intro x y _ _ hx hy
        simp only [Pi.add_apply, mul_add, Finset.sum_add_distrib, hx, hy, add_zero]
      · intro a x _ hx
        simp only [Pi.smul_apply, smul_eq_mul, mul_left_comm _ a, ← Finset.mul_sum, hx, mul_zero]
    have h0 := horth _ hmem
    rw [← blockDot_part] at h0
    have h1 := (blockDot_self_zero blk (us.foldl (blockProject blk) v) (blk p)).1 (by rw [h0]; rfl)
    rw [← blockPart_project blk h]
    funext q
    exact h1 q.1 q.2

theorem gramSchmidt_isSome : ∀ (n : ℕ) (f : Fin n → P → κ → ℂ),
    ((∃ us, blockGramSchmidt blk [] (List.ofFn f) = some us) ↔ ∀ p, LinearIndependent ℂ fun i => blockPart blk p (f i)) ∧
    ∀ us, blockGramSchmidt blk [] (List.ofFn f) = some us → ∀ p,
      Submodule.span ℂ {x | ∃ u ∈ us, x = blockPart blk p u} = Submodule.span ℂ (Set.range fun i => blockPart blk p (f i))
  | 0, f => by
    refine ⟨?_, fun us h p => ?_⟩
    · simp only [List.ofFn_zero, blockGramSchmidt, Option.some.injEq, exists_eq', true_iff]
      exact fun p => linearIndependent_empty_type
    · simp only [List.ofFn_zero, blockGramSchmidt, Option.some.injEq] at h
      subst h
      simp
  | n + 1, f => by
    obtain ⟨i1, i2⟩ := gramSchmidt_isSome n (fun i => f i.castSucc)
    have hnil : BlockOrtho blk ([] : List (P → κ → ℂ)) := ⟨List.Pairwise.nil, by simp⟩
    have hof : List.ofFn f = List.ofFn (fun i : Fin n => f i.castSucc) ++ [f (Fin.last n)] := by
      rw [List.ofFn_succ']
      simp
    have hstep : ∀ us, blockGramSchmidt blk [] (List.ofFn fun i : Fin n => f i.castSucc) = some us →
        ((∃ u, blockNormalize blk (us.foldl (blockProject blk) (f (Fin.last n))) = some u) ↔
          ∀ p, blockPart blk p (f (Fin.last n)) ∉ Submodule.span ℂ (Set.range fun i : Fin n => blockPart blk p (f i.castSucc))) := by
      intro us hus
      have ho := (gramSchmidt_spec blk _ _ us hnil hus).1
      rw [blockNormalize_isSome]
      refine forall_congr' fun p => ?_
      rw [← i2 us hus p, ← mem_span_iff blk ho]
      constructor
      · rintro ⟨q, hq, hv⟩ h0
        exact hv (congrFun h0 ⟨q, hq⟩)
      · intro h
        by_contra hc
        push Not at hc
        exact h (funext fun q => hc q.1 q.2)
    refine ⟨?_, ?_⟩
    · rw [hof, gramSchmidt_append]
      constructor
      · rintro ⟨us', h⟩
        rw [Option.bind_eq_some_iff] at h
        obtain ⟨us, hus, h⟩ := h
        rw [Option.map_eq_some_iff] at h
        obtain ⟨u, hu, -⟩ := h
        intro p
        rw [linearIndependent_fin_succ']
        exact ⟨(i1.1 ⟨us, hus⟩) p, (hstep us hus).1 ⟨u, hu⟩ p⟩
      · intro h
        have h' := fun p => linearIndependent_fin_succ'.1 (h p)
        obtain ⟨us, hus⟩ := i1.2 fun p => (h' p).1
        obtain ⟨u, hu⟩ := (hstep us hus).2 fun p => (h' p).2
        exact ⟨us ++ [u], by rw [hus, Option.bind_some, hu]; rfl⟩
    · intro us' h p
      rw [hof, gramSchmidt_append, Option.bind_eq_some_iff] at h
      obtain ⟨us, hus, h⟩ := h
      rw [Option.map_eq_some_iff] at h
      obtain ⟨u, hu, rfl⟩ := h
      have ho := (gramSchmidt_spec blk _ _ us hnil hus).1
      have hi := i2 us hus p
      have hset : {x | ∃ w ∈ us ++ [u], x = blockPart blk p w} = insert (blockPart blk p u) {x | ∃ w ∈ us, x = blockPart blk p w} := by
        ext x
        simp only [List.mem_append, List.mem_singleton, Set.mem_setOf_eq, Set.mem_insert_iff]
        constructor
        · rintro ⟨w, hw | rfl, rfl⟩
          · exact Or.inr ⟨w, hw, rfl⟩
          · exact Or.inl rfl
        · rintro (rfl | ⟨w, hw, rfl⟩)
          · exact ⟨u, Or.inr rfl, rfl⟩
          · exact ⟨w, Or.inl hw, rfl⟩
      have hrange : (Set.range fun i => blockPart blk p (f i)) =
          insert (blockPart blk p (f (Fin.last n))) (Set.range fun i : Fin n => blockPart blk p (f i.castSucc)) := by
        ext x
        simp only [Set.mem_range, Set.mem_insert_iff]
        constructor
        · rintro ⟨i, rfl⟩
          refine Fin.lastCases (Or.inl rfl) (fun i => Or.inr ⟨i, rfl⟩) i
        · rintro (rfl | ⟨i, rfl⟩)
          · exact ⟨_, rfl⟩
          · exact ⟨_, rfl⟩
      rw [hset, hrange, Submodule.span_insert, Submodule.span_insert, hi]
      -- the new vector is a multiple of the projected one
      obtain ⟨hpos, hu'⟩ := blockNormalize_some blk hu
      have hs : (us.map fun w => blockDot blk w (f (Fin.last n)) (blk p) • blockPart blk p w).sum ∈
          Submodule.span ℂ (Set.range fun i : Fin n => blockPart blk p (f i.castSucc)) := by
        rw [← hi]
        refine list_sum_mem fun x hx => ?_
        obtain ⟨w, hw, rfl⟩ := List.mem_map.1 hx
        exact Submodule.smul_mem _ _ (Submodule.subset_span ⟨w, hw, rfl⟩)
      have hc : ∃ c : ℂ, c ≠ 0 ∧ blockPart blk p u = c • blockPart blk p (us.foldl (blockProject blk) (f (Fin.last n))) := by
        refine ⟨((Real.sqrt (blockDot blk (us.foldl (blockProject blk) (f (Fin.last n))) (us.foldl (blockProject blk) (f (Fin.last n))) (blk p)).re : ℝ) : ℂ)⁻¹,
          inv_ne_zero ?_, ?_⟩
        · exact_mod_cast (Real.sqrt_pos.2 (hpos p)).ne'
        · funext q k
          have := congrFun (congrFun hu' q.1) k
          rw [q.2] at this
          exact this
      obtain ⟨c, hc0, hc⟩ := hc
      rw [blockPart_project blk ho] at hc
      refine le_antisymm (sup_le ?_ le_sup_right) (sup_le ?_ le_sup_right)
      · rw [Submodule.span_singleton_le_iff_mem, hc]
        refine Submodule.smul_mem _ _ (Submodule.sub_mem _ (Submodule.mem_sup_left (Submodule.mem_span_singleton_self _)) (Submodule.mem_sup_right hs))
      · rw [Submodule.span_singleton_le_iff_mem]
        have : blockPart blk p (f (Fin.last n)) = c⁻¹ • blockPart blk p u +
            (us.map fun w => blockDot blk w (f (Fin.last n)) (blk p) • blockPart blk p w).sum := by
          rw [hc, smul_smul, inv_mul_cancel₀ hc0, one_smul, sub_add_cancel]
        rw [this]
        exact Submodule.add_mem _ (Submodule.smul_mem _ _ (Submodule.mem_sup_left (Submodule.mem_span_singleton_self _))) (Submodule.mem_sup_right hs)

end

/-! ### The loops -/

theorem foldl_add_fun {α : Type} (g : α → ℕ → ℂ) (L : List α) (out : ℕ → ℂ) :
    L.foldl (fun out a => fun m => out m + g a m) out = fun m => out m + (L.map (g · m)).sum := by
  induction L generalizing out with
  | nil => simp
  | cons a L ih =>
    rw [List.foldl_cons, ih]
    funext m
    simp [add_assoc]

theorem sum_map_range (f : ℕ → ℂ) : ∀ n, ((List.range n).map f).sum = ∑ i ∈ Finset.range n, f i
  | 0 => by simp
  | n + 1 => by rw [List.range_succ, List.map_append, List.sum_append, sum_map_range f n, Finset.sum_range_succ]; simp

theorem update_add (out : ℕ → ℂ) (a : ℕ) (x : ℂ) : Function.update out a (out a + x) = fun m => out m + if m = a then x else 0 := by
  funext m
  by_cases h : m = a
  · subst h; simp
  · simp [h]

theorem mgRestrict_sum (rank : P → R) (idx thread : P → ℕ) (n d threads : ℕ) (basis : ℕ → P → κ → ℂ) (x : P → κ → ℂ) (r : R) (m : ℕ) :
    mgRestrict rank idx thread n d threads basis x r m =
      ∑ i ∈ Finset.range d, ∑ k ∈ Finset.range threads, ∑ j ∈ Finset.range n, if m = i * n + j then mgProj rank idx thread (basis i) x r j k else 0 := by
  unfold mgRestrict
  simp_rw [update_add, foldl_add_fun, sum_map_range, zero_add]

theorem index_unique {n i j i' j' : ℕ} (hj : j < n) (hj' : j' < n) : i * n + j = i' * n + j' ↔ i = i' ∧ j = j' := by
  constructor
  · intro h
    have hn : 0 < n := by omega
    have h1 : (i * n + j) / n = i := by rw [mul_comm, Nat.mul_add_div hn, Nat.div_eq_of_lt hj, add_zero]
    have h2 : (i' * n + j') / n = i' := by rw [mul_comm, Nat.mul_add_div hn, Nat.div_eq_of_lt hj', add_zero]
    have : i = i' := by rw [← h1, ← h2, h]
    subst this
    exact ⟨rfl, by omega⟩
  · rintro ⟨rfl, rfl⟩; rfl

/-- The entry of the coarse vector for basis vector `i` and block `j`. -/
theorem mgRestrict_entry (rank : P → R) (idx thread : P → ℕ) (n d threads : ℕ) (basis : ℕ → P → κ → ℂ) (x : P → κ → ℂ) (r : R)
    (ht : ∀ p, thread p < threads) {i j : ℕ} (hi : i < d) (hj : j < n) :
    mgRestrict rank idx thread n d threads basis x r (i * n + j) = blockDot (fun p => (rank p, idx p)) (basis i) x (r, j) := by
  rw [mgRestrict_sum, Finset.sum_eq_single i, Finset.sum_congr rfl (g := fun k => mgProj rank idx thread (basis i) x r j k)]
  · unfold mgProj blockDot
    rw [Finset.sum_comm]
    refine Finset.sum_congr rfl fun p _ => ?_
    rw [Finset.sum_eq_single (thread p)]
    · by_cases h : rank p = r ∧ idx p = j
      · rw [if_pos ⟨h.1, h.2, rfl⟩, if_pos (Prod.ext h.1 h.2)]
      · rw [if_neg (fun h' => h ⟨h'.1, h'.2.1⟩), if_neg (fun h' => h ⟨congrArg Prod.fst h', congrArg Prod.snd h'⟩)]
    · intro k _ hk
      rw [if_neg fun h => hk h.2.2.symm]
    · intro h
      exact absurd (Finset.mem_range.2 (ht p)) h
  · intro k _
    rw [Finset.sum_eq_single j]
    · simp
    · intro j' hj' hne
      rw [if_neg]
      rw [index_unique hj (Finset.mem_range.1 hj')]
      exact fun h => hne h.2.symm
    · intro h
      exact absurd (Finset.mem_range.2 hj) h
  · intro i' _ hne
    refine Finset.sum_eq_zero fun k _ => Finset.sum_eq_zero fun j' hj' => ?_
    rw [if_neg]
    rw [index_unique hj (Finset.mem_range.1 hj')]
    exact fun h => hne h.1.symm
  · intro h
    exact absurd (Finset.mem_range.2 hi) h

theorem mgProlong_sum (rank : P → R) (idx : P → ℕ) (n d : ℕ) (basis : ℕ → P → κ → ℂ) (c : R → ℕ → ℂ) (p : P) (k : κ) :
    mgProlong rank idx n d basis c p k = ∑ i ∈ Finset.range d, c (rank p) (i * n + idx p) * basis i p k := by
  unfold mgProlong
  induction d with
  | zero => rfl
  | succ d ih =>
    rw [List.range_succ, List.foldl_append, Finset.sum_range_succ, ← ih, mul_comm d n]
    rfl

end

end Leonard
