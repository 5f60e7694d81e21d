import Verif.Gauge.CheckerboardLemmas
import Mathlib.Data.List.Count

/-!
# The conflicts on the torus
-/

set_option autoImplicit false

namespace Leonard

open Matrix

section
variable {S : Type} (T : Torus S)

theorem mem_compared (l m : Link S) : m ∈ compared T l ↔ ∃ ν, ν ≠ l.2 ∧ m ∈ conflicts T l.1 l.2 ν := by
  unfold compared
  simp only [List.mem_flatMap, List.mem_finRange, true_and]
  constructor
  · rintro ⟨ν, h⟩
    by_cases hν : ν ≠ l.2
    · rw [if_pos hν] at h; exact ⟨ν, hν, h⟩
    · rw [if_neg hν] at h; simp at h
  · rintro ⟨ν, hν, h⟩
    exact ⟨ν, by rw [if_pos hν]; exact h⟩

/-- The links in conflict: in the same direction. -/
theorem mem_conflicts (s : S) (μ ν : Fin 4) (m : Link S) : m ∈ conflicts T s μ ν ↔
    (m.2 = ν ∧ (m.1 = s ∨ m.1 = T.sdn μ s ∨ m.1 = T.sup μ s ∨ m.1 = T.sup μ (T.sup μ s) ∨ m.1 = T.sdn ν (T.sdn ν s)
      ∨ m.1 = T.sup μ (T.sdn ν (T.sdn ν s)) ∨ m.1 = T.sdn ν s ∨ m.1 = T.sdn ν (T.sdn μ s) ∨ m.1 = T.sup μ (T.sdn ν s)
      ∨ m.1 = T.sdn ν (T.sup μ (T.sup μ s)) ∨ m.1 = T.sup ν s ∨ m.1 = T.sup ν (T.sup μ s)))
    ∨ (m.2 = μ ∧ (m.1 = T.sdn μ s ∨ m.1 = T.sup μ s ∨ m.1 = T.sdn ν (T.sdn ν s) ∨ m.1 = T.sdn ν s
      ∨ m.1 = T.sdn ν (T.sdn μ s) ∨ m.1 = T.sup μ (T.sdn ν s) ∨ m.1 = T.sup ν s ∨ m.1 = T.sup ν (T.sdn μ s)
      ∨ m.1 = T.sup ν (T.sup μ s) ∨ m.1 = T.sup ν (T.sup ν s))) := by
  obtain ⟨m1, m2⟩ := m
  simp only [conflicts, List.mem_cons, Prod.mk.injEq, List.not_mem_nil, or_false, and_or_left, or_assoc]
  refine iff_of_eq ?_
  ac_rfl

theorem compared_symm (l m : Link S) (h : m ∈ compared T l) : l ∈ compared T m := by
  obtain ⟨s, μ⟩ := l
  obtain ⟨ν, hν, h⟩ := (mem_compared T _ _).1 h
  obtain ⟨s', ρ⟩ := m
  simp only at hν h
  rw [mem_conflicts] at h
  have f1 : ∀ α (x y : S), x = T.sup α y ↔ T.sdn α x = y := fun α x y => (T.sdn_eq_iff α x y).symm
  have f2 : ∀ α (x y : S), x = T.sdn α y ↔ T.sup α x = y := fun α x y => (T.sup_eq_iff α x y).symm
  rcases h with ⟨hρ, h⟩ | ⟨hρ, h⟩ <;> simp only at hρ h <;> subst hρ
  · refine (mem_compared T _ _).2 ⟨μ, hν.symm, ?_⟩
    rw [mem_conflicts]
    left
    refine ⟨rfl, ?_⟩
    simp only [f1, f2] at h
    simp only
    rcases h with h | h | h | h | h | h | h | h | h | h | h | h <;> subst h <;>
      simp [sdn_sup_comm, T.comm ρ μ, T.sdn_comm ρ μ]
  · refine (mem_compared T _ _).2 ⟨ν, hν, ?_⟩
    rw [mem_conflicts]
    right
    refine ⟨rfl, ?_⟩
    simp only [f1, f2] at h
    simp only
    rcases h with h | h | h | h | h | h | h | h | h | h <;> subst h <;>
      simp [sdn_sup_comm, T.comm ρ ν, T.sdn_comm ρ ν]

theorem compared_self (hw : T.Wide 2) (l : Link S) : l ∉ compared T l := by
  intro h
  obtain ⟨s, μ⟩ := l
  obtain ⟨ν, hν, h⟩ := (mem_compared T _ _).1 h
  simp only at hν h
  rw [mem_conflicts] at h
  have w1 : T.Wide 1 := fun μ => by have := hw μ; omega
  have a1 := fun α x => T.sup_ne (le_refl 1) w1 α x
  have a2 := fun α x => T.sup_sup_ne (le_refl 2) hw α x
  have a3 := fun (α β : Fin 4) (hne : α ≠ β) x => T.sup_sup_ne_of_ne (le_refl 1) w1 hne x
  have a4 := fun (α β : Fin 4) (hne : α ≠ β) x => T.sup_ne_sup (le_refl 1) w1 hne x
  rcases h with ⟨hρ, h⟩ | ⟨-, h⟩
  · exact hν hρ.symm
  · simp only at h
    rcases h with h | h | h | h | h | h | h | h | h | h
    · exact a1 μ s ((T.sdn_eq_iff _ _ _).1 h.symm).symm
    · exact a1 μ s h.symm
    · rw [eq_comm, T.sdn_eq_iff, T.sdn_eq_iff] at h; exact a2 ν s h.symm
    · exact a1 ν s ((T.sdn_eq_iff _ _ _).1 h.symm).symm
    · rw [eq_comm, T.sdn_eq_iff, T.sdn_eq_iff] at h; exact a3 μ ν hν.symm s h.symm
    · rw [T.sup_sdn_comm, eq_comm, T.sdn_eq_iff] at h; exact a4 μ ν hν.symm s h
    · exact a1 ν s h.symm
    · rw [T.sup_sdn_comm, eq_comm, T.sdn_eq_iff] at h; exact a4 ν μ hν s h
    · exact a3 ν μ hν s h.symm
    · exact a2 ν s h.symm

section
variable {N : ℕ} (U V : GField S N) (s : S) (μ ν : Fin 4)

theorem stapleUp_congr (h : ∀ m ∈ conflicts T s μ ν, U m.1 m.2 = V m.1 m.2) :
    stapleUp T U s μ ν = stapleUp T V s μ ν := by
  simp only [conflicts, List.forall_mem_cons] at h
  simp only [stapleUp, h]

theorem stapleDown_congr (h : ∀ m ∈ conflicts T s μ ν, U m.1 m.2 = V m.1 m.2) :
    stapleDown T U s μ ν = stapleDown T V s μ ν := by
  simp only [conflicts, List.forall_mem_cons] at h
  simp only [stapleDown, h]

theorem rectStaple_congr (h : ∀ m ∈ conflicts T s μ ν, U m.1 m.2 = V m.1 m.2) :
    rectStaple T U s μ ν = rectStaple T V s μ ν := by
  simp only [conflicts, List.forall_mem_cons] at h
  simp only [rectStaple, h]

/-- The Wilson staple of a link involves only links compared with it. -/
theorem wilsonStaple_congr (h : ∀ m ∈ compared T (s, μ), U m.1 m.2 = V m.1 m.2) :
    wilsonStaple T U s μ = wilsonStaple T V s μ := by
  unfold wilsonStaple
  refine Finset.sum_congr rfl fun ν _ => ?_
  split
  · rename_i hν
    have k : ∀ m ∈ conflicts T s μ ν, U m.1 m.2 = V m.1 m.2 := fun m hm => h m ((mem_compared T _ _).2 ⟨ν, hν, hm⟩)
    rw [stapleUp_congr T U V s μ ν k, stapleDown_congr T U V s μ ν k]
  · rfl

/-- The improved staple of a link involves only links compared with it. -/
theorem improvedStaple_congr (u0 : ℝ) (h : ∀ m ∈ compared T (s, μ), U m.1 m.2 = V m.1 m.2) :
    improvedStaple u0 T U s μ = improvedStaple u0 T V s μ := by
  unfold improvedStaple
  refine Finset.sum_congr rfl fun ν _ => ?_
  split
  · rename_i hν
    have k : ∀ m ∈ conflicts T s μ ν, U m.1 m.2 = V m.1 m.2 := fun m hm => h m ((mem_compared T _ _).2 ⟨ν, hν, hm⟩)
    rw [stapleUp_congr T U V s μ ν k, stapleDown_congr T U V s μ ν k, rectStaple_congr T U V s μ ν k]
  · rfl

end

end

/-! ### The constructor on a wide lattice -/

section
variable {S : Type} [DecidableEq S] (T : Torus S) (order : List S)

omit [DecidableEq S] in
theorem mem_linkOrderOf (hall : ∀ s, s ∈ order) (l : Link S) : l ∈ linkOrderOf order := by
  simp only [linkOrderOf, List.mem_flatMap, List.mem_map, List.mem_finRange, true_and]
  exact ⟨l.1, hall _, l.2, rfl⟩

omit [DecidableEq S] in
theorem nodup_linkOrderOf (hn : order.Nodup) : (linkOrderOf order).Nodup := by
  unfold linkOrderOf
  rw [List.nodup_flatMap]
  refine ⟨fun s _ => (List.nodup_finRange 4).map fun a b h => (Prod.mk.inj h).2, ?_⟩
  refine List.Pairwise.imp_of_mem (fun {a b} _ _ hne => ?_) hn
  simp only [Function.onFun, List.disjoint_left, List.mem_map, List.mem_finRange, true_and]
  rintro l ⟨μ, rfl⟩ ⟨ν, h⟩
  exact hne (Prod.mk.inj h).1.symm

omit [DecidableEq S] in
theorem checkCorrectness_eq_zero (color : Link S → ℕ) : checkCorrectness T order color = 0 ↔
    ∀ l ∈ linkOrderOf order, ∀ m ∈ compared T l, color l ≠ color m := by
  unfold checkCorrectness
  rw [List.sum_eq_zero_iff]
  simp only [List.mem_map, forall_exists_index, and_imp, forall_apply_eq_imp_iff₂, List.length_eq_zero_iff,
    List.filter_eq_nil_iff, decide_eq_true_eq]

theorem checkCorrectness_pos_start (hne : order ≠ []) : checkCorrectness T order (boardStart : Board S).color ≠ 0 := by
  intro h
  rw [checkCorrectness_eq_zero] at h
  obtain ⟨s, rest, rfl⟩ := List.exists_cons_of_ne_nil hne
  refine h (s, 0) (by simp [linkOrderOf]) (s, 1) ?_ rfl
  exact (mem_compared T _ _).2 ⟨1, (by decide : (1 : Fin 4) ≠ 0), by simp [conflicts]⟩

/-- On a wide lattice one pass is made, and the result is a proper colouring with the colours `0 … n - 1`. -/
theorem board_wide (hw : T.Wide 2) (hall : ∀ s, s ∈ order) (hn : order.Nodup) (hne : order ≠ []) :
    boardLoop T order 3 boardStart = boardPass T order boardStart
    ∧ PassInv T (linkOrderOf order) (boardPass T order boardStart)
    ∧ ∃ l, (boardPass T order boardStart).color l = 0 := by
  have hinv := passInv_foldl T (compared_self T hw) (compared_symm T) (linkOrderOf order) [] boardStart
    (by simpa using nodup_linkOrderOf order hn) (passInv_start T)
  rw [List.nil_append] at hinv
  have hlne : linkOrderOf order ≠ [] := by
    intro e
    obtain ⟨s, rest, rfl⟩ := List.exists_cons_of_ne_nil hne
    have := mem_linkOrderOf (s :: rest) hall (s, 0)
    rw [e] at this; simp at this
  obtain ⟨l0, -, h0⟩ := zero_used T (compared_self T hw) (compared_symm T) (linkOrderOf order) hlne
    (mem_linkOrderOf order hall) (nodup_linkOrderOf order hn)
  refine ⟨?_, hinv, l0, h0⟩
  rw [boardLoop, if_pos (checkCorrectness_pos_start T order hne), boardLoop, if_neg]
  rw [not_not, checkCorrectness_eq_zero]
  exact fun l hl m hm => hinv.proper l hl m (mem_linkOrderOf order hall m) hm

theorem boardColors_proper (hw : T.Wide 2) (hall : ∀ s, s ∈ order) (hn : order.Nodup) (hne : order ≠ []) (l m : Link S)
    (h : m ∈ compared T l) : boardColors T order l ≠ boardColors T order m := by
  obtain ⟨e, hinv, -⟩ := board_wide T order hw hall hn hne
  unfold boardColors
  rw [e]
  exact hinv.proper l (mem_linkOrderOf order hall l) m (mem_linkOrderOf order hall m) h

/-! ### The constructor on any lattice -/

/-- After a comparison, also with itself, the colour of `l` is not among the values met before. -/
theorem compareLinks_avoid' (b : Board S) (l m : Link S) (hs : b.Sorted) (seen : ℕ → Prop)
    (h1 : ∀ v, seen v → v ∈ b.list l) (h2 : ¬seen (b.color l)) :
    (∀ v, (seen v ∨ (m ≠ l ∧ v = b.color m)) → v ∈ (compareLinks l b m).list l)
    ∧ ¬(seen ((compareLinks l b m).color l) ∨ (m ≠ l ∧ (compareLinks l b m).color l = b.color m)) := by
  by_cases hne : m = l
  · subst hne
    have hc : (compareLinks m b m).color m = getValue (addValue (b.list m) (b.color m)) :=
      compareLinks_color_new b m m hs rfl
    refine ⟨fun v hv => ?_, ?_⟩
    · rcases hv with hv | hv
      · simp only [compareLinks, updateEqual, Board.setList, Board.setColor, if_true, mem_addValue]
        exact Or.inr (Or.inr (h1 v hv))
      · exact absurd rfl hv.1
    · rw [hc]
      rintro (h | h)
      · exact getValue_notMem _ (sorted_addValue _ _ (hs m)) ((mem_addValue _ _ _).2 (Or.inr (h1 _ h)))
      · exact absurd rfl h.1
  · obtain ⟨a, c⟩ := compareLinks_avoid b l m hne hs seen h1 h2
    exact ⟨fun v hv => a v (hv.imp id And.right), fun h => c (h.imp id And.right)⟩

theorem foldl_compare_avoid' (l : Link S) (ms : List (Link S)) (b : Board S) (hs : b.Sorted)
    (seen : ℕ → Prop) (h1 : ∀ v, seen v → v ∈ b.list l) (h2 : ¬seen (b.color l)) :
    ¬seen ((ms.foldl (compareLinks l) b).color l)
    ∧ ∀ m ∈ ms, m ≠ l → (ms.foldl (compareLinks l) b).color l ≠ b.color m := by
  induction ms generalizing b seen with
  | nil => exact ⟨h2, by simp⟩
  | cons m ms ih =>
    obtain ⟨a1, a2⟩ := compareLinks_avoid' b l m hs seen h1 h2
    obtain ⟨i1, i2⟩ := ih (compareLinks l b m) (compareLinks_sorted b l m hs) _ a1 a2
    rw [List.foldl_cons]
    refine ⟨fun h => i1 (Or.inl h), fun m' hm' hne => ?_⟩
    rcases List.mem_cons.1 hm' with e | hm'
    · rw [e]; exact fun h => i1 (Or.inr ⟨e ▸ hne, h⟩)
    · rw [← compareLinks_color_ne b l m m' hne]
      exact i2 m' hm' hne

/-- After a pass over `ls`, different links compared with each other have different colours. -/
theorem pass_proper (ls done : List (Link S)) (b : Board S) (hs : b.Sorted)
    (h : ∀ l ∈ done, ∀ m ∈ done, m ≠ l → m ∈ compared T l → b.color l ≠ b.color m) :
    (ls.foldl (processLink T) b).Sorted
    ∧ ∀ l ∈ done ++ ls, ∀ m ∈ done ++ ls, m ≠ l → m ∈ compared T l →
      (ls.foldl (processLink T) b).color l ≠ (ls.foldl (processLink T) b).color m := by
  induction ls generalizing done b with
  | nil => exact ⟨hs, by simpa using h⟩
  | cons l ls ih =>
    have hne := fun k (hk : k ≠ l) => foldl_compare_color_ne l (compared T l) b k hk
    have hav := (foldl_compare_avoid' l (compared T l) b hs (fun _ => False) (fun _ h => h.elim) id).2
    have := ih (done ++ [l]) (processLink T b l) (foldl_compare_sorted l _ b hs) ?_
    · simpa using this
    · intro k hk m hm hmk hc
      simp only [List.mem_append, List.mem_singleton] at hk hm
      rcases eq_or_ne k l with ek | nk
      · subst ek
        have e : (processLink T b k).color m = b.color m := hne m hmk
        rw [e]
        exact hav m hc hmk
      · have e2 : (processLink T b l).color k = b.color k := hne k nk
        rcases eq_or_ne m l with em | nm
        · subst em
          rw [e2]
          exact (hav k (compared_symm T _ _ hc) nk).symm
        · have e1 : (processLink T b l).color m = b.color m := hne m nm
          rw [e1, e2]
          exact h k (hk.resolve_right nk) m (hm.resolve_right nm) hmk hc

theorem boardLoop_proper (hall : ∀ s, s ∈ order) (n : ℕ) (b : Board S) (hs : b.Sorted)
    (h : n = 0 → ∀ l m, m ≠ l → m ∈ compared T l → b.color l ≠ b.color m) (l m : Link S) (hne : m ≠ l)
    (hc : m ∈ compared T l) : (boardLoop T order n b).color l ≠ (boardLoop T order n b).color m := by
  induction n generalizing b with
  | zero => exact h rfl l m hne hc
  | succ n ih =>
    unfold boardLoop
    split
    · obtain ⟨p1, p2⟩ := pass_proper T (linkOrderOf order) [] b hs (by simp)
      refine ih _ p1 fun _ l m hne hc => ?_
      exact p2 l (by simpa using mem_linkOrderOf order hall l) m (by simpa using mem_linkOrderOf order hall m) hne hc
    · rename_i h0
      rw [not_not, checkCorrectness_eq_zero] at h0
      exact h0 l (mem_linkOrderOf order hall l) m hc

/-- On every lattice, two different links one of which enters the staple of the other have different colours. -/
theorem boardColors_proper' (hall : ∀ s, s ∈ order) (l m : Link S) (hne : m ≠ l)
    (h : m ∈ compared T l) : boardColors T order l ≠ boardColors T order m :=
  boardLoop_proper T order hall 3 boardStart (passInv_start T).sorted (fun h => absurd h (by decide)) l m hne h

theorem boardColors_down (hw : T.Wide 2) (hall : ∀ s, s ∈ order) (hn : order.Nodup) (hne : order ≠ []) (l : Link S)
    (k : ℕ) (h : k < boardColors T order l) : ∃ m, boardColors T order m = k := by
  obtain ⟨e, hinv, l0, h0⟩ := board_wide T order hw hall hn hne
  unfold boardColors at h ⊢
  rw [e] at h ⊢
  rcases hinv.down l k h with h | ⟨m, -, h⟩
  · exact ⟨l0, by rw [h0, h]⟩
  · exact ⟨m, h⟩

omit [DecidableEq S] in
/-- A set of colours closed downwards has as many elements as its largest plus one. -/
theorem color_lt_numberLoops (color : Link S → ℕ) (hall : ∀ s, s ∈ order)
    (hd : ∀ l, ∀ k < color l, ∃ m, color m = k) (l : Link S) : color l < numberLoops order color := by
  unfold numberLoops
  have hsub : List.range (color l + 1) ⊆ ((linkOrderOf order).map color).dedup := by
    intro k hk
    rw [List.mem_range] at hk
    rw [List.mem_dedup, List.mem_map]
    rcases Nat.lt_or_ge k (color l) with h | h
    · obtain ⟨m, hm⟩ := hd l k h
      exact ⟨m, mem_linkOrderOf order hall m, hm⟩
    · exact ⟨l, mem_linkOrderOf order hall l, by omega⟩
  have := (List.subperm_of_subset List.nodup_range hsub).length_le
  rw [List.length_range] at this
  omega

theorem count_sweepLinks (color : Link S → ℕ) (hall : ∀ s, s ∈ order) (hn : order.Nodup) (l : Link S) :
    (sweepLinks order color).count l = if color l < numberLoops order color then 1 else 0 := by
  unfold sweepLinks
  rw [List.count_flatMap]
  have : ∀ c, List.count l ((linkOrderOf order).filter fun l => color l = c) = if color l = c then 1 else 0 := by
    intro c
    split
    · rename_i h
      rw [List.count_filter (by simpa using h)]
      exact List.count_eq_one_of_mem (nodup_linkOrderOf order hn) (mem_linkOrderOf order hall l)
    · rename_i h
      rw [List.count_eq_zero]
      simp [h]
  simp only [Function.comp_def, this]
  generalize numberLoops order color = n
  induction n with
  | zero => simp
  | succ n ih =>
    rw [List.range_succ, List.map_append, List.sum_append, ih]
    simp only [List.map_cons, List.map_nil, List.sum_cons, List.sum_nil]
    split_ifs <;> omega

end

end Leonard
