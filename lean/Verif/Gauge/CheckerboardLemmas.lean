import Verif.Gauge.Checkerboard
import Mathlib.Data.List.Perm.Basic
import Mathlib.Data.List.Dedup

/-!
# Lemmas on the colouring
-/

set_option autoImplicit false

namespace Leonard

/-! ### The lists of forbidden colours -/

theorem mem_addValue (l : List ℕ) (v x : ℕ) : x ∈ addValue l v ↔ x = v ∨ x ∈ l := by
  induction l with
  | nil => simp [addValue]
  | cons y l ih =>
    unfold addValue
    split
    · rename_i h; subst h; simp
    · split
      · simp
      · simp only [List.mem_cons, ih]; tauto

theorem sorted_addValue (l : List ℕ) (v : ℕ) (h : l.Pairwise (· < ·)) : (addValue l v).Pairwise (· < ·) := by
  induction l with
  | nil => simp [addValue]
  | cons y l ih =>
    rw [List.pairwise_cons] at h
    unfold addValue
    split
    · exact List.pairwise_cons.2 h
    · split
      · rename_i h2
        refine List.pairwise_cons.2 ⟨?_, List.pairwise_cons.2 h⟩
        intro x hx
        rcases List.mem_cons.1 hx with e | hx
        · omega
        · have := h.1 x hx; omega
      · refine List.pairwise_cons.2 ⟨?_, ih h.2⟩
        intro x hx
        rcases (mem_addValue l v x).1 hx with e | hx
        · omega
        · exact h.1 x hx

theorem getValueFrom_spec (l : List ℕ) (t : ℕ) (h : l.Pairwise (· < ·)) (ht : ∀ x ∈ l, t ≤ x) :
    getValueFrom t l ∉ l ∧ t ≤ getValueFrom t l ∧ ∀ k, t ≤ k → k < getValueFrom t l → k ∈ l := by
  induction l generalizing t with
  | nil =>
    refine ⟨by simp, le_rfl, fun k h1 h2 => ?_⟩
    simp only [getValueFrom] at h2; omega
  | cons y l ih =>
    rw [List.pairwise_cons] at h
    unfold getValueFrom
    split
    · rename_i hne
      refine ⟨fun hm => ?_, le_rfl, fun k h1 h2 => by omega⟩
      rcases List.mem_cons.1 hm with e | hm
      · exact hne e
      · have := h.1 t hm
        have := ht y (List.mem_cons_self ..)
        omega
    · rename_i he
      have he : t = y := not_not.1 he
      subst he
      obtain ⟨i1, i2, i3⟩ := ih (t + 1) h.2 (fun x hx => h.1 x hx)
      refine ⟨fun hm => ?_, by omega, fun k h1 h2 => ?_⟩
      · rcases List.mem_cons.1 hm with e | hm
        · omega
        · exact i1 hm
      · rcases Nat.eq_or_lt_of_le h1 with e | h1
        · subst e; exact List.mem_cons_self ..
        · exact List.mem_cons_of_mem _ (i3 k h1 h2)

theorem getValue_notMem (l : List ℕ) (h : l.Pairwise (· < ·)) : getValue l ∉ l :=
  (getValueFrom_spec l 0 h fun _ _ => Nat.zero_le _).1

theorem mem_of_lt_getValue (l : List ℕ) (h : l.Pairwise (· < ·)) (k : ℕ) (hk : k < getValue l) : k ∈ l :=
  (getValueFrom_spec l 0 h fun _ _ => Nat.zero_le _).2.2 k (Nat.zero_le _) hk

section
variable {S : Type} [DecidableEq S]

/-! ### One comparison -/

/-- All lists are strictly increasing. -/
def Board.Sorted (b : Board S) : Prop := ∀ l, (b.list l).Pairwise (· < ·)

/-- The values in the lists are in `used`, or are the current colour of `l`. -/
def Board.Within (b : Board S) (l : Link S) (used : ℕ → Prop) : Prop :=
  ∀ k, ∀ v ∈ b.list k, used v ∨ v = b.color l

theorem compareLinks_color_ne (b : Board S) (l m k : Link S) (h : k ≠ l) :
    (compareLinks l b m).color k = b.color k := by
  unfold compareLinks
  split
  · simp [updateEqual, Board.setList, Board.setColor, h]
  · simp [updateDifferent, Board.setList]

theorem compareLinks_color_eq (b : Board S) (l m : Link S) (h : b.color l ≠ b.color m) :
    (compareLinks l b m).color = b.color := by
  unfold compareLinks
  rw [if_neg h]
  rfl

theorem compareLinks_sorted (b : Board S) (l m : Link S) (h : b.Sorted) : (compareLinks l b m).Sorted := by
  intro k
  unfold compareLinks
  split
  · simp only [updateEqual, Board.setList, Board.setColor]
    split
    · apply sorted_addValue
      split
      · exact sorted_addValue _ _ (h _)
      · exact h _
    · split
      · exact sorted_addValue _ _ (h _)
      · exact h _
  · simp only [updateDifferent, Board.setList]
    split
    · apply sorted_addValue
      split
      · exact sorted_addValue _ _ (h _)
      · exact h _
    · split
      · exact sorted_addValue _ _ (h _)
      · exact h _

/-- After a comparison with another link, the colour of that link is forbidden, the colour differs from it, and everything
that was forbidden still is. -/
theorem compareLinks_list (b : Board S) (l m : Link S) (hne : m ≠ l) :
    (∀ v ∈ b.list l, v ∈ (compareLinks l b m).list l) ∧ b.color m ∈ (compareLinks l b m).list l := by
  unfold compareLinks
  split
  · have h1 : l ≠ m := hne.symm
    simp only [updateEqual, Board.setList, Board.setColor, if_true, if_neg h1]
    exact ⟨fun v hv => (mem_addValue _ _ _).2 (Or.inr hv), (mem_addValue _ _ _).2 (Or.inl rfl)⟩
  · have h1 : l ≠ m := hne.symm
    simp only [updateDifferent, Board.setList, if_true, if_neg h1]
    exact ⟨fun v hv => (mem_addValue _ _ _).2 (Or.inr hv), (mem_addValue _ _ _).2 (Or.inl rfl)⟩

theorem compareLinks_color_new (b : Board S) (l m : Link S) (hs : b.Sorted) (h : b.color l = b.color m) :
    (compareLinks l b m).color l = getValue (addValue (b.list l) (b.color m)) := by
  unfold compareLinks
  rw [if_pos h]
  simp [updateEqual, Board.setList, Board.setColor]

/-- The colour of `l` after the comparison is not among the values it has met. -/
theorem compareLinks_avoid (b : Board S) (l m : Link S) (hne : m ≠ l) (hs : b.Sorted) (seen : ℕ → Prop)
    (h1 : ∀ v, seen v → v ∈ b.list l) (h2 : ¬seen (b.color l)) :
    (∀ v, (seen v ∨ v = b.color m) → v ∈ (compareLinks l b m).list l)
    ∧ ¬(seen ((compareLinks l b m).color l) ∨ (compareLinks l b m).color l = b.color m) := by
  obtain ⟨l1, l2⟩ := compareLinks_list b l m hne
  refine ⟨fun v hv => ?_, ?_⟩
  · rcases hv with hv | hv
    · exact l1 v (h1 v hv)
    · exact hv ▸ l2
  · by_cases e : b.color l = b.color m
    · rw [compareLinks_color_new b l m hs e]
      have h3 := getValue_notMem _ (sorted_addValue _ (b.color m) (hs l))
      rintro (h | h)
      · exact h3 ((mem_addValue _ _ _).2 (Or.inr (h1 _ h)))
      · exact h3 ((mem_addValue _ _ _).2 (Or.inl h))
    · rw [compareLinks_color_eq b l m e]
      rintro (h | h)
      · exact h2 h
      · exact e h

/-- The values in the lists and the values below the colour stay among the used ones. -/
theorem compareLinks_within (b : Board S) (l m : Link S) (hs : b.Sorted) (used : ℕ → Prop)
    (hm : used (b.color m)) (hw : b.Within l used) (hb : ∀ k < b.color l, used k) :
    (compareLinks l b m).Within l used ∧ ∀ k < (compareLinks l b m).color l, used k := by
  by_cases e : b.color l = b.color m
  · have hu : ∀ k, ∀ v ∈ b.list k, used v := by
      intro k v hv
      rcases hw k v hv with h | h
      · exact h
      · rw [h, e]; exact hm
    have hc := compareLinks_color_new b l m hs e
    refine ⟨fun k v hv => ?_, fun k hk => ?_⟩
    · rw [hc]
      unfold compareLinks at hv
      rw [if_pos e] at hv
      simp only [updateEqual, Board.setList, Board.setColor, if_true] at hv
      have hA : ∀ k', ∀ v ∈ (if k' = l then addValue (b.list l) (b.color m) else b.list k'), used v := by
        intro k' v hv
        split at hv
        · rcases (mem_addValue _ _ _).1 hv with h | h
          · rw [h]; exact hm
          · exact hu _ _ h
        · exact hu _ _ hv
      split at hv
      · rcases (mem_addValue _ _ _).1 hv with h | h
        · exact Or.inr h
        · exact Or.inl (hA _ v h)
      · exact Or.inl (hA _ v hv)
    · rw [hc] at hk
      have := mem_of_lt_getValue _ (sorted_addValue _ _ (hs l)) k hk
      rcases (mem_addValue _ _ _).1 this with h | h
      · rw [h]; exact hm
      · exact hu _ _ h
  · have hc := compareLinks_color_eq b l m e
    refine ⟨fun k v hv => ?_, fun k hk => ?_⟩
    · rw [hc]
      unfold compareLinks at hv
      rw [if_neg e] at hv
      simp only [updateDifferent, Board.setList] at hv
      have hA : ∀ k', ∀ v ∈ (if k' = m then addValue (b.list m) (b.color l) else b.list k'), used v ∨ v = b.color l := by
        intro k' v hv
        split at hv
        · rcases (mem_addValue _ _ _).1 hv with h | h
          · exact Or.inr h
          · exact hw _ _ h
        · exact hw _ _ hv
      split at hv
      · rcases (mem_addValue _ _ _).1 hv with h | h
        · left; rw [h]; exact hm
        · exact hA _ v h
      · exact hA _ v hv
    · rw [hc] at hk; exact hb k hk

/-! ### One link -/

theorem foldl_compare_color_ne (l : Link S) (ms : List (Link S)) (b : Board S) (k : Link S) (h : k ≠ l) :
    (ms.foldl (compareLinks l) b).color k = b.color k := by
  induction ms generalizing b with
  | nil => rfl
  | cons m ms ih => rw [List.foldl_cons, ih, compareLinks_color_ne _ _ _ _ h]

theorem foldl_compare_sorted (l : Link S) (ms : List (Link S)) (b : Board S) (h : b.Sorted) :
    (ms.foldl (compareLinks l) b).Sorted := by
  induction ms generalizing b with
  | nil => exact h
  | cons m ms ih => exact ih _ (compareLinks_sorted b l m h)

theorem foldl_compare_avoid (l : Link S) (ms : List (Link S)) (hms : l ∉ ms) (b : Board S) (hs : b.Sorted)
    (seen : ℕ → Prop) (h1 : ∀ v, seen v → v ∈ b.list l) (h2 : ¬seen (b.color l)) :
    ¬seen ((ms.foldl (compareLinks l) b).color l) ∧ ∀ m ∈ ms, (ms.foldl (compareLinks l) b).color l ≠ b.color m := by
  induction ms generalizing b seen with
  | nil => exact ⟨h2, by simp⟩
  | cons m ms ih =>
    simp only [List.mem_cons, not_or] at hms
    have hne : m ≠ l := fun e => hms.1 e.symm
    obtain ⟨a1, a2⟩ := compareLinks_avoid b l m hne hs seen h1 h2
    obtain ⟨i1, i2⟩ := ih hms.2 (compareLinks l b m) (compareLinks_sorted b l m hs) _ a1 a2
    rw [List.foldl_cons]
    refine ⟨fun h => i1 (Or.inl h), fun m' hm' => ?_⟩
    rcases List.mem_cons.1 hm' with e | hm'
    · rw [e]; exact fun h => i1 (Or.inr h)
    · have : m' ≠ l := fun e => hms.2 (e ▸ hm')
      rw [← compareLinks_color_ne b l m m' this]
      exact i2 m' hm'

theorem foldl_compare_within (l : Link S) (ms : List (Link S)) (hms : l ∉ ms) (b : Board S) (hs : b.Sorted)
    (used : ℕ → Prop) (hm : ∀ m ∈ ms, used (b.color m)) (hw : b.Within l used) (hb : ∀ k < b.color l, used k) :
    (ms.foldl (compareLinks l) b).Within l used ∧ ∀ k < (ms.foldl (compareLinks l) b).color l, used k := by
  induction ms generalizing b with
  | nil => exact ⟨hw, hb⟩
  | cons m ms ih =>
    simp only [List.mem_cons, not_or] at hms
    obtain ⟨c1, c2⟩ := compareLinks_within b l m hs used (hm m (List.mem_cons_self ..)) hw hb
    refine ih hms.2 _ (compareLinks_sorted b l m hs) (fun m' hm' => ?_) c1 c2
    rw [compareLinks_color_ne b l m m' (fun e => hms.2 (e ▸ hm'))]
    exact hm m' (List.mem_cons_of_mem _ hm')

theorem foldl_compare_keep (l : Link S) (ms : List (Link S)) (b : Board S) (hms : l ∉ ms)
    (h : ∀ m ∈ ms, b.color l ≠ b.color m) : (ms.foldl (compareLinks l) b).color l = b.color l := by
  induction ms generalizing b with
  | nil => rfl
  | cons m ms ih =>
    simp only [List.mem_cons, not_or] at hms
    have hc := compareLinks_color_eq b l m (h m (List.mem_cons_self ..))
    rw [List.foldl_cons, ih _ hms.2, hc]
    rw [hc]
    exact fun m' hm' => h m' (List.mem_cons_of_mem _ hm')

/-! ### One pass -/

/-- What holds after the links `done` have been processed, from the starting board. -/
structure PassInv (T : Torus S) (done : List (Link S)) (b : Board S) : Prop where
  sorted : b.Sorted
  fresh : ∀ l, l ∉ done → b.color l = 0
  proper : ∀ l ∈ done, ∀ m ∈ done, m ∈ compared T l → b.color l ≠ b.color m
  used : ∀ l, ∀ v ∈ b.list l, v = 0 ∨ ∃ m ∈ done, b.color m = v
  down : ∀ l, ∀ k < b.color l, k = 0 ∨ ∃ m ∈ done, b.color m = k

theorem passInv_start (T : Torus S) : PassInv T [] (boardStart : Board S) where
  sorted := fun _ => by simp [boardStart]
  fresh := fun _ _ => rfl
  proper := by simp
  used := fun l v hv => by simp [boardStart] at hv; exact Or.inl hv
  down := fun l k hk => by simp [boardStart] at hk

theorem passInv_step (T : Torus S) (hself : ∀ l : Link S, l ∉ compared T l)
    (hsymm : ∀ l m : Link S, m ∈ compared T l → l ∈ compared T m) (done : List (Link S)) (b : Board S)
    (l : Link S) (hl : l ∉ done) (h : PassInv T done b) : PassInv T (done ++ [l]) (processLink T b l) := by
  have hne := fun k (hk : k ≠ l) => foldl_compare_color_ne l (compared T l) b k hk
  have hav := foldl_compare_avoid l (compared T l) (hself l) b h.sorted (fun _ => False) (fun _ h => h.elim) id
  have hw := foldl_compare_within l (compared T l) (hself l) b h.sorted
    (fun v => v = 0 ∨ ∃ m ∈ done, b.color m = v)
    (fun m _ => by
      by_cases hm : m ∈ done
      · exact Or.inr ⟨m, hm, rfl⟩
      · exact Or.inl (h.fresh m hm))
    (fun k v hv => Or.inl (h.used k v hv)) (h.down l)
  have up : ∀ v, (v = 0 ∨ ∃ m ∈ done, b.color m = v)
      → v = 0 ∨ ∃ m ∈ done ++ [l], (processLink T b l).color m = v := by
    rintro v (h0 | ⟨m, hm, e⟩)
    · exact Or.inl h0
    · exact Or.inr ⟨m, by simp [hm], by rw [← e]; exact hne m (fun e => hl (e ▸ hm))⟩
  refine ⟨foldl_compare_sorted l _ b h.sorted, ?_, ?_, ?_, ?_⟩
  · intro k hk
    simp only [List.mem_append, List.mem_singleton, not_or] at hk
    exact (hne k hk.2).trans (h.fresh k hk.1)
  · intro k hk m hm hc
    simp only [List.mem_append, List.mem_singleton] at hk hm
    rcases eq_or_ne k l with ek | nk <;> rcases eq_or_ne m l with em | nm
    · subst ek; subst em; exact absurd hc (hself _)
    · subst ek
      have e : (processLink T b k).color m = b.color m := hne m nm
      rw [e]
      exact hav.2 m hc
    · subst em
      have e : (processLink T b m).color k = b.color k := hne k nk
      rw [e]
      exact (hav.2 k (hsymm _ _ hc)).symm
    · have e1 : (processLink T b l).color m = b.color m := hne m nm
      have e2 : (processLink T b l).color k = b.color k := hne k nk
      rw [e1, e2]
      exact h.proper k (hk.resolve_right nk) m (hm.resolve_right nm) hc
  · intro k v hv
    rcases hw.1 k v hv with h1 | h1
    · exact up v h1
    · exact Or.inr ⟨l, by simp, h1.symm⟩
  · intro k v hv
    rcases eq_or_ne k l with ek | nk
    · subst ek; exact up v (hw.2 v hv)
    · have e2 : (processLink T b l).color k = b.color k := hne k nk
      rw [e2] at hv
      exact up v (h.down k v hv)

theorem passInv_foldl (T : Torus S) (hself : ∀ l : Link S, l ∉ compared T l)
    (hsymm : ∀ l m : Link S, m ∈ compared T l → l ∈ compared T m) (ls done : List (Link S)) (b : Board S)
    (hn : (done ++ ls).Nodup) (h : PassInv T done b) : PassInv T (done ++ ls) (ls.foldl (processLink T) b) := by
  induction ls generalizing done b with
  | nil => simpa using h
  | cons l ls ih =>
    have hl : l ∉ done := by
      intro hm
      have := List.disjoint_of_nodup_append hn
      exact this hm (List.mem_cons_self ..)
    have := ih (done ++ [l]) (processLink T b l) (by simpa using hn) (passInv_step T hself hsymm done b l hl h)
    simpa using this

/-- The first colour is used. -/
theorem zero_used (T : Torus S) (hself : ∀ l : Link S, l ∉ compared T l)
    (hsymm : ∀ l m : Link S, m ∈ compared T l → l ∈ compared T m) (ls : List (Link S)) (hne : ls ≠ [])
    (hall : ∀ l, l ∈ ls) (hn : ls.Nodup) :
    ∃ l ∈ ls, (ls.foldl (processLink T) boardStart).color l = 0 := by
  obtain ⟨init, l, rfl⟩ : ∃ init l, ls = init ++ [l] := ⟨ls.dropLast, ls.getLast hne, (List.dropLast_append_getLast hne).symm⟩
  have hl : l ∉ init := by
    intro hm
    exact List.disjoint_of_nodup_append hn hm (List.mem_singleton_self l)
  have h := passInv_foldl T hself hsymm init [] boardStart (by simpa using (List.nodup_append.1 hn).1) (passInv_start T)
  rw [List.nil_append] at h
  rw [List.foldl_append, List.foldl_cons, List.foldl_nil]
  set b := init.foldl (processLink T) boardStart
  by_cases hz : ∃ m ∈ init, b.color m = 0
  · obtain ⟨m, hm, e⟩ := hz
    refine ⟨m, by simp [hm], ?_⟩
    rw [← e]
    exact foldl_compare_color_ne l _ b m (fun e => hl (e ▸ hm))
  · refine ⟨l, by simp, ?_⟩
    have h0 := h.fresh l hl
    have : (processLink T b l).color l = b.color l := by
      refine foldl_compare_keep l _ b (hself l) fun m hm e => ?_
      have hml : m ≠ l := fun e => hself l (e ▸ hm)
      have : m ∈ init := by
        have := hall m
        simp only [List.mem_append, List.mem_singleton] at this
        exact this.resolve_right hml
      exact hz ⟨m, this, by rw [← e, h0]⟩
    rw [this, h0]

end

end Leonard
