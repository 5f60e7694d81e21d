import Verif.Gauge.CheckerboardTorus
import Verif.Gauge.Props

/-!
# C22 and C50: the colour classes of the links

`order` lists every site once, in the order of the site loops.
-/

set_option autoImplicit false

namespace Leonard

open Matrix

section
variable {S : Type} [DecidableEq S] {N : ℕ}

/-- All links of `cls` updated at once: every new link is computed from the configuration `U` before the update. -/
def simultaneous (staple : GField S N → S → Fin 4 → Mat N) (rule : Link S → Mat N → Mat N → Mat N) (U : GField S N)
    (cls : List (Link S)) : GField S N :=
  fun s μ => if (s, μ) ∈ cls then rule (s, μ) (staple U s μ) (U s μ) else U s μ

/-- The links of one colour. -/
def colorClass (order : List S) (color : Link S → ℕ) (c : ℕ) : List (Link S) :=
  (linkOrderOf order).filter fun l => color l = c

theorem foldl_setLink (new : Link S → Mat N → Mat N) (ls : List (Link S)) (hn : ls.Nodup) (U : GField S N) :
    ls.foldl (fun W l => setLink W l.1 l.2 (new l (W l.1 l.2))) U
      = fun s μ => if (s, μ) ∈ ls then new (s, μ) (U s μ) else U s μ := by
  induction ls generalizing U with
  | nil => rfl
  | cons l ls ih =>
    rw [List.nodup_cons] at hn
    rw [List.foldl_cons, ih hn.2]
    funext s μ
    by_cases h1 : (s, μ) = l
    · subst h1
      simp [hn.1, setLink]
    · have h2 : ¬(s = l.1 ∧ μ = l.2) := fun ⟨a, b⟩ => h1 (Prod.ext a b)
      simp [h1, setLink, h2]

theorem foldl_updateLink (staple : GField S N → S → Fin 4 → Mat N) (rule : Link S → Mat N → Mat N → Mat N)
    (ls : List (Link S)) (hn : ls.Nodup)
    (hst : ∀ U V : GField S N, ∀ l ∈ ls, (∀ m, m ∉ ls ∨ m = l → U m.1 m.2 = V m.1 m.2) →
      staple U l.1 l.2 = staple V l.1 l.2)
    (U : GField S N) : ls.foldl (updateLink staple rule) U = simultaneous staple rule U ls := by
  have key : ∀ (a : List (Link S)), a.Nodup → (∀ l ∈ a, l ∈ ls) →
      ∀ W : GField S N, (∀ m, m ∉ ls ∨ m ∈ a → W m.1 m.2 = U m.1 m.2) →
      a.foldl (updateLink staple rule) W
        = a.foldl (fun W l => setLink W l.1 l.2 (rule l (staple U l.1 l.2) (W l.1 l.2))) W := by
    intro a
    induction a with
    | nil => intros; rfl
    | cons l a ih =>
      intro hnd ha W hW
      rw [List.nodup_cons] at hnd
      have hl := ha l (List.mem_cons_self ..)
      rw [List.foldl_cons, List.foldl_cons]
      have e : updateLink staple rule W l = setLink W l.1 l.2 (rule l (staple U l.1 l.2) (W l.1 l.2)) := by
        unfold updateLink
        rw [hst W U l hl fun m hm => hW m (hm.imp id fun e => by rw [e]; exact List.mem_cons_self ..)]
      rw [e]
      refine ih hnd.2 (fun k hk => ha k (List.mem_cons_of_mem _ hk)) _ fun m hm => ?_
      have h2 : ¬(m.1 = l.1 ∧ m.2 = l.2) := by
        rintro ⟨a, b⟩
        have e : m = l := Prod.ext a b
        subst e
        exact hm.elim (fun h => h hl) hnd.1
      simp only [setLink, if_neg h2]
      exact hW m (hm.imp id (List.mem_cons_of_mem _))
  rw [key ls hn (fun _ h => h) U (fun _ _ => rfl),
    foldl_setLink (fun l old => rule l (staple U l.1 l.2) old) ls hn U]
  rfl

/-- **C22.** On every lattice, for the Wilson and for the improved action, whatever is computed for a link from its staple
and its old value (heat bath, overrelaxation, with any random numbers): updating the links of one colour one after another,
in any order, is updating them all at once. It stays so when the links are updated in parallel: each staple may be computed
from a configuration `view l` in which the other links of the colour have any value whatsoever (old, new or half written). -/
theorem C22_parallel_update (T : Torus S) (order : List S) (hall : ∀ s, s ∈ order) (hn : order.Nodup)
    (staple : GField S N → S → Fin 4 → Mat N)
    (hst : staple = wilsonStaple T ∨ ∃ u0, staple = improvedStaple u0 T)
    (rule : Link S → Mat N → Mat N → Mat N) (U : GField S N) (c : ℕ) (ls : List (Link S))
    (hls : ls.Perm (colorClass order (boardColors T order) c)) :
    ls.foldl (updateLink staple rule) U = simultaneous staple rule U (colorClass order (boardColors T order) c)
    ∧ ∀ view : Link S → GField S N,
      (∀ l m : Link S, boardColors T order m ≠ c ∨ m = l → view l m.1 m.2 = U m.1 m.2) →
      ls.foldl (fun W l => setLink W l.1 l.2 (rule l (staple (view l) l.1 l.2) (W l.1 l.2))) U
        = simultaneous staple rule U (colorClass order (boardColors T order) c) := by
  have hnd : ls.Nodup := hls.nodup_iff.2 ((nodup_linkOrderOf order hn).filter _)
  have hmem : ∀ m, m ∈ ls ↔ boardColors T order m = c := by
    intro m
    rw [hls.mem_iff]
    simp [colorClass, mem_linkOrderOf order hall m]
  have hmem' : ∀ m, m ∈ colorClass order (boardColors T order) c ↔ m ∈ ls := fun m => (hls.mem_iff).symm
  have hs : ∀ V W : GField S N, ∀ l ∈ ls, (∀ m, m ∉ ls ∨ m = l → V m.1 m.2 = W m.1 m.2) →
      staple V l.1 l.2 = staple W l.1 l.2 := by
    intro V W l hl h
    have h' : ∀ m ∈ compared T (l.1, l.2), V m.1 m.2 = W m.1 m.2 := by
      intro m hm
      by_cases e : m = l
      · exact h m (Or.inr e)
      · refine h m (Or.inl fun hm' => boardColors_proper' T order hall l m e hm ?_)
        rw [(hmem l).1 hl, (hmem m).1 hm']
    rcases hst with rfl | ⟨u0, rfl⟩
    · exact wilsonStaple_congr T V W l.1 l.2 h'
    · exact improvedStaple_congr T V W l.1 l.2 u0 h'
  have e : simultaneous staple rule U (colorClass order (boardColors T order) c) = simultaneous staple rule U ls := by
    funext s μ
    simp only [simultaneous, hmem']
  refine ⟨?_, fun view hv => ?_⟩
  · rw [e]
    exact foldl_updateLink staple rule ls hnd hs U
  · rw [e, foldl_setLink (fun l old => rule l (staple (view l) l.1 l.2) old) ls hnd U]
    funext s μ
    simp only [simultaneous]
    split
    · rename_i hm
      rw [hs (view (s, μ)) U (s, μ) hm fun m hm' => hv _ m (hm'.imp (fun h h' => h ((hmem m).2 h')) id)]
    · rfl

/-- A whole sweep gives the same configuration however the links of each colour are ordered or divided among threads. -/
theorem C22_sweep (T : Torus S) (order : List S) (hall : ∀ s, s ∈ order) (hn : order.Nodup)
    (staple : GField S N → S → Fin 4 → Mat N)
    (hst : staple = wilsonStaple T ∨ ∃ u0, staple = improvedStaple u0 T)
    (rule : Link S → Mat N → Mat N → Mat N) (U : GField S N) (ls : ℕ → List (Link S))
    (hls : ∀ c, (ls c).Perm (colorClass order (boardColors T order) c)) :
    ((List.range (numberLoops order (boardColors T order))).flatMap ls).foldl (updateLink staple rule) U
      = (sweepLinks order (boardColors T order)).foldl (updateLink staple rule) U := by
  unfold sweepLinks
  generalize List.range (numberLoops order (boardColors T order)) = cs
  induction cs generalizing U with
  | nil => rfl
  | cons c cs ih =>
    simp only [List.flatMap_cons, List.foldl_append]
    rw [(C22_parallel_update T order hall hn staple hst rule U c (ls c) (hls c)).1, ih]
    rw [(C22_parallel_update T order hall hn staple hst rule U c _
      (List.Perm.refl (colorClass order (boardColors T order) c))).1.symm]
    rfl

/-- **C50**, the part that holds: on a lattice with more than two sites in every direction, the colours index the arrays
inside their range, and a sweep updates every link exactly once. Missing: narrower lattices. -/
theorem C50_sweep_covers_partial (T : Torus S) (hw : T.Wide 2) (order : List S) (hall : ∀ s, s ∈ order)
    (hn : order.Nodup) (hne : order ≠ []) :
    statisticsInRange order (boardColors T order)
    ∧ ∀ l : Link S, (sweepLinks order (boardColors T order)).count l = 1 := by
  have h := color_lt_numberLoops order (boardColors T order) hall
    (fun l k hk => boardColors_down T order hw hall hn hne l k hk)
  refine ⟨fun l _ => h l, fun l => ?_⟩
  rw [count_sweepLinks order _ hall hn l, if_pos (h l)]

/-! ### Narrow lattices -/

/-- Every smaller value is forbidden. -/
def Board.Below (b : Board S) : Prop := ∀ l, ∀ k < b.color l, k ∈ b.list l

theorem compareLinks_below (b : Board S) (l m : Link S) (hs : b.Sorted) (hb : b.Below) :
    (compareLinks l b m).Below ∧ (∀ k, b.color k ≤ (compareLinks l b m).color k)
    ∧ (m = l → b.color l < (compareLinks l b m).color l) := by
  by_cases e : b.color l = b.color m
  · have hc := compareLinks_color_new b l m hs e
    have hso := sorted_addValue _ (b.color m) (hs l)
    have hlt : b.color l < getValue (addValue (b.list l) (b.color m)) := by
      by_contra hle
      have hle : getValue (addValue (b.list l) (b.color m)) ≤ b.color l := not_lt.1 hle
      have hmem : getValue (addValue (b.list l) (b.color m)) ∈ addValue (b.list l) (b.color m) := by
        rcases Nat.lt_or_eq_of_le hle with h | h
        · exact (mem_addValue _ _ _).2 (Or.inr (hb l _ h))
        · exact (mem_addValue _ _ _).2 (Or.inl (h.trans e))
      exact getValue_notMem _ hso hmem
    have hlist : ∀ k, ∀ v ∈ b.list k, v ∈ (compareLinks l b m).list k := by
      intro k v hv
      unfold compareLinks
      rw [if_pos e]
      simp only [updateEqual, Board.setList, Board.setColor]
      by_cases h1 : k = m <;> by_cases h2 : k = l <;> by_cases h3 : m = l <;>
        simp_all [mem_addValue]
    refine ⟨fun k v hv => ?_, fun k => ?_, fun _ => by rw [hc]; exact hlt⟩
    · by_cases h : k = l
      · subst h
        rw [hc] at hv
        have := mem_of_lt_getValue _ hso v hv
        have h2 : ∀ v ∈ addValue (b.list k) (b.color m), v ∈ (compareLinks k b m).list k := by
          intro v hv
          unfold compareLinks
          rw [if_pos e]
          simp only [updateEqual, Board.setList, Board.setColor, if_true]
          split
          · rename_i h; subst h; simp only [if_true]; exact (mem_addValue _ _ _).2 (Or.inr hv)
          · exact hv
        exact h2 v this
      · rw [compareLinks_color_ne b l m k h] at hv
        exact hlist k v (hb k v hv)
    · by_cases h : k = l
      · subst h; rw [hc]; exact hlt.le
      · rw [compareLinks_color_ne b l m k h]
  · have hc := compareLinks_color_eq b l m e
    refine ⟨fun k v hv => ?_, fun k => by rw [hc], fun h => absurd (by rw [h]) e⟩
    rw [hc] at hv
    have := hb k v hv
    unfold compareLinks
    rw [if_neg e]
    simp only [updateDifferent, Board.setList]
    by_cases h1 : k = m <;> by_cases h2 : k = l <;> by_cases h3 : l = m <;> simp_all [mem_addValue]

theorem foldl_compare_grow (l : Link S) (ms : List (Link S)) (b : Board S) (hs : b.Sorted) (hb : b.Below) :
    (ms.foldl (compareLinks l) b).Below ∧ (∀ k, b.color k ≤ (ms.foldl (compareLinks l) b).color k)
    ∧ b.color l + ms.count l ≤ (ms.foldl (compareLinks l) b).color l := by
  induction ms generalizing b with
  | nil => exact ⟨hb, fun _ => le_rfl, le_rfl⟩
  | cons m ms ih =>
    obtain ⟨c1, c2, c3⟩ := compareLinks_below b l m hs hb
    obtain ⟨i1, i2, i3⟩ := ih (compareLinks l b m) (compareLinks_sorted b l m hs) c1
    rw [List.foldl_cons]
    refine ⟨i1, fun k => (c2 k).trans (i2 k), ?_⟩
    rw [List.count_cons]
    split
    · rename_i h
      have := c3 (by simpa using h)
      omega
    · have := c2 l
      omega

theorem foldl_process_grow (T : Torus S) (ls : List (Link S)) (b : Board S) (hs : b.Sorted) (hb : b.Below) :
    (ls.foldl (processLink T) b).Sorted ∧ (ls.foldl (processLink T) b).Below
    ∧ (∀ k, b.color k ≤ (ls.foldl (processLink T) b).color k)
    ∧ ∀ l ∈ ls, (compared T l).count l ≤ (ls.foldl (processLink T) b).color l := by
  induction ls generalizing b with
  | nil => exact ⟨hs, hb, fun _ => le_rfl, by simp⟩
  | cons l ls ih =>
    obtain ⟨c1, c2, c3⟩ := foldl_compare_grow l (compared T l) b hs hb
    obtain ⟨i0, i1, i2, i3⟩ := ih (processLink T b l) (foldl_compare_sorted l _ b hs) c1
    rw [List.foldl_cons]
    refine ⟨i0, i1, fun k => (c2 k).trans (i2 k), fun k hk => ?_⟩
    rcases List.mem_cons.1 hk with e | hk
    · subst e
      have h1 := i2 k
      have h2 : b.color k + (compared T k).count k ≤ (processLink T b k).color k := c3
      omega
    · exact i3 k hk

theorem boardLoop_grow (T : Torus S) (order : List S) (n : ℕ) (b : Board S) (hs : b.Sorted) (hb : b.Below) (k : Link S) :
    b.color k ≤ (boardLoop T order n b).color k := by
  induction n generalizing b with
  | zero => exact le_rfl
  | succ n ih =>
    unfold boardLoop
    split
    · obtain ⟨i0, i1, i2, -⟩ := foldl_process_grow T (linkOrderOf order) b hs hb
      exact (i2 k).trans (ih _ i0 i1)
    · exact le_rfl

/-- **C50 is false on narrow lattices.** On a lattice of a single site every link is compared with itself, and its colour
grows with every comparison: `statistics` indexes its arrays out of range, and no link in direction 0 is ever updated. -/
theorem C50_counterexample_narrow (T : Torus S) (s : S) (hone : ∀ x : S, x = s) :
    ¬statisticsInRange [s] (boardColors T [s])
    ∧ (sweepLinks [s] (boardColors T [s])).count (s, 0) = 0 := by
  have hlt : ¬boardColors T [s] (s, 0) < numberLoops [s] (boardColors T [s]) := by
    have h1 : numberLoops [s] (boardColors T [s]) ≤ 4 := by
      unfold numberLoops
      refine (List.Sublist.length_le (List.dedup_sublist _)).trans ?_
      simp [linkOrderOf]
    have hs0 : (boardStart : Board S).Sorted := (passInv_start T).sorted
    have hb0 : (boardStart : Board S).Below := fun l k hk => by simp [boardStart] at hk
    have h2 : 4 ≤ boardColors T [s] (s, 0) := by
      unfold boardColors
      rw [boardLoop, if_pos (checkCorrectness_pos_start T [s] (by simp))]
      obtain ⟨i0, i1, -, i3⟩ := foldl_process_grow T (linkOrderOf [s]) boardStart hs0 hb0
      have h3 := i3 (s, 0) (mem_linkOrderOf [s] (fun x => List.mem_singleton.2 (hone x)) _)
      have h4 := boardLoop_grow T [s] 2 _ i0 i1 (s, 0)
      have h5 : 4 ≤ (compared T (s, 0)).count (s, 0) := by
        have hup : ∀ μ x, T.sup μ x = s := fun μ x => hone _
        have hdn : ∀ μ x, T.sdn μ x = s := fun μ x => hone _
        simp [compared, conflicts, hup, hdn, List.finRange_succ, List.count_cons]
      generalize (compared T (s, 0)).count (s, 0) = n at h3 h5
      unfold boardPass
      exact h5.trans (h3.trans h4)
    omega
  refine ⟨fun h => hlt (h (s, 0) (by simp [linkOrderOf])), ?_⟩
  rw [count_sweepLinks [s] _ (fun x => List.mem_singleton.2 (hone x)) (by simp), if_neg hlt]

end

/-! ### The hypotheses can be met -/

/-- A lattice of the program, of extents 3, 3, 4, 5, in the order of its sites. -/
example : (boxTorus exExt3 exExt3_pos).Wide 2 ∧ ∃ order : List (BoxSite exExt3), (∀ s, s ∈ order) ∧ order.Nodup ∧ order ≠ [] := by
  classical
  have h : Nonempty (BoxSite exExt3) := ⟨⟨⟨0, 0, 0, 0⟩, by simp [InBox, exExt3]⟩⟩
  refine ⟨(boxTorus_wide _ _ _).2 (by decide), Finset.univ.toList, by simp, Finset.nodup_toList _, ?_⟩
  intro e
  have : (Classical.choice h) ∈ (Finset.univ : Finset (BoxSite exExt3)).toList := by simp
  rw [e] at this
  simp at this

end Leonard
