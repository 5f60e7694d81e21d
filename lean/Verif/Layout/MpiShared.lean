import Verif.Layout.MpiNumbering
import Mathlib.Data.List.Sort
import Mathlib.Algebra.Group.Action.Defs
import Mathlib.Algebra.Module.Defs

set_option autoImplicit false

namespace Leonard

theorem gidx_eq {g : Ext} (hg : g.Pos) (s : Site) : gidx g s = rawIndex g (wrap g s) := by
  unfold gidx; rw [globalCoordinateMpi_eq hg]

theorem gidx_inBox {g : Ext} {s : Site} (h : InBox g s) : gidx g s = rawIndex g s := by
  rw [gidx_eq h.pos, wrap_of_inBox h]

theorem gidx_loop_inj {α : Type} {g : Ext} (v : Site → α) :
    ∀ a ∈ loopSites g, ∀ b ∈ loopSites g, gidx g a = gidx g b → v a = v b := by
  intro a ha b hb e
  have ha := mem_loopSites.1 ha
  have hb := mem_loopSites.1 hb
  rw [gidx_inBox ha, gidx_inBox hb] at e
  rw [rawIndex_inj ha hb e]

theorem processor_eq {g p loc : Ext} {s : Site} (h : InBox g s) :
    processorNumberLattice g p loc (rawIndex g s) = some (rankOf p loc s) := by
  have := foldl_write_get (gidx g) (rankOf p loc) (loopSites g) (gidx_loop_inj _) Mem.empty s (mem_loopSites.2 h)
  rw [gidx_inBox h] at this
  exact this

theorem globalMapSite_eq {g : Ext} {s : Site} (h : InBox g s) : globalMapSite g (rawIndex g s) = some s := by
  have := foldl_write_get (gidx g) (fun s => s) (loopSites g) (gidx_loop_inj _) Mem.empty s (mem_loopSites.2 h)
  rw [gidx_inBox h] at this
  exact this

theorem globalStep_eq {g : Ext} {delta : Fin 4 → Site} {s : Site} (h : InBox g s) :
    globalStep g delta (rawIndex g s) = some fun i => rawIndex g (wrap g (s.add (delta i))) := by
  have := foldl_write_get (gidx g) (fun s => fun i => gidx g (s.add (delta i))) (loopSites g) (gidx_loop_inj _)
    Mem.empty s (mem_loopSites.2 h)
  rw [gidx_inBox h] at this
  refine this.trans ?_
  congr 1
  funext i
  exact gidx_eq h.pos _

theorem owner_eq {g p loc : Ext} {st : List Site} {s : Site} (h : InBox g s) :
    (sharedOf g p loc st).owner (rawIndex g s) = rankOf p loc s := by
  simp [sharedOf, processor_eq h]

/-! ### sort + unique -/

theorem mem_uniqueConsecutive (l : List ℤ) (a : ℤ) : a ∈ uniqueConsecutive l ↔ a ∈ l := by
  induction l using uniqueConsecutive.induct with
  | case1 => simp [uniqueConsecutive]
  | case2 b => simp [uniqueConsecutive]
  | case3 b l ih => rw [uniqueConsecutive, if_pos rfl, ih]; simp
  | case4 b c l h ih => rw [uniqueConsecutive, if_neg h, List.mem_cons, ih]; simp

theorem nodup_uniqueConsecutive (l : List ℤ) (h : l.Pairwise (· ≤ ·)) : (uniqueConsecutive l).Nodup := by
  induction l using uniqueConsecutive.induct with
  | case1 => simp [uniqueConsecutive]
  | case2 b => simp [uniqueConsecutive]
  | case3 b l ih => rw [uniqueConsecutive, if_pos rfl]; exact ih h.tail
  | case4 b c l hne ih =>
    rw [uniqueConsecutive, if_neg hne, List.nodup_cons, mem_uniqueConsecutive]
    refine ⟨?_, ih h.tail⟩
    intro hm
    rw [List.pairwise_cons] at h
    have hbc := h.1 c (by simp)
    have h2 := h.2
    rw [List.pairwise_cons] at h2
    rcases List.mem_cons.1 hm with e | e
    · exact hne e
    · have := h2.1 b e; omega

theorem mem_sortUnique (l : List ℤ) (a : ℤ) : a ∈ sortUnique l ↔ a ∈ l := by
  unfold sortUnique; rw [mem_uniqueConsecutive, List.mem_mergeSort]

theorem nodup_sortUnique (l : List ℤ) : (sortUnique l).Nodup := by
  unfold sortUnique
  apply nodup_uniqueConsecutive
  have := List.pairwise_mergeSort (le := fun a b : ℤ => decide (a ≤ b)) (by intro a b c; simp; omega) (by intro a b; simp; omega) l
  simpa using this

/-! ### The exchange table -/

/-- The decision and the pushed value of MPILayout.h 131, for one site and one offset. -/
def pushBody (g p loc : Ext) (s : Site) (m : ℤ → List ℤ) (d : Site) : ℤ → List ℤ :=
  let index := gidx g s
  let shiftedIndex := gidx g (s.add d)
  if processorNumberLattice g p loc index ≠ processorNumberLattice g p loc shiftedIndex then
    match processorNumberLattice g p loc index with
    | some r => pushAt m shiftedIndex r
    | none => m
  else m

theorem pushBody_mem {g p loc : Ext} {s : Site} (hs : InBox g s) (m : ℤ → List ℤ) (d s' : Site) (hs' : InBox g s') (r : ℤ) :
    r ∈ pushBody g p loc s m d (rawIndex g s') ↔
      r ∈ m (rawIndex g s') ∨ (wrap g (s.add d) = s' ∧ rankOf p loc s = r ∧ rankOf p loc s' ≠ r) := by
  unfold pushBody
  have hw := wrap_inBox hs.pos (s.add d)
  rw [gidx_inBox hs, gidx_eq hs.pos, processor_eq hs, processor_eq hw]
  simp only [ne_eq, Option.some.injEq]
  by_cases hr : rankOf p loc s = rankOf p loc (wrap g (s.add d))
  · rw [if_neg (by simpa using hr)]
    constructor
    · exact Or.inl
    · rintro (h | ⟨h1, h2, h3⟩)
      · exact h
      · exact absurd (by rw [← h1, ← hr, h2]) h3
  · rw [if_pos hr]
    unfold pushAt
    by_cases e : wrap g (s.add d) = s'
    · rw [if_pos (by rw [e])]
      simp only [List.mem_append, List.mem_singleton, e, true_and]
      constructor
      · rintro (h | h)
        · exact Or.inl h
        · refine Or.inr ⟨h.symm, ?_⟩
          rw [← e, h]; exact fun h' => hr h'.symm
      · rintro (h | h)
        · exact Or.inl h
        · exact Or.inr h.1.symm
    · rw [if_neg (fun h => e (rawIndex_inj hw hs' h.symm))]
      simp [e]

theorem inner_mem {g p loc : Ext} {s : Site} (hs : InBox g s) (st : List Site) (m : ℤ → List ℤ) (s' : Site) (hs' : InBox g s') (r : ℤ) :
    r ∈ st.foldl (pushBody g p loc s) m (rawIndex g s') ↔
      r ∈ m (rawIndex g s') ∨ (∃ d ∈ st, wrap g (s.add d) = s' ∧ rankOf p loc s = r ∧ rankOf p loc s' ≠ r) := by
  induction st generalizing m with
  | nil => simp
  | cons d st ih =>
    rw [List.foldl_cons, ih, pushBody_mem hs m d s' hs']
    simp only [List.mem_cons, exists_eq_or_imp, or_assoc]

theorem mem_exchange {g p loc : Ext} (st : List Site) {s' : Site} (hs' : InBox g s') (r : ℤ) :
    r ∈ (sharedOf g p loc st).exch (rawIndex g s') ↔
      ∃ s, InBox g s ∧ ∃ d ∈ st, wrap g (s.add d) = s' ∧ rankOf p loc s = r ∧ rankOf p loc s' ≠ r := by
  simp only [sharedOf]
  rw [mem_sortUnique]
  have : ∀ (l : List Site), (∀ s ∈ l, InBox g s) → ∀ m : ℤ → List ℤ,
      (r ∈ l.foldl (fun m s => st.foldl (pushBody g p loc s) m) m (rawIndex g s') ↔
        r ∈ m (rawIndex g s') ∨ ∃ s ∈ l, ∃ d ∈ st, wrap g (s.add d) = s' ∧ rankOf p loc s = r ∧ rankOf p loc s' ≠ r) := by
    intro l
    induction l with
    | nil => intro _ m; simp
    | cons a l ih =>
      intro hl m
      rw [List.foldl_cons, ih (fun s hs => hl s (by simp [hs])), inner_mem (hl a (by simp)) st m s' hs']
      simp only [List.mem_cons, exists_eq_or_imp, or_assoc]
  have h := this (loopSites g) (fun s hs => mem_loopSites.1 hs) (fun _ => [])
  refine Iff.trans h ?_
  simp only [List.not_mem_nil, false_or, mem_loopSites]

theorem sharedOf_ok {g p loc : Ext} (hg : g.Pos) (st : List Site) : (sharedOf g p loc st).Ok := by
  refine ⟨fun s _ _ => nodup_sortUnique _, fun s h0 h1 hm => ?_⟩
  have hb := unIndex_inBox hg ⟨h0, h1⟩
  rw [← rawIndex_unIndex (g := g) s, owner_eq hb, mem_exchange st hb] at hm
  obtain ⟨s', -, d, -, -, -, h⟩ := hm
  exact h rfl

/-! ### Start-up checks and the partition -/

theorem startUp_ok {g p loc : Ext} {c : ℤ} (hg : g.Pos) (hp : 0 ≤ p.x ∧ 0 ≤ p.y ∧ 0 ≤ p.z ∧ 0 ≤ p.t) (hc : 1 ≤ c)
    (h : startUp g p c = .ok loc) :
    p.Pos ∧ loc.Pos ∧ c = p.x * p.y * p.z * p.t ∧
      g.x = p.x * loc.x ∧ g.y = p.y * loc.y ∧ g.z = p.z * loc.z ∧ g.t = p.t * loc.t := by
  unfold startUp at h
  simp only at h
  split at h
  · cases h
  · rename_i hne
    simp only [not_not] at hne
    split at h
    · cases h
    · rename_i hx
      split at h
      · cases h
      · rename_i hy
        split at h
        · cases h
        · rename_i hz
          split at h
          · cases h
          · rename_i ht
            cases h
            simp only [not_not] at hx hy hz ht
            have px : 0 < p.x := by
              rcases hp.1.lt_or_eq with h | h
              · exact h
              · rw [← h] at hne; simp at hne; omega
            have py : 0 < p.y := by
              rcases hp.2.1.lt_or_eq with h | h
              · exact h
              · rw [← h] at hne; simp at hne; omega
            have pz : 0 < p.z := by
              rcases hp.2.2.1.lt_or_eq with h | h
              · exact h
              · rw [← h] at hne; simp at hne; omega
            have pt : 0 < p.t := by
              rcases hp.2.2.2.lt_or_eq with h | h
              · exact h
              · rw [← h] at hne; simp at hne; omega
            have ex : g.x = p.x * (g.x / p.x) := by have := Int.mul_ediv_add_emod g.x p.x; omega
            have ey : g.y = p.y * (g.y / p.y) := by have := Int.mul_ediv_add_emod g.y p.y; omega
            have ez : g.z = p.z * (g.z / p.z) := by have := Int.mul_ediv_add_emod g.z p.z; omega
            have et : g.t = p.t * (g.t / p.t) := by have := Int.mul_ediv_add_emod g.t p.t; omega
            obtain ⟨gx, gy, gz, gt⟩ := hg
            refine ⟨⟨px, py, pz, pt⟩, ⟨?_, ?_, ?_, ?_⟩, hne, ex, ey, ez, et⟩
            · show 0 < g.x / p.x
              by_contra hh; nlinarith
            · show 0 < g.y / p.y
              by_contra hh; nlinarith
            · show 0 < g.z / p.z
              by_contra hh; nlinarith
            · show 0 < g.t / p.t
              by_contra hh; nlinarith

/-- The conditions under which the checks succeed. -/
structure GridOk (g p loc : Ext) : Prop where
  gpos : g.Pos
  ppos : p.Pos
  lpos : loc.Pos
  x : g.x = p.x * loc.x
  y : g.y = p.y * loc.y
  z : g.z = p.z * loc.z
  t : g.t = p.t * loc.t

/-- The block coordinate of a site in the processor grid. -/
def blockOf (loc : Ext) (s : Site) : Site := ⟨s.x / loc.x, s.y / loc.y, s.z / loc.z, s.t / loc.t⟩

theorem rankOf_eq (p loc : Ext) (s : Site) : rankOf p loc s = rawIndex p (blockOf loc s) := rfl

theorem blockOf_inBox {g p loc : Ext} (h : GridOk g p loc) {s : Site} (hs : InBox g s) : InBox p (blockOf loc s) := by
  obtain ⟨hx, hy, hz, ht⟩ := hs
  obtain ⟨lx, ly, lz, lt⟩ := h.lpos
  rw [h.x] at hx; rw [h.y] at hy; rw [h.z] at hz; rw [h.t] at ht
  exact ⟨⟨Int.ediv_nonneg hx.1 lx.le, Int.ediv_lt_of_lt_mul lx hx.2⟩,
    ⟨Int.ediv_nonneg hy.1 ly.le, Int.ediv_lt_of_lt_mul ly hy.2⟩,
    ⟨Int.ediv_nonneg hz.1 lz.le, Int.ediv_lt_of_lt_mul lz hz.2⟩,
    ⟨Int.ediv_nonneg ht.1 lt.le, Int.ediv_lt_of_lt_mul lt ht.2⟩⟩

theorem rankOf_bounds {g p loc : Ext} (h : GridOk g p loc) {s : Site} (hs : InBox g s) :
    0 ≤ rankOf p loc s ∧ rankOf p loc s < p.volume := by
  rw [rankOf_eq]; exact rawIndex_bounds (blockOf_inBox h hs)

/-- The first site of the block of rank `r`. -/
def blockOrigin (p loc : Ext) (r : ℤ) : Site :=
  ⟨(unIndex p r).x * loc.x, (unIndex p r).y * loc.y, (unIndex p r).z * loc.z, (unIndex p r).t * loc.t⟩

/-- `s` lies in the rectangular block with first corner `o` and extents `loc`. -/
def InBlock (o : Site) (loc : Ext) (s : Site) : Prop :=
  (o.x ≤ s.x ∧ s.x < o.x + loc.x) ∧ (o.y ≤ s.y ∧ s.y < o.y + loc.y) ∧
  (o.z ≤ s.z ∧ s.z < o.z + loc.z) ∧ (o.t ≤ s.t ∧ s.t < o.t + loc.t)

theorem div_eq_iff_block {a b l : ℤ} (hl : 0 < l) : a / l = b ↔ b * l ≤ a ∧ a < b * l + l := by
  constructor
  · rintro rfl
    have := Int.mul_ediv_add_emod a l
    have h1 := Int.emod_nonneg a hl.ne'
    have h2 := Int.emod_lt_of_pos a hl
    constructor <;> nlinarith
  · rintro ⟨h1, h2⟩
    apply le_antisymm
    · exact Int.lt_add_one_iff.1 (Int.ediv_lt_of_lt_mul hl (by linarith))
    · exact (Int.le_ediv_iff_mul_le hl).2 h1

theorem rankOf_iff_block {g p loc : Ext} (h : GridOk g p loc) {r : ℤ} (hr : 0 ≤ r ∧ r < p.volume) (s : Site) :
    (InBox g s ∧ rankOf p loc s = r) ↔ InBlock (blockOrigin p loc r) loc s := by
  have hu := unIndex_inBox h.ppos hr
  obtain ⟨lx, ly, lz, lt⟩ := h.lpos
  constructor
  · rintro ⟨hs, e⟩
    have : blockOf loc s = unIndex p r := by
      rw [← e, rankOf_eq, unIndex_rawIndex (blockOf_inBox h hs)]
    have ex : s.x / loc.x = (unIndex p r).x := congrArg Site.x this
    have ey : s.y / loc.y = (unIndex p r).y := congrArg Site.y this
    have ez : s.z / loc.z = (unIndex p r).z := congrArg Site.z this
    have et : s.t / loc.t = (unIndex p r).t := congrArg Site.t this
    exact ⟨(div_eq_iff_block lx).1 ex, (div_eq_iff_block ly).1 ey, (div_eq_iff_block lz).1 ez, (div_eq_iff_block lt).1 et⟩
  · rintro ⟨bx, by', bz, bt⟩
    have ex := (div_eq_iff_block (b := (unIndex p r).x) lx).2 bx
    have ey := (div_eq_iff_block (b := (unIndex p r).y) ly).2 by'
    have ez := (div_eq_iff_block (b := (unIndex p r).z) lz).2 bz
    have et := (div_eq_iff_block (b := (unIndex p r).t) lt).2 bt
    have hbl : blockOf loc s = unIndex p r := by
      simp [blockOf, ex, ey, ez, et]
    refine ⟨?_, by rw [rankOf_eq, hbl, rawIndex_unIndex]⟩
    obtain ⟨ux, uy, uz, ut⟩ := hu
    simp only [blockOrigin] at bx by' bz bt
    refine ⟨?_, ?_, ?_, ?_⟩
    · rw [h.x]; constructor <;> nlinarith
    · rw [h.y]; constructor <;> nlinarith
    · rw [h.z]; constructor <;> nlinarith
    · rw [h.t]; constructor <;> nlinarith

theorem length_loopSites {g : Ext} (hg : g.Pos) : ((loopSites g).length : ℤ) = g.volume := by
  obtain ⟨hx, hy, hz, ht⟩ := hg
  unfold loopSites Ext.volume
  simp only [List.length_flatMap, List.length_map, length_intRange, List.map_const', List.sum_replicate, smul_eq_mul]
  push_cast
  rw [Int.toNat_of_nonneg hx.le, Int.toNat_of_nonneg hy.le, Int.toNat_of_nonneg hz.le, Int.toNat_of_nonneg ht.le]
  ring

theorem nodup_loopSites (g : Ext) : (loopSites g).Nodup := by
  unfold loopSites
  rw [List.nodup_flatMap]
  refine ⟨fun x _ => ?_, ?_⟩
  · rw [List.nodup_flatMap]
    refine ⟨fun y _ => ?_, ?_⟩
    · rw [List.nodup_flatMap]
      refine ⟨fun z _ => ?_, ?_⟩
      · exact (nodup_intRange _).map (fun a b h => by simpa using h)
      · refine (nodup_intRange _).imp ?_
        intro a b hab
        simp only [Function.onFun]
        intro s hs hs'
        simp only [List.mem_map] at hs hs'
        obtain ⟨_, _, rfl⟩ := hs
        obtain ⟨_, _, h⟩ := hs'
        exact hab (congrArg Site.z h).symm
    · refine (nodup_intRange _).imp ?_
      intro a b hab
      simp only [Function.onFun]
      intro s hs hs'
      simp only [List.mem_flatMap, List.mem_map] at hs hs'
      obtain ⟨_, _, _, _, rfl⟩ := hs
      obtain ⟨_, _, _, _, h⟩ := hs'
      exact hab (congrArg Site.y h).symm
  · refine (nodup_intRange _).imp ?_
    intro a b hab
    simp only [Function.onFun]
    intro s hs hs'
    simp only [List.mem_flatMap, List.mem_map] at hs hs'
    obtain ⟨_, _, _, _, _, _, rfl⟩ := hs
    obtain ⟨_, _, _, _, _, _, h⟩ := hs'
    exact hab (congrArg Site.x h).symm

/-- The sites with a given rank, as a list of coordinates, are a translate of the block. -/
theorem rank_sites_perm {g p loc : Ext} (h : GridOk g p loc) {r : ℤ} (hr : 0 ≤ r ∧ r < p.volume) :
    ((loopSites g).filter fun s => rankOf p loc s = r).Perm ((loopSites loc).map (blockOrigin p loc r).add) := by
  have n1 : ((loopSites g).filter fun s => rankOf p loc s = r).Nodup := (nodup_loopSites g).filter _
  have n2 : ((loopSites loc).map (blockOrigin p loc r).add).Nodup := by
    refine (nodup_loopSites loc).map ?_
    intro a b e
    cases a; cases b
    simp only [Site.add, Site.mk.injEq, add_right_inj] at e ⊢
    exact e
  refine (List.perm_ext_iff_of_nodup n1 n2).2 fun s => ?_
  simp only [List.mem_filter, mem_loopSites, decide_eq_true_eq, List.mem_map]
  rw [rankOf_iff_block h hr]
  constructor
  · rintro ⟨bx, by', bz, bt⟩
    refine ⟨s.sub (blockOrigin p loc r), ?_, ?_⟩
    · simp only [InBox, Site.sub]; omega
    · simp [Site.add, Site.sub]
  · rintro ⟨a, ⟨ax, ay, az, at'⟩, rfl⟩
    simp only [InBlock, Site.add]; omega

theorem ownedSites_length {g p loc : Ext} (h : GridOk g p loc) (st : List Site) {r : ℤ} (hr : 0 ≤ r ∧ r < p.volume) :
    ((ownedSites (sharedOf g p loc st) r).length : ℤ) = loc.x * loc.y * loc.z * loc.t := by
  have hp : (ownedSites (sharedOf g p loc st) r).Perm (((loopSites g).filter fun s => rankOf p loc s = r).map (rawIndex g)) := by
    refine (List.perm_ext_iff_of_nodup ?_ ?_).2 ?_
    · exact List.Nodup.filter _ (nodup_intRange _)
    · refine List.Nodup.map_on ?_ ((nodup_loopSites g).filter _)
      intro a ha b hb e
      exact rawIndex_inj (mem_loopSites.1 (List.mem_filter.1 ha).1) (mem_loopSites.1 (List.mem_filter.1 hb).1) e
    · intro i
      simp only [ownedSites, List.mem_filter, mem_intRange, decide_eq_true_eq, List.mem_map, mem_loopSites]
      constructor
      · rintro ⟨hi, ho⟩
        have hi' : 0 ≤ i ∧ i < g.volume := hi
        have hb := unIndex_inBox h.gpos hi'
        rw [← rawIndex_unIndex (g := g) i, owner_eq hb] at ho
        exact ⟨unIndex g i, ⟨hb, ho⟩, rawIndex_unIndex i⟩
      · rintro ⟨s, ⟨hs, ho⟩, rfl⟩
        exact ⟨rawIndex_bounds hs, by rw [owner_eq hs, ho]⟩
  rw [hp.length_eq, List.length_map, (rank_sites_perm h hr).length_eq, List.length_map, length_loopSites h.lpos]
  rfl

end Leonard
