import Verif.Io.Lemmas2
import Verif.Layout.MpiProps
import Mathlib.Tactic.FinCases
import Mathlib.Tactic.LinearCombination

/-! # C15 - C18: configuration files -/

set_option autoImplicit false

namespace Leonard

/-! ### C15 -/

theorem localsize_le_completesize {g p loc : Ext} {st : List Site} {r : ℤ} {L : RankLayout} {order : List ℤ}
    (R : RankOk (sharedOf g p loc st) r L order) : L.localsize ≤ L.completesize := by
  rw [R.localsize, R.complete]
  have : (ownedSites (sharedOf g p loc st) r).Subperm order := by
    refine List.subperm_of_subset (List.Nodup.filter _ (nodup_intRange _)) ?_
    intro i hi
    rw [R.mem]
    simp only [ownedSites, List.mem_filter, mem_intRange, decide_eq_true_eq] at hi
    exact ⟨hi.1, Or.inl hi.2⟩
  exact_mod_cast this.length_le

theorem visible_owner {g p loc : Ext} {st : List Site} (s : Site) : Visible g p loc st (rankOf p loc s) s := Or.inl rfl

/-- The sites whose records the ranks `0..c-1` write, in file order. -/
def sitesWritten (g p loc : Ext) (st : List Site) (c : ℤ) (Lay : ℤ → RankLayout) : List Site :=
  (intRange c).flatMap fun r => (intRange (Lay r).localsize).filterMap (rankTables g (sharedOf g p loc st) (Lay r)).coord

/-- **C15**. A configuration with links `F` (by rank and slot) is written by a run on the processor grid `p` with `c` processes; a run on
any other grid `p'` with `c'` processes and the same lattice reads it. Then writing succeeds on every rank; every
site of the lattice is written exactly once; and reading succeeds on every rank, whatever was in memory before and
whatever uninitialised variables contain: afterwards each slot of each rank (own sites and copies) holds, in every direction and matrix
element, bit for bit the link that the owner of the site had when writing, and nothing else in memory is changed. -/
theorem C15_any_grid (N : ℕ) (g p loc : Ext) (c : ℤ) (h : RunInput g p c) (hs : startUp g p c = .ok loc)
    (st : List Site) (Lay : ℤ → RankLayout) (hi : Initialised g p c st Lay)
    (p' loc' : Ext) (c' : ℤ) (h' : RunInput g p' c') (hs' : startUp g p' c' = .ok loc')
    (st' : List Site) (Lay' : ℤ → RankLayout) (hi' : Initialised g p' c' st' Lay')
    (hint : IntRange g.x ∧ IntRange g.y ∧ IntRange g.z ∧ IntRange g.t)
    (F : ℤ → ℤ → Links N) :
    ∃ files : ℤ → Option Bytes,
      (∀ r, 0 ≤ r → r < c → ∃ bytes, files r = some bytes ∧
        writeRank (Lay r).localsize (rankTables g (sharedOf g p loc st) (Lay r)).coord (F r) = .ok bytes) ∧
      (sitesWritten g p loc st c Lay).Perm (loopSites g) ∧
      ∀ r', 0 ≤ r' → r' < c' → ∀ (junk : Junk N) (M : ℤ → Links N),
        ∃ M', readLeonard g (rankIdx g (Lay' r')) junk (writeDescriptor g p c (Lay 0).localsize) files M = some M' ∧
          (∀ s, InBox g s → Visible g p' loc' st' r' s →
            M' ((Lay' r').localIndex (globalCoordinateLocal g s)) =
              F (rankOf p loc s) ((Lay (rankOf p loc s)).localIndex (globalCoordinateLocal g s))) ∧
          (∀ k, (k < 0 ∨ (Lay' r').completesize ≤ k) → M' k = M k) := by
  obtain ⟨G, hc⟩ := h.gridOk hs
  obtain ⟨G', hc'⟩ := h'.gridOk hs'
  obtain ⟨ord, R⟩ := hi.rankOk h hs
  obtain ⟨ord', R'⟩ := hi'.rankOk h' hs'
  -- site of a slot
  have ex : ∀ r k, ∃ s : Site, 0 ≤ r → r < c → 0 ≤ k → k < (Lay r).localsize →
      InBox g s ∧ rankOf p loc s = r ∧ (Lay r).localIndex (rawIndex g s) = k ∧
        (rankTables g (sharedOf g p loc st) (Lay r)).coord k = some s := by
    intro r k
    by_cases hk : 0 ≤ r ∧ r < c ∧ 0 ≤ k ∧ k < (Lay r).localsize
    · have Rr := R r hk.1 hk.2.1
      obtain ⟨s, a, b, e⟩ := slot_surj G.gpos Rr hk.2.2.1 (lt_of_lt_of_le hk.2.2.2 (localsize_le_completesize Rr))
      refine ⟨s, fun _ _ _ _ => ⟨a, (slot_owned Rr a b).1 (by rw [e]; exact hk.2.2.2), e, ?_⟩⟩
      rw [← e]; exact rank_coord Rr a b
    · exact ⟨⟨0, 0, 0, 0⟩, fun a b c d => absurd ⟨a, b, c, d⟩ hk⟩
  choose site hsite using ex
  let recs : ℤ → List (Site × Links N) := fun r => (intRange (Lay r).localsize).map fun k => (site r k, F r k)
  have hls : ∀ r, 0 ≤ r → r < c → (Lay r).localsize = loc.x * loc.y * loc.z * loc.t := by
    intro r a b
    rw [(R r a b).localsize, ownedSites_length G st ⟨a, hc ▸ b⟩]
  have hc0 : 0 < c := by have := h.processes; omega
  -- own slot of an owned site
  have own : ∀ s, InBox g s → ∃ k, k = (Lay (rankOf p loc s)).localIndex (rawIndex g s) ∧
      0 ≤ k ∧ k < (Lay (rankOf p loc s)).localsize ∧ site (rankOf p loc s) k = s := by
    intro s hb
    have rb := rankOf_bounds G hb
    have Rr := R _ rb.1 (hc ▸ rb.2)
    have sb := slot_bounds Rr hb (visible_owner s)
    have so := (slot_owned Rr hb (visible_owner s)).2 rfl
    refine ⟨_, rfl, sb.1, so, ?_⟩
    obtain ⟨-, -, -, e⟩ := hsite _ _ rb.1 (hc ▸ rb.2) sb.1 so
    have := rank_coord Rr hb (visible_owner s)
    rw [e] at this
    exact Option.some.inj this
  have mem_recs : ∀ r, 0 ≤ r → r < c → ∀ e ∈ recs r, InBox g e.1 ∧ rankOf p loc e.1 = r ∧
      e.2 = F r ((Lay r).localIndex (rawIndex g e.1)) := by
    intro r a b e he
    simp only [recs, List.mem_map, mem_intRange] at he
    obtain ⟨k, hk, rfl⟩ := he
    obtain ⟨i1, i2, i3, -⟩ := hsite r k a b hk.1 hk.2
    exact ⟨i1, i2, by rw [i3]⟩
  refine ⟨fun r => some (writeRecords (recs r)), fun r a b => ⟨_, rfl, ?_⟩, ?_, ?_⟩
  · -- writing
    unfold writeRank
    have : ∀ ks : List ℤ, (∀ k ∈ ks, 0 ≤ k ∧ k < (Lay r).localsize) →
        ks.mapM (slotRecord (rankTables g (sharedOf g p loc st) (Lay r)).coord (F r)) = Outcome.ok (ks.map fun k => writeRecord (site r k) (F r k)) := by
      intro ks hk
      induction ks with
      | nil => rfl
      | cons k ks ih =>
        rw [List.mapM_cons, ih fun k' h' => hk k' (by simp [h'])]
        unfold slotRecord
        rw [(hsite r k a b (hk k (by simp)).1 (hk k (by simp)).2).2.2.2]
        rfl
    rw [this _ fun k hk => mem_intRange.1 hk]
    simp only [Outcome.bind_ok, Outcome.pure_eq]
    congr 1
    simp only [writeRecords, recs, List.flatMap_map]
    rw [List.flatMap_def]
  · -- every site once
    unfold sitesWritten
    have e1 : ∀ r, 0 ≤ r → r < c →
        (intRange (Lay r).localsize).filterMap (rankTables g (sharedOf g p loc st) (Lay r)).coord =
          (intRange (Lay r).localsize).map (site r) := by
      intro r a b
      rw [← List.filterMap_eq_map]
      refine List.filterMap_congr fun k hk => ?_
      rw [mem_intRange] at hk
      rw [(hsite r k a b hk.1 hk.2).2.2.2]; rfl
    have e2 : (intRange c).flatMap (fun r => (intRange (Lay r).localsize).filterMap
          (rankTables g (sharedOf g p loc st) (Lay r)).coord) =
        (intRange c).flatMap fun r => (intRange (Lay r).localsize).map (site r) := by
      simp only [List.flatMap_def]
      congr 1
      refine List.map_congr_left fun r hr => e1 r (mem_intRange.1 hr).1 (mem_intRange.1 hr).2
    rw [e2]
    refine (List.perm_ext_iff_of_nodup ?_ (nodup_loopSites g)).2 ?_
    · rw [List.nodup_flatMap]
      refine ⟨fun r hr => ?_, ?_⟩
      · rw [mem_intRange] at hr
        refine List.Nodup.map_on ?_ (nodup_intRange _)
        intro k hk k' hk' e
        rw [mem_intRange] at hk hk'
        have a := (hsite r k hr.1 hr.2 hk.1 hk.2).2.2.1
        have b := (hsite r k' hr.1 hr.2 hk'.1 hk'.2).2.2.1
        rw [e] at a; exact a.symm.trans b
      · refine List.Pairwise.imp_of_mem ?_ (nodup_intRange c)
        intro r r' hr hr' hne
        rw [mem_intRange] at hr hr'
        simp only [Function.onFun, List.disjoint_left, List.mem_map, mem_intRange]
        rintro s ⟨k, hk, rfl⟩ ⟨k', hk', e⟩
        have a := (hsite r k hr.1 hr.2 hk.1 hk.2).2.1
        have b := (hsite r' k' hr'.1 hr'.2 hk'.1 hk'.2).2.1
        rw [e] at b
        exact hne (a.symm.trans b)
    · intro s
      rw [mem_loopSites]
      simp only [List.mem_flatMap, List.mem_map, mem_intRange]
      constructor
      · rintro ⟨r, hr, k, hk, rfl⟩
        exact (hsite r k hr.1 hr.2 hk.1 hk.2).1
      · intro hb
        obtain ⟨k, -, k0, k1, ks⟩ := own s hb
        have rb := rankOf_bounds G hb
        exact ⟨_, ⟨rb.1, hc ▸ rb.2⟩, k, ⟨k0, k1⟩, ks⟩
  · -- reading
    intro r' a' b' junk M
    have Rr' := R' r' a' b'
    have range : ∀ s, InBox g s → SiteRange s := by
      intro s hb
      obtain ⟨⟨x0, x1⟩, ⟨y0, y1⟩, ⟨z0, z1⟩, t0, t1⟩ := hb
      obtain ⟨⟨-, hx⟩, ⟨-, hy⟩, ⟨-, hz⟩, -, ht⟩ := hint
      exact ⟨⟨by omega, by omega⟩, ⟨by omega, by omega⟩, ⟨by omega, by omega⟩, by omega, by omega⟩
    have hread : readLeonard g (rankIdx g (Lay' r')) junk (writeDescriptor g p c (Lay 0).localsize)
        (fun r => some (writeRecords (recs r))) M =
        some (((intRange c).flatMap recs).foldl (store (rankIdx g (Lay' r'))) M) := by
      unfold readLeonard writeDescriptor
      simp only [List.getElem?_cons_zero, List.getElem?_cons_succ, Option.getD_some]
      rw [if_neg (by simp)]
      refine readFiles_ok _ _ _ _ _ _ (fun _ _ => rfl) ?_ ?_ _
      · intro q hq
        rw [mem_intRange] at hq
        simp only [recs, List.length_map, length_intRange]
        rw [hls q hq.1 hq.2, hls 0 le_rfl hc0]
      · intro q hq e he
        rw [mem_intRange] at hq
        exact range _ (mem_recs q hq.1 hq.2 e he).1
    refine ⟨_, hread, ?_, ?_⟩
    · intro s hb hv
      rw [globalCoordinateLocal_inBox hb]
      have hidx : rankIdx g (Lay' r') s = (Lay' r').localIndex (rawIndex g s) := by
        unfold rankIdx; rw [gidx_inBox hb]
      rw [← hidx]
      have rb := rankOf_bounds G hb
      refine foldl_store_mem _ _ _ s _ ?_ ?_ ?_
      · rw [hidx]; have := (slot_bounds Rr' hb hv).1; omega
      · rw [List.mem_flatMap]
        obtain ⟨k, hk, k0, k1, ks⟩ := own s hb
        refine ⟨rankOf p loc s, mem_intRange.2 ⟨rb.1, hc ▸ rb.2⟩, ?_⟩
        simp only [recs, List.mem_map, mem_intRange]
        exact ⟨k, ⟨k0, k1⟩, by rw [ks, hk]⟩
      · intro e he hidx'
        rw [List.mem_flatMap] at he
        obtain ⟨q, hq, he⟩ := he
        rw [mem_intRange] at hq
        obtain ⟨i1, i2, i3⟩ := mem_recs q hq.1 hq.2 e he
        have : e.1 = s := by
          rw [hidx] at hidx'
          unfold rankIdx at hidx'
          rw [gidx_inBox i1] at hidx'
          have hve : Visible g p' loc' st' r' e.1 := by
            rw [← mem_order_iff Rr' i1]
            by_contra hn
            have := Rr'.absent _ hn
            have := (slot_bounds Rr' hb hv).1
            omega
          exact slot_inj Rr' i1 hve hb hv hidx'
        obtain ⟨e1, e2⟩ := e
        simp only at this i2 i3
        subst this
        rw [i3, i2]
    · intro k hk
      refine foldl_store_other _ _ _ _ ?_
      intro e he
      rw [List.mem_flatMap] at he
      obtain ⟨q, hq, he⟩ := he
      rw [mem_intRange] at hq
      obtain ⟨i1, -, -⟩ := mem_recs q hq.1 hq.2 e he
      unfold rankIdx
      rw [gidx_inBox i1]
      by_cases hm : rawIndex g e.1 ∈ ord' r'
      · right
        have := slot_bounds Rr' i1 ((mem_order_iff Rr' i1).1 hm)
        omega
      · left; exact Rr'.absent _ hm

/-- Written on a 2×1×1×2 grid, read on a 1×1×2×1 grid. -/
example : RunInput ⟨4, 2, 2, 4⟩ ⟨2, 1, 1, 2⟩ 4 ∧ startUp ⟨4, 2, 2, 4⟩ ⟨2, 1, 1, 2⟩ 4 = .ok ⟨2, 2, 2, 2⟩ ∧
    (∃ Lay, Initialised ⟨4, 2, 2, 4⟩ ⟨2, 1, 1, 2⟩ 4 extendedStencil Lay) ∧
    RunInput ⟨4, 2, 2, 4⟩ ⟨1, 1, 2, 1⟩ 2 ∧ startUp ⟨4, 2, 2, 4⟩ ⟨1, 1, 2, 1⟩ 2 = .ok ⟨4, 2, 1, 4⟩ ∧
    (∃ Lay, Initialised ⟨4, 2, 2, 4⟩ ⟨1, 1, 2, 1⟩ 2 extendedStencil Lay) := by
  have h1 : RunInput ⟨4, 2, 2, 4⟩ ⟨2, 1, 1, 2⟩ 4 := ⟨by decide, by decide, by decide⟩
  have h2 : RunInput ⟨4, 2, 2, 4⟩ ⟨1, 1, 2, 1⟩ 2 := ⟨by decide, by decide, by decide⟩
  exact ⟨h1, by decide, initialised_exists h1 (loc := ⟨2, 2, 2, 2⟩) (by decide) _, h2, by decide,
    initialised_exists h2 (loc := ⟨4, 2, 1, 4⟩) (by decide) _⟩

/-! ### C16 -/

/-- **C16** (leonard_format, the part that holds). On every rank, whatever is in the files and in uninitialised variables: a
descriptor of another lattice makes the reader report failure; and so does a missing file of any of the announced ranks.

Missing for the full claim: a truncated file is not noticed (`C16_truncated_counterexample`), nor is a missing descriptor
(`C16_missing_descriptor_counterexample`) or an unknown format name (`C16_unknown_format_counterexample`). -/
theorem C16_leonard_partial (N : ℕ) (g : Ext) (idx : Site → ℤ) (junk : Junk N) (files : ℤ → Option Bytes) (M : ℤ → Links N) :
    (∀ g' p' c' n', g' ≠ g → readLeonard g idx junk (writeDescriptor g' p' c' n') files M = none) ∧
    (∀ p' c' n' q, 0 ≤ q → q < c' → files q = none → readLeonard g idx junk (writeDescriptor g p' c' n') files M = none) := by
  constructor
  · intro g' p' c' n' hne
    unfold readLeonard writeDescriptor
    simp only [List.getElem?_cons_zero, List.getElem?_cons_succ, Option.getD_some]
    rw [if_pos]
    by_contra hn
    push Not at hn
    exact hne (by cases g; cases g'; simp_all)
  · intro p' c' n' q h0 h1 hq
    unfold readLeonard writeDescriptor
    simp only [List.getElem?_cons_zero, List.getElem?_cons_succ, Option.getD_some]
    rw [if_neg (by simp)]
    have : ∀ (qs : List ℤ), q ∈ qs → ∀ F, readFiles idx junk n' files qs F = none := by
      intro qs
      induction qs with
      | nil => simp
      | cons a qs ih =>
        intro hm F
        unfold readFiles
        rcases List.mem_cons.1 hm with rfl | hm
        · rw [hq]
        · cases files a with
          | none => rfl
          | some f => exact ih hm _
    exact this _ (mem_intRange.2 ⟨h0, h1⟩) _

example : (⟨4, 4, 4, 8⟩ : Ext) ≠ ⟨4, 4, 4, 4⟩ := by decide

/-- **C16, counterexample 1**. The leonard reader reports success for every content of the rank files, in particular for every
truncation; a file cut to length 0 on a lattice of one site leaves the values of uninitialised variables in the links. -/
theorem C16_truncated_counterexample :
    (∀ (N : ℕ) (g p : Ext) (c n : ℤ) (idx : Site → ℤ) (junk : Junk N) (bytes : ℤ → Bytes) (M : ℤ → Links N),
      (readLeonard g idx junk (writeDescriptor g p c n) (fun q => some (bytes q)) M).isSome = true) ∧
    (∀ (junk : Junk 2) (M : ℤ → Links 2), ∃ M',
      readLeonard ⟨1, 1, 1, 1⟩ (fun _ => 0) junk (writeDescriptor ⟨1, 1, 1, 1⟩ ⟨1, 1, 1, 1⟩ 1 1) (fun _ => some []) M = some M' ∧
      M' 0 = junk.link 0 0) := by
  constructor
  · intro N g p c n idx junk bytes M
    unfold readLeonard writeDescriptor
    simp only [List.getElem?_cons_zero, List.getElem?_cons_succ, Option.getD_some]
    rw [if_neg (by simp)]
    have : ∀ (qs : List ℤ), ∀ F, (readFiles idx junk n (fun q => some (bytes q)) qs F).isSome = true := by
      intro qs
      induction qs with
      | nil => intro F; rfl
      | cons a qs ih => intro F; unfold readFiles; exact ih _
    exact this _ _
  · intro junk M
    refine ⟨_, rfl, ?_⟩
    have hl : ∀ (es : List (Fin 4 × Fin 2 × Fin 2)) (F : ℤ → Links 2),
        readLinks (junk.link 0 0) 0 es (F, []) =
          (fun k' mu i j => if k' = 0 ∧ (mu, i, j) ∈ es then junk.link 0 0 mu i j else F k' mu i j, []) := by
      intro es
      induction es with
      | nil => intro F; simp [readLinks]
      | cons e es ih =>
        intro F
        unfold readLinks
        rw [List.foldl_cons]
        have := ih (fun k' mu i j => if k' = 0 ∧ (mu, i, j) = e then junk.link 0 0 e.1 e.2.1 e.2.2 else F k' mu i j)
        unfold readLinks at this
        have hg : getDouble [] = (none, []) := rfl
        simp only [hg, Option.getD_none]
        rw [this]
        congr 1
        funext k' mu i j
        by_cases hk : k' = 0
        · by_cases h1 : (mu, i, j) ∈ es
          · simp [hk, h1]
          · by_cases h2 : (mu, i, j) = e
            · subst h2; simp [hk]
            · simp [hk, h1, h2]
        · simp [hk]
    have hi : intRange 1 = [0] := by decide
    change (((intRange 1).foldl (fun st index => readRecord (fun _ => 0) (junk.coord 0 index) (junk.link 0 index) st) (M, [])).1) 0 = _
    rw [hi]
    change (readRecord (fun _ => 0) (junk.coord 0 0) (junk.link 0 0) (M, [])).1 0 = _
    unfold readRecord
    rw [if_pos (show (0 : ℤ) ≠ -1 by decide)]
    have hi : (getInt []).2 = [] := rfl
    simp only [hi]
    rw [hl]
    funext mu i j
    simp [mem_linkOrder]

/-- **C16, counterexample 2**. If the descriptor does not exist, the reader can report success without having read anything. -/
theorem C16_missing_descriptor_counterexample (N : ℕ) (g : Ext) (idx : Site → ℤ) (M : ℤ → Links N) :
    ∃ junk : Junk N, readLeonard g idx junk [] (fun _ => none) M = some M := by
  refine ⟨⟨fun k => if k = 0 then g.x else if k = 1 then g.y else if k = 2 then g.z else if k = 3 then g.t else 0,
    fun _ _ => ⟨0, 0, 0, 0⟩, fun _ _ _ _ _ => (0, 0)⟩, ?_⟩
  unfold readLeonard
  simp [intRange, readFiles]

/-- **C16, counterexample 3**. A format name that is neither of the two known ones is reported as success, nothing being read. -/
theorem C16_unknown_format_counterexample (name : String) (h1 : name ≠ "leonard_format") (h2 : name ≠ "muenster_format") :
    readDispatch name false false = true := by
  unfold readDispatch; rw [if_neg h1, if_neg h2]

example : "leonard" ≠ "leonard_format" ∧ "leonard" ≠ "muenster_format" := by decide

/-- **C16** (muenster_format, three colours, the part that holds). A missing file is reported on every rank. The output process
reports success only if all link values were read; and if the file contains the four extents, then exactly if moreover these are the extents of
the run.

Missing for the full claim: the other ranks report success for every file that can be opened
(`C16_muenster_other_ranks_counterexample`). -/
theorem C16_muenster3_partial (g : Ext) (hg : g.Pos) (junk : Ext) :
    (∀ output, readMuenster3 g output junk none = false) ∧
    (∀ bytes, readMuenster3 g true junk (some bytes) = true → 192 * g.volume ≤ bytes.length) ∧
    (∀ bytes (e : Ext) (rest : Bytes), (bytes.length : ℤ) = 192 * g.volume →
      IntRange e.x → IntRange e.y → IntRange e.z → IntRange e.t →
      (readMuenster3 g true junk (some (bytes ++ (xdrInt e.x ++ xdrInt e.y ++ xdrInt e.z ++ xdrInt e.t ++ rest))) = true ↔ e = g)) := by
  have hv : 0 ≤ g.volume := by
    unfold Ext.volume; obtain ⟨a, b, c, d⟩ := hg; positivity
  refine ⟨fun _ => rfl, fun bytes h => ?_, fun bytes e rest hb hx hy hz ht => ?_⟩
  · unfold readMuenster3 at h
    simp only [if_true, Bool.and_eq_true, decide_eq_true_eq] at h
    have := h.1
    rw [redCount_getFloats] at this
    omega
  · unfold readMuenster3
    simp only [if_true, Bool.and_eq_true, decide_eq_true_eq]
    rw [redCount_getFloats, getFloats_rest, drop_append_len _ _ _ (by omega)]
    unfold getExtents
    simp only [List.append_assoc, getInt_xdrInt _ hx, getInt_xdrInt _ hy, getInt_xdrInt _ hz, getInt_xdrInt _ ht, Option.getD_some]
    constructor
    · exact fun h => h.2
    · intro h
      refine ⟨?_, h⟩
      rw [List.length_append]
      have : min (48 * g.volume.toNat) ((bytes.length + (xdrInt e.x ++ (xdrInt e.y ++ (xdrInt e.z ++ (xdrInt e.t ++ rest)))).length) / 4) =
        48 * g.volume.toNat := by
        apply Nat.min_eq_left; omega
      rw [this]; push_cast; omega

/-- A `float` as stored by XDR. -/
def xdrFloat (b : F32) : Bytes := be 4 b.toNat

theorem getFloat_xdrFloat (b : F32) (rest : Bytes) : getFloat (xdrFloat b ++ rest) = (some b, rest) := by
  have hl : (xdrFloat b).length = 4 := by simp [xdrFloat]
  unfold getFloat
  rw [if_neg (by simp [hl]), take_append_len _ _ _ hl, drop_append_len _ _ _ hl]
  unfold xdrFloat
  rw [ofBe_be, Nat.mod_eq_of_lt]
  · simp
  · have := b.isLt; norm_num at *; exact this

theorem kappaLoop_reads (ks : List F32) (last : F32) (hneg : ∀ k ∈ ks, k.isNeg = true) (hlast : last.isNeg = false) (rest : Bytes) :
    ∀ (k : F32) (n : ℕ), k.isNeg = true →
      kappaLoop (ks.flatMap xdrFloat ++ (xdrFloat last ++ rest)) k n = some (n + ks.length + 1, rest) := by
  induction ks with
  | nil =>
    intro k n hk
    rw [kappaLoop, if_pos hk]
    simp only [List.flatMap_nil, List.nil_append, getFloat_xdrFloat, Option.getD_some]
    rw [kappaLoop, if_neg (by simp [hlast])]
    rfl
  | cons a ks ih =>
    intro k n hk
    rw [kappaLoop, if_pos hk]
    simp only [List.flatMap_cons, List.append_assoc, getFloat_xdrFloat, Option.getD_some]
    rw [ih (fun x hx => hneg x (by simp [hx])) a (n + 1) (hneg a (by simp))]
    simp; omega

theorem skipInts_rest (n : ℕ) (s : Bytes) : skipInts n s = s.drop (4 * n) := by
  induction n generalizing s with
  | zero => rfl
  | succ n ih =>
    simp only [skipInts]
    rw [ih, getInt_rest, List.drop_drop]
    congr 1; ring

/-- **C16** (muenster_format, two colours, the part that holds). A missing file is reported on every rank. A file with all the link
values, the four numbers that follow, a list of negative kappas closed by one that is not negative, the values that go with the kappas, and four extents,
is reported as read by the output process exactly if the extents are those of the run. Files that end earlier make the program hang
(`C16_muenster2_hangs_counterexample`). -/
theorem C16_muenster2_partial (g : Ext) (hg : g.Pos) (junk : Ext) :
    (∀ output, readMuenster2 g output junk none = some false) ∧
    (∀ (links header middle rest : Bytes) (kappas : List F32) (last : F32) (e : Ext), (links.length : ℤ) = 64 * g.volume →
      header.length = 16 → (∀ k ∈ kappas, k.isNeg = true) → last.isNeg = false →
      middle.length = 32 * (kappas.length + 1) + 4 → IntRange e.x → IntRange e.y → IntRange e.z → IntRange e.t →
      (readMuenster2 g true junk (some (links ++ (header ++ (kappas.flatMap xdrFloat ++ (xdrFloat last ++ (middle ++
        (xdrInt e.x ++ (xdrInt e.y ++ (xdrInt e.z ++ (xdrInt e.t ++ rest)))))))))) = some true ↔ e = g)) := by
  have hv : 0 ≤ g.volume := by
    unfold Ext.volume; obtain ⟨a, b, c, d⟩ := hg; positivity
  refine ⟨fun _ => rfl, fun links header middle rest kappas last e hl hh hk hlast hm hx hy hz ht => ?_⟩
  unfold readMuenster2
  simp only [if_true]
  rw [redCount_getFloats, getFloats_rest, drop_append_len _ _ _ (by omega)]
  unfold trailer2
  simp only [getFloats_rest]
  rw [drop_append_len _ _ _ (by omega), kappaLoop_reads kappas last hk hlast _ _ _ (by decide)]
  simp only [Option.bind_eq_bind, Option.bind_some, skipInts_rest, List.drop_drop]
  rw [drop_append_len _ _ _ (by omega)]
  unfold getExtents
  simp only [getInt_xdrInt _ hx, getInt_xdrInt _ hy, getInt_xdrInt _ hz, getInt_xdrInt _ ht, Option.getD_some]
  have hc : ((min (16 * g.volume.toNat) ((links ++ (header ++ (kappas.flatMap xdrFloat ++ (xdrFloat last ++ (middle ++
        (xdrInt e.x ++ (xdrInt e.y ++ (xdrInt e.z ++ (xdrInt e.t ++ rest))))))))).length / 4) : ℕ) : ℤ) = 16 * g.volume := by
    rw [List.length_append, Nat.min_eq_left (by omega)]
    push_cast; omega
  rw [hc]
  simp

/-- The hypotheses are met: a `1⁴` lattice with one kappa. -/
example : let g : Ext := ⟨1, 1, 1, 1⟩
    ((List.replicate 64 (0 : Byte)).length : ℤ) = 64 * g.volume ∧ F32.isNeg 0x3e000000#32 = false ∧ IntRange g.x := by
  refine ⟨by decide, by decide, ?_⟩
  unfold IntRange; decide

/-- **C16, counterexample 4**. Every rank but the output process reports success for every file that can be opened, also an empty one, and so
the ranks disagree about whether reading succeeded. -/
theorem C16_muenster_other_ranks_counterexample (g : Ext) (hg : g.Pos) (junk : Ext) :
    (∀ bytes, readMuenster3 g false junk (some bytes) = true ∧ readMuenster2 g false junk (some bytes) = some true) ∧
    readMuenster3 g true junk (some []) = false := by
  refine ⟨fun bytes => ⟨rfl, rfl⟩, ?_⟩
  by_contra h
  rw [Bool.not_eq_false] at h
  have := (C16_muenster3_partial g hg junk).2.1 [] h
  have hv : 0 < g.volume := by
    unfold Ext.volume; obtain ⟨a, b, c, d⟩ := hg; positivity
  simp at this
  omega

/-- **C16, counterexample 5**. With two colours, every file that ends before the first kappa (that is any file truncated in the links)
makes the output process loop for ever, because the variable that ends the loop is never read. -/
theorem C16_muenster2_hangs_counterexample (g : Ext) (junk : Ext) (bytes : Bytes)
    (h : bytes.length < 64 * g.volume.toNat + 20) : readMuenster2 g true junk (some bytes) = none := by
  unfold readMuenster2
  simp only [if_true]
  unfold trailer2
  simp only [getFloats_rest]
  rw [kappaLoop_diverges]
  · rfl
  · rw [List.length_drop, List.length_drop]; omega
  · decide

example : ([] : Bytes).length < 64 * (⟨4, 4, 4, 8⟩ : Ext).volume.toNat + 20 := by decide

/-! ### C17 -/

/-- **C17** (one call). Let `c` be the current number: the given start number at the first call, later the number left by the previous
call. If the first readable one among the 99 numbers `c, c + step, c + 2 step, ...` is `c + j step`, this one is loaded and the next call
starts at the number after it. If none of the 99 is readable the program ends with exit code 73. -/
theorem C17_next (readable : ℤ → Bool) (start step counter c : ℤ) (hc : c = if counter = -1 then start else counter) :
    (∀ j : ℕ, j < 99 → (∀ i : ℕ, i < j → readable (c + i * step) = false) → readable (c + j * step) = true →
      readNext readable start step counter = .ok (c + j * step, c + (j + 1) * step)) ∧
    ((∀ i : ℕ, i < 99 → readable (c + i * step) = false) → readNext readable start step counter = .exit 73) := by
  unfold readNext
  simp only
  rw [← hc]
  obtain ⟨A, B⟩ := readLoop_spec readable step 100 c 1 (by omega) (by omega)
  cases hr : readable c with
  | true =>
    refine ⟨fun j hj h1 h2 => ?_, fun h => ?_⟩
    · rw [if_pos rfl]
      by_cases j0 : j = 0
      · subst j0; simp
      · have := h1 0 (by omega); simp [hr] at this
    · have := h 0 (by omega); simp [hr] at this
  | false =>
    simp only [Bool.false_eq_true, if_false]
    refine ⟨fun j hj h1 h2 => A j ?_ (by omega) (fun i _ hi => h1 i hi) h2, fun h => B fun i _ hi => h i (by omega)⟩
    by_contra h0
    have : j = 0 := by omega
    subst this
    simp [hr] at h2

/-- The `i`-th number of the sequence. -/
def seqNumber (start step : ℤ) (i : ℕ) : ℤ := start + i * step

theorem readSequence_aux (readable : ℤ → Bool) (start step : ℤ) (h0 : 0 ≤ start) (h1 : 0 ≤ step) (n : ℕ) :
    ∀ (m0 : ℕ) (counter : ℤ), (if counter = -1 then start else counter) = seqNumber start step m0 →
    (∃ l, readSequence readable start step n counter = .ok l ∧ l.length = n ∧
      ∃ k : ℕ, l = ((List.range' m0 k).map (seqNumber start step)).filter fun x => readable x) ∨
    (readSequence readable start step n counter = .exit 73 ∧
      ∃ m : ℕ, ∀ i : ℕ, i < 99 → readable (seqNumber start step (m + i)) = false) := by
  induction n with
  | zero => intro m0 counter _; exact Or.inl ⟨[], rfl, rfl, 0, rfl⟩
  | succ n ih =>
    intro m0 counter hc
    obtain ⟨A, B⟩ := C17_next readable start step counter _ hc.symm
    have hn : ∀ i : ℕ, seqNumber start step m0 + i * step = seqNumber start step (m0 + i) := by
      intro i; unfold seqNumber; push_cast; ring
    simp only [hn] at A B
    unfold readSequence
    by_cases hex : ∃ j : ℕ, readable (seqNumber start step (m0 + j)) = true ∧ j < 99
    · obtain ⟨hj, hj99⟩ := Nat.find_spec hex
      have hmin : ∀ i : ℕ, i < Nat.find hex → readable (seqNumber start step (m0 + i)) = false := by
        intro i hi
        by_contra hne
        exact Nat.find_min hex hi ⟨by simpa using hne, by omega⟩
      generalize Nat.find hex = j at hj hj99 hmin
      rw [A j hj99 hmin hj]
      simp only [Outcome.bind_ok, Outcome.pure_eq]
      have e1 : seqNumber start step m0 + (↑j + 1) * step = seqNumber start step (m0 + (j + 1)) := by
        unfold seqNumber; push_cast; ring
      rw [e1]
      have hpos : seqNumber start step (m0 + (j + 1)) ≠ -1 := by
        have : 0 ≤ seqNumber start step (m0 + (j + 1)) := by unfold seqNumber; positivity
        omega
      rcases ih (m0 + (j + 1)) _ (if_neg hpos) with ⟨l, hl, hlen, k, hk⟩ | ⟨hl, hm⟩
      · left
        rw [hl]
        refine ⟨_, rfl, by simp [hlen], (j + 1) + k, ?_⟩
        have hfst : ((List.range' m0 (j + 1)).map (seqNumber start step)).filter (fun x => readable x) =
            [seqNumber start step (m0 + j)] := by
          rw [List.range'_1_concat, List.map_append, List.filter_append]
          have : ((List.range' m0 j).map (seqNumber start step)).filter (fun x => readable x) = [] := by
            rw [List.filter_eq_nil_iff]
            intro x hx
            rw [List.mem_map] at hx
            obtain ⟨y, hy, rfl⟩ := hx
            rw [List.mem_range'_1] at hy
            have := hmin (y - m0) (by omega)
            rw [show m0 + (y - m0) = y by omega] at this
            simp [this]
          rw [this]
          simp [hj]
        rw [← List.range'_append_1, List.map_append, List.filter_append, hfst, hk]
        rfl
      · right
        rw [hl]
        exact ⟨rfl, hm⟩
    · right
      push Not at hex
      have hall : ∀ i : ℕ, i < 99 → readable (seqNumber start step (m0 + i)) = false := by
        intro i hi
        by_contra hne
        have := hex i (by simpa using hne)
        omega
      rw [B hall]
      exact ⟨rfl, m0, hall⟩

/-- **C17** (sequence). `n` calls in a row from a fresh start either all succeed, and then there is an `m` such that the
configurations loaded are exactly the readable ones among the first `m` numbers `start, start + step, ...`, each once and in this order;
or the program ends with code 73, and 99 consecutive numbers of the sequence are unreadable. -/
theorem C17_sequence (readable : ℤ → Bool) (start step : ℤ) (h0 : 0 ≤ start) (h1 : 0 ≤ step) (n : ℕ) :
    (∃ l, readSequence readable start step n (-1) = .ok l ∧ l.length = n ∧
      ∃ m : ℕ, l = ((List.range m).map fun i : ℕ => start + i * step).filter fun k => readable k) ∨
    (readSequence readable start step n (-1) = .exit 73 ∧
      ∃ m : ℕ, ∀ i : ℕ, i < 99 → readable (start + (m + i : ℕ) * step) = false) := by
  have := readSequence_aux readable start step h0 h1 n 0 (-1) (by simp [seqNumber])
  simp only [List.range_eq_range']
  exact this

/-- Files 3, 7, 11, ... where the second is missing. -/
example : readSequence (fun k => k ≠ 7) 3 4 3 (-1) = .ok [3, 11, 15] := by decide

/-- **C17, remark**: the hundredth attempt ends the program even if it succeeded. -/
theorem C17_last_attempt : readNext (fun k => decide (k = 99)) 0 1 (-1) = .exit 73 := by
  refine (C17_next _ 0 1 (-1) 0 (by simp)).2 fun i hi => ?_
  have : (i : ℤ) ≠ 99 := by omega
  simp [this]

/-! ### C18 -/

/-- **C18** (two colours). In exact arithmetic, what the reader makes of the two stored numbers is the link that was written, for every SU(2)
link. -/
theorem C18_su2 (U : Matrix (Fin 2) (Fin 2) ℂ) (h : U ∈ Matrix.specialUnitaryGroup (Fin 2) ℂ) :
    restore2 (compact2 U) = U := by
  have e := conjTranspose_eq_adjugate h
  rw [Matrix.adjugate_fin_two] at e
  have e00 := congrFun (congrFun e 0) 0
  have e01 := congrFun (congrFun e 0) 1
  simp [Matrix.conjTranspose_apply] at e00 e01
  ext i j
  fin_cases i <;> fin_cases j <;> simp [restore2, compact2, Matrix.conjTranspose_apply]
  · rw [e01, neg_neg]
  · exact e00

/-- **C18** (three colours). The same for the six stored numbers of every SU(3) link. -/
theorem C18_su3 (U : Matrix (Fin 3) (Fin 3) ℂ) (h : U ∈ Matrix.specialUnitaryGroup (Fin 3) ℂ) :
    restore3 (compact3 U) = U := by
  have e := conjTranspose_eq_adjugate h
  obtain ⟨a0, a1, a2⟩ := adjugate_fin_three_row2 U
  rw [← e] at a0 a1 a2
  simp only [Matrix.conjTranspose_apply] at a0 a1 a2
  have hu : U.conjTranspose * U = 1 := (Matrix.mem_unitaryGroup_iff').1 (Matrix.mem_specialUnitaryGroup_iff.1 h).1
  have h00 := congrFun (congrFun hu 0) 0
  have h01 := congrFun (congrFun hu 0) 1
  have h11 := congrFun (congrFun hu 1) 1
  simp only [Matrix.mul_apply, Fin.sum_univ_three, Matrix.conjTranspose_apply, Matrix.one_apply] at h00 h01 h11
  simp at h00 h01 h11
  have norm : ∀ v : Fin 3 → ℂ, star (v 0) * v 0 + star (v 1) * v 1 + star (v 2) * v 2 = 1 → normaliseColumn v = v := by
    intro v hv
    have hq : absq (v 0) + absq (v 1) + absq (v 2) = 1 := by
      have := congrArg Complex.re hv
      simp at this
      unfold absq; linarith
    unfold normaliseColumn
    rw [hq]
    funext i; simp
  have c0 : (fun i => (⟨(compact3 U i 0).1, -(compact3 U i 0).2⟩ : ℂ)) = fun i => U i 0 := by
    funext i; simp [compact3]
  have c1 : (fun i => (⟨(compact3 U i 1).1, -(compact3 U i 1).2⟩ : ℂ)) = fun i => U i 1 := by
    funext i
    have : (Fin.castLE (by decide) (1 : Fin 2) : Fin 3) = 1 := rfl
    simp [compact3, this]
  unfold restore3
  simp only
  rw [c0, c1]
  rw [norm (fun i => U i 0) (by simpa using h00)]
  have horth : orthogonalise (fun i => U i 0) (fun i => U i 1) = fun i => U i 1 := by
    unfold orthogonalise
    funext i
    have : U 0 1 * star (U 0 0) + U 1 1 * star (U 1 0) + U 2 1 * star (U 2 0) = 0 := by
      simp only [Complex.star_def]
      linear_combination h01
    simp only [this, zero_mul, sub_zero]
  rw [horth, norm (fun i => U i 1) (by simpa using h11)]
  have b0 := congrArg star a0
  have b1 := congrArg star a1
  have b2 := congrArg star a2
  simp at b0 b1 b2
  ext i j
  fin_cases i <;> fin_cases j <;> simp
  · rw [b0]; ring
  · rw [b1]; ring
  · rw [b2]; ring

/-- A non-diagonal SU(2) link. -/
example : (!![0, Complex.I; Complex.I, 0] : Matrix (Fin 2) (Fin 2) ℂ) ∈ Matrix.specialUnitaryGroup (Fin 2) ℂ := by
  rw [Matrix.mem_specialUnitaryGroup_iff, Matrix.mem_unitaryGroup_iff]
  constructor
  · ext i j; fin_cases i <;> fin_cases j <;> simp [Matrix.mul_apply, Matrix.star_eq_conjTranspose, Matrix.conjTranspose_apply]
  · simp [Matrix.det_fin_two]

/-- A non-diagonal SU(3) link: a cyclic permutation. -/
example : (!![0, 0, 1; 1, 0, 0; 0, 1, 0] : Matrix (Fin 3) (Fin 3) ℂ) ∈ Matrix.specialUnitaryGroup (Fin 3) ℂ := by
  rw [Matrix.mem_specialUnitaryGroup_iff, Matrix.mem_unitaryGroup_iff]
  constructor
  · ext i j; fin_cases i <;> fin_cases j <;>
      simp [Matrix.mul_apply, Matrix.star_eq_conjTranspose, Matrix.conjTranspose_apply, Fin.sum_univ_three]
  · simp [Matrix.det_fin_three]

end Leonard
