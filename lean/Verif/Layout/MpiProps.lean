import Verif.Layout.PathLemmas
import Mathlib.Data.Fintype.Prod
import Mathlib.Data.Fintype.Basic
import Mathlib.Data.List.Sort

/-!
# C03 - C08: distribution of the lattice over processes

Hypotheses used throughout: the lattice extents are positive, the processor grid entries are non-negative
(both are `unsigned int` options) and there is at least one process.
-/

set_option autoImplicit false

namespace Leonard

/-- The command-line inputs of a distributed run. -/
structure RunInput (g p : Ext) (c : ℤ) : Prop where
  extents : g.Pos
  grid : 0 ≤ p.x ∧ 0 ≤ p.y ∧ 0 ≤ p.z ∧ 0 ≤ p.t
  processes : 1 ≤ c

theorem RunInput.gridOk {g p loc : Ext} {c : ℤ} (h : RunInput g p c) (hs : startUp g p c = .ok loc) :
    GridOk g p loc ∧ c = p.volume := by
  obtain ⟨h1, h2, h3, h4, h5, h6, h7⟩ := startUp_ok h.extents h.grid h.processes hs
  exact ⟨⟨h.extents, h1, h2, h4, h5, h6, h7⟩, h3⟩

/-! ### C03 -/

/-- **C03** (decision). Start-up succeeds exactly if the grid has as many entries as there are processes and divides
the lattice in each direction; the local extents are then the quotients. In all other cases it ends with
exit code 1 or 3, and no layout is produced on any rank for any stencil. -/
theorem C03_start_up_decision (g p : Ext) (c : ℤ) (h : RunInput g p c) :
    (∀ loc, startUp g p c = .ok loc ↔
      (c = p.x * p.y * p.z * p.t ∧ g.x = p.x * loc.x ∧ g.y = p.y * loc.y ∧ g.z = p.z * loc.z ∧ g.t = p.t * loc.t)) ∧
    ((¬ ∃ loc : Ext, c = p.x * p.y * p.z * p.t ∧ g.x = p.x * loc.x ∧ g.y = p.y * loc.y ∧ g.z = p.z * loc.z ∧ g.t = p.t * loc.t) →
      ∃ code, (code = 1 ∨ code = 3) ∧ startUp g p c = .exit code ∧
        ∀ st me, mpiInitialize g p st c me = .exit code) := by
  have first : ∀ loc, startUp g p c = .ok loc ↔
      (c = p.x * p.y * p.z * p.t ∧ g.x = p.x * loc.x ∧ g.y = p.y * loc.y ∧ g.z = p.z * loc.z ∧ g.t = p.t * loc.t) := by
    intro loc
    constructor
    · intro hs
      obtain ⟨-, -, h3, h4⟩ := startUp_ok h.extents h.grid h.processes hs
      exact ⟨h3, h4⟩
    · rintro ⟨h1, h2, h3, h4, h5⟩
      obtain ⟨gx, gy, gz, gt⟩ := h.extents
      obtain ⟨px, py, pz, pt⟩ := h.grid
      have nx : p.x ≠ 0 := fun e => by rw [e, zero_mul] at h2; omega
      have ny : p.y ≠ 0 := fun e => by rw [e, zero_mul] at h3; omega
      have nz : p.z ≠ 0 := fun e => by rw [e, zero_mul] at h4; omega
      have nt : p.t ≠ 0 := fun e => by rw [e, zero_mul] at h5; omega
      unfold startUp
      simp [h1, h2, h3, h4, h5, nx, ny, nz, nt]
  refine ⟨first, fun hn => ?_⟩
  cases e : startUp g p c with
  | ok loc => exact absurd ⟨loc, (first loc).1 e⟩ hn
  | exit code =>
    refine ⟨code, ?_, rfl, fun st me => by unfold mpiInitialize; rw [e]⟩
    unfold startUp at e
    simp only at e
    repeat' split at e
    all_goals cases e
    all_goals simp

example : RunInput ⟨4, 6, 8, 8⟩ ⟨2, 3, 1, 4⟩ 24 ∧ startUp ⟨4, 6, 8, 8⟩ ⟨2, 3, 1, 4⟩ 24 = .ok ⟨2, 2, 8, 2⟩ :=
  ⟨⟨by decide, by decide, by decide⟩, by decide⟩

example : startUp ⟨4, 6, 8, 8⟩ ⟨3, 1, 1, 1⟩ 3 = .exit 3 ∧ startUp ⟨4, 6, 8, 8⟩ ⟨2, 1, 1, 1⟩ 3 = .exit 1 := by decide

/-- **C03** (partition). After a successful start-up every site belongs to exactly one rank, which is a rank of the
communicator; the sites of each rank are exactly a rectangular block of the local extents; each rank has
the same number of them, the local volume. -/
theorem C03_partition (g p loc : Ext) (c : ℤ) (h : RunInput g p c) (hs : startUp g p c = .ok loc) :
    (∀ s, InBox g s → ∃! r, processorNumberLattice g p loc (globalCoordinateLocal g s) = some r) ∧
    (∀ s r, InBox g s → processorNumberLattice g p loc (globalCoordinateLocal g s) = some r → 0 ≤ r ∧ r < c) ∧
    (∀ r, 0 ≤ r → r < c → ∃ o : Site, ∀ s,
      (InBox g s ∧ processorNumberLattice g p loc (globalCoordinateLocal g s) = some r) ↔ InBlock o loc s) ∧
    (∀ r, 0 ≤ r → r < c →
      (((loopSites g).filter fun s => processorNumberLattice g p loc (globalCoordinateLocal g s) = some r).length : ℤ)
        = loc.x * loc.y * loc.z * loc.t) := by
  obtain ⟨G, hc⟩ := h.gridOk hs
  have key : ∀ s, InBox g s → processorNumberLattice g p loc (globalCoordinateLocal g s) = some (rankOf p loc s) := by
    intro s hs
    rw [globalCoordinateLocal_inBox hs, processor_eq hs]
  refine ⟨fun s hs => ⟨_, key s hs, fun r hr => ?_⟩, fun s r hs hr => ?_, fun r h0 h1 => ?_, fun r h0 h1 => ?_⟩
  · have := (key s hs).symm.trans hr; cases this; rfl
  · have := (key s hs).symm.trans hr; cases this; rw [hc]; exact rankOf_bounds G hs
  · refine ⟨blockOrigin p loc r, fun s => ?_⟩
    rw [← rankOf_iff_block G ⟨h0, hc ▸ h1⟩]
    constructor
    · rintro ⟨a, b⟩; rw [key s a] at b; exact ⟨a, by cases b; rfl⟩
    · rintro ⟨a, b⟩; exact ⟨a, by rw [key s a, b]⟩
  · have e : (loopSites g).filter (fun s => processorNumberLattice g p loc (globalCoordinateLocal g s) = some r) =
        (loopSites g).filter fun s => rankOf p loc s = r := by
      refine List.filter_congr fun s hs => ?_
      rw [key s (mem_loopSites.1 hs)]; simp
    rw [e, (rank_sites_perm G ⟨h0, hc ▸ h1⟩).length_eq, List.length_map, length_loopSites G.lpos]
    rfl

/-! ### C04 -/

/-- **C04**. On every rank, for every stencil, set-up succeeds (the internal consistency exits are never taken) and:
a site has a slot (not the marker `-1`) exactly if the rank owns it or reads it through the stencil; slots and
visible sites correspond one to one, the slots being `[0,completesize)`; the slots below `localsize` are
the owned sites; the slots below `sharedsize` are the owned sites that another rank reads. -/
theorem C04_slots (g p loc : Ext) (c : ℤ) (h : RunInput g p c) (hs : startUp g p c = .ok loc) (st : List Site)
    (me : ℤ) (h0 : 0 ≤ me) (h1 : me < c) :
    ∃ L, mpiInitialize g p st c me = .ok L ∧
      (∀ s, InBox g s → (L.localIndex (globalCoordinateLocal g s) ≠ -1 ↔ Visible g p loc st me s)) ∧
      (∀ s s', InBox g s → InBox g s' → Visible g p loc st me s → Visible g p loc st me s' →
        L.localIndex (globalCoordinateLocal g s) = L.localIndex (globalCoordinateLocal g s') → s = s') ∧
      (∀ k, (0 ≤ k ∧ k < L.completesize) ↔
        ∃ s, InBox g s ∧ Visible g p loc st me s ∧ L.localIndex (globalCoordinateLocal g s) = k) ∧
      (∀ s, InBox g s → Visible g p loc st me s →
        (L.localIndex (globalCoordinateLocal g s) < L.localsize ↔ rankOf p loc s = me)) ∧
      (∀ s, InBox g s → Visible g p loc st me s →
        (L.localIndex (globalCoordinateLocal g s) < L.sharedsize ↔
          rankOf p loc s = me ∧ ∃ r, r ≠ me ∧ Reads g p loc st r s)) ∧
      (∀ s, InBox g s → Visible g p loc st me s →
        (rankTables g (sharedOf g p loc st) L).coord (L.localIndex (globalCoordinateLocal g s)) = some s) ∧
      L.localsize = loc.x * loc.y * loc.z * loc.t := by
  obtain ⟨G, hc⟩ := h.gridOk hs
  obtain ⟨L, order, hL, R⟩ := mpiInitialize_ok G hs st ⟨h0, hc ▸ h1⟩
  refine ⟨L, hL, fun s hb => ?_, fun s s' hb hb' hv hv' e => ?_, fun k => ⟨fun hk => ?_, ?_⟩, fun s hb hv => ?_, fun s hb hv => ?_,
    fun s hb hv => ?_, ?_⟩
  · rw [globalCoordinateLocal_inBox hb, ← mem_order_iff R hb]
    constructor
    · intro hne
      by_contra hn
      exact hne (R.absent _ hn)
    · intro hm; rw [R.here _ hm]; omega
  · rw [globalCoordinateLocal_inBox hb, globalCoordinateLocal_inBox hb'] at e
    exact slot_inj R hb hv hb' hv' e
  · obtain ⟨s, a, b, e⟩ := slot_surj G.gpos R hk.1 hk.2
    exact ⟨s, a, b, by rw [globalCoordinateLocal_inBox a, e]⟩
  · rintro ⟨s, a, b, rfl⟩
    rw [globalCoordinateLocal_inBox a]; exact slot_bounds R a b
  · rw [globalCoordinateLocal_inBox hb]; exact slot_owned R hb hv
  · rw [globalCoordinateLocal_inBox hb]; exact slot_shared R hb hv
  · rw [globalCoordinateLocal_inBox hb]; exact rank_coord R hb hv
  · rw [R.localsize, ownedSites_length G st ⟨h0, hc ▸ h1⟩]

example : ∃ L, mpiInitialize ⟨4, 2, 2, 4⟩ ⟨2, 1, 1, 2⟩ standardStencil 4 3 = .ok L :=
  let ⟨L, h, _⟩ := C04_slots ⟨4, 2, 2, 4⟩ ⟨2, 1, 1, 2⟩ ⟨2, 2, 2, 2⟩ 4 ⟨by decide, by decide, by decide⟩ (by decide) standardStencil 3
    (by decide) (by decide)
  ⟨L, h⟩

/-- A non-trivial visible site: rank 0 of a 4-rank line reads site `t = 2`, owned by rank 1, but not site `t = 4`. -/
example : Visible ⟨1, 1, 1, 8⟩ ⟨1, 1, 1, 4⟩ ⟨1, 1, 1, 2⟩ reducedStencil 0 ⟨0, 0, 0, 2⟩ ∧
    rankOf ⟨1, 1, 1, 4⟩ ⟨1, 1, 1, 2⟩ ⟨0, 0, 0, 2⟩ = 1 :=
  ⟨Or.inr ⟨⟨0, 0, 0, 1⟩, by decide, by decide, ⟨0, 0, 0, 1⟩, by decide, by decide⟩, by decide⟩

/-! ### C05 -/

/-- All ranks have been initialised by the program. -/
def Initialised (g p : Ext) (c : ℤ) (st : List Site) (Lay : ℤ → RankLayout) : Prop :=
  ∀ r, 0 ≤ r → r < c → mpiInitialize g p st c r = .ok (Lay r)

theorem Initialised.rankOk {g p loc : Ext} {c : ℤ} (h : RunInput g p c) (hs : startUp g p c = .ok loc) {st : List Site}
    {Lay : ℤ → RankLayout} (hi : Initialised g p c st Lay) :
    ∃ ord : ℤ → List ℤ, ∀ r, 0 ≤ r → r < c → RankOk (sharedOf g p loc st) r (Lay r) (ord r) := by
  obtain ⟨G, hc⟩ := h.gridOk hs
  have : ∀ r, ∃ o, 0 ≤ r → r < c → RankOk (sharedOf g p loc st) r (Lay r) o := by
    intro r
    by_cases hr : 0 ≤ r ∧ r < c
    · obtain ⟨L, order, hL, R⟩ := mpiInitialize_ok G hs st ⟨hr.1, hc ▸ hr.2⟩
      rw [hi r hr.1 hr.2] at hL
      cases hL
      exact ⟨order, fun _ _ => R⟩
    · exact ⟨[], fun a b => absurd ⟨a, b⟩ hr⟩
  exact ⟨fun r => (this r).choose, fun r => (this r).choose_spec⟩

theorem initialised_exists {g p loc : Ext} {c : ℤ} (h : RunInput g p c) (hs : startUp g p c = .ok loc) (st : List Site) :
    ∃ Lay, Initialised g p c st Lay := by
  obtain ⟨G, hc⟩ := h.gridOk hs
  have : ∀ r, ∃ L, 0 ≤ r → r < c → mpiInitialize g p st c r = .ok L := by
    intro r
    by_cases hr : 0 ≤ r ∧ r < c
    · obtain ⟨L, order, hL, R⟩ := mpiInitialize_ok G hs st ⟨hr.1, hc ▸ hr.2⟩
      exact ⟨L, fun _ _ => hL⟩
    · exact ⟨⟨[], 0, 0, 0, fun _ => -1, fun _ => -1⟩, fun a b => absurd ⟨a, b⟩ hr⟩
  exact ⟨fun r => (this r).choose, fun r => (this r).choose_spec⟩

/-- **C05**. Whatever message tags the ranks agree on, the exchange completes (every request is matched), and for
every order of data movement: each slot of each rank ends with the value the owner of its site had before;
in particular owned slots are unchanged and copies agree with the owner; nothing outside `[0,completesize)`
is touched; a second update changes nothing.

Missing for the full claim: the program computes the tags with `latticeChunks[j].sharers[j]` (MPILayout.h 219), which reads outside
the vector for some grids (`C05_tags_counterexample`); for those runs the tags are undefined. -/
theorem C05_halo_update_partial {α : Type} (g p loc : Ext) (c : ℤ) (h : RunInput g p c) (hs : startUp g p c = .ok loc)
    (st : List Site) (Lay : ℤ → RankLayout) (hi : Initialised g p c st Lay) (tags : ℕ → ℕ → ℤ) (F : Memories α) :
    (∃ F', HaloUpdate Lay tags c F F') ∧
    ∀ F', HaloUpdate Lay tags c F F' →
      (∀ r, 0 ≤ r → r < c → ∀ s, InBox g s → Visible g p loc st r s →
        F' r ((Lay r).localIndex (globalCoordinateLocal g s)) =
          F (rankOf p loc s) ((Lay (rankOf p loc s)).localIndex (globalCoordinateLocal g s))) ∧
      (∀ r, 0 ≤ r → r < c → ∀ k, (k < (Lay r).localsize ∨ (Lay r).completesize ≤ k) → F' r k = F r k) ∧
      (∀ r, 0 ≤ r → r < c → ∀ s, InBox g s → Visible g p loc st r s →
        F' r ((Lay r).localIndex (globalCoordinateLocal g s)) =
          F' (rankOf p loc s) ((Lay (rankOf p loc s)).localIndex (globalCoordinateLocal g s))) ∧
      (∀ F'', HaloUpdate Lay tags c F' F'' → ∀ r, 0 ≤ r → r < c → F'' r = F' r) := by
  obtain ⟨G, hc⟩ := h.gridOk hs
  obtain ⟨ord, R⟩ := hi.rankOk h hs
  have hS := sharedOf_ok (p := p) (loc := loc) G.gpos st
  have howner : ∀ i, 0 ≤ i → i < (sharedOf g p loc st).vol →
      0 ≤ (sharedOf g p loc st).owner i ∧ (sharedOf g p loc st).owner i < c := by
    intro i i0 i1
    have hb := unIndex_inBox G.gpos ⟨i0, i1⟩
    rw [← rawIndex_unIndex (g := g) i, owner_eq hb, hc]
    exact rankOf_bounds G hb
  refine ⟨haloUpdate_exists hS R tags F, ?_⟩
  have first : ∀ F F' : Memories α, HaloUpdate Lay tags c F F' →
      (∀ r, 0 ≤ r → r < c → ∀ s, InBox g s → Visible g p loc st r s →
        F' r ((Lay r).localIndex (globalCoordinateLocal g s)) =
          F (rankOf p loc s) ((Lay (rankOf p loc s)).localIndex (globalCoordinateLocal g s))) ∧
      (∀ r, 0 ≤ r → r < c → ∀ k, (k < (Lay r).localsize ∨ (Lay r).completesize ≤ k) → F' r k = F r k) := by
    intro F F' hu
    have A : ∀ r, 0 ≤ r → r < c → ∀ s, InBox g s → Visible g p loc st r s →
        F' r ((Lay r).localIndex (globalCoordinateLocal g s)) =
          F (rankOf p loc s) ((Lay (rankOf p loc s)).localIndex (globalCoordinateLocal g s)) := by
      intro r r0 r1 s hb hv
      have := (haloUpdate_effect hS R howner tags F F' hu r ⟨r0, r1⟩).1 _ ((mem_order_iff (R r r0 r1) hb).2 hv)
      rw [globalCoordinateLocal_inBox hb, this, owner_eq hb]
    refine ⟨A, fun r r0 r1 k hk => ?_⟩
    have out := (haloUpdate_effect hS R howner tags F F' hu r ⟨r0, r1⟩).2 k
    by_cases hin : 0 ≤ k ∧ k < (Lay r).completesize
    · obtain ⟨s, hb, hv, e⟩ := slot_surj G.gpos (R r r0 r1) hin.1 hin.2
      have ho := (slot_owned (R r r0 r1) hb hv).1 (by rw [e]; omega)
      have := A r r0 r1 s hb hv
      rw [ho, globalCoordinateLocal_inBox hb, e] at this
      exact this
    · exact out (by omega)
  intro F' hu
  obtain ⟨A, B⟩ := first F F' hu
  have Cc : ∀ r, 0 ≤ r → r < c → ∀ s, InBox g s → Visible g p loc st r s →
      F' r ((Lay r).localIndex (globalCoordinateLocal g s)) =
        F' (rankOf p loc s) ((Lay (rankOf p loc s)).localIndex (globalCoordinateLocal g s)) := by
    intro r r0 r1 s hb hv
    have hr := rankOf_bounds G hb
    rw [A r r0 r1 s hb hv, A _ hr.1 (by omega) s hb (Or.inl rfl)]
  refine ⟨A, B, Cc, ?_⟩
  intro F'' hu' r r0 r1
  obtain ⟨A', B'⟩ := first F' F'' hu'
  funext k
  by_cases hin : 0 ≤ k ∧ k < (Lay r).completesize
  · obtain ⟨s, hb, hv, e⟩ := slot_surj G.gpos (R r r0 r1) hin.1 hin.2
    have a := A' r r0 r1 s hb hv
    have b := Cc r r0 r1 s hb hv
    rw [globalCoordinateLocal_inBox hb, e] at a b
    rw [a, b]
  · rcases not_and_or.1 hin with hk | hk
    · exact B' r r0 r1 k (Or.inl (by
        have := (R r r0 r1).localsize
        omega))
    · exact B' r r0 r1 k (Or.inr (by omega))

/-- A run that meets the hypotheses of `C05_halo_update_partial`, on four processes. -/
example : ∃ Lay, Initialised ⟨4, 2, 2, 4⟩ ⟨2, 1, 1, 2⟩ 4 standardStencil Lay :=
  initialised_exists (loc := ⟨2, 2, 2, 2⟩) ⟨by decide, by decide, by decide⟩ (by decide) _

/-- `sharedOf` with the wrap written explicitly. -/
theorem sharedOf_explicit {g p loc : Ext} (hg : g.Pos) (st : List Site) :
    sharedOf g p loc st =
      let owner : Mem ℤ := (loopSites g).foldl (fun m s => m.write (rawIndex g (wrap g s)) (rankOf p loc s)) Mem.empty
      { vol := g.volume
        owner := fun i => match owner i with
          | some r => r
          | none => -1
        exch := fun i => uniqueConsecutive (List.insertionSort (· ≤ ·) ((loopSites g).foldl (fun m s =>
          st.foldl (fun m d =>
            let index := rawIndex g (wrap g s)
            let shiftedIndex := rawIndex g (wrap g (s.add d))
            if owner index ≠ owner shiftedIndex then
              match owner index with
              | some r => pushAt m shiftedIndex r
              | none => m
            else m) m) (fun _ => []) i)) } := by
  have e : gidx g = fun s => rawIndex g (wrap g s) := funext (gidx_eq hg)
  unfold sharedOf exchangeTableRaw processorNumberLattice
  have e2 : sortUnique = fun l => uniqueConsecutive (List.insertionSort (· ≤ ·) l) := by
    funext l
    unfold sortUnique
    rw [← List.mergeSort_eq_insertionSort]
  simp only [e, e2]
  rfl

/-- The tag computation reads outside a vector: on a 2×6×1×1 lattice with a 2×2×1×1 grid and the nearest-neighbour stencil some
chunk number `j` has fewer than `j+1` sharers while another chunk has `j+1`. -/
theorem C05_tags_counterexample :
    startUp ⟨2, 6, 1, 1⟩ ⟨2, 2, 1, 1⟩ 4 = .ok ⟨1, 3, 1, 1⟩ ∧
    computeTags (buildChunks (sharedOf ⟨2, 6, 1, 1⟩ ⟨2, 2, 1, 1⟩ ⟨1, 3, 1, 1⟩ reducedStencil)) = none := by
  refine ⟨by decide, ?_⟩
  rw [sharedOf_explicit (by decide)]
  decide +kernel

/-! ### C06 -/

/-- Following the neighbour tables of the single-process program. -/
def followLocal (T : LocalTables) : ℤ → List Step → Option ℤ
  | k, [] => some k
  | k, (mu, up) :: rest => do
    let e ← if up then T.sup k else T.down k
    followLocal T (e mu) rest

/-- One site update of the single-process program. -/
def localRule {α : Type} (T : LocalTables) (rule : Site → List α → α) (paths : List (List Step)) (mem : ℤ → α) (k : ℤ) : Option α := do
  let s ← T.coord k
  let ks ← paths.mapM fun p => followLocal T k p
  return rule s (ks.map mem)

/-- One sweep of the single-process program over all sites. -/
def SerialStep {α : Type} (g : Ext) (rule : Site → List α → α) (paths : List (List Step)) (f f' : ℤ → α) : Prop :=
  ∀ k, 0 ≤ k → k < g.volume → localRule (localInitialize g) rule paths f k = some (f' k)

/-- `n` sweeps in a row. -/
def Iterate {σ : Type} (step : σ → σ → Prop) : ℕ → σ → σ → Prop
  | 0, a, b => a = b
  | n + 1, a, b => ∃ m, step a m ∧ Iterate step n m b

/-- Every rank's copy of every site it sees equals the single-process field. -/
def Agrees {α : Type} (g p loc : Ext) (c : ℤ) (st : List Site) (Lay : ℤ → RankLayout) (F : Memories α) (f : ℤ → α) : Prop :=
  ∀ r, 0 ≤ r → r < c → ∀ s, InBox g s → Visible g p loc st r s →
    F r ((Lay r).localIndex (globalCoordinateLocal g s)) = f (globalCoordinateLocal g s)

theorem followLocal_eq {g : Ext} {s : Site} (hs : InBox g s) (path : List Step) :
    followLocal (localInitialize g) (rawIndex g s) path = some (rawIndex g (pathSite g s path)) := by
  induction path generalizing s with
  | nil => rfl
  | cons a rest ih =>
    obtain ⟨mu, up⟩ := a
    rw [followLocal]
    cases up with
    | true =>
      have := ih (stepUp_inBox hs.pos mu s)
      simpa [local_sup hs, pathSite, Step.delta, stepUp] using this
    | false =>
      have := ih (stepDown_inBox hs.pos mu s)
      simpa [local_down hs, pathSite, Step.delta, stepDown] using this

theorem localRule_eq {α : Type} {g : Ext} {s : Site} (hs : InBox g s) (rule : Site → List α → α) (paths : List (List Step)) (f : ℤ → α) :
    localRule (localInitialize g) rule paths f (rawIndex g s) = some (rule s (paths.map fun q => f (rawIndex g (pathSite g s q)))) := by
  unfold localRule
  rw [local_coord hs, mapM_option_eq _ _ (fun q => rawIndex g (pathSite g s q)) (fun q _ => followLocal_eq hs q)]
  simp [Function.comp_def]

theorem rankRule_eq {α : Type} {g p loc : Ext} {st : List Site} {me : ℤ} {L : RankLayout} {order : List ℤ}
    (h : RankOk (sharedOf g p loc st) me L order) {s : Site} (hs : InBox g s) (ho : rankOf p loc s = me)
    (rule : Site → List α → α) (paths : List (List Step)) (hp : ∀ q ∈ paths, PathOk st q) (mem : ℤ → α) :
    rankRule (rankTables g (sharedOf g p loc st) L) rule paths mem (L.localIndex (rawIndex g s)) =
      some (rule s (paths.map fun q => mem (L.localIndex (rawIndex g (pathSite g s q))))) := by
  unfold rankRule
  rw [rank_coord h hs (Or.inl ho), mapM_option_eq _ _ (fun q => L.localIndex (rawIndex g (pathSite g s q)))
    (fun q hq => followRank_visible h q hs (pathOk_visible hs ho (hp q hq)))]
  simp [Function.comp_def]

/-- **C06**. A rule that updates each site from its coordinates and from the values along paths inside the stencil: started from
agreeing fields, the distributed program can always make its next sweep (no missing neighbour, no unmatched
message), and after any number of sweeps every rank holds, on each site it sees, exactly the value of the
single-process program. (As in C05, for any tags the ranks agree on; see `C05_tags_counterexample`.) -/
theorem C06_distributed_equals_serial_partial {α : Type} (g p loc : Ext) (c : ℤ) (h : RunInput g p c) (hs : startUp g p c = .ok loc)
    (st : List Site) (Lay : ℤ → RankLayout) (hi : Initialised g p c st Lay) (tags : ℕ → ℕ → ℤ)
    (rule : Site → List α → α) (paths : List (List Step)) (hp : ∀ q ∈ paths, PathOk st q)
    (n : ℕ) (F : Memories α) (f : ℤ → α) (h0 : Agrees g p loc c st Lay F f) :
    (∃ F', Iterate (DistStep g p loc st Lay tags c rule paths) n F F') ∧
    (∃ f', Iterate (SerialStep g rule paths) n f f') ∧
    ∀ F' f', Iterate (DistStep g p loc st Lay tags c rule paths) n F F' → Iterate (SerialStep g rule paths) n f f' →
      Agrees g p loc c st Lay F' f' := by
  obtain ⟨G, hc⟩ := h.gridOk hs
  obtain ⟨ord, R⟩ := hi.rankOk h hs
  have hS := sharedOf_ok (p := p) (loc := loc) G.gpos st
  -- one serial sweep
  have serial : ∀ f : ℤ → α, ∃ f', SerialStep g rule paths f f' := by
    intro f
    refine ⟨fun k => rule (unIndex g k) (paths.map fun q => f (rawIndex g (pathSite g (unIndex g k) q))), fun k k0 k1 => ?_⟩
    have hb := unIndex_inBox G.gpos ⟨k0, k1⟩
    have := localRule_eq hb rule paths f
    rw [rawIndex_unIndex] at this
    exact this
  -- one distributed sweep
  have dist : ∀ F : Memories α, ∃ F', DistStep g p loc st Lay tags c rule paths F F' := by
    intro F
    have : ∀ r k, ∃ v : α, 0 ≤ r → r < c → 0 ≤ k → k < (Lay r).localsize →
        rankRule (rankTables g (sharedOf g p loc st) (Lay r)) rule paths (F r) k = some v := by
      intro r k
      by_cases hr : (0 ≤ r ∧ r < c) ∧ 0 ≤ k ∧ k < (Lay r).localsize
      · have Rr := R r hr.1.1 hr.1.2
        have hlc : (Lay r).localsize ≤ (Lay r).completesize := by
          rw [Rr.localsize, Rr.complete]
          have : (ownedSites (sharedOf g p loc st) r).Subperm (ord r) := by
            refine List.subperm_of_subset (List.Nodup.filter _ (nodup_intRange _)) ?_
            intro i hi
            simp only [ownedSites, List.mem_filter, mem_intRange, decide_eq_true_eq] at hi
            exact (Rr.mem i).2 ⟨hi.1, Or.inl hi.2⟩
          exact_mod_cast this.length_le
        obtain ⟨s, hb, hv, e⟩ := slot_surj G.gpos Rr hr.2.1 (by omega)
        have ho := (slot_owned Rr hb hv).1 (by omega)
        have := rankRule_eq Rr hb ho rule paths hp (F r)
        rw [e] at this
        exact ⟨_, fun _ _ _ _ => this⟩
      · exact ⟨F r k, fun a b c d => absurd ⟨⟨a, b⟩, c, d⟩ hr⟩
    obtain ⟨F', hF⟩ := haloUpdate_exists hS R tags (fun r k => (this r k).choose)
    exact ⟨F', _, fun r a b k a' b' => (this r k).choose_spec a b a' b', hF⟩
  -- agreement is kept
  have keep : ∀ (F F' : Memories α) (f f' : ℤ → α), Agrees g p loc c st Lay F f →
      DistStep g p loc st Lay tags c rule paths F F' → SerialStep g rule paths f f' → Agrees g p loc c st Lay F' f' := by
    intro F F' f f' ha hd hser r r0 r1 s hb hv
    obtain ⟨M, hM, hu⟩ := hd
    have C5 := (C05_halo_update_partial g p loc c h hs st Lay hi tags M).2 F' hu
    rw [C5.1 r r0 r1 s hb hv]
    have hr := rankOf_bounds G hb
    rw [← hc] at hr
    have Ro := R _ hr.1 hr.2
    have hsl := slot_bounds Ro hb (Or.inl rfl)
    have hown := (slot_owned Ro hb (Or.inl rfl)).2 rfl
    have e1 := hM _ hr.1 hr.2 _ hsl.1 hown
    rw [rankRule_eq Ro hb rfl rule paths hp] at e1
    have bb := rawIndex_bounds hb
    have e2 := hser _ bb.1 bb.2
    rw [localRule_eq hb] at e2
    rw [globalCoordinateLocal_inBox hb, ← Option.some.inj e1, ← Option.some.inj e2]
    congr 1
    refine List.map_congr_left fun q hq => ?_
    have hbq := pathSite_inBox hb q
    have := ha _ hr.1 hr.2 _ hbq (pathOk_visible hb rfl (hp q hq) q (by simp))
    rw [globalCoordinateLocal_inBox hbq] at this
    exact this
  induction n generalizing F f with
  | zero =>
    refine ⟨⟨F, rfl⟩, ⟨f, rfl⟩, ?_⟩
    rintro F' f' rfl rfl
    exact h0
  | succ n ih =>
    obtain ⟨F1, hF1⟩ := dist F
    obtain ⟨f1, hf1⟩ := serial f
    obtain ⟨⟨F2, h2⟩, ⟨f2, h3⟩, -⟩ := ih F1 f1 (keep F F1 f f1 h0 hF1 hf1)
    refine ⟨⟨F2, F1, hF1, h2⟩, ⟨f2, f1, hf1, h3⟩, ?_⟩
    rintro F' f' ⟨Fm, hm, hm'⟩ ⟨fm, km, km'⟩
    exact (ih Fm fm (keep F Fm f fm h0 hm km)).2.2 F' f' hm' km'

/-- Rules within the stencil exist: all nearest neighbours and the site itself. -/
example : ∀ q ∈ ([[], [(0, true)], [(3, false)], [(1, true), (1, false)]] : List (List Step)), PathOk reducedStencil q := by decide

/-- Agreeing fields exist: start from a single-process field and put its values into every slot. -/
example : ∃ (Lay : ℤ → RankLayout) (F : Memories ℤ) (f : ℤ → ℤ),
    Initialised ⟨4, 2, 2, 4⟩ ⟨2, 1, 1, 2⟩ 4 standardStencil Lay ∧
    Agrees ⟨4, 2, 2, 4⟩ ⟨2, 1, 1, 2⟩ ⟨2, 2, 2, 2⟩ 4 standardStencil Lay F f ∧ f 0 ≠ f 1 := by
  obtain ⟨Lay, hL⟩ := initialised_exists (g := ⟨4, 2, 2, 4⟩) (p := ⟨2, 1, 1, 2⟩) (c := 4) (loc := ⟨2, 2, 2, 2⟩)
    ⟨by decide, by decide, by decide⟩ (by decide) standardStencil
  refine ⟨Lay, fun r k => match (rankTables ⟨4, 2, 2, 4⟩ (sharedOf ⟨4, 2, 2, 4⟩ ⟨2, 1, 1, 2⟩ ⟨2, 2, 2, 2⟩ standardStencil) (Lay r)).coord k with
    | some s => rawIndex ⟨4, 2, 2, 4⟩ s
    | none => 0, fun i => i, hL, ?_, by decide⟩
  obtain ⟨ord, R⟩ := hL.rankOk (loc := ⟨2, 2, 2, 2⟩) ⟨by decide, by decide, by decide⟩ (by decide)
  intro r r0 r1 s hb hv
  simp only [globalCoordinateLocal_inBox hb, rank_coord (R r r0 r1) hb hv]

/-! ### C07 -/

/-- **C07** (paths inside the stencil). From every owned slot, a path all of whose partial displacements are in the stencil of the
field (or zero) leads to a slot of the rank that stores the right site of the periodic lattice. -/
theorem C07_paths (g p loc : Ext) (c : ℤ) (h : RunInput g p c) (hs : startUp g p c = .ok loc) (st : List Site)
    (me : ℤ) (h0 : 0 ≤ me) (h1 : me < c) (L : RankLayout) (hL : mpiInitialize g p st c me = .ok L)
    (s : Site) (hb : InBox g s) (ho : rankOf p loc s = me) (path : List Step) (hp : PathOk st path) :
    ∃ k, followRank (rankTables g (sharedOf g p loc st) L) (L.localIndex (globalCoordinateLocal g s)) path = some k ∧
      0 ≤ k ∧ k < L.completesize ∧
      (rankTables g (sharedOf g p loc st) L).coord k = some (wrap g (s.add (disp path))) := by
  obtain ⟨G, hc⟩ := h.gridOk hs
  obtain ⟨L', order, hL', R⟩ := mpiInitialize_ok G hs st ⟨h0, hc ▸ h1⟩
  rw [hL] at hL'; cases hL'
  have hv := pathOk_visible (g := g) hb ho hp
  have hvp := hv path (by simp)
  have hbp := pathSite_inBox hb path
  refine ⟨_, by rw [globalCoordinateLocal_inBox hb]; exact followRank_visible R path hb hv, (slot_bounds R hbp hvp).1, (slot_bounds R hbp hvp).2, ?_⟩
  rw [rank_coord R hbp hvp, pathSite_eq hb]

/-- **C07** (single steps). Each of the eight single steps is inside the reduced, the standard and the extended stencil; the
one-sided stencils cover the four steps of their side. -/
theorem C07_single_steps (a : Step) :
    PathOk reducedStencil [a] ∧ PathOk standardStencil [a] ∧ PathOk extendedStencil [a] ∧
    (a.2 = true → PathOk reducedUpStencil [a]) ∧ (a.2 = false → PathOk reducedDownStencil [a]) := by
  revert a; decide

/-- **C07** (two steps). The standard stencil covers the staple paths "down then up" and "up then down"; the extended stencil
covers every two-step path except "down, down" in two different directions, and the three-step paths of the
rectangle staples. -/
theorem C07_two_steps :
    (∀ mu nu : Fin 4, PathOk standardStencil [(mu, true), (nu, false)] ∧ PathOk standardStencil [(nu, false), (mu, true)]) ∧
    (∀ a b : Step, (a.2 = true ∨ b.2 = true ∨ a.1 = b.1) → PathOk extendedStencil [a, b]) ∧
    (∀ mu nu : Fin 4, mu ≠ nu → PathOk extendedStencil [(mu, true), (mu, true), (nu, false)]) ∧
    (∀ mu nu : Fin 4, mu ≠ nu → PathOk extendedStencil [(nu, false), (nu, false), (mu, true)]) := by
  decide

theorem div_neighbour {n q l a : ℤ} (hl : 2 ≤ l) (hn : n = q * l) (ha : 0 ≤ a ∧ a < n) :
    ((a + -1) % n) / l = a / l ∨ ((a + 1) % n) / l = a / l := by
  have hl0 : 0 < l := by omega
  have e := Int.mul_ediv_add_emod a l
  have h1 := Int.emod_nonneg a hl0.ne'
  have h2 := Int.emod_lt_of_pos a hl0
  have hq : a / l < q := Int.ediv_lt_of_lt_mul hl0 (hn ▸ ha.2)
  have hq0 : 0 ≤ a / l := Int.ediv_nonneg ha.1 hl0.le
  by_cases hz : a % l = 0
  · right
    have hlt : a + 1 < n := by nlinarith
    rw [Int.emod_eq_of_lt (by omega) hlt, div_eq_iff_block hl0]
    constructor <;> nlinarith
  · left
    have hpos := mul_nonneg hl0.le hq0
    have hge : 0 ≤ a + -1 := by omega
    rw [Int.emod_eq_of_lt hge (by omega), div_eq_iff_block hl0]
    have : 1 ≤ a % l := by omega
    constructor <;> nlinarith

theorem ext_down : ∀ b, deltaMinus b ∈ extendedStencil := by decide
theorem ext_down_twice : ∀ a, (deltaMinus a).add (deltaMinus a) ∈ extendedStencil := by decide
theorem ext_down_thrice : ∀ a b, a ≠ b → (deltaMinus a).add ((deltaMinus a).add (deltaMinus b)) ∈ extendedStencil := by decide
theorem up_down_zero : ∀ a, (deltaPlus a).add (deltaMinus a) = ⟨0, 0, 0, 0⟩ := by decide

theorem rank_neighbour {g p loc : Ext} (G : GridOk g p loc) {s : Site} (hb : InBox g s) (mu : Fin 4) (h2 : 2 ≤ loc.dir mu) :
    rankOf p loc (wrap g (s.add (deltaMinus mu))) = rankOf p loc s ∨ rankOf p loc (wrap g (s.add (deltaPlus mu))) = rankOf p loc s := by
  obtain ⟨hx, hy, hz, ht⟩ := hb
  have mx := Int.emod_eq_of_lt hx.1 hx.2
  have my := Int.emod_eq_of_lt hy.1 hy.2
  have mz := Int.emod_eq_of_lt hz.1 hz.2
  have mt := Int.emod_eq_of_lt ht.1 ht.2
  fin_cases mu
  · rcases div_neighbour h2 G.x hx with e | e <;> [left; right] <;>
      simp [rankOf, wrap, Site.add, deltaMinus, deltaPlus, mx, my, mz, mt, Ext.dir] at e ⊢ <;> simp [e]
  · rcases div_neighbour h2 G.y hy with e | e <;> [left; right] <;>
      simp [rankOf, wrap, Site.add, deltaMinus, deltaPlus, mx, my, mz, mt, Ext.dir] at e ⊢ <;> simp [e]
  · rcases div_neighbour h2 G.z hz with e | e <;> [left; right] <;>
      simp [rankOf, wrap, Site.add, deltaMinus, deltaPlus, mx, my, mz, mt, Ext.dir] at e ⊢ <;> simp [e]
  · rcases div_neighbour h2 G.t ht with e | e <;> [left; right] <;>
      simp [rankOf, wrap, Site.add, deltaMinus, deltaPlus, mx, my, mz, mt, Ext.dir] at e ⊢ <;> simp [e]

/-- **C07** ("down, down"). On extended fields the path "down `nu`, down `mu`" (used by the clover terms and the Wilson flow) leads
to a held slot with the right site if the local lattice has at least two sites in one of the two directions.
Without that condition it can fail: `C07_down_down_counterexample`. -/
theorem C07_down_down_partial (g p loc : Ext) (c : ℤ) (h : RunInput g p c) (hs : startUp g p c = .ok loc)
    (me : ℤ) (h0 : 0 ≤ me) (h1 : me < c) (L : RankLayout) (hL : mpiInitialize g p extendedStencil c me = .ok L)
    (s : Site) (hb : InBox g s) (ho : rankOf p loc s = me) (mu nu : Fin 4) (h2 : 2 ≤ loc.dir mu ∨ 2 ≤ loc.dir nu) :
    ∃ k, followRank (rankTables g (sharedOf g p loc extendedStencil) L) (L.localIndex (globalCoordinateLocal g s))
        [(nu, false), (mu, false)] = some k ∧ 0 ≤ k ∧ k < L.completesize ∧
      (rankTables g (sharedOf g p loc extendedStencil) L).coord k =
        some (wrap g (s.add ((deltaMinus nu).add (deltaMinus mu)))) := by
  obtain ⟨G, hc⟩ := h.gridOk hs
  obtain ⟨L', order, hL', R⟩ := mpiInitialize_ok G hs extendedStencil ⟨h0, hc ▸ h1⟩
  rw [hL] at hL'; cases hL'
  have target : Visible g p loc extendedStencil me (wrap g (s.add ((deltaMinus nu).add (deltaMinus mu)))) := by
    have key : ∀ a b : Fin 4, 2 ≤ loc.dir a →
        Visible g p loc extendedStencil me (wrap g (s.add ((deltaMinus a).add (deltaMinus b)))) := by
      intro a b ha
      by_cases hab : a = b
      · subst hab
        exact Or.inr ⟨s, hb, ho, _, ext_down_twice a, rfl⟩
      rcases rank_neighbour G hb a ha with e | e
      · refine Or.inr ⟨wrap g (s.add (deltaMinus a)), wrap_inBox G.gpos _, e.trans ho, deltaMinus b, ext_down b, ?_⟩
        rw [wrap_wrap_add, Site.add_assoc]
      · refine Or.inr ⟨wrap g (s.add (deltaPlus a)), wrap_inBox G.gpos _, e.trans ho,
          (deltaMinus a).add ((deltaMinus a).add (deltaMinus b)), ?_, ?_⟩
        · exact ext_down_thrice a b hab
        · rw [wrap_wrap_add, Site.add_assoc, ← Site.add_assoc (deltaPlus a)]
          rw [up_down_zero]
          have : ∀ d : Site, (⟨0, 0, 0, 0⟩ : Site).add d = d := by intro d; simp [Site.add]
          rw [this]
    rcases h2 with h2 | h2
    · have := key mu nu h2
      have e : (deltaMinus mu).add (deltaMinus nu) = (deltaMinus nu).add (deltaMinus mu) := by simp [Site.add, add_comm]
      rwa [e] at this
    · exact key nu mu h2
  have hd : disp [(nu, false), (mu, false)] = (deltaMinus nu).add (deltaMinus mu) := by
    simp [disp, Step.delta, Site.add]
  have hv : ∀ q ∈ ([(nu, false), (mu, false)] : List Step).inits, Visible g p loc extendedStencil me (pathSite g s q) := by
    intro q hq
    simp only [List.inits, List.map_cons, List.map_nil, List.mem_cons, List.not_mem_nil, or_false] at hq
    rcases hq with rfl | rfl | rfl
    · exact Or.inl ho
    · exact Or.inr ⟨s, hb, ho, deltaMinus nu, ext_down nu, rfl⟩
    · rw [pathSite_eq hb, hd]; exact target
  have hvp := hv [(nu, false), (mu, false)] (by simp)
  have hbp := pathSite_inBox hb [(nu, false), (mu, false)]
  refine ⟨_, by rw [globalCoordinateLocal_inBox hb]; exact followRank_visible R _ hb hv, (slot_bounds R hbp hvp).1, (slot_bounds R hbp hvp).2, ?_⟩
  rw [rank_coord R hbp hvp, pathSite_eq hb, hd]

example : 2 ≤ Ext.dir ⟨2, 1, 1, 1⟩ 0 ∧ startUp ⟨4, 4, 1, 1⟩ ⟨2, 4, 1, 1⟩ 8 = .ok ⟨2, 1, 1, 1⟩ := by decide

/-- With one site per process on a 4×4 grid, the site one step down in both directions is not held by the rank: its
slot is the marker `-1` and following "down, down" from the rank's own site ends there. -/
theorem C07_down_down_counterexample :
    ∃ L, mpiInitialize ⟨4, 4, 1, 1⟩ ⟨4, 4, 1, 1⟩ extendedStencil 16 0 = .ok L ∧
      followRank (rankTables ⟨4, 4, 1, 1⟩ (sharedOf ⟨4, 4, 1, 1⟩ ⟨4, 4, 1, 1⟩ ⟨1, 1, 1, 1⟩ extendedStencil) L)
        (L.localIndex (globalCoordinateLocal ⟨4, 4, 1, 1⟩ ⟨0, 0, 0, 0⟩)) [(0, false), (1, false)] = none := by
  have h : RunInput ⟨4, 4, 1, 1⟩ ⟨4, 4, 1, 1⟩ 16 := ⟨by decide, by decide, by decide⟩
  have hs : startUp ⟨4, 4, 1, 1⟩ ⟨4, 4, 1, 1⟩ 16 = .ok ⟨1, 1, 1, 1⟩ := by decide
  obtain ⟨G, hc⟩ := h.gridOk hs
  obtain ⟨L, order, hL, R⟩ := mpiInitialize_ok G hs extendedStencil (me := 0) (by decide)
  refine ⟨L, hL, ?_⟩
  have hb : InBox ⟨4, 4, 1, 1⟩ ⟨0, 0, 0, 0⟩ := by decide
  have hb1 : InBox ⟨4, 4, 1, 1⟩ ⟨3, 0, 0, 0⟩ := by decide
  have hb2 : InBox ⟨4, 4, 1, 1⟩ ⟨3, 3, 0, 0⟩ := by decide
  have hv1 : Visible ⟨4, 4, 1, 1⟩ ⟨4, 4, 1, 1⟩ ⟨1, 1, 1, 1⟩ extendedStencil 0 ⟨3, 0, 0, 0⟩ :=
    Or.inr ⟨⟨0, 0, 0, 0⟩, hb, by decide, ⟨-1, 0, 0, 0⟩, by decide, by decide⟩
  have hv2 : ¬ Visible ⟨4, 4, 1, 1⟩ ⟨4, 4, 1, 1⟩ ⟨1, 1, 1, 1⟩ extendedStencil 0 ⟨3, 3, 0, 0⟩ := by
    have : ∀ s ∈ loopSites ⟨4, 4, 1, 1⟩, rankOf ⟨4, 4, 1, 1⟩ ⟨1, 1, 1, 1⟩ s = 0 → ∀ d ∈ extendedStencil,
        wrap ⟨4, 4, 1, 1⟩ (s.add d) ≠ ⟨3, 3, 0, 0⟩ := by decide +kernel
    rintro (hv | ⟨s, a, b, d, hd, e⟩)
    · revert hv; decide
    · exact this s (mem_loopSites.2 a) b d hd e
  have hn : L.localIndex (rawIndex ⟨4, 4, 1, 1⟩ ⟨3, 3, 0, 0⟩) = -1 :=
    R.absent _ (fun hm => hv2 ((mem_order_iff R hb2).1 hm))
  rw [globalCoordinateLocal_inBox hb]
  have e1 := rank_down R hb (Or.inl (by decide))
  have e2 := rank_down R hb1 hv1
  have w1 : wrap ⟨4, 4, 1, 1⟩ (Site.add ⟨0, 0, 0, 0⟩ (deltaMinus 0)) = ⟨3, 0, 0, 0⟩ := by decide
  have w2 : wrap ⟨4, 4, 1, 1⟩ (Site.add ⟨3, 0, 0, 0⟩ (deltaMinus 1)) = ⟨3, 3, 0, 0⟩ := by decide
  simp [followRank, e1, w1, e2, w2, hn]

/-! ### C08 -/

/-- **C08**. Each rank sums a quantity of its owned sites with any number of threads, any assignment of slots to threads and any
interleaving of the additions (each owned slot exactly once); the rank values are then combined in any order.
If the summand of each owned slot is the value `f` of the single-process program at that site, the result is the
single-process sum over all sites. -/
theorem C08_sum_independent {A : Type} [AddCommMonoid A] (g p loc : Ext) (c : ℤ) (h : RunInput g p c) (hs : startUp g p c = .ok loc)
    (st : List Site) (Lay : ℤ → RankLayout) (hi : Initialised g p c st Lay)
    (threads : ℤ → ℕ) (sched : ℤ → Schedule) (ht : ∀ r, 0 ≤ r → r < c → ∀ a ∈ sched r, a.1 < threads r)
    (hsched : ∀ r, 0 ≤ r → r < c → ((sched r).map Prod.snd).Perm (intRange (Lay r).localsize))
    (rankOrder : List ℤ) (hord : rankOrder.Perm (intRange c))
    (f : ℤ → A) (F : ℤ → ℤ → A)
    (hF : ∀ s, InBox g s → F (rankOf p loc s) ((Lay (rankOf p loc s)).localIndex (globalCoordinateLocal g s)) = f (globalCoordinateLocal g s)) :
    allReduceSum rankOrder (fun r => rankSum (threads r) (sched r) (F r)) = serialSum g.volume f := by
  obtain ⟨G, hc⟩ := h.gridOk hs
  obtain ⟨ord, R⟩ := hi.rankOk h hs
  rw [allReduceSum_eq, serialSum_eq, (hord.map _).sum_eq]
  have rank : ∀ r ∈ intRange c, rankSum (threads r) (sched r) (F r) = (((intRange g.volume).filter fun i => rankOf p loc (unIndex g i) = r).map f).sum := by
    intro r hr
    have hr := mem_intRange.1 hr
    rw [rankSum_eq _ _ _ (ht r hr.1 hr.2)]
    have Rr := R r hr.1 hr.2
    have e1 : ((sched r).map fun a => F r a.2) = ((sched r).map Prod.snd).map (F r) := by simp
    rw [e1, ((hsched r hr.1 hr.2).map _).sum_eq]
    have perm : ((intRange g.volume).filter fun i => rankOf p loc (unIndex g i) = r).map (Lay r).localIndex |>.Perm (intRange (Lay r).localsize) := by
      refine (List.perm_ext_iff_of_nodup ?_ (nodup_intRange _)).2 ?_
      · refine List.Nodup.map_on ?_ ((nodup_intRange _).filter _)
        intro i hi j hj e
        simp only [List.mem_filter, mem_intRange, decide_eq_true_eq] at hi hj
        have bi := unIndex_inBox G.gpos hi.1
        have bj := unIndex_inBox G.gpos hj.1
        have := slot_inj Rr bi (Or.inl hi.2) bj (Or.inl hj.2) (by rw [rawIndex_unIndex, rawIndex_unIndex]; exact e)
        rw [← rawIndex_unIndex (g := g) i, this, rawIndex_unIndex]
      · intro k
        rw [mem_intRange]
        simp only [List.mem_map, List.mem_filter, mem_intRange, decide_eq_true_eq]
        constructor
        · rintro ⟨i, ⟨hi, hri⟩, rfl⟩
          have bi := unIndex_inBox G.gpos hi
          have a := slot_bounds Rr bi (Or.inl hri)
          have b := (slot_owned Rr bi (Or.inl hri)).2 hri
          rw [rawIndex_unIndex] at a b
          exact ⟨a.1, b⟩
        · rintro ⟨k0, k1⟩
          have hlc : (Lay r).localsize ≤ (Lay r).completesize := by
            rw [Rr.localsize, Rr.complete]
            have : (ownedSites (sharedOf g p loc st) r).Subperm (ord r) := by
              refine List.subperm_of_subset (List.Nodup.filter _ (nodup_intRange _)) ?_
              intro i hi
              simp only [ownedSites, List.mem_filter, mem_intRange, decide_eq_true_eq] at hi
              exact (Rr.mem i).2 ⟨hi.1, Or.inl hi.2⟩
            exact_mod_cast this.length_le
          obtain ⟨s, hb, hv, e⟩ := slot_surj G.gpos Rr k0 (by omega)
          have ho := (slot_owned Rr hb hv).1 (by omega)
          exact ⟨rawIndex g s, ⟨rawIndex_bounds hb, by rw [unIndex_rawIndex hb]; exact ho⟩, e⟩
    rw [← (perm.map (F r)).sum_eq, List.map_map]
    congr 1
    refine List.map_congr_left fun i hi => ?_
    simp only [List.mem_filter, mem_intRange, decide_eq_true_eq] at hi
    have bi := unIndex_inBox G.gpos hi.1
    have := hF _ bi
    rw [globalCoordinateLocal_inBox bi, rawIndex_unIndex, hi.2] at this
    exact this
  rw [List.map_congr_left rank]
  -- the ranks' sites partition the lattice
  have split : ∀ (l : List ℤ), (∀ i ∈ l, 0 ≤ rankOf p loc (unIndex g i) ∧ rankOf p loc (unIndex g i) < c) →
      ((intRange c).map fun r => ((l.filter fun i => rankOf p loc (unIndex g i) = r).map f).sum).sum = (l.map f).sum := by
    intro l
    induction l with
    | nil => intro _; simp
    | cons i l ih =>
      intro hl
      have ih := ih (fun j hj => hl j (by simp [hj]))
      have hi := hl i (by simp)
      have e : ∀ r, (((i :: l).filter fun i => rankOf p loc (unIndex g i) = r).map f).sum =
          (if rankOf p loc (unIndex g i) = r then f i else 0) + ((l.filter fun i => rankOf p loc (unIndex g i) = r).map f).sum := by
        intro r
        by_cases hr : rankOf p loc (unIndex g i) = r <;> simp [hr]
      simp only [e]
      rw [List.sum_map_add, ih, List.map_cons, List.sum_cons]
      congr 1
      have single : ∀ (m : List ℤ) (a : ℤ), m.Nodup → a ∈ m → (m.map fun r => if a = r then f i else 0).sum = f i := by
        intro m a hn hm
        induction m with
        | nil => cases hm
        | cons b m ih =>
          rw [List.map_cons, List.sum_cons]
          rcases List.mem_cons.1 hm with rfl | hm'
          · have hz : (m.map fun r => if a = r then f i else 0) = m.map fun _ => 0 := by
              refine List.map_congr_left fun r hr => ?_
              rw [if_neg]
              rintro rfl
              exact (List.nodup_cons.1 hn).1 hr
            rw [hz]; simp
          · have hne : a ≠ b := by
              rintro rfl; exact (List.nodup_cons.1 hn).1 hm'
            rw [if_neg hne, zero_add, ih (List.nodup_cons.1 hn).2 hm']
      exact single _ _ (nodup_intRange _) (mem_intRange.2 hi)
  exact split _ (fun i hi => by rw [hc]; exact rankOf_bounds G (unIndex_inBox G.gpos (mem_intRange.1 hi)))

/-- A schedule meeting the hypotheses: two threads taking alternating slots in reverse order. -/
example : (([(1, 3), (0, 2), (1, 1), (0, 0)] : Schedule).map Prod.snd).Perm (intRange 4) ∧
    ∀ a ∈ ([(1, 3), (0, 2), (1, 1), (0, 0)] : Schedule), a.1 < 2 := by decide

end Leonard
