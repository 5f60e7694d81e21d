import Verif.Layout.MpiShared

set_option autoImplicit false

namespace Leonard

/-! ### The table-filling loop -/

/-- One write of the table-filling loop. -/
def writeIf {α : Type} (k : ℤ → ℤ) (f : ℤ → Option α) (m : Mem α) (s : ℤ) : Mem α :=
  match f s with
  | some v => m.write (k s) v
  | none => m

theorem foldl_writeIf_get {α : Type} (k : ℤ → ℤ) (f : ℤ → Option α) (l : List ℤ) (m : Mem α) (s : ℤ) (hs : s ∈ l) (v : α)
    (hf : f s = some v) (inj : ∀ s' ∈ l, k s' = k s → s' = s) : (l.foldl (writeIf k f) m) (k s) = some v := by
  induction l using List.reverseRecOn with
  | nil => cases hs
  | append_singleton l b ih =>
    rw [List.foldl_append]
    simp only [List.foldl_cons, List.foldl_nil]
    by_cases e : b = s
    · subst e; simp [writeIf, hf, Mem.write]
    · have hl : s ∈ l := by
        rcases List.mem_append.1 hs with h | h
        · exact h
        · simp only [List.mem_singleton] at h; exact absurd h.symm e
      have ih := ih hl (fun s' hs' => inj s' (by simp [hs']))
      have hne : k s ≠ k b := fun h => e (inj b (by simp) h.symm)
      generalize l.foldl (writeIf k f) m = r at ih ⊢
      unfold writeIf
      cases f b with
      | none => exact ih
      | some w => simpa [Mem.write, hne] using ih

theorem foldl_filter_flatMap {α : Type} {S : Shared} (k : ℤ → ℤ) (f : ℤ → Option α) (q : Chunk → Bool) (cs : List Chunk) (m : Mem α) :
    cs.foldl (fun m c => if q c = true then
        (intRange S.vol).foldl (fun m site => if (numberIds S).2 site = some c.id then writeIf k f m site else m) m
      else m) m = (orderOf S (cs.filter q)).foldl (writeIf k f) m := by
  induction cs generalizing m with
  | nil => rfl
  | cons c cs ih =>
    rw [List.foldl_cons, ih]
    cases hq : q c with
    | false => simp [hq]
    | true =>
      have hin : ∀ (l : List ℤ) (m : Mem α),
          l.foldl (fun m site => if (numberIds S).2 site = some c.id then writeIf k f m site else m) m =
          (l.filter fun s => (numberIds S).2 s = some c.id).foldl (writeIf k f) m := by
        intro l
        induction l with
        | nil => intro m; rfl
        | cons a l ih =>
          intro m
          rw [List.foldl_cons, ih]
          by_cases ha : (numberIds S).2 a = some c.id
          · simp [ha]
          · simp [ha]
      simp only [if_true]
      rw [hin]
      have e : (c :: cs).filter q = c :: cs.filter q := by simp [hq]
      rw [e]
      have : orderOf S (c :: cs.filter q) = chunkSites S c.id ++ orderOf S (cs.filter q) := by simp [orderOf]
      rw [this, List.foldl_append]
      rfl

theorem fillTable_get {α : Type} {S : Shared} {me : ℤ} {L : RankLayout} {order : List ℤ} (h : RankOk S me L order)
    (f : ℤ → Option α) {s : ℤ} (hs : s ∈ order) {v : α} (hf : f s = some v) : fillTable S L f (L.localIndex s) = some v := by
  have hr := (h.mem s).1 hs
  have e : fillTable S L f = (orderOf S (L.chunks.filter fun c => decide (L.offsets c.id ≠ -1))).foldl
      (writeIf L.localIndex f) Mem.empty := by
    rw [← foldl_filter_flatMap]
    unfold fillTable writeIf
    congr 1
    funext m c
    simp only [decide_eq_true_eq]
    rfl
  rw [e]
  have stored : ∀ c ∈ buildChunks S, L.offsets c.id ≠ -1 ↔ (c.owner = me ∨ me ∈ c.sharers) := by
    intro c hc
    constructor
    · intro hne
      by_contra hn
      exact hne (h.offsAbsent c hc hn)
    · intro ho e
      have := (h.offs c hc ho).1
      omega
  have memo : ∀ s', s' ∈ orderOf S (L.chunks.filter fun c => decide (L.offsets c.id ≠ -1)) ↔ s' ∈ order := by
    intro s'
    rw [h.mem, mem_orderOf, h.chunks]
    constructor
    · rintro ⟨c, hc, hs'⟩
      simp only [List.mem_filter, decide_eq_true_eq] at hc
      refine ⟨chunk_site_range hs', ?_⟩
      have := (chunk_of_mem hc.1).2.2.1 s' hs'
      rw [← this.1, ← this.2]
      exact (stored c hc.1).1 hc.2
    · rintro ⟨hb, ho⟩
      obtain ⟨c, hc, h2, h3, h4⟩ := chunk_of_site hb.1 hb.2
      refine ⟨c, ?_, h2⟩
      simp only [List.mem_filter, decide_eq_true_eq]
      exact ⟨hc, (stored c hc).2 (by rw [h3, h4]; exact ho)⟩
  refine foldl_writeIf_get _ _ _ _ s ((memo s).2 hs) v hf ?_
  intro s' hs' e'
  have hs'' := (memo s').1 hs'
  rw [h.here s' hs'', h.here s hs] at e'
  exact (List.idxOf_inj hs'').1 (by exact_mod_cast e')

/-- The layout every rank ends up with when the start-up checks pass. -/
theorem mpiInitialize_ok {g p loc : Ext} (h : GridOk g p loc) {c : ℤ} (hs : startUp g p c = .ok loc) (st : List Site) {me : ℤ}
    (hr : 0 ≤ me ∧ me < p.volume) :
    ∃ L order, mpiInitialize g p st c me = .ok L ∧ RankOk (sharedOf g p loc st) me L order := by
  obtain ⟨L, h1, h2⟩ := numberRank_ok (sharedOf_ok h.gpos st) me (loc.x * loc.y * loc.z * loc.t)
    (ownedSites_length h st hr).symm
  exact ⟨L, _, by unfold mpiInitialize; rw [hs]; exact h1, h2⟩

/-- Rank `r`, updating its own sites, reads site `s'` through the stencil. -/
def Reads (g p loc : Ext) (stencil : List Site) (r : ℤ) (s' : Site) : Prop :=
  ∃ s, InBox g s ∧ rankOf p loc s = r ∧ ∃ d ∈ stencil, wrap g (s.add d) = s'

/-- Site `s` is owned or read by rank `r`. -/
def Visible (g p loc : Ext) (stencil : List Site) (r : ℤ) (s : Site) : Prop :=
  rankOf p loc s = r ∨ Reads g p loc stencil r s

theorem mem_exchange' {g p loc : Ext} (st : List Site) {s' : Site} (hs' : InBox g s') (r : ℤ) :
    r ∈ (sharedOf g p loc st).exch (rawIndex g s') ↔ Reads g p loc st r s' ∧ rankOf p loc s' ≠ r := by
  rw [mem_exchange st hs' r]
  unfold Reads
  constructor
  · rintro ⟨s, hs, d, hd, h1, h2, h3⟩; exact ⟨⟨s, hs, h2, d, hd, h1⟩, h3⟩
  · rintro ⟨⟨s, hs, h2, d, hd, h1⟩, h3⟩; exact ⟨s, hs, d, hd, h1, h2, h3⟩

theorem mem_order_iff {g p loc : Ext} {st : List Site} {me : ℤ} {L : RankLayout} {order : List ℤ}
    (h : RankOk (sharedOf g p loc st) me L order) {s : Site} (hs : InBox g s) :
    rawIndex g s ∈ order ↔ Visible g p loc st me s := by
  rw [h.mem, owner_eq hs, mem_exchange' st hs]
  have := rawIndex_bounds hs
  unfold Visible
  constructor
  · rintro ⟨-, h | h⟩
    · exact Or.inl h
    · exact Or.inr h.1
  · intro hv
    refine ⟨this, ?_⟩
    by_cases e : rankOf p loc s = me
    · exact Or.inl e
    · exact Or.inr ⟨hv.resolve_left e, e⟩

theorem order_inBox {g p loc : Ext} (hg : g.Pos) {st : List Site} {me : ℤ} {L : RankLayout} {order : List ℤ}
    (h : RankOk (sharedOf g p loc st) me L order) {i : ℤ} (hi : i ∈ order) : InBox g (unIndex g i) :=
  unIndex_inBox hg ((h.mem i).1 hi).1

end Leonard
