import Verif.Layout.MpiLemmas
import Mathlib.Data.List.Flatten
import Mathlib.Data.List.Count

set_option autoImplicit false

namespace Leonard

/-- The sites numbered when the chunks of `P` have been placed, in order. -/
def orderOf (S : Shared) (P : List Chunk) : List ℤ := P.flatMap fun c => chunkSites S c.id

theorem orderOf_append (S : Shared) (P Q : List Chunk) : orderOf S (P ++ Q) = orderOf S P ++ orderOf S Q := by
  simp [orderOf]

theorem mem_orderOf {S : Shared} {P : List Chunk} {s : ℤ} :
    s ∈ orderOf S P ↔ ∃ c ∈ P, (numberIds S).2 s = some c.id := by
  simp [orderOf, mem_chunkSites]

theorem nodup_orderOf {S : Shared} {P : List Chunk} (h : (P.map (·.id)).Nodup) : (orderOf S P).Nodup := by
  unfold orderOf
  rw [List.nodup_flatMap]
  refine ⟨fun c _ => nodup_chunkSites S c.id, ?_⟩
  rw [List.Nodup, List.pairwise_map] at h
  refine h.imp ?_
  intro a b hab
  simp only [Function.onFun]
  intro s hs hs'
  rw [mem_chunkSites] at hs hs'
  rw [hs] at hs'
  exact hab (Option.some.inj hs')

/-- What is true after placing the chunks `P` one after the other. -/
structure Placed (S : Shared) (P : List Chunk) (st : Numbering) : Prop where
  offset : st.offset = (orderOf S P).length
  index : st.index = (orderOf S P).length
  here : ∀ s ∈ orderOf S P, st.localIndex s = (orderOf S P).idxOf s
  absent : ∀ s, s ∉ orderOf S P → st.localIndex s = -1
  offs : ∀ P₁ c P₂, P = P₁ ++ c :: P₂ → st.offsets c.id = (orderOf S P₁).length
  offsAbsent : ∀ i, i ∉ P.map (·.id) → st.offsets i = -1

theorem placed_init (S : Shared) : Placed S [] Numbering.init := by
  refine ⟨rfl, rfl, by simp [orderOf], fun _ _ => rfl, ?_, fun _ _ => rfl⟩
  intro P₁ c P₂ h; simp at h

theorem place_fold (S : Shared) (i : ℕ) (l : List ℤ) (hl : l.Nodup) (st : Numbering) :
    let r := l.foldl (fun (st : Numbering) site =>
      if (numberIds S).2 site = some i then
        { st with localIndex := fun j => if j = site then st.index else st.localIndex j, index := st.index + 1 }
      else st) st
    let f := l.filter fun s => (numberIds S).2 s = some i
    r.offset = st.offset ∧ r.sharedsize = st.sharedsize ∧ r.offsets = st.offsets ∧
    r.index = st.index + f.length ∧
    (∀ s ∈ f, r.localIndex s = st.index + f.idxOf s) ∧ (∀ s, s ∉ f → r.localIndex s = st.localIndex s) := by
  induction l using List.reverseRecOn with
  | nil => simp
  | append_singleton l a ih =>
    rw [List.nodup_append] at hl
    have ih := ih hl.1
    have ha : a ∉ l := fun h => hl.2.2 a h a (by simp) rfl
    simp only [List.foldl_append, List.foldl_cons, List.foldl_nil, List.filter_append] at ih ⊢
    generalize l.foldl (fun (st : Numbering) site =>
      if (numberIds S).2 site = some i then
        { st with localIndex := fun j => if j = site then st.index else st.localIndex j, index := st.index + 1 }
      else st) st = r at ih
    obtain ⟨h1, h2, h3, h4, h5, h6⟩ := ih
    by_cases hk : (numberIds S).2 a = some i
    · simp only [hk, if_true, List.filter_cons, decide_true, List.filter_nil]
      refine ⟨h1, h2, h3, by rw [h4]; simp; ring, ?_, ?_⟩
      · intro s hs
        by_cases e : s = a
        · subst e
          have : s ∉ l.filter fun s => (numberIds S).2 s = some i := fun h => ha (List.mem_filter.1 h).1
          simp [h4, List.idxOf_append, this]
        · have hs' : s ∈ l.filter fun s => (numberIds S).2 s = some i := by simpa [e] using hs
          simp only [e, if_false, h5 s hs', List.idxOf_append, hs', if_true]
      · intro s hs
        simp only [List.mem_append, List.mem_singleton, not_or] at hs
        simp only [hs.2, if_false]
        exact h6 s hs.1
    · simp only [hk, if_false, List.filter_cons, List.filter_nil, decide_false]
      simp only [Bool.false_eq_true, if_false, List.append_nil]
      exact ⟨h1, h2, h3, h4, h5, h6⟩

theorem place_sharedsize (S : Shared) (st : Numbering) (c : Chunk) : (place S st c).sharedsize = st.sharedsize := by
  unfold place
  exact (place_fold S c.id _ (nodup_intRange S.vol) _).2.1

theorem Placed.step {S : Shared} {P : List Chunk} {st : Numbering} (h : Placed S P st) {c : Chunk}
    (hsz : c.size = (chunkSites S c.id).length) (hc : c.id ∉ P.map (·.id)) : Placed S (P ++ [c]) (place S st c) := by
  have key := place_fold S c.id _ (nodup_intRange S.vol)
    { st with offsets := fun i => if i = c.id then st.offset else st.offsets i, offset := st.offset + c.size }
  obtain ⟨h1, h2, h3, h4, h5, h6⟩ := key
  have hdis : ∀ s, s ∈ orderOf S P → s ∉ chunkSites S c.id := by
    intro s hs hs'
    rw [mem_orderOf] at hs
    obtain ⟨c', hc', e⟩ := hs
    rw [mem_chunkSites, e] at hs'
    exact hc (List.mem_map.2 ⟨c', hc', Option.some.inj hs'⟩)
  have hord : orderOf S (P ++ [c]) = orderOf S P ++ chunkSites S c.id := by simp [orderOf]
  refine ⟨?_, ?_, ?_, ?_, ?_, ?_⟩
  · unfold place; simp only; rw [h1, hord, h.offset, hsz]; simp
  · unfold place; simp only; rw [h4, hord, h.index]; simp [chunkSites]
  · intro s hs
    rw [hord] at hs ⊢
    unfold place; simp only
    by_cases hm : s ∈ chunkSites S c.id
    · rw [h5 s hm, h.index]
      have : s ∉ orderOf S P := fun h => hdis s h hm
      rw [List.idxOf_append, if_neg this]
      simp only [chunkSites]; push_cast; ring
    · rw [h6 s hm]
      have hs' : s ∈ orderOf S P := by simpa [hm] using hs
      rw [List.idxOf_append, if_pos hs']
      exact h.here s hs'
  · intro s hs
    rw [hord, List.mem_append, not_or] at hs
    unfold place; simp only
    rw [h6 s hs.2]; exact h.absent s hs.1
  · intro P₁ c' P₂ e
    unfold place; simp only; rw [h3]; simp only
    rcases List.append_eq_append_iff.1 e with ⟨a, ha1, ha2⟩ | ⟨a, ha1, ha2⟩
    · -- P₁ = P ++ a, [c] = a ++ c' :: P₂
      cases a with
      | nil =>
        simp only [List.nil_append, List.cons.injEq] at ha2
        rw [← ha2.1, if_pos rfl, h.offset, ha1, List.append_nil]
      | cons x a => simp at ha2
    · cases a with
      | nil =>
        simp only [List.nil_append, List.cons.injEq] at ha2
        rw [ha2.1, if_pos rfl, h.offset, ha1, List.append_nil]
      | cons x a =>
        simp only [List.cons_append, List.cons.injEq] at ha2
        obtain ⟨rfl, ha2⟩ := ha2
        have hmem : c' ∈ P := by rw [ha1]; simp
        have hne : c'.id ≠ c.id := fun e => hc (List.mem_map.2 ⟨c', hmem, e⟩)
        rw [if_neg hne]
        exact h.offs P₁ c' a ha1
  · intro i hi
    simp only [List.map_append, List.map_cons, List.map_nil, List.mem_append, List.mem_singleton, not_or] at hi
    unfold place; simp only; rw [h3]; simp only
    rw [if_neg hi.2]; exact h.offsAbsent i hi.1

/-- Placing in a loop the chunks of `cs` that satisfy `q`. -/
theorem placed_loop {S : Shared} (q : Chunk → Bool) (body : Numbering → Chunk → Numbering)
    (cs : List Chunk) (P : List Chunk) (st : Numbering) (hst : Placed S P st)
    (hyes : ∀ st c, c ∈ cs → q c = true → ∀ P, Placed S P st → c.id ∉ P.map (·.id) → Placed S (P ++ [c]) (body st c))
    (hno : ∀ st c, c ∈ cs → q c = false → body st c = st)
    (hnd : ((P ++ cs.filter q).map (·.id)).Nodup) :
    Placed S (P ++ cs.filter q) (cs.foldl body st) := by
  induction cs generalizing P st with
  | nil => simpa using hst
  | cons c cs ih =>
    rw [List.foldl_cons]
    cases hq : q c with
    | false =>
      rw [hno st c (by simp) hq]
      have : (c :: cs).filter q = cs.filter q := by simp [List.filter_cons, hq]
      rw [this] at hnd ⊢
      exact ih P st hst (fun st c' hc' => hyes st c' (by simp [hc'])) (fun st c' hc' => hno st c' (by simp [hc'])) hnd
    | true =>
      have : (c :: cs).filter q = c :: cs.filter q := by simp [List.filter_cons, hq]
      rw [this] at hnd ⊢
      have e : P ++ c :: cs.filter q = (P ++ [c]) ++ cs.filter q := by simp
      rw [e] at hnd ⊢
      refine ih (P ++ [c]) _ (hyes st c (by simp) hq P hst ?_) (fun st c' hc' => hyes st c' (by simp [hc']))
        (fun st c' hc' => hno st c' (by simp [hc'])) hnd
      rw [List.map_append, List.map_append, List.nodup_append, List.nodup_append] at hnd
      intro hmem
      exact hnd.1.2.2 _ hmem _ (by simp) rfl

/-- Chunks owned by `me` that some other rank reads. -/
def ownShared (S : Shared) (me : ℤ) : List Chunk :=
  (buildChunks S).filter fun c => decide (c.owner = me ∧ c.sharers.length ≠ 0)

/-- Chunks owned by `me` that nobody else reads. -/
def ownPrivate (S : Shared) (me : ℤ) : List Chunk :=
  (buildChunks S).filter fun c => decide (c.owner = me ∧ c.sharers.length = 0)

/-- Chunks of other ranks that `me` reads. -/
def haloChunks (S : Shared) (me : ℤ) : List Chunk :=
  (buildChunks S).filter fun c => decide (me ∈ c.sharers)

/-- What the sharing table guarantees: no duplicates, the owner is not among the readers. -/
structure Shared.Ok (S : Shared) : Prop where
  nodup : ∀ s, 0 ≤ s → s < S.vol → (S.exch s).Nodup
  owner : ∀ s, 0 ≤ s → s < S.vol → S.owner s ∉ S.exch s

theorem chunk_site_range {S : Shared} {s : ℤ} {i : ℕ} (h : (numberIds S).2 s = some i) : 0 ≤ s ∧ s < S.vol := by
  rw [← mem_intRange]
  by_contra hn
  rw [(numberIds_ok S).out s hn] at h; cases h

theorem Shared.Ok.chunk_nodup {S : Shared} (h : S.Ok) {c : Chunk} (hc : c ∈ buildChunks S) : c.sharers.Nodup := by
  obtain ⟨-, -, a, s, hs⟩ := chunk_of_mem hc
  rw [(a s hs).2]
  exact h.nodup s (chunk_site_range hs).1 (chunk_site_range hs).2

theorem Shared.Ok.chunk_owner {S : Shared} (h : S.Ok) {c : Chunk} (hc : c ∈ buildChunks S) : c.owner ∉ c.sharers := by
  obtain ⟨-, -, a, s, hs⟩ := chunk_of_mem hc
  rw [(a s hs).2, (a s hs).1]
  exact h.owner s (chunk_site_range hs).1 (chunk_site_range hs).2

theorem sublist_ids_nodup {S : Shared} {P : List Chunk} (h : P.Nodup) (hsub : ∀ c ∈ P, c ∈ buildChunks S) :
    (P.map (·.id)).Nodup := by
  refine List.Nodup.map_on ?_ h
  intro a ha b hb e
  have h1 := (chunk_of_mem (hsub a ha)).1
  have h2 := (chunk_of_mem (hsub b hb)).1
  rw [e, h2] at h1
  exact (Option.some.inj h1).symm

/-- The chunks stored on rank `me`, in storage order. -/
def storedChunks (S : Shared) (me : ℤ) : List Chunk := ownShared S me ++ ownPrivate S me ++ haloChunks S me

theorem storedChunks_sub {S : Shared} {me : ℤ} {c : Chunk} (h : c ∈ storedChunks S me) : c ∈ buildChunks S := by
  unfold storedChunks ownShared ownPrivate haloChunks at h
  simp only [List.mem_append, List.mem_filter] at h
  rcases h with (h | h) | h <;> exact h.1

theorem storedChunks_nodup {S : Shared} (h : S.Ok) (me : ℤ) : (storedChunks S me).Nodup := by
  unfold storedChunks
  rw [List.nodup_append, List.nodup_append]
  have nb := buildChunks_nodup S
  refine ⟨⟨nb.filter _, nb.filter _, ?_⟩, nb.filter _, ?_⟩
  · intro a ha b hb e
    subst e
    simp only [ownShared, ownPrivate, List.mem_filter, decide_eq_true_eq] at ha hb
    exact ha.2.2 hb.2.2
  · intro a ha b hb e
    subst e
    simp only [ownShared, ownPrivate, haloChunks, List.mem_append, List.mem_filter, decide_eq_true_eq] at ha hb
    have := h.chunk_owner hb.1
    rcases ha with ha | ha <;> exact this (ha.2.1 ▸ hb.2)

theorem storedChunks_ids {S : Shared} (h : S.Ok) (me : ℤ) : ((storedChunks S me).map (·.id)).Nodup :=
  sublist_ids_nodup (storedChunks_nodup h me) fun _ hc => storedChunks_sub hc

theorem sharers_fold {α : Type} (l : List ℤ) (hl : l.Nodup) (me : ℤ) (f : α → α) (st : α) :
    l.foldl (fun st r => if r = me then f st else st) st = if me ∈ l then f st else st := by
  induction l generalizing st with
  | nil => simp
  | cons a l ih =>
    rw [List.nodup_cons] at hl
    rw [List.foldl_cons, ih hl.2]
    by_cases e : a = me
    · subst e; simp [hl.1]
    · have : me ≠ a := fun h => e h.symm
      simp [e, this]

theorem placed_shared_irrel {S : Shared} {P : List Chunk} {st : Numbering} (h : Placed S P st) (n : ℤ) :
    Placed S P { st with sharedsize := n } := ⟨h.offset, h.index, h.here, h.absent, h.offs, h.offsAbsent⟩

theorem pass1_placed {S : Shared} (h : S.Ok) (me : ℤ) :
    Placed S (ownShared S me) (pass1 S me (buildChunks S) Numbering.init) := by
  have := placed_loop (S := S) (fun c => decide (c.owner = me ∧ c.sharers.length ≠ 0))
    (fun st c => if c.owner = me ∧ c.sharers.length ≠ 0 then
      place S { st with sharedsize := st.sharedsize + c.size } c else st)
    (buildChunks S) [] Numbering.init (placed_init S)
    (by
      intro st c hc hq P hP hn
      simp only [decide_eq_true_eq] at hq
      simp only [hq, ne_eq, not_false_eq_true, and_self, if_true]
      exact (placed_shared_irrel hP _).step (chunk_of_mem hc).2.1 hn)
    (by
      intro st c hc hq
      simp only [decide_eq_false_iff_not] at hq
      simp only [hq, if_false])
    (by
      rw [List.nil_append]
      exact sublist_ids_nodup ((buildChunks_nodup S).filter _) fun c hc => (List.mem_filter.1 hc).1)
  simpa [pass1, ownShared] using this

theorem pass2_placed {S : Shared} (h : S.Ok) (me : ℤ) :
    Placed S (ownShared S me ++ ownPrivate S me)
      (pass2 S me (buildChunks S) (pass1 S me (buildChunks S) Numbering.init)) := by
  refine placed_loop (S := S) (fun c => decide (c.owner = me ∧ c.sharers.length = 0))
    (fun st c => if c.owner = me ∧ c.sharers.length = 0 then place S st c else st)
    (buildChunks S) _ _ (pass1_placed h me)
    (by
      intro st c hc hq P hP hn
      simp only [decide_eq_true_eq] at hq
      simp only [hq, and_self, if_true]
      exact hP.step (chunk_of_mem hc).2.1 hn)
    (by
      intro st c hc hq
      simp only [decide_eq_false_iff_not] at hq
      simp only [hq, if_false])
    ?_
  have := storedChunks_ids h me
  unfold storedChunks at this
  rw [List.map_append, List.nodup_append] at this
  exact this.1

theorem pass3_placed {S : Shared} (h : S.Ok) (me : ℤ) :
    Placed S (storedChunks S me)
      (pass3 S me (buildChunks S) (pass2 S me (buildChunks S) (pass1 S me (buildChunks S) Numbering.init))) := by
  refine placed_loop (S := S) (fun c => decide (me ∈ c.sharers))
    (fun st c => c.sharers.foldl (fun st r => if r = me then place S st c else st) st)
    (buildChunks S) _ _ (pass2_placed h me)
    (by
      intro st c hc hq P hP hn
      simp only [decide_eq_true_eq] at hq
      rw [sharers_fold _ (h.chunk_nodup hc) me (fun st => place S st c), if_pos hq]
      exact hP.step (chunk_of_mem hc).2.1 hn)
    (by
      intro st c hc hq
      simp only [decide_eq_false_iff_not] at hq
      rw [sharers_fold _ (h.chunk_nodup hc) me (fun st => place S st c), if_neg hq])
    (storedChunks_ids h me)

/-! ### Sizes -/

theorem pass_sharedsize_of_place (body : Numbering → Chunk → Numbering) (cs : List Chunk)
    (hb : ∀ st c, (body st c).sharedsize = st.sharedsize) (st : Numbering) :
    (cs.foldl body st).sharedsize = st.sharedsize := by
  induction cs generalizing st with
  | nil => rfl
  | cons c cs ih => rw [List.foldl_cons, ih, hb]

theorem sharedsize_eq (S : Shared) (me : ℤ) :
    (pass3 S me (buildChunks S) (pass2 S me (buildChunks S) (pass1 S me (buildChunks S) Numbering.init))).sharedsize
      = (orderOf S (ownShared S me)).length := by
  unfold pass3
  rw [pass_sharedsize_of_place]
  · unfold pass2
    rw [pass_sharedsize_of_place]
    · unfold pass1 ownShared
      have : ∀ (cs : List Chunk), (∀ c ∈ cs, c ∈ buildChunks S) → ∀ st : Numbering,
          (cs.foldl (fun st c => if c.owner = me ∧ c.sharers.length ≠ 0 then
            place S { st with sharedsize := st.sharedsize + c.size } c else st) st).sharedsize =
          st.sharedsize + (orderOf S (cs.filter fun c => decide (c.owner = me ∧ c.sharers.length ≠ 0))).length := by
        intro cs
        induction cs with
        | nil => intro _ st; simp [orderOf]
        | cons c cs ih =>
          intro hsub st
          rw [List.foldl_cons, ih (fun c hc => hsub c (by simp [hc]))]
          by_cases hq : c.owner = me ∧ c.sharers.length ≠ 0
          · simp only [hq, ne_eq, not_false_eq_true, and_self, if_true, place_sharedsize, List.filter_cons, decide_true]
            rw [(chunk_of_mem (hsub c (by simp))).2.1]
            simp only [orderOf, List.flatMap_cons, List.length_append]
            push_cast; ring
          · simp only [hq, if_false, List.filter_cons, decide_false]
            rfl
      rw [this _ (fun _ h => h)]
      simp [Numbering.init]
    · intro st c; split
      · exact place_sharedsize S st c
      · rfl
  · intro st c
    have : ∀ l : List ℤ, ∀ st : Numbering,
        (l.foldl (fun st r => if r = me then place S st c else st) st).sharedsize = st.sharedsize := by
      intro l
      induction l with
      | nil => intro st; rfl
      | cons a l ih =>
        intro st; rw [List.foldl_cons, ih]; split
        · exact place_sharedsize S st c
        · rfl
    exact this _ st

theorem completesizeOf_eq {S : Shared} (h : S.Ok) (me n : ℤ) :
    completesizeOf (buildChunks S) me n = n + (orderOf S (haloChunks S me)).length := by
  unfold completesizeOf haloChunks
  have : ∀ (cs : List Chunk), (∀ c ∈ cs, c ∈ buildChunks S) → ∀ n : ℤ,
      cs.foldl (fun n c => c.sharers.foldl (fun n r => if r = me then n + c.size else n) n) n =
      n + (orderOf S (cs.filter fun c => decide (me ∈ c.sharers))).length := by
    intro cs
    induction cs with
    | nil => intro _ n; simp [orderOf]
    | cons c cs ih =>
      intro hsub n
      have hc := hsub c (by simp)
      rw [List.foldl_cons, ih (fun c hc => hsub c (by simp [hc])),
        sharers_fold _ (h.chunk_nodup hc) me (fun n => n + c.size)]
      by_cases hq : me ∈ c.sharers
      · simp only [hq, if_true, List.filter_cons, decide_true]
        rw [(chunk_of_mem hc).2.1]
        simp only [orderOf, List.flatMap_cons, List.length_append]
        push_cast; ring
      · simp only [hq, if_false, List.filter_cons, decide_false]
        rfl
  exact this _ (fun _ h => h) n

/-! ### Which sites are stored -/

theorem mem_order_ownShared {S : Shared} {me s : ℤ} (h0 : 0 ≤ s) (h1 : s < S.vol) :
    s ∈ orderOf S (ownShared S me) ↔ S.owner s = me ∧ S.exch s ≠ [] := by
  rw [mem_orderOf]
  constructor
  · rintro ⟨c, hc, hs⟩
    simp only [ownShared, List.mem_filter, decide_eq_true_eq] at hc
    have := (chunk_of_mem hc.1).2.2.1 s hs
    rw [← this.1, ← this.2]
    exact ⟨hc.2.1, fun e => hc.2.2 (by simp [e])⟩
  · rintro ⟨ho, he⟩
    obtain ⟨c, hc, h2, h3, h4⟩ := chunk_of_site h0 h1
    refine ⟨c, ?_, h2⟩
    simp only [ownShared, List.mem_filter, decide_eq_true_eq]
    exact ⟨hc, by rw [h3, ho], by rw [h4]; simpa using he⟩

theorem mem_order_ownPrivate {S : Shared} {me s : ℤ} (h0 : 0 ≤ s) (h1 : s < S.vol) :
    s ∈ orderOf S (ownPrivate S me) ↔ S.owner s = me ∧ S.exch s = [] := by
  rw [mem_orderOf]
  constructor
  · rintro ⟨c, hc, hs⟩
    simp only [ownPrivate, List.mem_filter, decide_eq_true_eq] at hc
    have := (chunk_of_mem hc.1).2.2.1 s hs
    rw [← this.1, ← this.2]
    exact ⟨hc.2.1, List.length_eq_zero_iff.1 hc.2.2⟩
  · rintro ⟨ho, he⟩
    obtain ⟨c, hc, h2, h3, h4⟩ := chunk_of_site h0 h1
    refine ⟨c, ?_, h2⟩
    simp only [ownPrivate, List.mem_filter, decide_eq_true_eq]
    exact ⟨hc, by rw [h3, ho], by rw [h4]; simpa using he⟩

theorem mem_order_halo {S : Shared} {me s : ℤ} (h0 : 0 ≤ s) (h1 : s < S.vol) :
    s ∈ orderOf S (haloChunks S me) ↔ me ∈ S.exch s := by
  rw [mem_orderOf]
  constructor
  · rintro ⟨c, hc, hs⟩
    simp only [haloChunks, List.mem_filter, decide_eq_true_eq] at hc
    have := (chunk_of_mem hc.1).2.2.1 s hs
    rw [← this.2]; exact hc.2
  · intro he
    obtain ⟨c, hc, h2, h3, h4⟩ := chunk_of_site h0 h1
    refine ⟨c, ?_, h2⟩
    simp only [haloChunks, List.mem_filter, decide_eq_true_eq]
    exact ⟨hc, by rw [h4]; exact he⟩

theorem orderOf_range {S : Shared} {P : List Chunk} {s : ℤ} (h : s ∈ orderOf S P) : 0 ≤ s ∧ s < S.vol := by
  rw [mem_orderOf] at h
  obtain ⟨c, -, hs⟩ := h
  exact chunk_site_range hs

/-- The sites owned by a rank. -/
def ownedSites (S : Shared) (me : ℤ) : List ℤ := (intRange S.vol).filter fun s => S.owner s = me

theorem ownOrder_perm {S : Shared} (h : S.Ok) (me : ℤ) :
    (orderOf S (ownShared S me ++ ownPrivate S me)).Perm (ownedSites S me) := by
  have nd : (orderOf S (ownShared S me ++ ownPrivate S me)).Nodup := by
    refine nodup_orderOf ?_
    have := storedChunks_ids h me
    unfold storedChunks at this
    rw [List.map_append, List.nodup_append] at this
    exact this.1
  refine (List.perm_ext_iff_of_nodup nd (List.Nodup.filter _ (nodup_intRange _) : (ownedSites S me).Nodup)).2 ?_
  intro s
  rw [orderOf_append, List.mem_append]
  simp only [List.mem_filter, mem_intRange, decide_eq_true_eq]
  constructor
  · rintro (hs | hs)
    · have r := orderOf_range hs
      exact ⟨r, ((mem_order_ownShared r.1 r.2).1 hs).1⟩
    · have r := orderOf_range hs
      exact ⟨r, ((mem_order_ownPrivate r.1 r.2).1 hs).1⟩
  · rintro ⟨r, ho⟩
    rw [mem_order_ownShared r.1 r.2, mem_order_ownPrivate r.1 r.2]
    by_cases e : S.exch s = []
    · exact Or.inr ⟨ho, e⟩
    · exact Or.inl ⟨ho, e⟩

/-- Everything the numbering of one rank guarantees. `order` is the list of stored sites in storage order:
slot `k` holds site `order[k]`. -/
structure RankOk (S : Shared) (me : ℤ) (L : RankLayout) (order : List ℤ) : Prop where
  nodup : order.Nodup
  complete : L.completesize = order.length
  mem : ∀ s, s ∈ order ↔ (0 ≤ s ∧ s < S.vol) ∧ (S.owner s = me ∨ me ∈ S.exch s)
  here : ∀ s ∈ order, L.localIndex s = order.idxOf s
  absent : ∀ s, s ∉ order → L.localIndex s = -1
  localsize : L.localsize = (ownedSites S me).length
  owned : ∀ k : ℕ, ∀ s, order[k]? = some s → ((k : ℤ) < L.localsize ↔ S.owner s = me)
  shared : ∀ k : ℕ, ∀ s, order[k]? = some s → ((k : ℤ) < L.sharedsize ↔ S.owner s = me ∧ S.exch s ≠ [])
  chunks : L.chunks = buildChunks S
  offs : ∀ c ∈ buildChunks S, c.owner = me ∨ me ∈ c.sharers →
    0 ≤ L.offsets c.id ∧ ∀ k : ℕ, k < (chunkSites S c.id).length →
      order[(L.offsets c.id).toNat + k]? = (chunkSites S c.id)[k]?
  offsAbsent : ∀ c ∈ buildChunks S, ¬ (c.owner = me ∨ me ∈ c.sharers) → L.offsets c.id = -1

theorem numberRank_ok {S : Shared} (h : S.Ok) (me localsize : ℤ) (hls : localsize = (ownedSites S me).length) :
    ∃ L, numberRank S localsize me = .ok L ∧ RankOk S me L (orderOf S (storedChunks S me)) := by
  have p2 := pass2_placed h me
  have p3 := pass3_placed h me
  have hss := sharedsize_eq S me
  have hlen : (orderOf S (ownShared S me ++ ownPrivate S me)).length = (ownedSites S me).length :=
    (ownOrder_perm h me).length_eq
  have hcs := completesizeOf_eq h me localsize
  let st := pass3 S me (buildChunks S) (pass2 S me (buildChunks S) (pass1 S me (buildChunks S) Numbering.init))
  refine ⟨⟨buildChunks S, localsize, st.sharedsize, completesizeOf (buildChunks S) me localsize, st.localIndex,
    st.offsets⟩, ?_, ?_⟩
  · unfold numberRank
    simp only
    rw [if_neg, if_neg]
    · rintro ⟨hne, -⟩
      apply hne
      rw [p3.offset, hcs, hls, ← hlen]
      unfold storedChunks
      rw [orderOf_append (P := ownShared S me ++ ownPrivate S me)]
      simp
    · rintro ⟨hne, -⟩
      exact hne (by rw [p2.offset, hls, hlen])
  · have nd := nodup_orderOf (S := S) (storedChunks_ids h me)
    have hsplit : orderOf S (storedChunks S me) = orderOf S (ownShared S me ++ ownPrivate S me) ++ orderOf S (haloChunks S me) := by
      unfold storedChunks; rw [orderOf_append]
    have hlocal : ∀ k : ℕ, ∀ s, (orderOf S (storedChunks S me))[k]? = some s →
        ((k : ℤ) < localsize ↔ S.owner s = me) := by
      intro k s hk
      have hr := orderOf_range (List.mem_of_getElem? hk)
      rw [hsplit] at hk
      rw [hls, ← hlen]
      rw [List.getElem?_append] at hk
      split at hk
      · rename_i hlt
        have hm := List.mem_of_getElem? hk
        have := (ownOrder_perm h me).mem_iff.1 hm
        simp only [ownedSites, List.mem_filter, decide_eq_true_eq] at this
        simp only [this.2, iff_true]; exact_mod_cast hlt
      · rename_i hge
        have hm := (mem_order_halo hr.1 hr.2).1 (List.mem_of_getElem? hk)
        constructor
        · intro hlt; exact absurd (by exact_mod_cast hlt) hge
        · intro ho; exact absurd (ho ▸ hm) (h.owner s hr.1 hr.2)
    refine ⟨nd, ?_, ?_, p3.here, p3.absent, hls, hlocal, ?_, rfl, ?_, ?_⟩
    · simp only; rw [hcs, hls, ← hlen, hsplit]; simp
    · intro s
      constructor
      · intro hs
        have hr := orderOf_range hs
        refine ⟨hr, ?_⟩
        rw [hsplit, List.mem_append, (ownOrder_perm h me).mem_iff, mem_order_halo hr.1 hr.2] at hs
        rcases hs with hs | hs
        · simp only [ownedSites, List.mem_filter, decide_eq_true_eq] at hs; exact Or.inl hs.2
        · exact Or.inr hs
      · rintro ⟨hr, hs⟩
        rw [hsplit, List.mem_append, (ownOrder_perm h me).mem_iff, mem_order_halo hr.1 hr.2]
        rcases hs with hs | hs
        · left; simp [ownedSites, mem_intRange, hr, hs]
        · exact Or.inr hs
    · intro k s hk
      simp only
      rw [hss]
      have hr := orderOf_range (List.mem_of_getElem? hk)
      have hsp : orderOf S (storedChunks S me) = orderOf S (ownShared S me) ++ orderOf S (ownPrivate S me ++ haloChunks S me) := by
        unfold storedChunks; rw [List.append_assoc, orderOf_append]
      rw [hsp, List.getElem?_append] at hk
      split at hk
      · rename_i hlt
        have := (mem_order_ownShared hr.1 hr.2).1 (List.mem_of_getElem? hk)
        simp only [this, ne_eq, not_false_eq_true, and_self, iff_true]; exact_mod_cast hlt
      · rename_i hge
        constructor
        · intro hlt; exact absurd (by exact_mod_cast hlt) hge
        · intro ho
          have hm := List.mem_of_getElem? hk
          rw [orderOf_append, List.mem_append, mem_order_ownPrivate hr.1 hr.2, mem_order_halo hr.1 hr.2] at hm
          rcases hm with hm | hm
          · exact absurd hm.2 ho.2
          · exact absurd (ho.1 ▸ hm) (h.owner s hr.1 hr.2)
    · intro c hc hown
      have hmem : c ∈ storedChunks S me := by
        unfold storedChunks ownShared ownPrivate haloChunks
        simp only [List.mem_append, List.mem_filter, decide_eq_true_eq]
        rcases hown with ho | ho
        · left
          by_cases e : c.sharers.length = 0
          · exact Or.inr ⟨hc, ho, e⟩
          · exact Or.inl ⟨hc, ho, e⟩
        · exact Or.inr ⟨hc, ho⟩
      obtain ⟨P₁, P₂, e⟩ := List.append_of_mem hmem
      have hoff := p3.offs P₁ c P₂ e
      simp only
      rw [hoff]
      refine ⟨by positivity, fun k hk => ?_⟩
      rw [e, orderOf_append]
      simp only [Int.toNat_natCast]
      rw [List.getElem?_append_right (by omega), Nat.add_sub_cancel_left]
      have : orderOf S (c :: P₂) = chunkSites S c.id ++ orderOf S P₂ := by simp [orderOf]
      rw [this, List.getElem?_append_left hk]
    · intro c hc hn
      refine p3.offsAbsent c.id ?_
      intro hmem
      obtain ⟨c', hc', e⟩ := List.mem_map.1 hmem
      have e1 := (chunk_of_mem (storedChunks_sub hc')).1
      have e2 := (chunk_of_mem hc).1
      rw [e, e2] at e1
      cases Option.some.inj e1
      apply hn
      unfold storedChunks ownShared ownPrivate haloChunks at hc'
      simp only [List.mem_append, List.mem_filter, decide_eq_true_eq] at hc'
      rcases hc' with (h' | h') | h'
      · exact Or.inl h'.2.1
      · exact Or.inl h'.2.1
      · exact Or.inr h'.2

end Leonard
