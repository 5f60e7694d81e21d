import Verif.Layout.Halo
import Verif.Layout.MpiTables

set_option autoImplicit false

namespace Leonard

/-! ### Matching -/

theorem mpiMatch_zip (sends : List SendReq) (recvs : List RecvReq)
    (h : sends.map (·.tag) = recvs.map (·.tag)) : mpiMatch sends recvs = some (sends.zip recvs) := by
  induction recvs generalizing sends with
  | nil =>
    cases sends with
    | nil => rfl
    | cons s l => simp at h
  | cons r rs ih =>
    cases sends with
    | nil => simp at h
    | cons s l =>
      simp only [List.map_cons, List.cons.injEq] at h
      simp [mpiMatch, takeTag, h.1, ih l h.2]

/-- The requests between `a` and `b`, described by chunk and sharer position. -/
def linkReqs (S : Shared) (a b : ℤ) : List (Chunk × (ℕ × ℤ)) :=
  (buildChunks S).flatMap fun c =>
    if c.owner = a then ((indexed c.sharers).filter fun jr => jr.2 = b).map fun jr => (c, jr) else []

theorem filter_flatMap' {α β : Type} (q : β → Bool) (f : α → List β) (l : List α) :
    (l.flatMap f).filter q = l.flatMap fun a => (f a).filter q := by
  induction l with
  | nil => rfl
  | cons a l ih => simp [ih]

theorem sends_link {S : Shared} {me : ℤ} {L : RankLayout} {order : List ℤ} (h : RankOk S me L order)
    (tags : ℕ → ℕ → ℤ) (b : ℤ) :
    ((postedSends L tags me).filter fun s => s.dest = b) =
      (linkReqs S me b).map fun x => ⟨x.2.2, tags x.1.id x.2.1, L.offsets x.1.id, x.1.size⟩ := by
  unfold postedSends linkReqs
  rw [h.chunks, filter_flatMap', List.map_flatMap]
  congr 1
  funext c
  split
  · rw [List.filter_map, List.map_map]
    congr 1
  · rfl

theorem recvs_link {S : Shared} {me : ℤ} {L : RankLayout} {order : List ℤ} (h : RankOk S me L order)
    (tags : ℕ → ℕ → ℤ) (a : ℤ) (hab : a ≠ me) :
    ((postedRecvs L tags me).filter fun s => s.source = a) =
      (linkReqs S a me).map fun x => ⟨a, tags x.1.id x.2.1, L.offsets x.1.id, x.1.size⟩ := by
  unfold postedRecvs linkReqs
  rw [h.chunks, filter_flatMap', List.map_flatMap]
  congr 1
  funext c
  by_cases hc : c.owner = a
  · have : c.owner ≠ me := fun e => hab (hc ▸ e)
    rw [if_pos this, if_pos hc, List.filter_map, List.map_map]
    have e : ((fun s : RecvReq => decide (s.source = a)) ∘ fun jr : ℕ × ℤ => (⟨c.owner, tags c.id jr.1, L.offsets c.id, c.size⟩ : RecvReq))
        = fun _ => true := by funext jr; simp [hc]
    rw [e, List.filter_true]
    congr 1
    funext jr
    simp [hc]
  · rw [if_neg hc]
    split
    · rw [List.filter_map]
      have e : ((fun s : RecvReq => decide (s.source = a)) ∘ fun jr : ℕ × ℤ => (⟨c.owner, tags c.id jr.1, L.offsets c.id, c.size⟩ : RecvReq))
        = fun _ => false := by funext jr; simp [hc]
      rw [e, List.filter_false]; rfl
    · rfl

theorem recvs_self {S : Shared} {me : ℤ} {L : RankLayout} {order : List ℤ} (h : RankOk S me L order)
    (tags : ℕ → ℕ → ℤ) : ((postedRecvs L tags me).filter fun s => s.source = me) = [] := by
  unfold postedRecvs
  rw [filter_flatMap', List.flatMap_eq_nil_iff]
  intro c _
  split
  · rename_i hc
    rw [List.filter_map]
    have e : ((fun s : RecvReq => decide (s.source = me)) ∘ fun jr : ℕ × ℤ => (⟨c.owner, tags c.id jr.1, L.offsets c.id, c.size⟩ : RecvReq))
        = fun _ => false := by funext jr; simp [hc]
    rw [e, List.filter_false]; rfl
  · rfl

theorem mem_indexed {l : List ℤ} {jr : ℕ × ℤ} (h : jr ∈ indexed l) : jr.2 ∈ l := by
  unfold indexed at h
  exact (List.of_mem_zip (a := jr.1) (b := jr.2) h).2

theorem mem_indexed_of {l : List ℤ} {r : ℤ} (h : r ∈ l) : ∃ j, (j, r) ∈ indexed l := by
  obtain ⟨j, hj, e⟩ := List.mem_iff_getElem.1 h
  refine ⟨j, ?_⟩
  unfold indexed
  rw [List.mem_iff_getElem]
  exact ⟨j, by simpa using hj, by simp [e]⟩

theorem mem_linkReqs {S : Shared} {a b : ℤ} {x : Chunk × (ℕ × ℤ)} (h : x ∈ linkReqs S a b) :
    x.1 ∈ buildChunks S ∧ x.1.owner = a ∧ b ∈ x.1.sharers := by
  unfold linkReqs at h
  rw [List.mem_flatMap] at h
  obtain ⟨c, hc, h⟩ := h
  split at h
  · rename_i ho
    rw [List.mem_map] at h
    obtain ⟨jr, hjr, rfl⟩ := h
    simp only [List.mem_filter, decide_eq_true_eq] at hjr
    exact ⟨hc, ho, hjr.2 ▸ mem_indexed hjr.1⟩
  · cases h

theorem linkReqs_self {S : Shared} (h : S.Ok) (a : ℤ) : linkReqs S a a = [] := by
  rw [List.eq_nil_iff_forall_not_mem]
  intro x hx
  obtain ⟨h1, h2, h3⟩ := mem_linkReqs hx
  exact h.chunk_owner h1 (h2 ▸ h3)

theorem link_match {S : Shared} (hS : S.Ok) {a b : ℤ} {La Lb : RankLayout} {oa ob : List ℤ}
    (ha : RankOk S a La oa) (hb : RankOk S b Lb ob) (tags : ℕ → ℕ → ℤ) :
    mpiMatch ((postedSends La tags a).filter fun s => s.dest = b) ((postedRecvs Lb tags b).filter fun r => r.source = a) =
      some ((linkReqs S a b).map fun x =>
        (⟨x.2.2, tags x.1.id x.2.1, La.offsets x.1.id, x.1.size⟩, ⟨a, tags x.1.id x.2.1, Lb.offsets x.1.id, x.1.size⟩)) := by
  by_cases hab : a = b
  · subst hab
    rw [sends_link ha, recvs_self hb, linkReqs_self hS]
    rfl
  · rw [sends_link ha, recvs_link hb tags a hab, mpiMatch_zip]
    · rw [List.zip_map']
    · simp

theorem mapM_option_eq {α β : Type} (l : List α) (f : α → Option β) (f' : α → β) (h : ∀ a ∈ l, f a = some (f' a)) :
    l.mapM f = some (l.map f') := by
  induction l with
  | nil => rfl
  | cons a l ih =>
    rw [List.mapM_cons, h a (by simp), ih (fun a ha => h a (by simp [ha]))]
    rfl

/-- The words moved by a halo exchange. -/
def plannedCopies (S : Shared) (Lay : ℤ → RankLayout) (n : ℤ) : List Copy :=
  (((intRange n).flatMap fun a => (intRange n).map fun b => (a, b)).map fun ab : ℤ × ℤ =>
    (linkReqs S ab.1 ab.2).flatMap fun x =>
      (intRange x.1.size).map fun k => (⟨ab.2, (Lay ab.2).offsets x.1.id + k, ab.1, (Lay ab.1).offsets x.1.id + k⟩ : Copy)).flatten

theorem haloCopies_eq {S : Shared} (hS : S.Ok) {Lay : ℤ → RankLayout} {n : ℤ} {ord : ℤ → List ℤ}
    (h : ∀ r, 0 ≤ r → r < n → RankOk S r (Lay r) (ord r)) (tags : ℕ → ℕ → ℤ) :
    haloCopies Lay tags n = some (plannedCopies S Lay n) := by
  unfold haloCopies plannedCopies
  rw [mapM_option_eq _ _ (fun ab : ℤ × ℤ => (linkReqs S ab.1 ab.2).flatMap fun x =>
      (intRange x.1.size).map fun k => (⟨ab.2, (Lay ab.2).offsets x.1.id + k, ab.1, (Lay ab.1).offsets x.1.id + k⟩ : Copy))]
  · rfl
  · intro ab hab
    simp only [List.mem_flatMap, List.mem_map, mem_intRange] at hab
    obtain ⟨a, ha, b, hb, rfl⟩ := hab
    simp only
    rw [link_match hS (h a ha.1 ha.2) (h b hb.1 hb.2)]
    simp only [Option.map_some, List.flatMap_map]
    rfl

/-- A planned word: some rank `b` receives its copy of site `s` from the owner's slot. -/
theorem plannedCopies_sound {S : Shared} {Lay : ℤ → RankLayout} {n : ℤ} {ord : ℤ → List ℤ}
    (h : ∀ r, 0 ≤ r → r < n → RankOk S r (Lay r) (ord r)) {c : Copy} (hc : c ∈ plannedCopies S Lay n) :
    ∃ s, (0 ≤ s ∧ s < S.vol) ∧ c.dstRank ∈ S.exch s ∧ c.srcRank = S.owner s ∧
      (0 ≤ c.dstRank ∧ c.dstRank < n) ∧ (0 ≤ c.srcRank ∧ c.srcRank < n) ∧
      c.dstSlot = (Lay c.dstRank).localIndex s ∧ c.srcSlot = (Lay c.srcRank).localIndex s := by
  unfold plannedCopies at hc
  simp only [List.mem_flatten, List.mem_map, List.mem_flatMap, mem_intRange] at hc
  obtain ⟨l, ⟨ab, ⟨a, ha, b, hb, rfl⟩, rfl⟩, hc⟩ := hc
  simp only [List.mem_flatMap, List.mem_map, mem_intRange] at hc
  obtain ⟨x, hx, k, hk, rfl⟩ := hc
  obtain ⟨h1, h2, h3⟩ := mem_linkReqs hx
  have Ra := h a ha.1 ha.2
  have Rb := h b hb.1 hb.2
  have hsz := (chunk_of_mem h1).2.1
  have hk' : k.toNat < (chunkSites S x.1.id).length := by omega
  obtain ⟨s, hs⟩ : ∃ s, (chunkSites S x.1.id)[k.toNat]? = some s := ⟨_, List.getElem?_eq_getElem hk'⟩
  have hid := mem_chunkSites.1 (List.mem_of_getElem? hs)
  have hc := (chunk_of_mem h1).2.2.1 s hid
  have hrange := chunk_site_range hid
  obtain ⟨pa, oa⟩ := Ra.offs x.1 h1 (Or.inl h2)
  obtain ⟨pb, ob⟩ := Rb.offs x.1 h1 (Or.inr h3)
  have oa := oa k.toNat hk'
  have ob := ob k.toNat hk'
  rw [hs] at oa ob
  have slot : ∀ (L : RankLayout) (o : List ℤ) (me : ℤ), RankOk S me L o → 0 ≤ L.offsets x.1.id →
      o[(L.offsets x.1.id).toNat + k.toNat]? = some s → L.offsets x.1.id + k = L.localIndex s := by
    intro L o me R hp ho
    have hm := List.mem_of_getElem? ho
    rw [R.here s hm]
    obtain ⟨hlt, e⟩ := List.getElem?_eq_some_iff.1 ho
    rw [← e, R.nodup.idxOf_getElem]
    omega
  refine ⟨s, hrange, ?_, ?_, hb, ha, ?_, ?_⟩
  · rw [← hc.2]; exact h3
  · rw [← hc.1]; exact h2.symm
  · exact slot _ _ _ Rb pb ob
  · exact slot _ _ _ Ra pa oa

/-- Every halo copy is planned. -/
theorem plannedCopies_complete {S : Shared} {Lay : ℤ → RankLayout} {n : ℤ} {ord : ℤ → List ℤ}
    (h : ∀ r, 0 ≤ r → r < n → RankOk S r (Lay r) (ord r)) {s b : ℤ} (hs : 0 ≤ s ∧ s < S.vol)
    (hb : 0 ≤ b ∧ b < n) (ho : 0 ≤ S.owner s ∧ S.owner s < n) (hx : b ∈ S.exch s) :
    (⟨b, (Lay b).localIndex s, S.owner s, (Lay (S.owner s)).localIndex s⟩ : Copy) ∈ plannedCopies S Lay n := by
  obtain ⟨c, hc, h2, h3, h4⟩ := chunk_of_site hs.1 hs.2
  have hm := mem_chunkSites.2 h2
  obtain ⟨k, hk, e⟩ := List.mem_iff_getElem.1 hm
  have hsk : (chunkSites S c.id)[k]? = some s := by rw [List.getElem?_eq_getElem hk, e]
  have Ra := h _ ho.1 ho.2
  have Rb := h b hb.1 hb.2
  obtain ⟨pa, oa⟩ := Ra.offs c hc (Or.inl h3)
  obtain ⟨pb, ob⟩ := Rb.offs c hc (Or.inr (by rw [h4]; exact hx))
  have oa := oa k hk
  have ob := ob k hk
  rw [hsk] at oa ob
  have slot : ∀ (L : RankLayout) (o : List ℤ) (me : ℤ), RankOk S me L o → 0 ≤ L.offsets c.id →
      o[(L.offsets c.id).toNat + k]? = some s → L.offsets c.id + k = L.localIndex s := by
    intro L o me R hp ho
    have hm := List.mem_of_getElem? ho
    rw [R.here s hm]
    obtain ⟨hlt, e⟩ := List.getElem?_eq_some_iff.1 ho
    rw [← e, R.nodup.idxOf_getElem]
    omega
  unfold plannedCopies
  simp only [List.mem_flatten, List.mem_map, List.mem_flatMap, mem_intRange]
  refine ⟨_, ⟨(S.owner s, b), ⟨S.owner s, ho, b, hb, rfl⟩, rfl⟩, ?_⟩
  simp only [List.mem_flatMap, List.mem_map, mem_intRange]
  obtain ⟨j, hj⟩ := mem_indexed_of (l := c.sharers) (r := b) (by rw [h4]; exact hx)
  refine ⟨(c, (j, b)), ?_, (k : ℤ), ⟨by positivity, ?_⟩, ?_⟩
  · unfold linkReqs
    rw [List.mem_flatMap]
    refine ⟨c, hc, ?_⟩
    rw [if_pos h3, List.mem_map]
    exact ⟨(j, b), by simp [hj], rfl⟩
  · rw [(chunk_of_mem hc).2.1]; exact_mod_cast hk
  · rw [slot _ _ _ Ra pa oa, slot _ _ _ Rb pb ob]

/-! ### Moving words in any order -/

theorem exec_frame {α : Type} (ops : List Copy) (F : Memories α) (r k : ℤ)
    (h : ∀ c ∈ ops, ¬ (r = c.dstRank ∧ k = c.dstSlot)) : ops.foldl Copy.exec F r k = F r k := by
  induction ops generalizing F with
  | nil => rfl
  | cons c ops ih =>
    rw [List.foldl_cons, ih _ (fun c hc => h c (by simp [hc]))]
    simp [Copy.exec, h c (by simp)]

theorem exec_get {α : Type} (ops : List Copy) (F : Memories α) (c : Copy) (hc : c ∈ ops)
    (hfun : ∀ c' ∈ ops, c'.dstRank = c.dstRank → c'.dstSlot = c.dstSlot → c'.srcRank = c.srcRank ∧ c'.srcSlot = c.srcSlot)
    (hsrc : ∀ c' ∈ ops, ¬ (c.srcRank = c'.dstRank ∧ c.srcSlot = c'.dstSlot)) :
    ops.foldl Copy.exec F c.dstRank c.dstSlot = F c.srcRank c.srcSlot := by
  induction ops using List.reverseRecOn with
  | nil => cases hc
  | append_singleton ops d ih =>
    rw [List.foldl_append]
    simp only [List.foldl_cons, List.foldl_nil]
    unfold Copy.exec
    split
    · rename_i hd
      have := hfun d (by simp) hd.1.symm hd.2.symm
      rw [this.1, this.2]
      exact exec_frame ops F _ _ (fun c' hc' => hsrc c' (by simp [hc']))
    · rename_i hd
      have : c ∈ ops := by
        rcases List.mem_append.1 hc with h | h
        · exact h
        · simp only [List.mem_singleton] at h; subst h; exact absurd ⟨rfl, rfl⟩ hd
      exact ih this (fun c' hc' => hfun c' (by simp [hc'])) (fun c' hc' => hsrc c' (by simp [hc']))

/-- The effect of a halo update, for any order of the word copies. -/
theorem haloUpdate_effect {α : Type} {S : Shared} (hS : S.Ok) {Lay : ℤ → RankLayout} {n : ℤ} {ord : ℤ → List ℤ}
    (h : ∀ r, 0 ≤ r → r < n → RankOk S r (Lay r) (ord r))
    (howner : ∀ s, 0 ≤ s → s < S.vol → 0 ≤ S.owner s ∧ S.owner s < n)
    (tags : ℕ → ℕ → ℤ) (F F' : Memories α) (hu : HaloUpdate Lay tags n F F') (r : ℤ) (hr : 0 ≤ r ∧ r < n) :
    (∀ s ∈ ord r, F' r ((Lay r).localIndex s) = F (S.owner s) ((Lay (S.owner s)).localIndex s)) ∧
    (∀ k, (k < 0 ∨ (Lay r).completesize ≤ k) → F' r k = F r k) := by
  obtain ⟨copies, hc, ops, hp, rfl⟩ := hu
  rw [haloCopies_eq hS h] at hc
  cases hc
  have sound := fun (c : Copy) (hc : c ∈ ops) => plannedCopies_sound h (hp.mem_iff.1 hc)
  have slotinj : ∀ r, 0 ≤ r → r < n → ∀ s ∈ ord r, ∀ s', s' ∈ ord r → (Lay r).localIndex s = (Lay r).localIndex s' → s = s' := by
    intro r h0 h1 s hs s' hs' e
    rw [(h r h0 h1).here s hs, (h r h0 h1).here s' hs'] at e
    exact (List.idxOf_inj hs).1 (by exact_mod_cast e)
  have stored : ∀ r, 0 ≤ r → r < n → ∀ s, 0 ≤ s → s < S.vol → (S.owner s = r ∨ r ∈ S.exch s) → s ∈ ord r :=
    fun r h0 h1 s a b c => ((h r h0 h1).mem s).2 ⟨⟨a, b⟩, c⟩
  constructor
  · intro s hs
    have hs' := ((h r hr.1 hr.2).mem s).1 hs
    by_cases e : S.owner s = r
    · rw [e]
      apply exec_frame
      rintro c hc ⟨h1, h2⟩
      obtain ⟨s₂, a1, a2, a3, a4, a5, a6, a7⟩ := sound c hc
      have m2 := stored _ a4.1 a4.2 s₂ a1.1 a1.2 (Or.inr a2)
      rw [← h1] at m2 a6
      have := slotinj r hr.1 hr.2 s hs s₂ m2 (by rw [← a6, ← h2])
      subst this
      rw [← h1, ← e] at a2
      exact hS.owner s a1.1 a1.2 a2
    · have hx : r ∈ S.exch s := hs'.2.resolve_left e
      have ho := howner s hs'.1.1 hs'.1.2
      have hm := hp.mem_iff.2 (plannedCopies_complete h hs'.1 hr ho hx)
      have := exec_get ops F _ hm ?_ ?_
      · exact this
      · intro c hc e1 e2
        simp only at e1 e2 ⊢
        obtain ⟨s₂, a1, a2, a3, a4, a5, a6, a7⟩ := sound c hc
        have m2 := stored _ a4.1 a4.2 s₂ a1.1 a1.2 (Or.inr a2)
        rw [e1] at m2 a6
        have := slotinj r hr.1 hr.2 s hs s₂ m2 (by rw [← e2, a6])
        subst this
        exact ⟨a3, by rw [a7, a3]⟩
      · rintro c hc ⟨e1, e2⟩
        simp only at e1 e2
        obtain ⟨s₂, a1, a2, a3, a4, a5, a6, a7⟩ := sound c hc
        have m2 := stored _ a4.1 a4.2 s₂ a1.1 a1.2 (Or.inr a2)
        have m1 := stored _ ho.1 ho.2 s hs'.1.1 hs'.1.2 (Or.inl rfl)
        rw [← e1] at m2 a6
        have := slotinj _ ho.1 ho.2 s m1 s₂ m2 (by rw [e2, a6])
        subst this
        rw [← e1] at a2
        exact hS.owner s a1.1 a1.2 a2
  · intro k hk
    apply exec_frame
    rintro c hc ⟨h1, h2⟩
    obtain ⟨s₂, a1, a2, a3, a4, a5, a6, a7⟩ := sound c hc
    have m2 := stored _ a4.1 a4.2 s₂ a1.1 a1.2 (Or.inr a2)
    rw [← h1] at m2 a6
    have R := h r hr.1 hr.2
    rw [R.here s₂ m2] at a6
    have hlt := List.idxOf_lt_length_iff.2 m2
    have hcs := R.complete
    omega

theorem haloUpdate_exists {α : Type} {S : Shared} (hS : S.Ok) {Lay : ℤ → RankLayout} {n : ℤ} {ord : ℤ → List ℤ}
    (h : ∀ r, 0 ≤ r → r < n → RankOk S r (Lay r) (ord r)) (tags : ℕ → ℕ → ℤ) (F : Memories α) :
    ∃ F', HaloUpdate Lay tags n F F' :=
  ⟨_, _, haloCopies_eq hS h tags, _, List.Perm.refl _, rfl⟩

end Leonard
