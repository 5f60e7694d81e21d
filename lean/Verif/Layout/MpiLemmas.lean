import Verif.Layout.Mpi
import Verif.Layout.Lemmas
import Mathlib.Data.List.Range
import Mathlib.Data.List.Perm.Basic

set_option autoImplicit false

namespace Leonard

/-! ### Identification strings determine owner and sharers -/

theorem dot_notMem_toDigits (n : ℕ) : '.' ∉ Nat.toDigits 10 n := by
  intro h
  have := Nat.isDigit_of_mem_toDigits (by norm_num) (by norm_num) h
  revert this; decide

theorem minus_notMem_toDigits (n : ℕ) : '-' ∉ Nat.toDigits 10 n := by
  intro h
  have := Nat.isDigit_of_mem_toDigits (by norm_num) (by norm_num) h
  revert this; decide

theorem toDigits_inj {m n : ℕ} (h : Nat.toDigits 10 m = Nat.toDigits 10 n) : m = n := by
  rw [← Nat.ofDigitChars_ten_toDigits (n := m), h, Nat.ofDigitChars_ten_toDigits]

theorem dot_notMem_decInt (i : ℤ) : '.' ∉ decInt i := by
  cases i with
  | ofNat n => exact dot_notMem_toDigits n
  | negSucc n =>
    simp only [decInt, List.mem_cons, not_or]
    exact ⟨by decide, dot_notMem_toDigits _⟩

theorem decInt_inj {i j : ℤ} (h : decInt i = decInt j) : i = j := by
  cases i with
  | ofNat m =>
    cases j with
    | ofNat n => exact congrArg _ (toDigits_inj h)
    | negSucc n =>
      simp only [decInt] at h
      exact absurd (h ▸ List.mem_cons_self) (minus_notMem_toDigits m)
  | negSucc m =>
    cases j with
    | ofNat n =>
      simp only [decInt] at h
      exact absurd (h ▸ List.mem_cons_self) (minus_notMem_toDigits n)
    | negSucc n =>
      simp only [decInt, List.cons.injEq, true_and] at h
      have := toDigits_inj h
      congr 1; omega

theorem dotted_split {w w' r r' : List Char} (hw : '.' ∉ w) (hw' : '.' ∉ w')
    (hr : r = [] ∨ ∃ t, r = '.' :: t) (hr' : r' = [] ∨ ∃ t, r' = '.' :: t)
    (h : w ++ r = w' ++ r') : w = w' ∧ r = r' := by
  induction w generalizing w' with
  | nil =>
    cases w' with
    | nil => exact ⟨rfl, h⟩
    | cons c w' =>
      exfalso
      rcases hr with rfl | ⟨t, rfl⟩
      · simp at h
      · simp only [List.nil_append, List.cons_append, List.cons.injEq] at h
        exact hw' (by simp [← h.1])
  | cons c w ih =>
    cases w' with
    | nil =>
      exfalso
      rcases hr' with rfl | ⟨t, rfl⟩
      · simp at h
      · simp only [List.nil_append, List.cons_append, List.cons.injEq] at h
        exact hw (by simp [h.1])
    | cons c' w' =>
      simp only [List.cons_append, List.cons.injEq] at h
      simp only [List.mem_cons, not_or] at hw hw'
      obtain ⟨a, b⟩ := ih hw.2 hw'.2 h.2
      exact ⟨by rw [h.1, a], b⟩

theorem dotted_tail (l : List ℤ) (r : List Char) :
    (l.flatMap fun e => '.' :: decInt e) ++ '.' :: r = [] ∨ ∃ t, (l.flatMap fun e => '.' :: decInt e) ++ '.' :: r = '.' :: t := by
  cases l with
  | nil => exact Or.inr ⟨r, rfl⟩
  | cons a l => exact Or.inr ⟨_, rfl⟩

theorem dotted_list_inj (l l' : List ℤ)
    (h : (l.flatMap fun e => '.' :: decInt e) = l'.flatMap fun e => '.' :: decInt e) : l = l' := by
  induction l generalizing l' with
  | nil =>
    cases l' with
    | nil => rfl
    | cons a l' => simp at h
  | cons a l ih =>
    cases l' with
    | nil => simp at h
    | cons b l' =>
      simp only [List.flatMap_cons, List.cons_append, List.cons.injEq, true_and] at h
      have ht : ∀ l : List ℤ, (l.flatMap fun e => '.' :: decInt e) = [] ∨
          ∃ t, (l.flatMap fun e => '.' :: decInt e) = '.' :: t := by
        intro l; cases l with
        | nil => exact Or.inl rfl
        | cons a l => exact Or.inr ⟨_, rfl⟩
      obtain ⟨e1, e2⟩ := dotted_split (dot_notMem_decInt a) (dot_notMem_decInt b) (ht l) (ht l') h
      rw [decInt_inj e1, ih _ e2]

theorem foldl_dotted (l : List ℤ) (w : List Char) :
    l.foldl (fun id e => id ++ '.' :: decInt e) w = w ++ l.flatMap fun e => '.' :: decInt e := by
  induction l generalizing w with
  | nil => simp
  | cons a l ih => rw [List.foldl_cons, ih]; simp

theorem idString_eq (S : Shared) (s : ℤ) :
    idString S s = decInt (S.owner s) ++ ((S.exch s ++ [((S.exch s).length : ℤ)]).flatMap fun e => '.' :: decInt e) := by
  unfold idString; rw [foldl_dotted]; simp

theorem idString_inj {S : Shared} {s s' : ℤ} (h : idString S s = idString S s') :
    S.owner s = S.owner s' ∧ S.exch s = S.exch s' := by
  rw [idString_eq, idString_eq] at h
  have ht : ∀ l : List ℤ, (l.flatMap fun e => '.' :: decInt e) = [] ∨
      ∃ t, (l.flatMap fun e => '.' :: decInt e) = '.' :: t := by
    intro l; cases l with
    | nil => exact Or.inl rfl
    | cons a l => exact Or.inr ⟨_, rfl⟩
  obtain ⟨e1, e2⟩ := dotted_split (dot_notMem_decInt _) (dot_notMem_decInt _) (ht _) (ht _) h
  refine ⟨decInt_inj e1, ?_⟩
  have := dotted_list_inj _ _ e2
  exact (List.append_inj' this rfl).1

/-! ### Numbering of the identification strings -/

theorem findId_spec (ids : List (List Char)) (id : List Char) :
    (∀ i, findId ids id = some i → ids[i]? = some id) ∧ (findId ids id = none → id ∉ ids) := by
  have key : ∀ n, (∀ i, (List.range n).foldl (fun found i => if ids[i]? = some id then some i else found) none = some i →
        ids[i]? = some id) ∧
      ((List.range n).foldl (fun found i => if ids[i]? = some id then some i else found) none = none →
        ∀ i < n, ids[i]? ≠ some id) := by
    intro n
    induction n with
    | zero => simp
    | succ n ih =>
      rw [List.range_succ, List.foldl_append]
      simp only [List.foldl_cons, List.foldl_nil]
      constructor
      · intro i h
        split at h
        · rename_i h'; cases h; exact h'
        · exact ih.1 i h
      · intro h i hi
        split at h
        · cases h
        · rename_i h'
          rcases Nat.lt_succ_iff_lt_or_eq.1 hi with hlt | rfl
          · exact ih.2 h i hlt
          · exact h'
  refine ⟨(key ids.length).1, fun h hmem => ?_⟩
  obtain ⟨i, hi, e⟩ := List.mem_iff_getElem.1 hmem
  exact (key ids.length).2 h i hi (by rw [List.getElem?_eq_getElem hi, e])

/-- Facts about the numbering after a list of sites has been processed. -/
structure IdsOk (S : Shared) (sites : List ℤ) (ids : List (List Char)) (m : Mem ℕ) : Prop where
  nodup : ids.Nodup
  has : ∀ s ∈ sites, ∃ i, m s = some i ∧ ids[i]? = some (idString S s)
  used : ∀ i < ids.length, ∃ s ∈ sites, m s = some i
  out : ∀ s, s ∉ sites → m s = none

theorem numberIds_aux (S : Shared) (sites : List ℤ) (hnd : sites.Nodup) :
    let r := sites.foldl (fun (x : List (List Char) × Mem ℕ) site =>
      match findId x.1 (idString S site) with
      | some i => (x.1, x.2.write site i)
      | none => (x.1 ++ [idString S site], x.2.write site x.1.length)) ([], Mem.empty)
    IdsOk S sites r.1 r.2 := by
  intro r
  simp only [r]; clear r
  induction sites using List.reverseRecOn with
  | nil => exact ⟨by simp, by simp, by simp, by intro s _; rfl⟩
  | append_singleton sites a ih =>
    rw [List.nodup_append] at hnd
    have ih := ih hnd.1
    have ha : a ∉ sites := fun h => hnd.2.2 a h a (by simp) rfl
    rw [List.foldl_append]
    simp only [List.foldl_cons, List.foldl_nil]
    generalize sites.foldl (fun (x : List (List Char) × Mem ℕ) site =>
      match findId x.1 (idString S site) with
      | some i => (x.1, x.2.write site i)
      | none => (x.1 ++ [idString S site], x.2.write site x.1.length)) ([], Mem.empty) = r at ih
    obtain ⟨ids, m⟩ := r
    simp only at ih ⊢
    cases hf : findId ids (idString S a) with
    | some i =>
      have hi := (findId_spec ids _).1 i hf
      refine ⟨ih.nodup, ?_, ?_, ?_⟩
      · intro s hs
        simp only [Mem.write]
        by_cases e : s = a
        · subst e; exact ⟨i, by simp, hi⟩
        · have : s ∈ sites := by simpa [e] using hs
          simpa [e] using ih.has s this
      · intro k hk
        obtain ⟨s, hs, e⟩ := ih.used k hk
        refine ⟨s, by simp [hs], ?_⟩
        have : s ≠ a := fun h => ha (h ▸ hs)
        simpa [Mem.write, this] using e
      · intro s hs
        simp only [List.mem_append, List.mem_singleton, not_or] at hs
        simpa [Mem.write, hs.2] using ih.out s hs.1
    | none =>
      have hi := (findId_spec ids _).2 hf
      refine ⟨?_, ?_, ?_, ?_⟩
      · rw [List.nodup_append]
        exact ⟨ih.nodup, by simp, fun x hx y hy e => hi (by simp at hy; rw [← hy, ← e]; exact hx)⟩
      · intro s hs
        simp only [Mem.write]
        by_cases e : s = a
        · subst e; exact ⟨ids.length, by simp⟩
        · have : s ∈ sites := by simpa [e] using hs
          obtain ⟨i, h1, h2⟩ := ih.has s this
          refine ⟨i, by simpa [e] using h1, ?_⟩
          rw [List.getElem?_append_left (List.getElem?_eq_some_iff.1 h2).1]
          exact h2
      · intro k hk
        simp only [List.length_append, List.length_singleton] at hk
        rcases Nat.lt_succ_iff_lt_or_eq.1 hk with hlt | rfl
        · obtain ⟨s, hs, e⟩ := ih.used k hlt
          refine ⟨s, by simp [hs], ?_⟩
          have : s ≠ a := fun h => ha (h ▸ hs)
          simpa [Mem.write, this] using e
        · exact ⟨a, by simp, by simp [Mem.write]⟩
      · intro s hs
        simp only [List.mem_append, List.mem_singleton, not_or] at hs
        simpa [Mem.write, hs.2] using ih.out s hs.1

theorem numberIds_ok (S : Shared) : IdsOk S (intRange S.vol) (numberIds S).1 (numberIds S).2 :=
  numberIds_aux S _ (nodup_intRange _)

/-- Two sites share a chunk number exactly when owner and sharers agree. -/
theorem same_chunk {S : Shared} {s s' : ℤ} {i : ℕ} (h : (numberIds S).2 s = some i)
    (h' : (numberIds S).2 s' = some i) : S.owner s = S.owner s' ∧ S.exch s = S.exch s' := by
  have ok := numberIds_ok S
  have hs : s ∈ intRange S.vol := by
    by_contra hn; rw [ok.out s hn] at h; cases h
  have hs' : s' ∈ intRange S.vol := by
    by_contra hn; rw [ok.out s' hn] at h'; cases h'
  obtain ⟨a, a1, a2⟩ := ok.has s hs
  obtain ⟨b, b1, b2⟩ := ok.has s' hs'
  rw [h] at a1; rw [h'] at b1
  cases a1; cases b1
  rw [a2] at b2
  exact idString_inj (Option.some.inj b2)

/-! ### Chunks -/

/-- The sites of chunk number `i`, in increasing order. -/
def chunkSites (S : Shared) (i : ℕ) : List ℤ := (intRange S.vol).filter fun s => (numberIds S).2 s = some i

theorem mem_chunkSites {S : Shared} {i : ℕ} {s : ℤ} : s ∈ chunkSites S i ↔ (numberIds S).2 s = some i := by
  unfold chunkSites
  simp only [List.mem_filter, decide_eq_true_eq]
  refine ⟨fun h => h.2, fun h => ⟨?_, h⟩⟩
  by_contra hn
  rw [(numberIds_ok S).out s hn] at h; cases h

theorem nodup_chunkSites (S : Shared) (i : ℕ) : (chunkSites S i).Nodup := (nodup_intRange _).filter _

theorem chunkSites_ne_nil {S : Shared} {i : ℕ} (h : i < (numberIds S).1.length) : chunkSites S i ≠ [] := by
  obtain ⟨s, -, hs⟩ := (numberIds_ok S).used i h
  exact List.ne_nil_of_mem (mem_chunkSites.2 hs)

theorem buildChunks_aux (S : Shared) (sites : List ℤ) (n : ℕ) (hlt : ∀ s ∈ sites, ∀ i, (numberIds S).2 s = some i → i < n) :
    let cs := sites.foldl (fun cs site =>
      match (numberIds S).2 site with
      | some i => cs.modify i fun c => { c with size := c.size + 1, owner := S.owner site, sharers := S.exch site }
      | none => cs) (emptyChunks n)
    cs.length = n ∧ ∀ i < n, ∃ c, cs[i]? = some c ∧ c.id = i ∧
      c.size = ((sites.filter fun s => (numberIds S).2 s = some i).length : ℤ) ∧
      ∀ s ∈ sites, (numberIds S).2 s = some i → c.owner = S.owner s ∧ c.sharers = S.exch s := by
  intro cs
  simp only [cs]; clear cs
  induction sites using List.reverseRecOn with
  | nil =>
    refine ⟨by simp [emptyChunks], fun i hi => ⟨⟨i, -1, 0, []⟩, ?_, rfl, by simp, by simp⟩⟩
    simp [emptyChunks, hi]
  | append_singleton sites a ih =>
    have ih := ih (fun s hs => hlt s (by simp [hs]))
    rw [List.foldl_append]
    simp only [List.foldl_cons, List.foldl_nil]
    generalize sites.foldl (fun cs site =>
      match (numberIds S).2 site with
      | some i => cs.modify i fun c => { c with size := c.size + 1, owner := S.owner site, sharers := S.exch site }
      | none => cs) (emptyChunks n) = cs at ih
    cases hk : (numberIds S).2 a with
    | none =>
      refine ⟨ih.1, fun i hi => ?_⟩
      obtain ⟨c, h1, h2, h3, h4⟩ := ih.2 i hi
      refine ⟨c, h1, h2, ?_, ?_⟩
      · rw [h3, List.filter_append]; simp [hk]
      · intro s hs hsi
        rcases List.mem_append.1 hs with h | h
        · exact h4 s h hsi
        · simp only [List.mem_singleton] at h; subst h; rw [hk] at hsi; cases hsi
    | some k =>
      simp only
      refine ⟨by rw [List.length_modify]; exact ih.1, fun i hi => ?_⟩
      obtain ⟨c, h1, h2, h3, h4⟩ := ih.2 i hi
      by_cases e : k = i
      · subst e
        refine ⟨{ c with size := c.size + 1, owner := S.owner a, sharers := S.exch a }, ?_, h2, ?_, ?_⟩
        · rw [List.getElem?_modify]; simp [h1]
        · simp [h3, List.filter_append, hk]
        · intro s hs hsi
          have := same_chunk hsi hk
          simp [this.1, this.2]
      · refine ⟨c, ?_, h2, ?_, ?_⟩
        · rw [List.getElem?_modify]; simp [e, h1]
        · rw [h3, List.filter_append]; simp [hk, e]
        · intro s hs hsi
          rcases List.mem_append.1 hs with h | h
          · exact h4 s h hsi
          · simp only [List.mem_singleton] at h; subst h; rw [hk] at hsi; cases hsi; exact absurd rfl e

/-- What the chunk list contains. -/
theorem buildChunks_spec (S : Shared) :
    (buildChunks S).length = (numberIds S).1.length ∧
    ∀ i < (numberIds S).1.length, ∃ c, (buildChunks S)[i]? = some c ∧ c.id = i ∧
      c.size = ((chunkSites S i).length : ℤ) ∧
      ∀ s, (numberIds S).2 s = some i → c.owner = S.owner s ∧ c.sharers = S.exch s := by
  have := buildChunks_aux S (intRange S.vol) (numberIds S).1.length (by
    intro s hs i hi
    obtain ⟨j, h1, h2⟩ := (numberIds_ok S).has s hs
    rw [hi] at h1; cases h1
    exact (List.getElem?_eq_some_iff.1 h2).1)
  refine ⟨this.1, fun i hi => ?_⟩
  obtain ⟨c, h1, h2, h3, h4⟩ := this.2 i hi
  refine ⟨c, h1, h2, h3, fun s hs => h4 s ?_ hs⟩
  by_contra hn
  rw [(numberIds_ok S).out s hn] at hs; cases hs

theorem chunk_of_mem {S : Shared} {c : Chunk} (h : c ∈ buildChunks S) :
    (buildChunks S)[c.id]? = some c ∧ c.size = ((chunkSites S c.id).length : ℤ) ∧
    (∀ s, (numberIds S).2 s = some c.id → c.owner = S.owner s ∧ c.sharers = S.exch s) ∧
    ∃ s, (numberIds S).2 s = some c.id := by
  obtain ⟨i, hi, e⟩ := List.mem_iff_getElem.1 h
  have hlen := (buildChunks_spec S).1
  obtain ⟨c', h1, h2, h3, h4⟩ := (buildChunks_spec S).2 i (by omega)
  rw [List.getElem?_eq_getElem hi, e] at h1
  cases h1
  subst h2
  refine ⟨by rw [List.getElem?_eq_getElem hi, e], h3, h4, ?_⟩
  obtain ⟨s, -, hs⟩ := (numberIds_ok S).used c.id (by omega)
  exact ⟨s, hs⟩

theorem chunk_of_site {S : Shared} {s : ℤ} (h0 : 0 ≤ s) (h1 : s < S.vol) :
    ∃ c ∈ buildChunks S, (numberIds S).2 s = some c.id ∧ c.owner = S.owner s ∧ c.sharers = S.exch s := by
  obtain ⟨i, e1, e2⟩ := (numberIds_ok S).has s (mem_intRange.2 ⟨h0, h1⟩)
  obtain ⟨c, a1, a2, -, a4⟩ := (buildChunks_spec S).2 i (List.getElem?_eq_some_iff.1 e2).1
  exact ⟨c, List.mem_of_getElem? a1, by rw [a2]; exact e1, a4 s e1⟩

theorem buildChunks_ids_nodup (S : Shared) : ((buildChunks S).map (·.id)).Nodup := by
  have : (buildChunks S).map (·.id) = List.range (buildChunks S).length := by
    apply List.ext_getElem
    · simp
    · intro i h1 h2
      simp only [List.length_map] at h1
      have := (chunk_of_mem (List.getElem_mem h1)).1
      obtain ⟨c', a1, a2, -⟩ := (buildChunks_spec S).2 i (by rw [← (buildChunks_spec S).1]; exact h1)
      rw [List.getElem?_eq_getElem h1] at a1
      cases a1
      simpa using a2
  rw [this]; exact List.nodup_range

theorem buildChunks_nodup (S : Shared) : (buildChunks S).Nodup := List.Nodup.of_map _ (buildChunks_ids_nodup S)

end Leonard
