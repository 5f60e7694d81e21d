import Verif.Layout.HaloLemmas
import Verif.Layout.Reduce
import Mathlib.Algebra.BigOperators.Group.Finset.Piecewise

set_option autoImplicit false

namespace Leonard

/-! ### Paths on the torus -/

/-- The displacement of one step. -/
def Step.delta (a : Step) : Site := if a.2 then deltaPlus a.1 else deltaMinus a.1

/-- The site reached from `s` along a path on the periodic lattice. -/
def pathSite (g : Ext) : Site → List Step → Site
  | s, [] => s
  | s, a :: rest => pathSite g (wrap g (s.add a.delta)) rest

/-- The total displacement of a path. -/
def disp : List Step → Site
  | [] => ⟨0, 0, 0, 0⟩
  | a :: rest => a.delta.add (disp rest)

/-- Every non-empty prefix of the path leads back to the start or along a displacement of the stencil. -/
def PathOk (st : List Site) (path : List Step) : Prop :=
  ∀ q ∈ path.inits, disp q ∈ st ∨ disp q = ⟨0, 0, 0, 0⟩

instance (st : List Site) (path : List Step) : Decidable (PathOk st path) := by unfold PathOk; infer_instance

theorem Site.add_assoc (a b c : Site) : (a.add b).add c = a.add (b.add c) := by
  simp [Site.add, _root_.add_assoc]

theorem pathSite_eq {g : Ext} {s : Site} (hs : InBox g s) (path : List Step) :
    pathSite g s path = wrap g (s.add (disp path)) := by
  induction path generalizing s with
  | nil =>
    have : s.add (disp []) = s := by simp [disp, Site.add]
    rw [this, wrap_of_inBox hs]; rfl
  | cons a rest ih =>
    rw [pathSite, ih (wrap_inBox hs.pos _), wrap_wrap_add, Site.add_assoc]
    rfl

theorem pathSite_inBox {g : Ext} {s : Site} (hs : InBox g s) (path : List Step) : InBox g (pathSite g s path) := by
  rw [pathSite_eq hs]; exact wrap_inBox hs.pos _

section
variable {g p loc : Ext} {st : List Site} {me : ℤ} {L : RankLayout} {order : List ℤ}

theorem rank_sup (h : RankOk (sharedOf g p loc st) me L order) {s : Site} (hs : InBox g s) (hv : Visible g p loc st me s) :
    (rankTables g (sharedOf g p loc st) L).sup (L.localIndex (rawIndex g s)) =
      some fun i => L.localIndex (rawIndex g (wrap g (s.add (deltaPlus i)))) := by
  have hm := (mem_order_iff h hs).2 hv
  exact fillTable_get h _ hm (by rw [globalStep_eq hs]; rfl)

theorem rank_down (h : RankOk (sharedOf g p loc st) me L order) {s : Site} (hs : InBox g s) (hv : Visible g p loc st me s) :
    (rankTables g (sharedOf g p loc st) L).down (L.localIndex (rawIndex g s)) =
      some fun i => L.localIndex (rawIndex g (wrap g (s.add (deltaMinus i)))) := by
  have hm := (mem_order_iff h hs).2 hv
  exact fillTable_get h _ hm (by rw [globalStep_eq hs]; rfl)

theorem rank_coord (h : RankOk (sharedOf g p loc st) me L order) {s : Site} (hs : InBox g s) (hv : Visible g p loc st me s) :
    (rankTables g (sharedOf g p loc st) L).coord (L.localIndex (rawIndex g s)) = some s := by
  have hm := (mem_order_iff h hs).2 hv
  exact fillTable_get h _ hm (globalMapSite_eq hs)

theorem slot_bounds (h : RankOk (sharedOf g p loc st) me L order) {s : Site} (hs : InBox g s) (hv : Visible g p loc st me s) :
    0 ≤ L.localIndex (rawIndex g s) ∧ L.localIndex (rawIndex g s) < L.completesize := by
  have hm := (mem_order_iff h hs).2 hv
  rw [h.here _ hm, h.complete]
  exact ⟨by positivity, by exact_mod_cast List.idxOf_lt_length_iff.2 hm⟩

theorem slot_inj (h : RankOk (sharedOf g p loc st) me L order) {s s' : Site} (hs : InBox g s) (hv : Visible g p loc st me s)
    (hs' : InBox g s') (hv' : Visible g p loc st me s')
    (e : L.localIndex (rawIndex g s) = L.localIndex (rawIndex g s')) : s = s' := by
  have hm := (mem_order_iff h hs).2 hv
  have hm' := (mem_order_iff h hs').2 hv'
  rw [h.here _ hm, h.here _ hm'] at e
  exact rawIndex_inj hs hs' ((List.idxOf_inj hm).1 (by exact_mod_cast e))

theorem slot_surj (hg : g.Pos) (h : RankOk (sharedOf g p loc st) me L order) {k : ℤ} (h0 : 0 ≤ k) (h1 : k < L.completesize) :
    ∃ s, InBox g s ∧ Visible g p loc st me s ∧ L.localIndex (rawIndex g s) = k := by
  rw [h.complete] at h1
  have hk : k.toNat < order.length := by omega
  have hm : order[k.toNat] ∈ order := List.getElem_mem hk
  have hb := order_inBox hg h hm
  refine ⟨unIndex g order[k.toNat], hb, (mem_order_iff h hb).1 (by rw [rawIndex_unIndex]; exact hm), ?_⟩
  rw [rawIndex_unIndex, h.here _ hm, h.nodup.idxOf_getElem]
  omega

theorem slot_owned (h : RankOk (sharedOf g p loc st) me L order) {s : Site} (hs : InBox g s) (hv : Visible g p loc st me s) :
    L.localIndex (rawIndex g s) < L.localsize ↔ rankOf p loc s = me := by
  have hm := (mem_order_iff h hs).2 hv
  have hl := List.idxOf_lt_length_iff.2 hm
  rw [h.here _ hm, ← owner_eq (st := st) hs]
  exact h.owned _ _ (by rw [List.getElem?_eq_getElem hl, List.getElem_idxOf])

theorem slot_shared (h : RankOk (sharedOf g p loc st) me L order) {s : Site} (hs : InBox g s) (hv : Visible g p loc st me s) :
    L.localIndex (rawIndex g s) < L.sharedsize ↔
      rankOf p loc s = me ∧ ∃ r, r ≠ me ∧ Reads g p loc st r s := by
  have hm := (mem_order_iff h hs).2 hv
  have hl := List.idxOf_lt_length_iff.2 hm
  rw [h.here _ hm]
  rw [h.shared _ (rawIndex g s) (by rw [List.getElem?_eq_getElem hl, List.getElem_idxOf]), owner_eq hs]
  constructor
  · rintro ⟨h1, h2⟩
    refine ⟨h1, ?_⟩
    obtain ⟨r, hr⟩ := List.exists_mem_of_ne_nil _ h2
    have := (mem_exchange' st hs r).1 hr
    exact ⟨r, fun e => this.2 (by rw [h1, e]), this.1⟩
  · rintro ⟨h1, r, h2, h3⟩
    exact ⟨h1, List.ne_nil_of_mem ((mem_exchange' st hs r).2 ⟨h3, by rw [h1]; exact h2.symm⟩)⟩

/-- Following the tables from a stored slot along a path whose sites are all stored. -/
theorem followRank_visible (h : RankOk (sharedOf g p loc st) me L order) (path : List Step) {s : Site} (hs : InBox g s)
    (hv : ∀ q ∈ path.inits, Visible g p loc st me (pathSite g s q)) :
    followRank (rankTables g (sharedOf g p loc st) L) (L.localIndex (rawIndex g s)) path =
      some (L.localIndex (rawIndex g (pathSite g s path))) := by
  induction path generalizing s with
  | nil =>
    have h0 : Visible g p loc st me s := hv [] (by simp)
    have := (slot_bounds h hs h0).1
    rw [followRank, if_neg (by omega)]; rfl
  | cons a rest ih =>
    obtain ⟨mu, up⟩ := a
    have h0 : Visible g p loc st me s := hv [] (by simp)
    have hs' : InBox g (wrap g (s.add (Step.delta (mu, up)))) := wrap_inBox hs.pos _
    have hv' : ∀ q ∈ rest.inits, Visible g p loc st me (pathSite g (wrap g (s.add (Step.delta (mu, up)))) q) := by
      intro q hq
      refine hv ((mu, up) :: q) ?_
      simp only [List.inits_cons, List.mem_cons, List.mem_map]
      exact Or.inr ⟨q, hq, rfl⟩
    have := ih hs' hv'
    rw [followRank]
    cases up with
    | true => simpa [rank_sup h hs h0, pathSite, Step.delta] using this
    | false => simpa [rank_down h hs h0, pathSite, Step.delta] using this

/-- A path inside the stencil can be followed from every owned site. -/
theorem pathOk_visible {s : Site} (hs : InBox g s) (ho : rankOf p loc s = me) {path : List Step} (hp : PathOk st path) :
    ∀ q ∈ path.inits, Visible g p loc st me (pathSite g s q) := by
  intro q hq
  rw [pathSite_eq hs]
  rcases hp q hq with h | h
  · exact Or.inr ⟨s, hs, ho, _, h, rfl⟩
  · left
    rw [h]
    have : s.add ⟨0, 0, 0, 0⟩ = s := by simp [Site.add]
    rw [this, wrap_of_inBox hs, ho]

end

/-! ### Sums -/

section
variable {A : Type} [AddCommMonoid A]

theorem foldl_add_eq_sum {β : Type} (l : List β) (f : β → A) (a : A) :
    l.foldl (fun r k => r + f k) a = a + (l.map f).sum := by
  induction l generalizing a with
  | nil => simp
  | cons b l ih => rw [List.foldl_cons, ih]; simp [add_assoc]

theorem allReduceSum_eq (order : List ℤ) (v : ℤ → A) : allReduceSum order v = (order.map v).sum := by
  unfold allReduceSum; rw [foldl_add_eq_sum, zero_add]

theorem serialSum_eq (n : ℤ) (f : ℤ → A) : serialSum n f = ((intRange n).map f).sum := by
  unfold serialSum; rw [foldl_add_eq_sum, zero_add]

theorem rankSum_eq (threads : ℕ) (sched : Schedule) (f : ℤ → A) (h : ∀ a ∈ sched, a.1 < threads) :
    rankSum threads sched f = (sched.map fun a => f a.2).sum := by
  have key : ∀ (l : List (ℕ × ℤ)) (d : ℕ → A), (∀ a ∈ l, a.1 < threads) →
      summatorResult threads (l.foldl (fun d a => summatorAdd d a.1 (f a.2)) d) =
        summatorResult threads d + (l.map fun a => f a.2).sum := by
    intro l
    induction l with
    | nil => intro d _; simp
    | cons a l ih =>
      intro d ha
      rw [List.foldl_cons, ih _ (fun b hb => ha b (by simp [hb]))]
      have hs : summatorResult threads (summatorAdd d a.1 (f a.2)) = summatorResult threads d + f a.2 := by
        have e : ∀ d : ℕ → A, summatorResult threads d = ∑ i ∈ Finset.range threads, d i := by
          intro d
          unfold summatorResult
          rw [foldl_add_eq_sum, zero_add]
          rfl
        rw [e, e]
        have : ∀ i, summatorAdd d a.1 (f a.2) i = d i + if i = a.1 then f a.2 else 0 := by
          intro i; unfold summatorAdd; split <;> simp
        simp only [this, Finset.sum_add_distrib, Finset.sum_ite_eq']
        simp [ha a (by simp)]
      rw [hs]; simp [add_assoc]
  unfold rankSum
  rw [key sched _ h]
  have : summatorResult threads (summatorInit (A := A)) = 0 := by
    unfold summatorResult summatorInit
    rw [foldl_add_eq_sum]; simp
  rw [this, zero_add]

end

end Leonard
