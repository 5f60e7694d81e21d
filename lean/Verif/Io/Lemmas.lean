import Verif.Io.Model
import Verif.Layout.PathLemmas
import Mathlib.Data.List.FinRange
import Mathlib.Data.List.Nodup
import Mathlib.Tactic.Ring
import Mathlib.Tactic.Linarith

/-! # Lemmas on configuration files -/

set_option autoImplicit false

namespace Leonard

/-! ### XDR round trips -/

@[simp] theorem length_be (n v : ℕ) : (be n v).length = n := by
  induction n with
  | zero => rfl
  | succ n ih => simp [be, ih]

theorem ofBe_append (a : Bytes) (b : Byte) : ofBe (a ++ [b]) = ofBe a * 256 + b.val := by
  simp [ofBe, List.foldl_append]

theorem foldl_be (n v a : ℕ) :
    (be n v).foldl (fun a b => a * 256 + b.val) a = a * 256 ^ n + v % 256 ^ n := by
  induction n generalizing a with
  | zero => simp [be, Nat.mod_one]
  | succ n ih =>
    rw [be, List.foldl_cons, ih]
    have h : (Fin.ofNat 256 (v / 256 ^ n)).val = v / 256 ^ n % 256 := rfl
    rw [h, pow_succ, Nat.mod_mul]
    ring

theorem ofBe_be (n v : ℕ) : ofBe (be n v) = v % 256 ^ n := by
  unfold ofBe; rw [foldl_be]; simp

@[simp] theorem length_xdrInt (i : ℤ) : (xdrInt i).length = 4 := by simp [xdrInt]
@[simp] theorem length_xdrDouble (d : F64) : (xdrDouble d).length = 8 := by simp [xdrDouble]

theorem take_append_len {α : Type} (a b : List α) (n : ℕ) (h : a.length = n) : (a ++ b).take n = a := by
  subst h; simp

theorem drop_append_len {α : Type} (a b : List α) (n : ℕ) (h : a.length = n) : (a ++ b).drop n = b := by
  subst h; simp

/-- Range of a C++ `int`. -/
def IntRange (i : ℤ) : Prop := -(2 ^ 31) ≤ i ∧ i < 2 ^ 31

theorem getInt_xdrInt (i : ℤ) (h : IntRange i) (rest : Bytes) : getInt (xdrInt i ++ rest) = (some i, rest) := by
  unfold getInt
  rw [if_neg (by simp), take_append_len _ _ _ (length_xdrInt i), drop_append_len _ _ _ (length_xdrInt i)]
  simp only
  unfold xdrInt
  rw [ofBe_be]
  obtain ⟨h1, h2⟩ := h
  congr 2
  have hn : (i % 2 ^ 32).toNat % 256 ^ 4 = (i % 2 ^ 32).toNat := by
    apply Nat.mod_eq_of_lt; norm_num; omega
  rw [hn]
  norm_num at *
  split <;> omega

theorem getDouble_xdrDouble (d : F64) (rest : Bytes) : getDouble (xdrDouble d ++ rest) = (some d, rest) := by
  unfold getDouble
  rw [if_neg (by simp), take_append_len _ _ _ (length_xdrDouble d), drop_append_len _ _ _ (length_xdrDouble d)]
  unfold xdrDouble
  rw [ofBe_be, Nat.mod_eq_of_lt]
  · simp
  · have := d.isLt; norm_num at *; exact this

/-! ### One record -/

theorem mem_linkOrder {N : ℕ} (e : Fin 4 × Fin N × Fin N) : e ∈ linkOrder N := by
  obtain ⟨mu, i, j⟩ := e
  simp [linkOrder]

theorem nodup_linkOrder (N : ℕ) : (linkOrder N).Nodup := by
  unfold linkOrder
  rw [List.nodup_flatMap]
  refine ⟨fun mu _ => ?_, ?_⟩
  · rw [List.nodup_flatMap]
    refine ⟨fun i _ => (List.nodup_finRange N).map fun a b h => by simpa using h, ?_⟩
    refine (List.nodup_finRange N).imp fun hne => ?_
    simp only [Function.onFun, List.disjoint_left, List.mem_map]
    rintro e ⟨j, -, rfl⟩ ⟨j', -, h⟩
    simp only [Prod.mk.injEq] at h
    exact hne h.2.1.symm
  · refine (List.nodup_finRange 4).imp fun hne => ?_
    simp only [Function.onFun, List.disjoint_left, List.mem_flatMap, List.mem_map]
    rintro e ⟨i, -, j, -, rfl⟩ ⟨i', -, j', -, h⟩
    simp only [Prod.mk.injEq] at h
    exact hne h.1.symm

theorem readLinks_flatMap {N : ℕ} (junk U : Links N) (k : ℤ) (es : List (Fin 4 × Fin N × Fin N)) (F : ℤ → Links N) (rest : Bytes) :
    readLinks junk k es (F, (es.flatMap fun e => xdrDouble (U e.1 e.2.1 e.2.2).1 ++ xdrDouble (U e.1 e.2.1 e.2.2).2) ++ rest) =
      (fun k' mu i j => if k' = k ∧ (mu, i, j) ∈ es then U mu i j else F k' mu i j, rest) := by
  induction es generalizing F with
  | nil => simp [readLinks]
  | cons e es ih =>
    unfold readLinks
    rw [List.foldl_cons]
    simp only [List.flatMap_cons, List.append_assoc, getDouble_xdrDouble, Option.getD_some]
    have := ih (F := fun k' mu i j => if k' = k ∧ (mu, i, j) = e then ((U e.1 e.2.1 e.2.2).1, (U e.1 e.2.1 e.2.2).2) else F k' mu i j)
    unfold readLinks at this
    rw [this]
    congr 1
    funext k' mu i j
    by_cases hk : k' = k
    · by_cases h1 : (mu, i, j) ∈ es
      · simp [hk, h1]
      · by_cases h2 : (mu, i, j) = e
        · subst h2; simp [hk]
        · simp [hk, h1, h2]
    · simp [hk]

theorem skipLinks_flatMap {N : ℕ} (U : Links N) (es : List (Fin 4 × Fin N × Fin N)) (rest : Bytes) :
    skipLinks es ((es.flatMap fun e => xdrDouble (U e.1 e.2.1 e.2.2).1 ++ xdrDouble (U e.1 e.2.1 e.2.2).2) ++ rest) = rest := by
  induction es with
  | nil => simp [skipLinks]
  | cons e es ih =>
    unfold skipLinks
    rw [List.foldl_cons]
    simp only [List.flatMap_cons, List.append_assoc, getDouble_xdrDouble]
    exact ih

/-- Coordinates fit in an `int`. -/
def SiteRange (s : Site) : Prop := IntRange s.x ∧ IntRange s.y ∧ IntRange s.z ∧ IntRange s.t

/-- Effect of a complete record. -/
def store {N : ℕ} (idx : Site → ℤ) (F : ℤ → Links N) (r : Site × Links N) : ℤ → Links N :=
  fun k => if idx r.1 ≠ -1 ∧ k = idx r.1 then r.2 else F k

theorem readRecord_write {N : ℕ} (idx : Site → ℤ) (jc : Site) (jl : Links N) (F : ℤ → Links N) (s : Site) (h : SiteRange s)
    (U : Links N) (rest : Bytes) :
    readRecord idx jc jl (F, writeRecord s U ++ rest) = (store idx F (s, U), rest) := by
  unfold readRecord writeRecord
  simp only [List.append_assoc, getInt_xdrInt _ h.1, getInt_xdrInt _ h.2.1, getInt_xdrInt _ h.2.2.1, getInt_xdrInt _ h.2.2.2,
    Option.getD_some]
  split
  · rename_i hk
    rw [readLinks_flatMap]
    congr 1
    funext k mu i j
    unfold store
    by_cases e : k = idx s
    · have hk' : idx s ≠ -1 := hk
      simp [e, mem_linkOrder, hk']
    · simp [e]
  · rename_i hk
    rw [skipLinks_flatMap]
    congr 1
    funext k
    unfold store
    rw [if_neg]
    rintro ⟨h1, -⟩; exact hk h1

/-- Bytes of a list of records. -/
def writeRecords {N : ℕ} (rs : List (Site × Links N)) : Bytes := rs.flatMap fun r => writeRecord r.1 r.2

theorem foldl_readRecord {N : ℕ} (idx : Site → ℤ) (jc : ℤ → Site) (jl : ℤ → Links N) (rs : List (Site × Links N))
    (h : ∀ r ∈ rs, SiteRange r.1) (is : List ℤ) (hl : is.length = rs.length) (F : ℤ → Links N) (rest : Bytes) :
    is.foldl (fun st index => readRecord idx (jc index) (jl index) st) (F, writeRecords rs ++ rest) =
      (rs.foldl (store idx) F, rest) := by
  induction rs generalizing is F with
  | nil =>
    have : is = [] := List.length_eq_zero_iff.1 hl
    subst this; simp [writeRecords]
  | cons r rs ih =>
    match is, hl with
    | i :: is, hl =>
      rw [List.foldl_cons, List.foldl_cons]
      unfold writeRecords
      rw [List.flatMap_cons, List.append_assoc, readRecord_write _ _ _ _ _ (h r (by simp))]
      exact ih (fun r' hr' => h r' (by simp [hr'])) is (by simpa using hl) _

/-! ### Result of storing many records -/

theorem foldl_store_other {N : ℕ} (idx : Site → ℤ) (rs : List (Site × Links N)) (F : ℤ → Links N) (k : ℤ)
    (h : ∀ r ∈ rs, idx r.1 = -1 ∨ idx r.1 ≠ k) : rs.foldl (store idx) F k = F k := by
  induction rs generalizing F with
  | nil => rfl
  | cons r rs ih =>
    rw [List.foldl_cons, ih _ fun r' hr' => h r' (by simp [hr'])]
    unfold store
    rw [if_neg]
    rintro ⟨h1, h2⟩
    rcases h r (by simp) with h3 | h3
    · exact h1 h3
    · exact h3 h2.symm

theorem foldl_store_mem {N : ℕ} (idx : Site → ℤ) (rs : List (Site × Links N)) (F : ℤ → Links N) (s : Site) (U : Links N)
    (hs : idx s ≠ -1) (hm : (s, U) ∈ rs) (hu : ∀ r ∈ rs, idx r.1 = idx s → r = (s, U)) :
    rs.foldl (store idx) F (idx s) = U := by
  induction rs generalizing F with
  | nil => simp at hm
  | cons r rs ih =>
    rw [List.foldl_cons]
    by_cases h : (s, U) ∈ rs
    · exact ih _ h fun r' hr' => hu r' (by simp [hr'])
    · have e : r = (s, U) := by
        rcases List.mem_cons.1 hm with h' | h'
        · exact h'.symm
        · exact absurd h' h
      subst e
      rw [foldl_store_other]
      · unfold store; rw [if_pos ⟨hs, rfl⟩]
      · intro r' hr'
        right
        intro e
        exact h (hu r' (by simp [hr']) e ▸ hr')

/-! ### All files -/

theorem readFiles_ok {N : ℕ} (idx : Site → ℤ) (junk : Junk N) (n : ℤ) (recs : ℤ → List (Site × Links N)) (files : ℤ → Option Bytes)
    (qs : List ℤ) (hf : ∀ q ∈ qs, files q = some (writeRecords (recs q))) (hn : ∀ q ∈ qs, (recs q).length = n.toNat)
    (hr : ∀ q ∈ qs, ∀ r ∈ recs q, SiteRange r.1) (F : ℤ → Links N) :
    readFiles idx junk n files qs F = some ((qs.flatMap recs).foldl (store idx) F) := by
  induction qs generalizing F with
  | nil => rfl
  | cons q qs ih =>
    unfold readFiles
    rw [hf q (by simp)]
    simp only
    have : readRankFile idx junk q n (writeRecords (recs q)) F = (recs q).foldl (store idx) F := by
      unfold readRankFile
      have := foldl_readRecord idx (junk.coord q) (junk.link q) (recs q) (hr q (by simp)) (intRange n)
        (by rw [length_intRange, hn q (by simp)]) F []
      rw [List.append_nil] at this
      rw [this]
    rw [this, ih (fun q' h => hf q' (by simp [h])) (fun q' h => hn q' (by simp [h])) (fun q' h => hr q' (by simp [h])),
      List.flatMap_cons, List.foldl_append]

end Leonard
