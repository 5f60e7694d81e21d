import Verif.Control.Spec
import Mathlib.Data.List.TakeWhile
import Mathlib.Tactic.Linarith

/-!
# Lemmas about reading text
-/

set_option autoImplicit false

namespace Leonard

/-! ### Splitting -/

theorem splitAtChar_append (d : Char) (a b : List Char) (h : d ∉ a) : splitAtChar d (a ++ d :: b) = some (a, b) := by
  have h1 : (a ++ d :: b).dropWhile (· ≠ d) = d :: b := by
    rw [List.dropWhile_append_of_pos]
    · simp
    · intro c hc; simp; rintro rfl; exact h hc
  have h2 : (a ++ d :: b).takeWhile (· ≠ d) = a := by
    rw [List.takeWhile_append_of_pos]
    · simp
    · intro c hc; simp; rintro rfl; exact h hc
  unfold splitAtChar
  rw [h1, h2]

theorem splitAtChar_none (d : Char) (s : List Char) : splitAtChar d s = none ↔ d ∉ s := by
  unfold splitAtChar
  cases h : s.dropWhile (· ≠ d) with
  | nil =>
    simp only [true_iff]
    rw [List.dropWhile_eq_nil_iff] at h
    intro hd; have := h d hd; simp at this
  | cons c r =>
    simp only [reduceCtorEq, false_iff, not_not]
    have hc : ¬ (c ≠ d) := by
      have := List.head_dropWhile_not (fun x : Char => decide (x ≠ d)) (l := s) (by rw [h]; simp)
      simp only [h, List.head_cons] at this
      simpa using this
    have hcd : c = d := by simpa using hc
    have : c ∈ s.dropWhile (· ≠ d) := by rw [h]; simp
    rw [← hcd]
    exact (List.dropWhile_sublist _).subset this

theorem splitAtChar_some (d : Char) (s a b : List Char) (h : splitAtChar d s = some (a, b)) : s = a ++ d :: b ∧ d ∉ a := by
  have hm : d ∈ s := by
    by_contra hd
    rw [(splitAtChar_none d s).2 hd] at h; simp at h
  obtain ⟨x, y, rfl, hx⟩ := List.eq_append_cons_of_mem hm
  rw [splitAtChar_append d x y hx] at h
  simp only [Option.some.injEq, Prod.mk.injEq] at h
  obtain ⟨rfl, rfl⟩ := h
  exact ⟨rfl, hx⟩

/-! ### Numbers -/

theorem toString_toList (n : ℕ) : (toString n).toList = Nat.toDigits 10 n := by
  simp [toString, Nat.repr]

theorem digits_ne_nil (n : ℕ) : Nat.toDigits 10 n ≠ [] := by
  intro h
  have := Nat.length_toDigits_pos (b := 10) (n := n)
  rw [h] at this; simp at this

theorem isDigit_of_mem {n : ℕ} {c : Char} (h : c ∈ Nat.toDigits 10 n) : c.isDigit = true :=
  Nat.isDigit_of_mem_toDigits (by omega) (by omega) h

theorem isSpace_of_isDigit {c : Char} (h : c.isDigit = true) : isSpace c = false := by
  by_contra hs
  simp only [isSpace, Bool.not_eq_false, List.mem_cons, List.not_mem_nil, or_false, decide_eq_true_eq] at hs
  rcases hs with rfl | rfl | rfl | rfl | rfl | rfl <;> exact absurd h (by decide)

theorem signDigits_digits (l : List Char) (h : ∀ c ∈ l, c.isDigit = true) : signDigits l = (false, l) := by
  have ht : l.takeWhile Char.isDigit = l := List.takeWhile_eq_self_iff.2 h
  unfold signDigits
  split
  · exact absurd (h '-' (by simp)) (by decide)
  · exact absurd (h '+' (by simp)) (by decide)
  · rw [ht]

theorem dropWhile_digits (l : List Char) (h : ∀ c ∈ l, c.isDigit = true) : l.dropWhile isSpace = l := by
  cases l with
  | nil => rfl
  | cons c l => simp [isSpace_of_isDigit (h c (by simp))]

theorem fromStringInt_digits (n : ℕ) (hn : n ≤ 2147483647) : fromStringInt (toString n).toList = .ok (n : ℤ) := by
  have hd : ∀ c ∈ Nat.toDigits 10 n, c.isDigit = true := fun c hc => isDigit_of_mem hc
  rw [toString_toList]
  unfold fromStringInt
  rw [dropWhile_digits _ hd]
  cases h : Nat.toDigits 10 n with
  | nil => exact absurd h (digits_ne_nil n)
  | cons c l =>
    simp only
    rw [← h, signDigits_digits _ hd, Nat.ofDigitChars_ten_toDigits]
    simp only [Bool.false_eq_true, if_false, Outcome.ok.injEq]
    omega

theorem fromStringUnsigned_digits (n : ℕ) (hn : n < 4294967296) : fromStringUnsigned (toString n).toList = .ok n := by
  have hd : ∀ c ∈ Nat.toDigits 10 n, c.isDigit = true := fun c hc => isDigit_of_mem hc
  rw [toString_toList]
  unfold fromStringUnsigned
  rw [dropWhile_digits _ hd]
  cases h : Nat.toDigits 10 n with
  | nil => exact absurd h (digits_ne_nil n)
  | cons c l =>
    simp only
    rw [← h, signDigits_digits _ hd, Nat.ofDigitChars_ten_toDigits]
    simp [show ¬ n > 4294967295 by omega]

theorem toUnsigned_nat (n : ℕ) (h : n ≤ 2147483647) : toUnsigned (n : ℤ) = n := by
  unfold toUnsigned; omega

theorem not_mem_digits {c : Char} (hc : c.isDigit = false) (n : ℕ) : c ∉ (toString n).toList := by
  rw [toString_toList]
  intro h
  rw [isDigit_of_mem h] at hc; simp at hc

/-! ### Bracketed lists -/

theorem vectorLoop_plain {c : Char} (hb : ¬ isBracket c) (hc : c ≠ ',') (st : ℕ) (tmp : List Char) (ris : List (List Char))
    (rest : List Char) (hr : rest ≠ []) (hst : st ≠ 0) :
    vectorLoop st tmp ris (c :: rest) = vectorLoop st (tmp ++ [c]) ris rest := by
  simp only [isBracket, not_or] at hb
  obtain ⟨h1, h2, h3, h4⟩ := hb
  cases rest with
  | nil => simp at hr
  | cons d r =>
    rw [vectorLoop]
    simp [h1, h2, h3, h4, hc, hst]

theorem vectorLoop_comma_deep (st : ℕ) (tmp : List Char) (ris : List (List Char))
    (rest : List Char) (hr : rest ≠ []) (hst : 2 ≤ st) :
    vectorLoop st tmp ris (',' :: rest) = vectorLoop st (tmp ++ [',']) ris rest := by
  cases rest with
  | nil => simp at hr
  | cons d r =>
    rw [vectorLoop]
    simp [show st ≠ 1 by omega, show st ≠ 0 by omega]

theorem vectorLoop_comma_top (tmp : List Char) (ris : List (List Char)) (rest : List Char) (hr : rest ≠ []) :
    vectorLoop 1 tmp ris (',' :: rest) = vectorLoop 1 [] (ris ++ [tmp]) rest := by
  cases rest with
  | nil => simp at hr
  | cons d r => rw [vectorLoop]; simp

theorem vectorLoop_open {c : Char} (hc : c = '{' ∨ c = '(') (st : ℕ) (tmp : List Char) (ris : List (List Char))
    (rest : List Char) (hr : rest ≠ []) :
    vectorLoop st tmp ris (c :: rest) = vectorLoop (st + 1) (tmp ++ [c]) ris rest := by
  cases rest with
  | nil => simp at hr
  | cons d r => rw [vectorLoop]; rcases hc with rfl | rfl <;> simp

theorem vectorLoop_close {c : Char} (hc : c = '}' ∨ c = ')') (st : ℕ) (tmp : List Char) (ris : List (List Char))
    (rest : List Char) (hr : rest ≠ []) (hst : 1 ≤ st) :
    vectorLoop (st + 1) tmp ris (c :: rest) = vectorLoop st (tmp ++ [c]) ris rest := by
  cases rest with
  | nil => simp at hr
  | cons d r => rw [vectorLoop]; rcases hc with rfl | rfl <;> simp [show st ≠ 0 by omega]

theorem vectorLoop_end (tmp : List Char) (ris : List (List Char)) (rest : List Char) :
    vectorLoop 1 tmp ris ('}' :: rest) = .ok (ris ++ [tmp]) := by
  cases rest <;> (rw [vectorLoop]; simp)

theorem vectorLoop_balanced {a : List Char} (h : Balanced a) : ∀ (st : ℕ) (tmp : List Char) (ris : List (List Char))
    (rest : List Char), rest ≠ [] → 2 ≤ st → vectorLoop st tmp ris (a ++ rest) = vectorLoop st (tmp ++ a) ris rest := by
  induction h with
  | nil => intros; simp
  | @plain c s hb _ hs ih =>
    intro st tmp ris rest hr hst
    by_cases hc : c = ','
    · subst hc
      rw [List.cons_append, vectorLoop_comma_deep _ _ _ _ (by simp [hr]) hst, ih _ _ _ _ hr hst]; simp
    · rw [List.cons_append, vectorLoop_plain hb hc _ _ _ _ (by simp [hr]) (by omega), ih _ _ _ _ hr hst]; simp
  | @brace a b ha hb iha ihb =>
    intro st tmp ris rest hr hst
    rw [List.cons_append, vectorLoop_open (Or.inl rfl) _ _ _ _ (by simp), List.append_assoc, iha _ _ _ _ (by simp) (by omega),
      List.cons_append, vectorLoop_close (Or.inl rfl) _ _ _ _ (by simp [hr]) (by omega), ihb _ _ _ _ hr hst]
    simp
  | @paren a b ha hb iha ihb =>
    intro st tmp ris rest hr hst
    rw [List.cons_append, vectorLoop_open (Or.inr rfl) _ _ _ _ (by simp), List.append_assoc, iha _ _ _ _ (by simp) (by omega),
      List.cons_append, vectorLoop_close (Or.inr rfl) _ _ _ _ (by simp [hr]) (by omega), ihb _ _ _ _ hr hst]
    simp

theorem vectorLoop_element {a : List Char} (h : Element a) : ∀ (tmp : List Char) (ris : List (List Char))
    (rest : List Char), rest ≠ [] → vectorLoop 1 tmp ris (a ++ rest) = vectorLoop 1 (tmp ++ a) ris rest := by
  induction h with
  | nil => intros; simp
  | @plain c s hb hc _ hs ih =>
    intro tmp ris rest hr
    rw [List.cons_append, vectorLoop_plain hb hc _ _ _ _ (by simp [hr]) (by omega), ih _ _ _ hr]; simp
  | @brace a b ha hb ihb =>
    intro tmp ris rest hr
    rw [List.cons_append, vectorLoop_open (Or.inl rfl) _ _ _ _ (by simp), List.append_assoc,
      vectorLoop_balanced ha _ _ _ _ (by simp) (by omega),
      List.cons_append, vectorLoop_close (Or.inl rfl) _ _ _ _ (by simp [hr]) (by omega), ihb _ _ _ hr]
    simp
  | @paren a b ha hb ihb =>
    intro tmp ris rest hr
    rw [List.cons_append, vectorLoop_open (Or.inr rfl) _ _ _ _ (by simp), List.append_assoc,
      vectorLoop_balanced ha _ _ _ _ (by simp) (by omega),
      List.cons_append, vectorLoop_close (Or.inr rfl) _ _ _ _ (by simp [hr]) (by omega), ihb _ _ _ hr]
    simp

theorem vectorLoop_list : ∀ (l : List (List Char)) (ris : List (List Char)) (rest : List Char), l ≠ [] →
    (∀ e ∈ l, Element e) → vectorLoop 1 [] ris ([','].intercalate l ++ '}' :: rest) = .ok (ris ++ l) := by
  intro l
  induction l with
  | nil => intro _ _ h; simp at h
  | cons e l ih =>
    intro ris rest _ hl
    cases l with
    | nil =>
      simp only [List.intercalate_singleton]
      rw [vectorLoop_element (hl e (by simp)) _ _ _ (by simp), vectorLoop_end]; simp
    | cons f l =>
      have : [','].intercalate (e :: f :: l) = e ++ ',' :: [','].intercalate (f :: l) := by
        simp [List.intercalate, List.intersperse]
      rw [this, List.append_assoc, vectorLoop_element (hl e (by simp)) _ _ _ (by simp), List.cons_append,
        vectorLoop_comma_top _ _ _ (by simp), ih _ _ (by simp) (fun x hx => hl x (by simp [hx]))]
      simp

theorem Balanced.noSpace {a : List Char} (h : Balanced a) : ∀ c ∈ a, isSpace c = false := by
  induction h with
  | nil => simp
  | plain _ h1 _ ih => intro c hc; rcases List.mem_cons.1 hc with rfl | hc; exacts [h1, ih c hc]
  | brace _ _ iha ihb =>
    intro c hc
    simp only [List.mem_cons, List.mem_append] at hc
    rcases hc with rfl | hc | rfl | hc
    exacts [by decide, iha c hc, by decide, ihb c hc]
  | paren _ _ iha ihb =>
    intro c hc
    simp only [List.mem_cons, List.mem_append] at hc
    rcases hc with rfl | hc | rfl | hc
    exacts [by decide, iha c hc, by decide, ihb c hc]

theorem Element.noSpace {a : List Char} (h : Element a) : ∀ c ∈ a, isSpace c = false := by
  induction h with
  | nil => simp
  | plain _ _ h1 _ ih => intro c hc; rcases List.mem_cons.1 hc with rfl | hc; exacts [h1, ih c hc]
  | brace ha _ ihb =>
    intro c hc
    simp only [List.mem_cons, List.mem_append] at hc
    rcases hc with rfl | hc | rfl | hc
    exacts [by decide, ha.noSpace c hc, by decide, ihb c hc]
  | paren ha _ ihb =>
    intro c hc
    simp only [List.mem_cons, List.mem_append] at hc
    rcases hc with rfl | hc | rfl | hc
    exacts [by decide, ha.noSpace c hc, by decide, ihb c hc]

theorem asString_noSpace (s : List Char) (h : ∀ c ∈ s, isSpace c = false) : asString s = s := by
  unfold asString
  have h1 : s.dropWhile isSpace = s := by
    cases s with
    | nil => rfl
    | cons c s => simp [h c (by simp)]
  rw [h1, List.takeWhile_eq_self_iff]
  intro c hc; simp [h c hc]

theorem mem_intercalate {c d : Char} : ∀ {l : List (List Char)}, c ∈ [d].intercalate l → c = d ∨ ∃ e ∈ l, c ∈ e := by
  intro l
  induction l with
  | nil => intro h; simp [List.intercalate] at h
  | cons e l ih =>
    intro h
    cases l with
    | nil => simp [List.intercalate] at h; exact Or.inr ⟨e, by simp, h⟩
    | cons f l =>
      have : [d].intercalate (e :: f :: l) = e ++ d :: [d].intercalate (f :: l) := by
        simp [List.intercalate, List.intersperse]
      rw [this] at h
      simp only [List.mem_append, List.mem_cons] at h
      rcases h with h | h | h
      · exact Or.inr ⟨e, by simp, h⟩
      · exact Or.inl h
      · rcases ih h with h | ⟨x, hx, hc⟩
        · exact Or.inl h
        · exact Or.inr ⟨x, by simp at hx ⊢; tauto, hc⟩

theorem listText_noSpace (l : List (List Char)) (h : ∀ e ∈ l, Element e) : ∀ c ∈ listText l, isSpace c = false := by
  intro c hc
  simp only [listText, List.mem_cons, List.mem_append, List.not_mem_nil, or_false] at hc
  rcases hc with rfl | hc | rfl
  · decide
  · rcases mem_intercalate hc with rfl | ⟨e, he, hce⟩
    · decide
    · exact (h e he).noSpace c hce
  · decide

theorem element_digits (l : List Char) (h : ∀ c ∈ l, c.isDigit = true) : Element l := by
  induction l with
  | nil => exact .nil
  | cons c l ih =>
    have hc := h c (by simp)
    refine .plain ?_ ?_ (isSpace_of_isDigit hc) (ih fun x hx => h x (by simp [hx]))
    · rintro (rfl | rfl | rfl | rfl) <;> exact absurd hc (by decide)
    · rintro rfl; exact absurd hc (by decide)

theorem balanced_of_plain (l : List Char) (h : ∀ c ∈ l, ¬ isBracket c ∧ isSpace c = false) : Balanced l := by
  induction l with
  | nil => exact .nil
  | cons c l ih => exact .plain (h c (by simp)).1 (h c (by simp)).2 (ih fun x hx => h x (by simp [hx]))

/-! ### Configuration lines -/

theorem regexRuns_allowed (w : List Char) (h : ∀ c ∈ w, allowedChar c = true) : ∀ acc s,
    regexRuns acc (w ++ s) = regexRuns (acc ++ w) s := by
  induction w with
  | nil => simp
  | cons c w ih =>
    intro acc s
    rw [List.cons_append, regexRuns, if_pos (h c (by simp)), ih fun x hx => h x (by simp [hx])]
    simp

theorem regexRuns_split (c : Char) (hc : allowedChar c = false) (b : List Char) : ∀ a acc,
    regexRuns acc (a ++ c :: b) = regexRuns acc a ++ regexRuns [] b := by
  intro a
  induction a with
  | nil => intro acc; simp [regexRuns, hc]
  | cons d a ih =>
    intro acc
    rw [List.cons_append, regexRuns]
    conv => rhs; rw [regexRuns]
    split
    · exact ih _
    · rw [ih]; simp

theorem regexRuns_acc_ne_nil (s : List Char) : ∀ acc, acc ≠ [] → regexRuns acc s ≠ [] := by
  induction s with
  | nil => intro acc h; simp [regexRuns, h]
  | cons c s ih =>
    intro acc h
    rw [regexRuns]
    split
    · exact ih _ (by simp)
    · simp [h]

theorem regexRuns_ne_nil (s : List Char) : ∀ acc, (∃ c ∈ s, allowedChar c = true) → regexRuns acc s ≠ [] := by
  induction s with
  | nil => intro acc h; simp at h
  | cons c s ih =>
    intro acc ⟨x, hx, ha⟩
    rw [regexRuns]
    split
    · exact regexRuns_acc_ne_nil _ _ (by simp)
    · next hc =>
      rcases List.mem_cons.1 hx with rfl | hx
      · exact absurd ha hc
      · intro h
        exact ih [] ⟨x, hx, ha⟩ (List.append_eq_nil_iff.1 h).2

theorem regexRuns_sep (s : List Char) (h : ∀ c ∈ s, allowedChar c = false) : ∀ t, regexRuns [] (s ++ t) = regexRuns [] t := by
  induction s with
  | nil => simp
  | cons c s ih =>
    intro t
    rw [List.cons_append, regexRuns]
    simp only [h c (by simp), Bool.false_eq_true, if_false, if_true, List.nil_append]
    exact ih (fun x hx => h x (by simp [hx])) t

theorem regexRuns_two (name seps value : List Char) (hn : name ≠ []) (hv : value ≠ []) (hs : seps ≠ [])
    (an : ∀ c ∈ name, allowedChar c = true) (av : ∀ c ∈ value, allowedChar c = true)
    (as : ∀ c ∈ seps, allowedChar c = false) : regexRuns [] (name ++ (seps ++ value)) = [name, value] := by
  cases seps with
  | nil => simp at hs
  | cons c seps =>
    rw [List.cons_append, regexRuns_split c (as c (by simp)), regexRuns_sep _ fun x hx => as x (by simp [hx])]
    have e : ∀ w : List Char, w ≠ [] → (∀ c ∈ w, allowedChar c = true) → regexRuns [] w = [w] := by
      intro w hw ha
      have := regexRuns_allowed w ha [] []
      simp only [List.append_nil, List.nil_append] at this
      rw [this, regexRuns, if_neg hw]
    rw [e name hn an, e value hv av]; rfl

theorem word_allowed {w : List Char} (h : IsWord w) : ∀ c ∈ w, allowedChar c = true := by
  intro c hc
  have := h.2 c hc
  simp only [allowedChar, Bool.or_eq_true, decide_eq_true_eq, List.mem_cons] at *
  tauto

theorem word_noBlank {w : List Char} (h : IsWord w) : ∀ c ∈ w, c ≠ ' ' := by
  rintro c hc rfl
  have := h.2 ' ' hc
  revert this; decide

theorem dropBlanks_self {w : List Char} (h : ∀ c ∈ w, c ≠ ' ') : dropBlanks w = w := by
  unfold dropBlanks
  rw [List.filter_eq_self]
  intro c hc; simpa using h c hc

theorem dropBlanks_blanks {b : List Char} (h : Blanks b) : dropBlanks b = [] := by
  unfold dropBlanks
  rw [List.filter_eq_nil_iff]
  intro c hc; simpa using h c hc

theorem dropBlanks_append (a b : List Char) : dropBlanks (a ++ b) = dropBlanks a ++ dropBlanks b := by
  simp [dropBlanks]

theorem sep_not_allowed {c : Char} (h : IsSeparator c) : allowedChar c = false := by
  obtain ⟨h1, h2, h3⟩ := h
  simp only [allowedChar, h2, Bool.false_or, decide_eq_false_iff_not, List.mem_cons] at *
  tauto

end Leonard
