import Verif.Hmc.Model
import Verif.Smear.Props

/-!
# Sequences of updates: symmetry, sums, changes of sign
-/

set_option autoImplicit false

namespace Leonard

variable {ι : Type}

theorem outcome_bind_ok {α β : Type} {x : Outcome α} {f : α → Outcome β} {b : β} (h : (x >>= f) = .ok b) :
    ∃ a, x = .ok a ∧ f a = .ok b := by
  cases x with
  | ok a => exact ⟨a, rfl, h⟩
  | exit c => cases h
  | ub => cases h

theorem ok_bind {α β : Type} (a : α) (f : α → Outcome β) : ((Outcome.ok a : Outcome α) >>= f) = f a := rfl

/-! ### Palindromes -/

theorem flatten_replicate_shift {α : Type} (x y : List α) (k : ℕ) :
    x ++ (List.replicate k (y ++ x)).flatten = (List.replicate k (x ++ y)).flatten ++ x := by
  induction k with
  | zero => simp
  | succ k ih =>
    rw [List.replicate_succ, List.flatten_cons, List.replicate_succ, List.flatten_cons]
    rw [List.append_assoc (x ++ y), ← ih]
    simp [List.append_assoc]

theorem reverse_flatten_replicate {α : Type} (x : List α) (k : ℕ) :
    (List.replicate k x).flatten.reverse = (List.replicate k x.reverse).flatten := by
  rw [List.reverse_flatten, List.map_replicate, List.reverse_replicate]

/-- A level of the leapfrog around a symmetric inner sequence is symmetric. -/
theorem palindrome_sandwich {α : Type} (a x y : List α) (ha : a.reverse = a) (hx : x.reverse = x) (hy : y.reverse = y) (k : ℕ) :
    (a ++ (List.replicate k (x ++ y)).flatten ++ x ++ a).reverse = a ++ (List.replicate k (x ++ y)).flatten ++ x ++ a := by
  simp only [List.reverse_append, reverse_flatten_replicate, ha, hx, hy]
  rw [← List.append_assoc x, flatten_replicate_shift]
  simp [List.append_assoc]

theorem leapFrog_palindrome (fs : List ι) (ns : List ℕ) (t : ℝ) (l : List (MdOp ι)) (h : leapFrog fs ns t = .ok l) : l.reverse = l := by
  fun_induction leapFrog fs ns t generalizing l with
  | case1 => cases h
  | case2 => cases h
  | case3 => cases h
  | case4 f fs n ns t hn step ih =>
    obtain ⟨inner, h1, h2⟩ := outcome_bind_ok h
    cases h2
    refine palindrome_sandwich [_] inner [_] rfl ?_ rfl _
    split at h1
    · cases h1; rfl
    · exact ih _ h1

theorem omelyan_palindrome (fs : List ι) (ns : List ℕ) (t : ℝ) (l : List (MdOp ι)) (h : omelyan fs ns t = .ok l) : l.reverse = l := by
  fun_induction omelyan fs ns t generalizing l with
  | case1 => cases h
  | case2 => cases h
  | case3 => cases h
  | case4 f fs n ns t hn step lambda ih =>
    obtain ⟨inner, h1, h2⟩ := outcome_bind_ok h
    cases h2
    have hi : inner.reverse = inner := by
      split at h1
      · cases h1; rfl
      · exact ih _ h1
    have key := palindrome_sandwich [MdOp.mom f (lambda * step)] (inner ++ [.mom f ((1 - 2 * lambda) * step)] ++ inner)
      [.mom f (2 * lambda * step)] rfl (by simp [hi]) rfl (n - 1)
    rw [List.append_assoc [MdOp.mom f (lambda * step)], ← flatten_replicate_shift] at key
    simpa [List.append_assoc] using key

theorem fourthOmelyan_palindrome (fs : List ι) (ns : List ℕ) (t : ℝ) (l : List (MdOp ι)) (h : fourthOmelyan fs ns t = .ok l) :
    l.reverse = l := by
  fun_induction fourthOmelyan fs ns t generalizing l with
  | case1 => cases h
  | case2 => cases h
  | case3 => cases h
  | case4 f fs n ns t hn step theta rho mu lambda ih1 ih2 ih3 =>
    obtain ⟨inner1, h1, h⟩ := outcome_bind_ok h
    obtain ⟨inner2, h2, h⟩ := outcome_bind_ok h
    obtain ⟨inner3, h3, h⟩ := outcome_bind_ok h
    cases h
    have hi1 : inner1.reverse = inner1 := by
      split at h1
      · cases h1; rfl
      · exact ih1 _ h1
    have hi2 : inner2.reverse = inner2 := by
      split at h2
      · cases h2; rfl
      · exact ih2 _ h2
    have hi3 : inner3.reverse = inner3 := by
      split at h3
      · cases h3; rfl
      · exact ih3 _ h3
    rw [reverse_flatten_replicate]
    simp [hi1, hi2, hi3, List.append_assoc]

theorem fourthOrder_palindrome (fs : List ι) (ns : List ℕ) (t : ℝ) (l : List (MdOp ι)) (h : fourthOrder fs ns t = .ok l) :
    l.reverse = l := by
  obtain ⟨x, h1, h⟩ := outcome_bind_ok h
  obtain ⟨y, h2, h⟩ := outcome_bind_ok h
  obtain ⟨z, h3, h⟩ := outcome_bind_ok h
  cases h
  have : x = z := by rw [h1] at h3; cases h3; rfl
  subst this
  simp [leapFrog_palindrome _ _ _ _ h1, leapFrog_palindrome _ _ _ _ h2, List.append_assoc]

theorem sixthOrder_palindrome (fs : List ι) (ns : List ℕ) (t : ℝ) (l : List (MdOp ι)) (h : sixthOrder fs ns t = .ok l) :
    l.reverse = l := by
  obtain ⟨x, h1, h⟩ := outcome_bind_ok h
  obtain ⟨y, h2, h⟩ := outcome_bind_ok h
  obtain ⟨z, h3, h⟩ := outcome_bind_ok h
  cases h
  have : x = z := by rw [h1] at h3; cases h3; rfl
  subst this
  simp [fourthOrder_palindrome _ _ _ _ h1, fourthOrder_palindrome _ _ _ _ h2, List.append_assoc]

/-- Every integrator performs a symmetric sequence of updates. -/
theorem mdIntegrate_palindrome (name : String) (fs : List ι) (ns : List ℕ) (t : ℝ) (l : List (MdOp ι))
    (h : mdIntegrate name fs ns t = .ok l) : l.reverse = l := by
  unfold mdIntegrate at h
  split at h
  · exact leapFrog_palindrome _ _ _ _ h
  split at h
  · exact fourthOrder_palindrome _ _ _ _ h
  split at h
  · exact sixthOrder_palindrome _ _ _ _ h
  split at h
  · exact omelyan_palindrome _ _ _ _ h
  split at h
  · exact fourthOmelyan_palindrome _ _ _ _ h
  · cases h

/-! ### Opposite lengths -/

/-- The update with the opposite step. -/
def MdOp.neg : MdOp ι → MdOp ι
  | .link ε => .link (-ε)
  | .mom i ε => .mom i (-ε)

/-- Application of a function to a result. -/
def Outcome.mapOk {α β : Type} (f : α → β) : Outcome α → Outcome β
  | .ok a => .ok (f a)
  | .exit c => .exit c
  | .ub => .ub

theorem mapOk_bind {α β γ : Type} (g : β → γ) (x : Outcome α) (f : α → Outcome β) :
    (x >>= f).mapOk g = x >>= fun a => (f a).mapOk g := by
  cases x <;> rfl

theorem bind_mapOk {α β γ : Type} (g : α → β) (x : Outcome α) (f : β → Outcome γ) :
    (x.mapOk g >>= f) = x >>= fun a => f (g a) := by
  cases x <;> rfl

theorem leapFrog_neg (fs : List ι) (ns : List ℕ) (t : ℝ) : leapFrog fs ns (-t) = (leapFrog fs ns t).mapOk (List.map MdOp.neg) := by
  fun_induction leapFrog fs ns t with
  | case1 => rfl
  | case2 => rfl
  | case3 => simp [leapFrog, Outcome.mapOk]
  | case4 f fs n ns t hn step ih =>
    rw [mapOk_bind, leapFrog, if_neg hn]
    simp only [neg_div]
    change ((if fs.isEmpty then Outcome.ok [MdOp.link (-step)] else leapFrog fs ns (-step)) >>= _) = _
    have e : (if fs.isEmpty = true then Outcome.ok [MdOp.link (-step)] else leapFrog fs ns (-step)) =
        (if fs.isEmpty = true then Outcome.ok [MdOp.link step] else leapFrog fs ns step).mapOk (List.map MdOp.neg) := by
      split
      · rfl
      · exact ih
    rw [e, bind_mapOk]
    congr 1
    funext inner
    change Outcome.ok _ = Outcome.ok _
    congr 1
    simp [List.map_flatten, List.map_replicate, MdOp.neg, step, neg_div]

theorem omelyan_neg (fs : List ι) (ns : List ℕ) (t : ℝ) : omelyan fs ns (-t) = (omelyan fs ns t).mapOk (List.map MdOp.neg) := by
  fun_induction omelyan fs ns t with
  | case1 => rfl
  | case2 => rfl
  | case3 => simp [omelyan, Outcome.mapOk]
  | case4 f fs n ns t hn step lambda ih =>
    rw [mapOk_bind, omelyan, if_neg hn]
    simp only [neg_div]
    change ((if fs.isEmpty then Outcome.ok [MdOp.link (-(step / 2))] else omelyan fs ns (-(step / 2))) >>= _) = _
    have e : (if fs.isEmpty = true then Outcome.ok [MdOp.link (-(step / 2))] else omelyan fs ns (-(step / 2))) =
        (if fs.isEmpty = true then Outcome.ok [MdOp.link (step / 2)] else omelyan fs ns (step / 2)).mapOk (List.map MdOp.neg) := by
      split
      · rfl
      · exact ih
    rw [e, bind_mapOk]
    congr 1
    funext inner
    change Outcome.ok _ = Outcome.ok _
    congr 1
    simp [List.map_flatten, List.map_replicate, MdOp.neg, step, lambda]

theorem fourthOmelyan_neg (fs : List ι) (ns : List ℕ) (t : ℝ) :
    fourthOmelyan fs ns (-t) = (fourthOmelyan fs ns t).mapOk (List.map MdOp.neg) := by
  fun_induction fourthOmelyan fs ns t with
  | case1 => rfl
  | case2 => rfl
  | case3 => simp [fourthOmelyan, Outcome.mapOk]
  | case4 f fs n ns t hn step theta rho mu lambda ih1 ih2 ih3 =>
    have e : ∀ x : ℝ, (∀ h : ¬ fs.isEmpty = true, fourthOmelyan fs ns (-x) = (fourthOmelyan fs ns x).mapOk (List.map MdOp.neg)) →
        (if fs.isEmpty = true then Outcome.ok [MdOp.link (-x)] else fourthOmelyan fs ns (-x)) =
        (if fs.isEmpty = true then Outcome.ok [MdOp.link x] else fourthOmelyan fs ns x).mapOk (List.map MdOp.neg) := by
      intro x hx
      split
      · rfl
      · rename_i h; exact hx h
    rw [fourthOmelyan, if_neg hn]
    simp only []
    rw [show fourthTheta * (-t / n) = -(theta * step) by simp [theta, step, neg_div],
      show fourthLambda * (-t / n) = -(lambda * step) by simp [lambda, step, neg_div],
      show (1 - 2 * (fourthLambda + fourthTheta)) * (-t / n) / 2 = -((1 - 2 * (lambda + theta)) * step / 2) by
        simp [lambda, theta, step, neg_div]]
    rw [e _ fun _ => ih1, e _ fun _ => ih2, e _ fun _ => ih3, bind_mapOk, mapOk_bind]
    congr 1
    funext inner1
    rw [bind_mapOk, mapOk_bind]
    congr 1
    funext inner2
    rw [bind_mapOk, mapOk_bind]
    congr 1
    funext inner3
    change Outcome.ok _ = Outcome.ok _
    congr 1
    simp [List.map_flatten, List.map_replicate, MdOp.neg, step, rho, mu, neg_div]

theorem fourthOrder_neg (fs : List ι) (ns : List ℕ) (t : ℝ) :
    fourthOrder fs ns (-t) = (fourthOrder fs ns t).mapOk (List.map MdOp.neg) := by
  simp only [fourthOrder, mul_neg, leapFrog_neg, bind_mapOk, mapOk_bind]
  simp [Outcome.mapOk]

theorem sixthOrder_neg (fs : List ι) (ns : List ℕ) (t : ℝ) :
    sixthOrder fs ns (-t) = (sixthOrder fs ns t).mapOk (List.map MdOp.neg) := by
  simp only [sixthOrder, mul_neg, fourthOrder_neg, bind_mapOk, mapOk_bind]
  simp [Outcome.mapOk]

/-- With the opposite length every integrator performs the same updates with opposite steps. -/
theorem mdIntegrate_neg (name : String) (fs : List ι) (ns : List ℕ) (t : ℝ) :
    mdIntegrate name fs ns (-t) = (mdIntegrate name fs ns t).mapOk (List.map MdOp.neg) := by
  unfold mdIntegrate
  split
  · exact leapFrog_neg _ _ _
  split
  · exact fourthOrder_neg _ _ _
  split
  · exact sixthOrder_neg _ _ _
  split
  · exact omelyan_neg _ _ _
  split
  · exact fourthOmelyan_neg _ _ _
  · rfl

/-! ### Sums of the steps -/

/-- The step by which an update moves the links. -/
def MdOp.linkTime : MdOp ι → ℝ
  | .link ε => ε
  | .mom _ _ => 0

open Classical in
/-- The step by which an update moves the momenta with force `i`. -/
noncomputable def MdOp.forceTime (i : ι) : MdOp ι → ℝ
  | .link _ => 0
  | .mom j ε => if j = i then ε else 0

/-- Sum of a weight over a sequence. -/
noncomputable def totalTime (w : MdOp ι → ℝ) (l : List (MdOp ι)) : ℝ := (l.map w).sum

theorem totalTime_append (w : MdOp ι → ℝ) (a b : List (MdOp ι)) : totalTime w (a ++ b) = totalTime w a + totalTime w b := by
  simp [totalTime]

theorem totalTime_replicate (w : MdOp ι → ℝ) (a : List (MdOp ι)) (k : ℕ) :
    totalTime w (List.replicate k a).flatten = k * totalTime w a := by
  induction k with
  | zero => simp [totalTime]
  | succ k ih =>
    rw [List.replicate_succ, List.flatten_cons, totalTime_append, ih]; push_cast; ring

theorem totalTime_single (w : MdOp ι → ℝ) (o : MdOp ι) : totalTime w [o] = w o := by simp [totalTime]

/-- A weight that is linear in the steps. -/
structure MdWeight (w : MdOp ι → ℝ) (a : ℝ) (c : ι → ℝ) : Prop where
  link : ∀ ε, w (.link ε) = a * ε
  mom : ∀ i ε, w (.mom i ε) = c i * ε

theorem cast_pred {n : ℕ} (hn : n ≠ 0) : ((n - 1 : ℕ) : ℝ) = (n : ℝ) - 1 := by
  rw [Nat.cast_sub (Nat.one_le_iff_ne_zero.mpr hn)]; simp

theorem leapFrog_time {w : MdOp ι → ℝ} {a : ℝ} {c : ι → ℝ} (hw : MdWeight w a c) (fs : List ι) (ns : List ℕ) (t : ℝ) (l : List (MdOp ι))
    (h : leapFrog fs ns t = .ok l) : totalTime w l = (a + (fs.map c).sum) * t := by
  fun_induction leapFrog fs ns t generalizing l with
  | case1 => cases h
  | case2 => cases h
  | case3 => cases h
  | case4 f fs n ns t hn step ih =>
    obtain ⟨inner, h1, h2⟩ := outcome_bind_ok h
    cases h2
    have hi : totalTime w inner = (a + (fs.map c).sum) * step := by
      split at h1
      · rename_i he
        have := List.isEmpty_iff.mp he
        subst this
        cases h1; rw [totalTime_single, hw.link]; simp
      · exact ih _ h1
    have hn' : (n : ℝ) ≠ 0 := Nat.cast_ne_zero.mpr hn
    have ht : t = n * step := by simp only [step]; field_simp
    simp only [totalTime_append, totalTime_replicate, totalTime_single, hw.mom, hi, cast_pred hn, List.map_cons, List.sum_cons]
    rw [ht]; ring

theorem omelyan_time {w : MdOp ι → ℝ} {a : ℝ} {c : ι → ℝ} (hw : MdWeight w a c) (fs : List ι) (ns : List ℕ) (t : ℝ) (l : List (MdOp ι))
    (h : omelyan fs ns t = .ok l) : totalTime w l = (a + (fs.map c).sum) * t := by
  fun_induction omelyan fs ns t generalizing l with
  | case1 => cases h
  | case2 => cases h
  | case3 => cases h
  | case4 f fs n ns t hn step lambda ih =>
    obtain ⟨inner, h1, h2⟩ := outcome_bind_ok h
    cases h2
    have hi : totalTime w inner = (a + (fs.map c).sum) * (step / 2) := by
      split at h1
      · rename_i he
        have := List.isEmpty_iff.mp he
        subst this
        cases h1; rw [totalTime_single, hw.link]; simp
      · exact ih _ h1
    have hn' : (n : ℝ) ≠ 0 := Nat.cast_ne_zero.mpr hn
    have ht : t = n * step := by simp only [step]; field_simp
    simp only [totalTime_append, totalTime_replicate, totalTime_single, hw.mom, hi, cast_pred hn, List.map_cons, List.sum_cons]
    rw [ht]; ring

theorem fourthOmelyan_time {w : MdOp ι → ℝ} {a : ℝ} {c : ι → ℝ} (hw : MdWeight w a c) (fs : List ι) (ns : List ℕ) (t : ℝ)
    (l : List (MdOp ι)) (h : fourthOmelyan fs ns t = .ok l) : totalTime w l = (a + (fs.map c).sum) * t := by
  fun_induction fourthOmelyan fs ns t generalizing l with
  | case1 => cases h
  | case2 => cases h
  | case3 => cases h
  | case4 f fs n ns t hn step theta rho mu lambda ih1 ih2 ih3 =>
    obtain ⟨inner1, h1, h⟩ := outcome_bind_ok h
    obtain ⟨inner2, h2, h⟩ := outcome_bind_ok h
    obtain ⟨inner3, h3, h⟩ := outcome_bind_ok h
    cases h
    have hi : ∀ (x : ℝ) (inner : List (MdOp ι)),
        (∀ l, fourthOmelyan fs ns x = .ok l → totalTime w l = (a + (fs.map c).sum) * x) →
        (if fs.isEmpty = true then Outcome.ok [MdOp.link x] else fourthOmelyan fs ns x) = .ok inner →
        totalTime w inner = (a + (fs.map c).sum) * x := by
      intro x inner ih hq
      split at hq
      · rename_i he
        have := List.isEmpty_iff.mp he
        subst this
        cases hq; rw [totalTime_single, hw.link]; simp
      · exact ih _ hq
    have hn' : (n : ℝ) ≠ 0 := Nat.cast_ne_zero.mpr hn
    have ht : t = n * step := by simp only [step]; field_simp
    simp only [totalTime_append, totalTime_replicate, totalTime_single, hw.mom, hi _ _ ih1 h1, hi _ _ ih2 h2, hi _ _ ih3 h3, List.map_cons,
      List.sum_cons]
    rw [ht]; ring

theorem rpow_ne_two {x : ℝ} (h0 : 0 < x) (h1 : x < 1) : (2 : ℝ) - (2 : ℝ) ^ x ≠ 0 := by
  have : (2 : ℝ) ^ x < 2 ^ (1 : ℝ) := Real.rpow_lt_rpow_of_exponent_lt (by norm_num) h1
  rw [Real.rpow_one] at this
  linarith

theorem fourthOrder_time {w : MdOp ι → ℝ} {a : ℝ} {c : ι → ℝ} (hw : MdWeight w a c) (fs : List ι) (ns : List ℕ) (t : ℝ)
    (l : List (MdOp ι)) (h : fourthOrder fs ns t = .ok l) : totalTime w l = (a + (fs.map c).sum) * t := by
  obtain ⟨x, h1, h⟩ := outcome_bind_ok h
  obtain ⟨y, h2, h⟩ := outcome_bind_ok h
  obtain ⟨z, h3, h⟩ := outcome_bind_ok h
  cases h
  simp only [totalTime_append, leapFrog_time hw _ _ _ _ h1, leapFrog_time hw _ _ _ _ h2, leapFrog_time hw _ _ _ _ h3]
  have := rpow_ne_two (x := 1 / 3) (by norm_num) (by norm_num)
  field_simp
  ring

theorem sixthOrder_time {w : MdOp ι → ℝ} {a : ℝ} {c : ι → ℝ} (hw : MdWeight w a c) (fs : List ι) (ns : List ℕ) (t : ℝ)
    (l : List (MdOp ι)) (h : sixthOrder fs ns t = .ok l) : totalTime w l = (a + (fs.map c).sum) * t := by
  obtain ⟨x, h1, h⟩ := outcome_bind_ok h
  obtain ⟨y, h2, h⟩ := outcome_bind_ok h
  obtain ⟨z, h3, h⟩ := outcome_bind_ok h
  cases h
  simp only [totalTime_append, fourthOrder_time hw _ _ _ _ h1, fourthOrder_time hw _ _ _ _ h2, fourthOrder_time hw _ _ _ _ h3]
  have := rpow_ne_two (x := 1 / 5) (by norm_num) (by norm_num)
  field_simp
  ring

theorem mdIntegrate_time {w : MdOp ι → ℝ} {a : ℝ} {c : ι → ℝ} (hw : MdWeight w a c) (name : String) (fs : List ι) (ns : List ℕ) (t : ℝ)
    (l : List (MdOp ι)) (h : mdIntegrate name fs ns t = .ok l) : totalTime w l = (a + (fs.map c).sum) * t := by
  unfold mdIntegrate at h
  split at h
  · exact leapFrog_time hw _ _ _ _ h
  split at h
  · exact fourthOrder_time hw _ _ _ _ h
  split at h
  · exact sixthOrder_time hw _ _ _ _ h
  split at h
  · exact omelyan_time hw _ _ _ _ h
  split at h
  · exact fourthOmelyan_time hw _ _ _ _ h
  · cases h

end Leonard
