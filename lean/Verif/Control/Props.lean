import Verif.Control.Lemmas
import Verif.Control.ParseLemmas

/-!
# C09 - C12: sweep scheduling, sweep declarations, configuration lines, list options
-/

set_option autoImplicit false

namespace Leonard

/-! ## C09 -/

/-- **C09.** If every period is at least one, the run is a list of executions, in the order phase, sweep number, list
position, repetition (strictly increasing, so nothing is executed twice and warm-up comes first), and an execution
occurs exactly when its sweep number is below the number of iterations of its phase, the sweep of that position
exists, its period divides the sweep number and the repetition is below the number of times. -/
theorem C09_schedule (warmUp measure : List Sweep) (nw nm : ℕ)
    (hw : ∀ s ∈ warmUp, 1 ≤ s.sweepToJump) (hm : ∀ s ∈ measure, 1 ≤ s.sweepToJump) :
    ∃ trace, runSimulation warmUp measure nw nm = .ok trace ∧ trace.Pairwise Event.Before ∧
      ∀ e : Event, e ∈ trace ↔
        (e.sweep < if e.measurement then nm else nw) ∧
        ∃ s, (if e.measurement then measure else warmUp)[e.position]? = some s ∧
          s.sweepToJump ∣ e.sweep ∧ e.iteration < s.numberTimes := by
  refine ⟨((List.range' 0 nw).flatMap fun k => passEvents false k 0 warmUp) ++
      ((List.range' 0 nm).flatMap fun k => passEvents true k 0 measure), ?_, ?_, ?_⟩
  · unfold runSimulation
    rw [phaseFrom_eq false warmUp (fun s h => by have := hw s h; omega), phaseFrom_eq true measure (fun s h => by have := hm s h; omega)]
    rfl
  · rw [List.pairwise_append]
    refine ⟨phase_pairwise _ _ _ _, phase_pairwise _ _ _ _, ?_⟩
    intro a ha b hb
    rw [mem_phase] at ha hb
    exact Or.inl ⟨ha.1, hb.1⟩
  · intro e
    rw [List.mem_append, mem_phase, mem_phase]
    cases h : e.measurement <;> simp

/-- **C09, counting.** After `n` iterations the sweep at position `p` has been executed `times * ceil(n / period)` times. -/
theorem C09_count (warmUp measure : List Sweep) (nw nm : ℕ)
    (hw : ∀ s ∈ warmUp, 1 ≤ s.sweepToJump) (hm : ∀ s ∈ measure, 1 ≤ s.sweepToJump)
    (phase : Bool) (p : ℕ) (s : Sweep) (hs : (if phase then measure else warmUp)[p]? = some s) :
    ∃ trace, runSimulation warmUp measure nw nm = .ok trace ∧
      trace.countP (fun e => e.measurement == phase && e.position == p) =
        s.numberTimes * (((if phase then nm else nw) + (s.sweepToJump - 1)) / s.sweepToJump) := by
  refine ⟨((List.range' 0 nw).flatMap fun k => passEvents false k 0 warmUp) ++
      ((List.range' 0 nm).flatMap fun k => passEvents true k 0 measure), ?_, ?_⟩
  · unfold runSimulation
    rw [phaseFrom_eq false warmUp (fun s h => by have := hw s h; omega), phaseFrom_eq true measure (fun s h => by have := hm s h; omega)]
    rfl
  · rw [List.countP_append]
    cases phase
    · have h0 : s.sweepToJump ≠ 0 := by
        have := hw s (List.mem_of_getElem? hs); omega
      rw [count_phase false warmUp p s hs h0, count_phase_other true false (by simp)]; simp
    · have h0 : s.sweepToJump ≠ 0 := by
        have := hm s (List.mem_of_getElem? hs); omega
      rw [count_phase true measure p s hs h0, count_phase_other false true (by simp)]; simp

/-- The hypothesis on the periods cannot be dropped: a period of zero is accepted by the reader and the first call
divides by zero. -/
theorem C09_zero_period_counterexample :
    readSweep (sweepText "Plaquette" 0 1) = .ok ⟨"Plaquette", 0, 1⟩ ∧
    ∀ nw nm, 0 < nm → runSimulation [] [⟨"Plaquette", 0, 1⟩] nw nm = .ub := by
  constructor
  · decide +kernel
  · intro nw nm h
    obtain ⟨n, rfl⟩ : ∃ n, nm = n + 1 := ⟨nm - 1, by omega⟩
    unfold runSimulation
    rw [phaseFrom_eq false [] (by simp)]
    rfl

example : ∃ warmUp measure : List Sweep, (∀ s ∈ warmUp, 1 ≤ s.sweepToJump) ∧ (∀ s ∈ measure, 1 ≤ s.sweepToJump) ∧
    (runSimulation warmUp measure 3 5 = .ok [⟨false, 0, 0, 0⟩, ⟨false, 2, 0, 0⟩, ⟨true, 0, 0, 0⟩, ⟨true, 0, 1, 0⟩,
      ⟨true, 0, 1, 1⟩, ⟨true, 1, 0, 0⟩, ⟨true, 2, 0, 0⟩, ⟨true, 3, 0, 0⟩, ⟨true, 3, 1, 0⟩, ⟨true, 3, 1, 1⟩, ⟨true, 4, 0, 0⟩]) :=
  ⟨[⟨"Plaquette", 2, 1⟩], [⟨"PureGaugeCM", 1, 1⟩, ⟨"Plaquette", 3, 2⟩], by decide, by decide, by decide⟩

/-! ## C10 -/

theorem sweepNames_plain : ∀ n ∈ sweepNames, n.toList.all (fun c => c.isAlpha) = true := by decide +kernel

/-- Reading the three fields of a declaration. -/
theorem readSweep_fields (a b c d e : List Char) (ha : '{' ∉ a) (hb : ',' ∉ b) (hc : ',' ∉ c) (hd : '}' ∉ d) :
    readSweep (a ++ '{' :: (b ++ ',' :: (c ++ ',' :: (d ++ '}' :: e)))) = (do
      let name ← sweepInstance b
      let j ← fromStringInt c
      let n ← fromStringInt d
      return ⟨name, toUnsigned j, toUnsigned n⟩) := by
  unfold readSweep
  rw [splitAtChar_append _ _ _ ha]; simp only
  rw [splitAtChar_append _ _ _ hb]; simp only
  rw [splitAtChar_append _ _ _ hc]; simp only
  rw [splitAtChar_append _ _ _ hd]

theorem sweepText_eq (name : String) (p t : ℕ) : sweepText name p t =
    [] ++ '{' :: (name.toList ++ ',' :: ((toString p).toList ++ ',' :: ((toString t).toList ++ '}' :: []))) := by
  simp [sweepText]

/-- **C10, round trip.** `{name,period,times}` is read as exactly that sweep, for every name the program offers and all
numbers an `int` can hold; a name without separators that is not offered terminates the program. -/
theorem C10_round_trip (name : String) (p t : ℕ) (hp : p ≤ 2147483647) (ht : t ≤ 2147483647) :
    (name ∈ sweepNames → readSweep (sweepText name p t) = .ok ⟨name, p, t⟩) ∧
    (name ∉ sweepNames → ',' ∉ name.toList → readSweep (sweepText name p t) = .exit 1) := by
  have key : ',' ∉ name.toList → readSweep (sweepText name p t) = (do
      let n ← sweepInstance name.toList
      return ⟨n, p, t⟩) := by
    intro h
    rw [sweepText_eq, readSweep_fields _ _ _ _ _ (by simp) h (not_mem_digits (by decide) p) (not_mem_digits (by decide) t),
      fromStringInt_digits p hp, fromStringInt_digits t ht]
    simp only [Outcome.bind_ok, toUnsigned_nat p hp, toUnsigned_nat t ht]
  constructor
  · intro hn
    rw [key]
    · simp [sweepInstance, hn]
    · intro hc
      have := sweepNames_plain name hn
      rw [List.all_eq_true] at this
      exact absurd (this ',' hc) (by decide)
  · intro hn hc
    rw [key hc]
    simp [sweepInstance, hn]

/-- **C10, rejection.** The reader terminates with code 17 exactly when the text does not contain, in this order, an
opening brace, two commas and a closing brace. -/
theorem C10_rejection (s : List Char) :
    readSweep s = .exit 17 ↔ ¬ ∃ a b c d e, s = a ++ '{' :: (b ++ ',' :: (c ++ ',' :: (d ++ '}' :: e))) := by
  constructor
  · rintro h ⟨a, b, c, d, e, rfl⟩
    -- normalise the decomposition to the first occurrences
    have first : ∀ (x : Char) (u v : List Char), ∃ u' v', u ++ x :: v = u' ++ x :: v' ∧ x ∉ u' ∧ ∃ w, v' = w ++ v := by
      intro x u v
      induction u with
      | nil => exact ⟨[], v, rfl, by simp, [], rfl⟩
      | cons y u ih =>
        by_cases hy : y = x
        · subst hy; exact ⟨[], u ++ y :: v, rfl, by simp, u ++ [y], by simp⟩
        · obtain ⟨u', v', h1, h2, h3⟩ := ih
          exact ⟨y :: u', v', by simp [h1], by simp [h2, Ne.symm hy], h3⟩
    obtain ⟨a', r1, e1, ha, w1, rfl⟩ := first '{' a (b ++ ',' :: (c ++ ',' :: (d ++ '}' :: e)))
    rw [← List.append_assoc w1] at e1
    obtain ⟨b', r2, e2, hb, w2, rfl⟩ := first ',' (w1 ++ b) (c ++ ',' :: (d ++ '}' :: e))
    rw [e2, ← List.append_assoc w2] at e1
    obtain ⟨c', r3, e3, hc, w3, rfl⟩ := first ',' (w2 ++ c) (d ++ '}' :: e)
    rw [e3, ← List.append_assoc w3] at e1
    obtain ⟨d', r4, e4, hd, w4, rfl⟩ := first '}' (w3 ++ d) e
    rw [e4] at e1
    rw [e1, readSweep_fields _ _ _ _ _ ha hb hc hd] at h
    unfold sweepInstance fromStringInt at h
    split at h
    · simp only [Outcome.bind_ok] at h
      split at h
      · simp at h
      · simp only [Outcome.bind_ok] at h
        split at h <;> simp at h
    · simp at h
  · intro h
    unfold readSweep
    cases h1 : splitAtChar '{' s with
    | none => rfl
    | some p1 =>
      obtain ⟨a, r1⟩ := p1
      obtain ⟨rfl, -⟩ := splitAtChar_some _ _ _ _ h1
      simp only
      cases h2 : splitAtChar ',' r1 with
      | none => rfl
      | some p2 =>
        obtain ⟨b, r2⟩ := p2
        obtain ⟨rfl, -⟩ := splitAtChar_some _ _ _ _ h2
        simp only
        cases h3 : splitAtChar ',' r2 with
        | none => rfl
        | some p3 =>
          obtain ⟨c, r3⟩ := p3
          obtain ⟨rfl, -⟩ := splitAtChar_some _ _ _ _ h3
          simp only
          cases h4 : splitAtChar '}' r3 with
          | none => rfl
          | some p4 =>
            obtain ⟨d, r4⟩ := p4
            obtain ⟨rfl, -⟩ := splitAtChar_some _ _ _ _ h4
            exact absurd ⟨a, b, c, d, r4, rfl⟩ h

/-- A declaration `{f1,...,fn}` of any number of fields other than three, the fields being free of separators. What is
proved of "another number of fields terminates the program" is the case of fewer than three fields; more are accepted
(see the counterexample). -/
theorem C10_too_few_fields_partial (fields : List (List Char)) (hf : ∀ f ∈ fields, ',' ∉ f)
    (h : fields.length < 3) : readSweep (listText fields) = .exit 17 := by
  rw [C10_rejection]
  rintro ⟨a, b, c, d, e, he⟩
  have count : (listText fields).count ',' ≤ 1 := by
    have cz : ∀ f ∈ fields, f.count ',' = 0 := fun f hm => List.count_eq_zero_of_not_mem (hf f hm)
    match fields, h with
    | [], _ => decide
    | [x], _ => simp [listText, List.intercalate, List.intersperse, List.count_cons, cz x (by simp)]
    | [x, y], _ => simp [listText, List.intercalate, List.intersperse, List.count_cons, cz x (by simp), cz y (by simp)]
  rw [he] at count
  simp [List.count_cons, List.count_append] at count
  omega

/-- More than three fields are silently accepted: whatever follows the first comma after the repetitions is ignored. -/
theorem C10_extra_fields_counterexample (name : String) (hn : name ∈ sweepNames) (p t : ℕ)
    (hp : p ≤ 2147483647) (ht : t ≤ 2147483647) (extra : List Char) (he : '}' ∉ extra) :
    readSweep (listText [name.toList, (toString p).toList, (toString t).toList, extra]) = .ok ⟨name, p, t⟩ := by
  have e : listText [name.toList, (toString p).toList, (toString t).toList, extra] =
      [] ++ '{' :: (name.toList ++ ',' :: ((toString p).toList ++ ',' :: (((toString t).toList ++ ',' :: extra) ++ '}' :: []))) := by
    simp [listText, List.intercalate, List.intersperse]
  have hc : ',' ∉ name.toList := by
    intro hc
    have := sweepNames_plain name hn
    rw [List.all_eq_true] at this
    exact absurd (this ',' hc) (by decide)
  have hd : '}' ∉ (toString t).toList ++ ',' :: extra := by
    simp only [List.mem_append, List.mem_cons, not_or]
    exact ⟨not_mem_digits (by decide) t, by decide, he⟩
  rw [e, readSweep_fields _ _ _ _ _ (by simp) hc (not_mem_digits (by decide) p) hd, fromStringInt_digits p hp]
  have ht' : fromStringInt ((toString t).toList ++ ',' :: extra) = .ok (t : ℤ) := by
    have hdig : ∀ c ∈ Nat.toDigits 10 t, c.isDigit = true := fun c hc => isDigit_of_mem hc
    have htw : (Nat.toDigits 10 t ++ ',' :: extra).takeWhile Char.isDigit = Nat.toDigits 10 t := by
      rw [List.takeWhile_append_of_pos hdig]; simp
    rw [toString_toList]
    unfold fromStringInt
    cases h : Nat.toDigits 10 t with
    | nil => exact absurd h (digits_ne_nil t)
    | cons c l =>
      have hcd := hdig c (by rw [h]; simp)
      have hsd : signDigits (c :: (l ++ ',' :: extra)) = (false, Nat.toDigits 10 t) := by
        unfold signDigits
        rw [h, List.cons_append] at htw
        split
        · next heq => simp at heq; rw [heq.1] at hcd; exact absurd hcd (by decide)
        · next heq => simp at heq; rw [heq.1] at hcd; exact absurd hcd (by decide)
        · rw [htw, h]
      simp only [List.cons_append, List.dropWhile_cons, isSpace_of_isDigit hcd, Bool.false_eq_true, if_false, hsd,
        Nat.ofDigitChars_ten_toDigits, Outcome.ok.injEq]
      omega
  rw [ht']
  simp [sweepInstance, hn, toUnsigned_nat p hp, toUnsigned_nat t ht]

/-- **C10 for whole lists.** A list of declarations `{{n1,p1,t1},{n2,p2,t2},...}` is loaded as exactly that list of sweeps. -/
theorem C10_list (l : List Sweep) (hl : l ≠ [])
    (h : ∀ s ∈ l, s.name ∈ sweepNames ∧ s.sweepToJump ≤ 2147483647 ∧ s.numberTimes ≤ 2147483647) :
    readSweepList (listText (l.map fun s => sweepText s.name s.sweepToJump s.numberTimes)) = .ok l := by
  have he : ∀ e ∈ l.map (fun s => sweepText s.name s.sweepToJump s.numberTimes), Element e := by
    intro e he
    obtain ⟨s, hs, rfl⟩ := List.mem_map.1 he
    have : sweepText s.name s.sweepToJump s.numberTimes = '{' :: ((s.name.toList ++ ',' :: ((toString s.sweepToJump).toList ++
        ',' :: (toString s.numberTimes).toList)) ++ '}' :: []) := by simp [sweepText]
    rw [this]
    refine .brace (balanced_of_plain _ ?_) .nil
    have hd : ∀ n : ℕ, ∀ c ∈ (toString n).toList, ¬ isBracket c ∧ isSpace c = false := by
      intro n c hc
      rw [toString_toList] at hc
      have := isDigit_of_mem hc
      refine ⟨?_, isSpace_of_isDigit this⟩
      rintro (rfl | rfl | rfl | rfl) <;> exact absurd this (by decide)
    intro c hc
    simp only [List.mem_append, List.mem_cons] at hc
    rcases hc with hc | rfl | hc | rfl | hc
    · have := sweepNames_plain s.name (h s hs).1
      rw [List.all_eq_true] at this
      have hca := this c hc
      constructor
      · rintro (rfl | rfl | rfl | rfl) <;> exact absurd hca (by decide)
      · by_contra hsp
        simp only [isSpace, Bool.not_eq_false, List.mem_cons, List.not_mem_nil, or_false, decide_eq_true_eq] at hsp
        rcases hsp with rfl | rfl | rfl | rfl | rfl | rfl <;> exact absurd hca (by decide)
    · exact ⟨by simp [isBracket], by decide⟩
    · exact hd _ c hc
    · exact ⟨by simp [isBracket], by decide⟩
    · exact hd _ c hc
  unfold readSweepList getVector
  rw [asString_noSpace _ (listText_noSpace _ he)]
  have e1 : (listText (l.map fun s => sweepText s.name s.sweepToJump s.numberTimes)).dropWhile (· ≠ '{') =
      listText (l.map fun s => sweepText s.name s.sweepToJump s.numberTimes) := by simp [listText]
  rw [e1]
  simp only [listText]
  rw [vectorLoop_list _ _ _ (by simpa using hl) he]
  simp only [List.nil_append, Outcome.bind_ok]
  clear he e1 hl
  induction l with
  | nil => rfl
  | cons s l ih =>
    rw [List.map_cons, List.mapM_cons, (C10_round_trip s.name _ _ (h s (by simp)).2.1 (h s (by simp)).2.2).1 (h s (by simp)).1,
      Outcome.bind_ok, ih fun t ht => h t (by simp [ht])]
    rfl

example : readSweepList "{{PureGaugeCM,1,10},{Plaquette,5,1}}".toList = .ok [⟨"PureGaugeCM", 1, 10⟩, ⟨"Plaquette", 5, 1⟩] :=
  C10_list [⟨"PureGaugeCM", 1, 10⟩, ⟨"Plaquette", 5, 1⟩] (by decide) (by decide +kernel)

/-- The default value of the option `warm_up_sweeps` (main.cpp 134) names a sweep that does not exist. -/
theorem C10_default_warm_up_counterexample :
    readSweepList "{{TestCommunications,1,1},{PureGaugeCM,1,1},{Plaquette,1,1}}".toList = .exit 1 := by decide +kernel

/-! ## C11 -/

theorem readLine_of_two (line name seps value : List Char) (hc : line.head? ≠ some '#') (hn : IsWord name) (hv : IsWord value)
    (hs : seps ≠ []) (hsep : ∀ c ∈ seps, IsSeparator c) (hl : dropBlanks line = name ++ (seps ++ value)) :
    readLine line = .ok (some (name, value)) := by
  have h1 : cleanLine line = name ++ (seps ++ value) := by simp only [cleanLine, if_neg hc, hl]
  unfold readLine
  rw [h1]
  have hlen : (name ++ (seps ++ value)).length ≠ 0 := by
    have := List.length_pos_of_ne_nil hn.1
    simp; intro h; exact absurd h hn.1
  simp only [hlen, ne_eq, not_false_eq_true, if_true]
  unfold parseParameter
  rw [regexRuns_two name seps value hn.1 hv.1 hs (word_allowed hn) (word_allowed hv) (fun c hc => sep_not_allowed (hsep c hc))]
  simp only [List.map_cons, List.map_nil, Outcome.bind_ok, dropBlanks_self (word_noBlank hn), dropBlanks_self (word_noBlank hv)]
  rfl

/-- **C11, lines.** A comment line or a blank line yields nothing; `name = value`, with any number of blanks before,
between and after, yields exactly the name and the value. -/
theorem C11_line (line : List Char) (r : Option (List Char × List Char)) (h : LineMeans line r) : readLine line = .ok r := by
  cases h with
  | comment s => simp [readLine, cleanLine, dropBlanks]
  | blank hb =>
    have hh : line.head? ≠ some '#' := by
      intro h
      cases line with
      | nil => simp at h
      | cons c s => simp at h; have := hb c (by simp); rw [h] at this; exact absurd this (by decide)
    simp [readLine, cleanLine, dropBlanks_blanks hb, hh]
  | @assign name value b1 b2 b3 b4 hn hv h1 h2 h3 h4 =>
    refine readLine_of_two _ name ['='] value ?_ hn hv (by simp) ?_ ?_
    · have ne : ∀ c s, ((b1 ++ name) ++ s : List Char).head? = some c → c ≠ '#' := by
        intro c s hcs hc
        subst hc
        cases b1 with
        | nil =>
          cases name with
          | nil => exact absurd rfl hn.1
          | cons c w =>
            simp at hcs; subst hcs
            have := hn.2 '#' (by simp)
            revert this; decide
        | cons c w =>
          simp at hcs; subst hcs
          have := h1 '#' (by simp)
          exact absurd this (by decide)
      intro h
      rw [List.append_assoc (b1 ++ name)] at h
      exact ne '#' _ h rfl
    · intro c hc
      simp at hc; subst hc
      exact ⟨by decide, by decide, by decide⟩
    · simp only [dropBlanks_append, dropBlanks_blanks h1, dropBlanks_blanks h2, dropBlanks_self (word_noBlank hn)]
      have : dropBlanks ('=' :: (b3 ++ value ++ b4)) = '=' :: (dropBlanks b3 ++ dropBlanks value ++ dropBlanks b4) := by
        simp [dropBlanks]
      rw [this, dropBlanks_blanks h3, dropBlanks_blanks h4, dropBlanks_self (word_noBlank hv)]
      simp

example : LineMeans "  beta =   2.3 ".toList (some ("beta".toList, "2.3".toList)) :=
  LineMeans.assign (name := "beta".toList) (value := "2.3".toList) (b1 := "  ".toList) (b2 := " ".toList)
    (b3 := "   ".toList) (b4 := " ".toList) ⟨by decide, by decide⟩ ⟨by decide, by decide⟩ (by decide +kernel) (by decide +kernel)
    (by decide +kernel) (by decide +kernel)

/-- **C11, blanks.** Two lines that differ only in blanks, neither starting with `#`, are read alike. -/
theorem C11_blanks (l1 l2 : List Char) (h1 : l1.head? ≠ some '#') (h2 : l2.head? ≠ some '#')
    (h : l1.filter (· ≠ ' ') = l2.filter (· ≠ ' ')) : readLine l1 = readLine l2 := by
  have e : cleanLine l1 = cleanLine l2 := by
    simp only [cleanLine, if_neg h1, if_neg h2]; exact h
  simp only [readLine, e]

/-- **C11, too many words.** A line (not a comment) with three or more words terminates the program; words are
separated by any characters that are neither blanks nor allowed in words. (Blanks do not separate words, see the
counterexample.) -/
theorem C11_too_many_words_partial (line pre w1 m1 n1 w2 m2 n2 w3 post : List Char) (s1 s2 : Char) (hc : line.head? ≠ some '#')
    (hl : line = pre ++ w1 ++ m1 ++ s1 :: (n1 ++ w2 ++ m2 ++ s2 :: (n2 ++ w3 ++ post)))
    (h1 : IsWord w1) (h2 : IsWord w2) (h3 : IsWord w3) (hs1 : IsSeparator s1) (hs2 : IsSeparator s2) :
    readLine line = .exit 77 := by
  have cl : cleanLine line = dropBlanks line := by simp only [cleanLine, if_neg hc]
  have d1 : ∀ s : List Char, ∀ c, IsSeparator c → dropBlanks (c :: s) = c :: dropBlanks s := by
    intro s c hc; simp [dropBlanks, hc.1]
  have allowedMem : ∀ a w b : List Char, IsWord w → ∃ c ∈ dropBlanks (a ++ w ++ b), allowedChar c = true := by
    intro a w b hw
    obtain ⟨c, w', rfl⟩ := List.exists_cons_of_ne_nil hw.1
    refine ⟨c, ?_, word_allowed hw c (by simp)⟩
    rw [dropBlanks_append, dropBlanks_append, dropBlanks_self (word_noBlank hw)]; simp
  have hr : regexRuns [] (cleanLine line) = regexRuns [] (dropBlanks (pre ++ w1 ++ m1)) ++
      (regexRuns [] (dropBlanks (n1 ++ w2 ++ m2)) ++ regexRuns [] (dropBlanks (n2 ++ w3 ++ post))) := by
    rw [cl, hl, dropBlanks_append (pre ++ w1 ++ m1), d1 _ _ hs1, regexRuns_split _ (sep_not_allowed hs1),
      dropBlanks_append (n1 ++ w2 ++ m2), d1 _ _ hs2, regexRuns_split _ (sep_not_allowed hs2)]
  have k1 := List.length_pos_of_ne_nil (regexRuns_ne_nil _ [] (allowedMem pre w1 m1 h1))
  have k2 := List.length_pos_of_ne_nil (regexRuns_ne_nil _ [] (allowedMem n1 w2 m2 h2))
  have k3 := List.length_pos_of_ne_nil (regexRuns_ne_nil _ [] (allowedMem n2 w3 post h3))
  have hlen : 3 ≤ ((regexRuns [] (cleanLine line)).map dropBlanks).length := by
    rw [hr]; simp only [List.length_map, List.length_append]; omega
  have hne : (cleanLine line).length ≠ 0 := by
    intro h
    rw [List.length_eq_zero_iff.1 h] at hlen
    simp [regexRuns] at hlen
  unfold readLine parseParameter
  simp only [ne_eq, hne, not_false_eq_true, if_true]
  split
  · next heq => rw [heq] at hlen; simp at hlen
  · next heq => rw [heq] at hlen; simp at hlen
  · rfl

example : readLine "beta = 2.3 # the coupling".toList = .exit 77 :=
  C11_too_many_words_partial _ [] "beta".toList " ".toList " ".toList "2.3".toList " ".toList " ".toList "the".toList " coupling".toList '=' '#'
    (by decide) (by decide +kernel) ⟨by decide, by decide⟩ ⟨by decide, by decide⟩ ⟨by decide, by decide⟩
    ⟨by decide, by decide, by decide⟩ ⟨by decide, by decide, by decide⟩

/-- Words separated only by blanks are silently glued together, so a line with three words can be accepted. -/
theorem C11_blank_separated_counterexample (w1 w2 w3 : List Char) (h1 : IsWord w1) (h2 : IsWord w2) (h3 : IsWord w3) :
    readLine (w1 ++ ' ' :: '=' :: ' ' :: (w2 ++ ' ' :: w3)) = .ok (some (w1, w2 ++ w3)) := by
  refine readLine_of_two _ w1 ['='] (w2 ++ w3) ?_ h1 ⟨by simp [h2.1], fun c hc => ?_⟩ (by simp) ?_ ?_
  · obtain ⟨c, w, rfl⟩ := List.exists_cons_of_ne_nil h1.1
    simp; rintro rfl
    have := h1.2 '#' (by simp)
    revert this; decide
  · rcases List.mem_append.1 hc with hc | hc
    exacts [h2.2 c hc, h3.2 c hc]
  · intro c hc
    simp at hc; subst hc
    exact ⟨by decide, by decide, by decide⟩
  · have e : ∀ s, dropBlanks (' ' :: s) = dropBlanks s := by intro s; simp [dropBlanks]
    have e' : ∀ s, dropBlanks ('=' :: s) = '=' :: dropBlanks s := by intro s; simp [dropBlanks]
    rw [dropBlanks_append, e, e', e, dropBlanks_append, e, dropBlanks_self (word_noBlank h1), dropBlanks_self (word_noBlank h2),
      dropBlanks_self (word_noBlank h3)]
    simp

/-- Only a `#` in the first column starts a comment: an indented comment assigns the empty value to the option it names. -/
theorem C11_indented_comment_counterexample (name : List Char) (h : IsWord name) :
    readLine (' ' :: '#' :: name) = .ok (some (name, [])) := by
  have e : cleanLine (' ' :: '#' :: name) = '#' :: name := by
    have : dropBlanks (' ' :: '#' :: name) = '#' :: dropBlanks name := by simp [dropBlanks]
    simp [cleanLine, this, dropBlanks_self (word_noBlank h)]
  have e2 : regexRuns [] ('#' :: name) = [name] := by
    have := regexRuns_sep ['#'] (by decide) name
    simp only [List.cons_append, List.nil_append] at this
    rw [this]
    have := regexRuns_allowed name (word_allowed h) [] []
    simp only [List.append_nil, List.nil_append] at this
    rw [this, regexRuns, if_neg h.1]
  simp [readLine, e, parseParameter, e2, dropBlanks_self (word_noBlank h)]

/-- **C11, whole file.** After reading a file all of whose lines are comments, blank or assignments, every known option
has the value of the last assignment to it, or keeps its default; unknown names change nothing. -/
theorem C11_file (desc : Options) (lines : List (List Char)) (meaning : List (Option (List Char × List Char)))
    (h : List.Forall₂ LineMeans lines meaning) :
    ∃ desc', readConfig desc lines = .ok desc' ∧ ∀ n, desc' n = valueAfter desc (meaning.filterMap id) n := by
  induction h generalizing desc with
  | nil =>
    refine ⟨desc, rfl, fun n => ?_⟩
    unfold valueAfter
    cases desc n <;> simp
  | @cons line m lines ms hl hrest ih =>
    cases m with
    | none =>
      obtain ⟨d, h1, h2⟩ := ih desc
      refine ⟨d, ?_, by simpa using h2⟩
      rw [readConfig, C11_line _ _ hl]; exact h1
    | some p =>
      obtain ⟨d, h1, h2⟩ := ih (setOption desc p)
      refine ⟨d, ?_, fun n => ?_⟩
      · rw [readConfig, C11_line _ _ hl]; exact h1
      · rw [h2]
        rw [List.filterMap_cons_some (f := id) (b := p) rfl]
        unfold valueAfter setOption
        by_cases hp : (desc p.1).isSome
        · rw [if_pos hp]
          obtain ⟨v, hv⟩ := Option.isSome_iff_exists.1 hp
          by_cases hn : n = p.1
          · subst hn
            simp only [if_true, hv, List.filter_cons_of_pos, decide_true]
            cases hf : List.filter (fun x => decide (x.1 = p.1)) (List.filterMap id ms) with
            | nil => simp
            | cons a l => simp [List.getLast?_cons]
          · simp only [if_neg hn]
            have : ¬ p.1 = n := fun h => hn h.symm
            simp [this]
        · rw [if_neg hp]
          by_cases hn : n = p.1
          · subst hn
            have : desc p.1 = none := by simpa using hp
            simp [this]
          · have : ¬ p.1 = n := fun h => hn h.symm
            simp [this]

example : ∃ meaning, List.Forall₂ LineMeans ["# comment".toList, "".toList, "beta = 2.3".toList, "beta=2.4".toList] meaning ∧
    meaning.filterMap id = [("beta".toList, "2.3".toList), ("beta".toList, "2.4".toList)] :=
  ⟨[none, none, some ("beta".toList, "2.3".toList), some ("beta".toList, "2.4".toList)],
    .cons (.comment " comment".toList) (.cons (.blank (by decide +kernel)) (.cons
      (LineMeans.assign (name := "beta".toList) (value := "2.3".toList) (b1 := []) (b2 := " ".toList) (b3 := " ".toList) (b4 := [])
        ⟨by decide, by decide⟩ ⟨by decide, by decide⟩ (by decide +kernel) (by decide +kernel) (by decide +kernel) (by decide +kernel))
      (.cons (LineMeans.assign (name := "beta".toList) (value := "2.4".toList) (b1 := []) (b2 := []) (b3 := []) (b4 := [])
        ⟨by decide, by decide⟩ ⟨by decide, by decide⟩ (by decide +kernel) (by decide +kernel) (by decide +kernel) (by decide +kernel))
      .nil))), rfl⟩

/-! ## C12 -/

/-- **C12.** A non-empty list written `{e1,...,en}`, the elements being free of white space, balanced and with commas
only inside brackets, is read as exactly its elements in order. -/
theorem C12_list (l : List (List Char)) (hl : l ≠ []) (h : ∀ e ∈ l, Element e) : getVector (listText l) = .ok l := by
  unfold getVector
  rw [asString_noSpace _ (listText_noSpace _ h)]
  have e1 : (listText l).dropWhile (· ≠ '{') = listText l := by simp [listText]
  rw [e1]
  simp only [listText]
  rw [vectorLoop_list _ _ _ hl h]; simp

/-- **C12 for unsigned numbers.** -/
theorem C12_unsigned (l : List ℕ) (hl : l ≠ []) (h : ∀ n ∈ l, n < 4294967296) :
    getVectorUnsigned (listText (l.map fun n => (toString n).toList)) = .ok l := by
  unfold getVectorUnsigned
  rw [C12_list _ (by simpa using hl)]
  · simp only [Outcome.bind_ok]
    clear hl
    induction l with
    | nil => rfl
    | cons n l ih =>
      rw [List.map_cons, List.mapM_cons, fromStringUnsigned_digits n (h n (by simp)), Outcome.bind_ok,
        ih fun m hm => h m (by simp [hm])]
      rfl
  · intro e he
    obtain ⟨n, _, rfl⟩ := List.mem_map.1 he
    rw [toString_toList]
    exact element_digits _ fun c hc => isDigit_of_mem hc

/-- **C12 for pairs and numbers of any kind.** A list of bracketed pairs `(a,b)` - or of plain texts - is cut into
exactly these texts, and each is converted on its own, whatever the conversion from text. (The conversion of decimal
text to floating point numbers belongs to the C++ library.) -/
theorem C12_pairs {T : Type} (read : List Char → T) (l : List (List Char × List Char)) (hl : l ≠ [])
    (h : ∀ p ∈ l, (∀ c ∈ p.1, ¬ isBracket c ∧ isSpace c = false) ∧ (∀ c ∈ p.2, ¬ isBracket c ∧ isSpace c = false)) :
    getVectorOf read (listText (l.map fun p => '(' :: (p.1 ++ ',' :: p.2 ++ [')']))) =
      .ok (l.map fun p => read ('(' :: (p.1 ++ ',' :: p.2 ++ [')']))) := by
  unfold getVectorOf
  rw [C12_list _ (by simpa using hl)]
  · simp [List.map_map, Function.comp_def]
  · intro e he
    obtain ⟨p, hp, rfl⟩ := List.mem_map.1 he
    have := h p hp
    refine .paren (a := p.1 ++ ',' :: p.2) (balanced_of_plain _ ?_) .nil
    intro c hc
    simp only [List.mem_append, List.mem_cons] at hc
    rcases hc with hc | rfl | hc
    · exact this.1 c hc
    · exact ⟨by simp [isBracket], by decide⟩
    · exact this.2 c hc

example : getVectorUnsigned "{4,8,15}".toList = .ok [4, 8, 15] := C12_unsigned [4, 8, 15] (by simp) (by simp)
example : getVector "{(5.2e-01,0.),(1,2)}".toList = .ok ["(5.2e-01,0.)".toList, "(1,2)".toList] := by decide +kernel
example : Element "{a,(b,c)}d".toList :=
  .brace (a := "a,(b,c)".toList) (b := ['d']) (.plain (c := 'a') (by decide) (by decide) (.plain (c := ',') (by decide) (by decide)
    (.paren (a := "b,c".toList) (b := []) (balanced_of_plain _ (by decide)) .nil)))
    (.plain (by decide) (by decide) (by decide) .nil)

/-- The empty list cannot be written: `{}` is a list with one empty element, and for numbers that element is an
uninitialised value. -/
theorem C12_empty_list_counterexample : getVector (listText []) = .ok [[]] ∧ getVectorUnsigned (listText []) = .ub := by
  decide +kernel

/-- A list whose closing brace is missing loses its last element without any complaint. -/
theorem C12_unterminated_counterexample (l : List (List Char)) (last : List Char) (hl : l ≠ []) (h : ∀ e ∈ l, Element e)
    (hlast : ∀ c ∈ last, ¬ isBracket c ∧ isSpace c = false ∧ c ≠ ',') (hne : last ≠ []) :
    getVector ('{' :: ([','].intercalate l ++ ',' :: last)) = .ok l := by
  have hsp : ∀ c ∈ '{' :: ([','].intercalate l ++ ',' :: last), isSpace c = false := by
    intro c hc
    simp only [List.mem_cons, List.mem_append] at hc
    rcases hc with rfl | hc | rfl | hc
    · decide
    · rcases mem_intercalate hc with rfl | ⟨e, he, hce⟩
      exacts [by decide, (h e he).noSpace c hce]
    · decide
    · exact (hlast c hc).2.1
  have tail : ∀ (s tmp : List Char) ris, s ≠ [] → (∀ c ∈ s, ¬ isBracket c ∧ isSpace c = false ∧ c ≠ ',') →
      vectorLoop 1 tmp ris s = .ok ris := by
    intro s
    induction s with
    | nil => intro _ _ h; simp at h
    | cons c s ih =>
      intro tmp ris _ hs
      obtain ⟨hb, _, hcc⟩ := hs c (by simp)
      cases s with
      | nil =>
        simp only [isBracket, not_or] at hb
        rw [vectorLoop]; simp [hb, hcc]
      | cons d s =>
        rw [vectorLoop_plain hb hcc _ _ _ _ (by simp) (by omega)]
        exact ih _ _ (by simp) fun x hx => hs x (by simp [hx])
  have main : ∀ (l : List (List Char)) ris, l ≠ [] → (∀ e ∈ l, Element e) →
      vectorLoop 1 [] ris ([','].intercalate l ++ ',' :: last) = .ok (ris ++ l) := by
    intro l
    induction l with
    | nil => intro _ h; simp at h
    | cons e l ih =>
      intro ris _ hl
      cases l with
      | nil =>
        simp only [List.intercalate_singleton]
        rw [vectorLoop_element (hl e (by simp)) _ _ _ (by simp), vectorLoop_comma_top _ _ _ hne, tail _ _ _ hne hlast]; simp
      | cons f l =>
        have : [','].intercalate (e :: f :: l) = e ++ ',' :: [','].intercalate (f :: l) := by
          simp [List.intercalate, List.intersperse]
        rw [this, List.append_assoc, vectorLoop_element (hl e (by simp)) _ _ _ (by simp), List.cons_append,
          vectorLoop_comma_top _ _ _ (by simp), ih _ (by simp) (fun x hx => hl x (by simp [hx]))]
        simp
  unfold getVector
  rw [asString_noSpace _ hsp]
  have e1 : ('{' :: ([','].intercalate l ++ ',' :: last)).dropWhile (· ≠ '{') = '{' :: ([','].intercalate l ++ ',' :: last) := by simp
  rw [e1]
  simp only
  rw [main l [] hl h]; simp

/-- A list of pairs can never be given in a configuration file: the parentheses are not allowed characters, so the line
has more than two words and the program terminates. This includes
`configuration_scripts/config_sym_overlap.cfg`, line 87. -/
theorem C12_pairs_in_config_counterexample (name a b rest : List Char) (hn : IsWord name) (ha : IsWord a) :
    readLine (name ++ '=' :: '{' :: '(' :: (a ++ ',' :: b ++ ')' :: rest)) = .exit 77 := by
  refine C11_too_many_words_partial _ [] name [] [] ['{'] [] [] a (',' :: b ++ ')' :: rest) '=' '(' ?_ ?_ hn ?_ ha ?_ ?_
  · obtain ⟨c, w, rfl⟩ := List.exists_cons_of_ne_nil hn.1
    simp; rintro rfl
    have := hn.2 '#' (by simp)
    revert this; decide
  · simp
  · exact ⟨by decide, by decide⟩
  · exact ⟨by decide, by decide, by decide⟩
  · exact ⟨by decide, by decide, by decide⟩

end Leonard
