import Verif.Output.Lemmas

/-!
# C13, C14: measurement output
-/

set_option autoImplicit false

namespace Leonard

/-! ## C13 -/

theorem printed_buffer_empty (f : Format) (hf : f ≠ .unset) (n : List Char) (order : List (List Char)) : ∀ (st st' : OutState),
    n ∈ order → outPrint f st order = .ok st' → ∀ s, st'.streams n = some s → s.text = [] := by
  have once : ∀ (st st' : OutState), printOne f st n = .ok st' → ∀ s, st'.streams n = some s → s.text = [] := by
    intro st st' h s hs
    unfold printOne at h
    split at h
    · next h0 => simp at h; rw [← h, h0] at hs; simp at hs
    · next t h0 =>
      rw [if_neg hf] at h
      cases h2 : fileAction f (st.files n) t.text with
      | ok a => rw [h2] at h; simp at h; rw [← h] at hs; simp at hs; rw [← hs]
      | exit c => rw [h2] at h; simp at h
      | ub => rw [h2] at h; simp at h
  have keep : ∀ (rest : List (List Char)) (st st' : OutState), (∀ s, st.streams n = some s → s.text = []) →
      outPrint f st rest = .ok st' → ∀ s, st'.streams n = some s → s.text = [] := by
    intro rest
    induction rest with
    | nil => intro st st' h h1; simp [outPrint] at h1; rw [← h1]; exact h
    | cons k rest ih =>
      intro st st' h h1
      simp only [outPrint] at h1
      cases h2 : printOne f st k with
      | exit c => rw [h2] at h1; simp at h1
      | ub => rw [h2] at h1; simp at h1
      | ok m =>
        rw [h2] at h1
        refine ih m st' ?_ h1
        by_cases hk : k = n
        · subst hk; exact once _ _ h2
        · rw [(printOne_other f st m k n hk h2).1]; exact h
  induction order with
  | nil => intro st st' h; simp at h
  | cons k rest ih =>
    intro st st' hmem h1
    simp only [outPrint] at h1
    cases h2 : printOne f st k with
    | exit c => rw [h2] at h1; simp at h1
    | ub => rw [h2] at h1; simp at h1
    | ok m =>
      rw [h2] at h1
      by_cases hk : k = n
      · subst hk; exact keep rest m st' (once _ _ h2) h1
      · exact ih m st' (by simp at hmem; tauto) h1

/-- **C13 for text files (partial).** Whatever calls are made for however many observables, with prints anywhere in
between, after a print the file of an observable is what it was before the run followed by a text which, read back,
is an opening brace followed by exactly the calls made for this observable - same structure, same entries, same order.
Missing for the full statement: that opening brace is never closed (see the counterexample). -/
theorem C13_txt_partial (start : OutState) (n : List Char) (hs : start.streams n = none) (ops : List OutOp) (hc : CleanOps ops)
    (order : List (List Char)) (hn : n ∈ order) (st : OutState) (hr : outRun .txt start (ops ++ [.print order]) = .ok st)
    (hne : callsOf n ops ≠ []) :
    ∃ new, st.files n = some ((start.files n).getD [] ++ new) ∧ readTxt new = .open :: callsOf n ops := by
  have hc' : CleanOps (ops ++ [.print order]) := by
    intro a v h
    simp at h
    exact hc a v h
  have inv := txtInv_run n start hs _ hc' st hr
  have hcalls : callsOf n (ops ++ [.print order]) = callsOf n ops := by simp [callsOf]
  obtain ⟨m, hm, hp⟩ := outRun_snoc _ _ _ _ _ hr
  have hempty := printed_buffer_empty .txt (by decide) n order m st hn hp
  unfold TxtInv at inv
  rw [hcalls] at inv
  cases h : st.streams n with
  | none => rw [h] at inv; exact absurd inv.1 hne
  | some s =>
    rw [h] at inv
    obtain ⟨-, printed, out, w, h1, h2, h3, -⟩ := inv
    have ht := hempty s h
    rw [ht, List.append_nil] at h2
    refine ⟨printed, ?_, ?_⟩
    · cases hf : st.files n with
      | some x => rw [hf] at h1; simpa using h1
      | none =>
        rw [hf] at h1
        simp only [Option.getD_none] at h1
        have hpr : printed = [] := (List.append_eq_nil_iff.1 h1.symm).2
        rw [hpr] at h2
        simp only [List.foldl_nil, Prod.mk.injEq] at h2
        rw [← h2.1, ← h2.2] at h3
        simp [wordEntry] at h3
    · simp only [readTxt, h2]; exact h3

/-- **C13 for XML files.** Starting without a file, after a print the file consists of the XML declaration, `<root>`,
exactly the calls made for the observable as tags and words, and `</root>`. -/
theorem C13_xml (start : OutState) (n : List Char) (hgt : '>' ∉ n) (hs : start.streams n = none) (hfile : start.files n = none)
    (ops : List OutOp) (hc : CleanOps ops)
    (order : List (List Char)) (hn : n ∈ order) (st : OutState) (hr : outRun .xml start (ops ++ [.print order]) = .ok st)
    (hne : callsOf n ops ≠ []) :
    ∃ text, st.files n = some text ∧
      readXml text = [.tag "?xml version=\"1.0\" encoding=\"UTF-8\"?".toList, .tag "root".toList] ++
        (callsOf n ops).map (callXml n) ++ [.tag "/root".toList] := by
  have hc' : CleanOps (ops ++ [.print order]) := by
    intro a v h
    simp at h
    exact hc a v h
  have inv := xmlInv_run n hgt start hs xmlHeader (Or.inl ⟨hfile, rfl⟩) _ hc' st hr
  have hcalls : callsOf n (ops ++ [.print order]) = callsOf n ops := by simp [callsOf]
  obtain ⟨m, hm, hp⟩ := outRun_snoc _ _ _ _ _ hr
  have hempty := printed_buffer_empty .xml (by decide) n order m st hn hp
  unfold XmlInv at inv
  rw [hcalls] at inv
  cases h : st.streams n with
  | none => rw [h] at inv; exact absurd inv.1 hne
  | some s =>
    rw [h] at inv
    obtain ⟨mid, out, h1, h2, out', h3, h4⟩ := inv
    have ht := hempty s h
    rw [ht] at h3
    have ho : out' = [] := by simpa using (h3 []).symm
    rw [ho, List.append_nil] at h4
    rcases h1 with ⟨-, hmid⟩ | hf
    · rw [hmid] at h2
      have : out = [] := by simpa using (h2 []).symm
      rw [this] at h4
      simp at h4
      exact absurd h4.symm (by simpa using hne)
    · refine ⟨_, hf, ?_⟩
      have e1 : xmlHeader.foldl readXmlStep ([], false, []) =
          ([.tag "?xml version=\"1.0\" encoding=\"UTF-8\"?".toList, .tag "root".toList], false, []) := by decide +kernel
      have e2 : ∀ o, xmlFooter.foldl readXmlStep (o, false, []) = (o ++ [.tag "/root".toList], false, []) := by
        intro o
        have : xmlFooter = '\n' :: (('<' :: ("/root".toList ++ ['>'])) ++ ['\n']) := by decide
        rw [this, List.foldl_cons]
        have e0 : readXmlStep (o, false, []) '\n' = (o, false, []) := by simp [readXmlStep, isBlank, xmlWord]
        rw [e0, List.foldl_append, xml_fold_tag _ (by decide)]
        simp [readXmlStep, isBlank, xmlWord]
      simp only [readXml, List.foldl_append, e1, h2, e2, h4]
      simp [xmlWord]

theorem streams_none_iff (f : Format) (hf : f ≠ .unset) (start : OutState) (ops : List OutOp) (n : List Char)
    (hs : start.streams n = none) : ∀ (st : OutState), outRun f start ops = .ok st → (st.streams n = none ↔ callsOf n ops = []) := by
  induction ops using List.reverseRecOn with
  | nil => intro st h; simp [outRun] at h; simp [← h, hs, callsOf]
  | append_singleton ops o ih =>
    intro st h
    obtain ⟨m, hm, hso⟩ := outRun_snoc _ _ _ _ _ h
    have ih := ih m hm
    rw [callsOf_append]
    cases o with
    | push k =>
      simp only [outStep, Outcome.ok.injEq] at hso
      by_cases hk : k = n
      · subst hk
        have : st.streams k ≠ none := by
          rw [← hso]; unfold outPush
          cases f <;> simp only at hf ⊢ <;> (try split) <;> simp_all [OutState.setStream]
        simp [this, callsOf]
      · have e : callsOf n [OutOp.push k] = [] := by simp [callsOf, hk]
        have : st.streams n = m.streams n := by
          rw [← hso]; unfold outPush
          cases f <;> simp only <;> (try split) <;> simp [OutState.setStream, Function.update_of_ne (Ne.symm hk)]
        rw [e, List.append_nil, this, ih]
    | pop k =>
      simp only [outStep, outPop] at hso
      by_cases hk : k = n
      · subst hk
        have : st.streams k ≠ none := by
          cases f <;> simp only at hso hf <;> (try split at hso) <;> simp at hso hf <;> rw [← hso] <;> simp [OutState.setStream]
        simp [this, callsOf]
      · have e : callsOf n [OutOp.pop k] = [] := by simp [callsOf, hk]
        have : st.streams n = m.streams n := by
          cases f <;> simp only at hso <;> (try split at hso) <;> simp at hso <;> rw [← hso] <;>
            simp [OutState.setStream, Function.update_of_ne (Ne.symm hk)]
        rw [e, List.append_nil, this, ih]
    | write k v =>
      simp only [outStep, Outcome.ok.injEq] at hso
      by_cases hk : k = n
      · subst hk
        have : st.streams k ≠ none := by
          rw [← hso]; unfold outWrite
          cases f <;> simp only <;> split <;> simp [OutState.setStream]
        simp [this, callsOf]
      · have e : callsOf n [OutOp.write k v] = [] := by simp [callsOf, hk]
        have : st.streams n = m.streams n := by
          rw [← hso]; unfold outWrite
          cases f <;> simp only <;> split <;> simp [OutState.setStream, Function.update_of_ne (Ne.symm hk)]
        rw [e, List.append_nil, this, ih]
    | print order =>
      have e : callsOf n [OutOp.print order] = [] := by simp [callsOf]
      rw [e, List.append_nil, ← ih]
      simp only [outStep] at hso
      clear h hm ih e
      induction order generalizing m with
      | nil => simp [outPrint] at hso; rw [hso]
      | cons k rest ihr =>
        simp only [outPrint] at hso
        cases h2 : printOne f m k with
        | exit c => rw [h2] at hso; simp at hso
        | ub => rw [h2] at hso; simp at hso
        | ok m' =>
          rw [h2] at hso
          refine (ihr m' hso).trans ?_
          by_cases hk : k = n
          · subst hk
            unfold printOne at h2
            split at h2
            · simp at h2; rw [h2]
            · next t h0 =>
              rw [if_neg hf] at h2
              cases h3 : fileAction f (m.files k) t.text with
              | ok a => rw [h3] at h2; simp at h2; rw [← h2]; simp [h0]
              | exit c => rw [h3] at h2; simp at h2
              | ub => rw [h3] at h2; simp at h2
          · rw [(printOne_other f m m' k n hk h2).1]

theorem outPrint_txt_ok (order : List (List Char)) : ∀ st, ∃ st', outPrint .txt st order = .ok st' := by
  induction order with
  | nil => intro st; exact ⟨st, rfl⟩
  | cons k rest ih =>
    intro st
    simp only [outPrint]
    have : ∃ m, printOne .txt st k = .ok m := by
      unfold printOne
      split
      · exact ⟨_, rfl⟩
      · exact ⟨_, rfl⟩
    obtain ⟨m, hm⟩ := this
    rw [hm]
    exact ih m

/-- **C13, closing what was never opened.** In text format a run from the start either completes or terminates with
code 1, and it terminates exactly when some observable is closed before any other call was made for it. -/
theorem C13_close_unopened (files : List Char → Option (List Char)) (ops : List OutOp) :
    ((∃ st, outRun .txt (OutState.start files) ops = .ok st) ∨ outRun .txt (OutState.start files) ops = .exit 1) ∧
    (outRun .txt (OutState.start files) ops = .exit 1 ↔ ∃ a n b, ops = a ++ .pop n :: b ∧ callsOf n a = []) := by
  induction ops using List.reverseRecOn with
  | nil => exact ⟨Or.inl ⟨_, rfl⟩, by simp [outRun]⟩
  | append_singleton ops o ih =>
    obtain ⟨ih1, ih2⟩ := ih
    rcases ih1 with ⟨m, hm⟩ | hx
    · have noearly : ¬ ∃ a n b, ops = a ++ .pop n :: b ∧ callsOf n a = [] := by
        rw [← ih2, hm]; simp
      have hrun : outRun .txt (OutState.start files) (ops ++ [o]) = outStep .txt m o := by
        rw [outRun_append, hm, Outcome.bind_ok]
        simp only [outRun]
        cases outStep .txt m o <;> rfl
      rw [hrun]
      have last : (∃ a n b, ops ++ [o] = a ++ .pop n :: b ∧ callsOf n a = []) → ∃ n, o = .pop n ∧ callsOf n ops = [] := by
        rintro ⟨a, n, b, hab, hca⟩
        rcases List.eq_nil_or_concat b with rfl | ⟨b', x, rfl⟩
        · have := List.append_inj' hab rfl
          obtain ⟨rfl, hb⟩ := this
          simp at hb
          exact ⟨n, hb, hca⟩
        · exfalso
          rw [List.concat_eq_append, ← List.cons_append, ← List.append_assoc] at hab
          have := List.append_inj' hab rfl
          exact noearly ⟨a, n, b', this.1, hca⟩
      cases o with
      | push k =>
        exact ⟨Or.inl ⟨_, rfl⟩, by simp only [outStep]; constructor
                                   · intro h; simp at h
                                   · intro h; obtain ⟨n, h, -⟩ := last h; simp at h⟩
      | write k v =>
        exact ⟨Or.inl ⟨_, rfl⟩, by simp only [outStep]; constructor
                                   · intro h; simp at h
                                   · intro h; obtain ⟨n, h, -⟩ := last h; simp at h⟩
      | print order =>
        obtain ⟨st', hst'⟩ := outPrint_txt_ok order m
        simp only [outStep, hst']
        refine ⟨Or.inl ⟨_, rfl⟩, ?_⟩
        constructor
        · intro h; simp at h
        · intro h; obtain ⟨n, h, -⟩ := last h; simp at h
      | pop k =>
        have hnone := streams_none_iff .txt (by decide) (OutState.start files) ops k rfl m hm
        simp only [outStep, outPop]
        cases hk : m.streams k with
        | none =>
          refine ⟨Or.inr rfl, ?_⟩
          simp only [true_iff]
          exact ⟨ops, k, [], rfl, hnone.1 hk⟩
        | some s =>
          refine ⟨Or.inl ⟨_, rfl⟩, ?_⟩
          constructor
          · intro h; simp at h
          · intro h
            obtain ⟨n, hn, hcn⟩ := last h
            simp only [OutOp.pop.injEq] at hn
            subst hn
            rw [hnone.2 hcn] at hk; simp at hk
    · have hrun : outRun .txt (OutState.start files) (ops ++ [o]) = .exit 1 := by rw [outRun_append, hx]; rfl
      refine ⟨Or.inr hrun, ?_⟩
      rw [hrun]
      simp only [true_iff]
      obtain ⟨a, n, b, h1, h2⟩ := ih2.1 hx
      exact ⟨a, n, b ++ [o], by rw [h1]; simp, h2⟩

/-- **C13, nested calls always complete.** If the calls of every observable are properly nested, the run completes. -/
theorem C13_nested_completes (files : List Char → Option (List Char)) (ops : List OutOp) (h : ∀ n, Nested (callsOf n ops)) :
    ∃ st, outRun .txt (OutState.start files) ops = .ok st := by
  obtain ⟨h1, h2⟩ := C13_close_unopened files ops
  rcases h1 with h1 | h1
  · exact h1
  · obtain ⟨a, n, b, hab, hca⟩ := h2.1 h1
    have := h n
    rw [hab, callsOf_append, hca] at this
    have e : callsOf n (.pop n :: b) = .close :: callsOf n b := by simp [callsOf]
    rw [List.nil_append, e] at this
    cases this

theorem openCount_append (a b : List Call) : openCount (a ++ b) = openCount a + openCount b := by
  simp [openCount]; omega

theorem Nested.openCount_zero {s : List Call} (h : Nested s) : openCount s = 0 := by
  induction h with
  | nil => rfl
  | entry v hs ih => simpa [openCount] using ih
  | @list a b ha hb iha ihb =>
    have : openCount (.open :: (a ++ .close :: b)) = openCount [.open] + (openCount a + (openCount [.close] + openCount b)) := by
      rw [← openCount_append [.close], ← openCount_append a, ← openCount_append [.open]]; rfl
    rw [this, iha, ihb]; decide

/-- The text file of an observable with properly nested calls is never balanced: the brace opened at the first call
stays open, also at the end of the run. -/
theorem C13_txt_outer_brace_counterexample (start : OutState) (n : List Char) (hs : start.streams n = none) (ops : List OutOp)
    (hc : CleanOps ops) (order : List (List Char)) (hn : n ∈ order) (st : OutState)
    (hr : outRun .txt start (ops ++ [.print order]) = .ok st) (hne : callsOf n ops ≠ []) (hnested : Nested (callsOf n ops)) :
    ∃ new, st.files n = some ((start.files n).getD [] ++ new) ∧ openCount (readTxt new) = 1 ∧ ¬ Nested (readTxt new) := by
  obtain ⟨new, h1, h2⟩ := C13_txt_partial start n hs ops hc order hn st hr hne
  have h3 : openCount (readTxt new) = 1 := by
    have : openCount (.open :: callsOf n ops) = openCount [.open] + openCount (callsOf n ops) := by
      rw [← openCount_append]; rfl
    rw [h2, this, hnested.openCount_zero]; decide
  exact ⟨new, h1, h3, fun h => by rw [h.openCount_zero] at h3; simp at h3⟩

/-- Closing an observable more often than it was opened is not detected. -/
theorem C13_surplus_close_counterexample (n : List Char) (files : List Char → Option (List Char)) :
    ∃ st, outRun .txt (OutState.start files) [.push n, .pop n, .pop n] = .ok st := by
  rcases C13_close_unopened files [.push n, .pop n, .pop n] with ⟨h | h, h2⟩
  · exact h
  · exfalso
    obtain ⟨a, k, b, hab, hca⟩ := h2.1 h
    match a with
    | [] => simp at hab
    | [x] => simp at hab; obtain ⟨rfl, rfl, -⟩ := hab; simp [callsOf] at hca
    | [x, y] => simp at hab; obtain ⟨rfl, rfl, rfl, -⟩ := hab; simp [callsOf] at hca
    | x :: y :: z :: r => simp at hab

/-- An example run: two observables, prints in between, values written across prints. -/
def exampleOps : List OutOp :=
  [.push ['a'], .write ['a'] ['1'], .push ['b'], .print [['a'], ['b']], .write ['a'] "2.5".toList, .pop ['b'],
   .push ['a'], .write ['a'] ['7'], .pop ['a'], .pop ['a']]

theorem exampleOps_clean : CleanOps exampleOps := by
  intro n v h
  simp only [exampleOps, List.mem_cons, OutOp.write.injEq, reduceCtorEq, false_or, List.not_mem_nil, or_false] at h
  rcases h with ⟨-, rfl⟩ | ⟨-, rfl⟩ | ⟨-, rfl⟩ <;> exact ⟨by decide, by decide, by decide⟩

example : callsOf ['a'] exampleOps = [.open, .entry ['1'], .entry "2.5".toList, .open, .entry ['7'], .close, .close] ∧
    Nested (callsOf ['a'] exampleOps) ∧
    ∃ st, outRun .txt (OutState.start fun _ => none) (exampleOps ++ [.print [['b'], ['a']]]) = .ok st ∧
      st.files ['a'] = some "{\n\t{1, 2.5\t{7},\n},\n".toList := by
  refine ⟨by decide +kernel, ?_, _, rfl, by decide +kernel⟩
  have : callsOf ['a'] exampleOps = .open :: ([.entry ['1'], .entry "2.5".toList, .open, .entry ['7'], .close] ++ .close :: []) := by
    decide +kernel
  rw [this]
  exact .list (.entry _ (.entry _ (.list (a := [.entry ['7']]) (b := []) (.entry _ .nil) .nil))) .nil

/-- **C13, updaters (partial).** The pure gauge, Higgs and scalar-fermion HMC updaters and the Wilson flow record
properly nested calls on every path. Two other updaters do not (counterexamples below). -/
theorem C13_updaters_balanced_partial :
    (∀ recording accepted d, Nested (callsOf hmcHistory (historyCalls recording accepted d))) ∧
    (∀ d, Nested (callsOf hmcHistory (multiStepHistoryCalls true false d))) ∧
    (∀ recording data, Nested (callsOf "wilson_flow".toList (wilsonFlowCalls recording data))) ∧
    (∀ recording n data, Nested (callsOf n (flowCorrelatorCalls recording n data))) := by
  have entries : ∀ (l : List Call), (∀ c ∈ l, ∃ v, c = .entry v) → Nested l := by
    intro l
    induction l with
    | nil => intro _; exact .nil
    | cons c l ih =>
      intro h
      obtain ⟨v, rfl⟩ := h c (by simp)
      exact .entry v (ih fun x hx => h x (by simp [hx]))
  refine ⟨?_, ?_, ?_, ?_⟩
  · intro r a d
    cases r <;> cases a <;> simp only [historyCalls, callsOf, Bool.false_eq_true, if_true, if_false, List.filterMap_nil,
      List.filterMap_cons] <;>
      first | exact .nil | exact .list (a := [.entry d, .entry _]) (b := []) (.entry _ (.entry _ .nil)) .nil
  · intro d
    simp only [multiStepHistoryCalls, callsOf, Bool.false_eq_true, if_true, if_false, List.filterMap_nil, List.filterMap_cons]
    exact .list (a := [.open, .entry d, .close, .open, .entry ['0'], .close]) (b := [])
      (.list (a := [.entry d]) (b := [.open, .entry ['0'], .close]) (.entry _ .nil)
        (.list (a := [.entry ['0']]) (b := []) (.entry _ .nil) .nil)) .nil
  · intro r data
    cases r
    · exact .nil
    · unfold wilsonFlowCalls
      simp only [if_true]
      generalize "wilson_flow".toList = n
      have inner : Nested (callsOf n (data.flatMap fun d => [OutOp.push n, .write n d.1, .write n d.2, .pop n])) := by
        induction data with
        | nil => exact .nil
        | cons d data ih =>
          rw [List.flatMap_cons, callsOf_append]
          have : callsOf n [OutOp.push n, .write n d.1, .write n d.2, .pop n] = .open :: ([.entry d.1, .entry d.2] ++ [.close]) := by
            simp [callsOf]
          rw [this]
          simp only [List.cons_append, List.append_assoc]
          exact .list (a := [.entry d.1, .entry d.2]) (.entry _ (.entry _ .nil)) ih
      have e : callsOf n (OutOp.push n :: (data.flatMap fun d => [OutOp.push n, .write n d.1, .write n d.2, .pop n]) ++ [.pop n]) =
          .open :: (callsOf n (data.flatMap fun d => [OutOp.push n, .write n d.1, .write n d.2, .pop n]) ++ .close :: []) := by
        rw [List.cons_append, ← List.singleton_append, callsOf_append, callsOf_append]
        simp [callsOf]
      rw [e]
      exact .list inner .nil
  · intro r n data
    cases r
    · exact .nil
    · have inner : Nested (callsOf n (data.flatMap fun d => OutOp.push n :: (d.map (OutOp.write n)) ++ [.pop n])) := by
        induction data with
        | nil => exact .nil
        | cons d data ih =>
          rw [List.flatMap_cons, callsOf_append]
          have : callsOf n (OutOp.push n :: (d.map (OutOp.write n)) ++ [.pop n]) = .open :: (callsOf n (d.map (OutOp.write n)) ++ [.close]) := by
            rw [List.cons_append, ← List.singleton_append, callsOf_append, callsOf_append]
            simp [callsOf]
          rw [this]
          simp only [List.cons_append, List.append_assoc]
          refine .list (entries _ ?_) ih
          intro c hc
          simp only [callsOf, List.mem_filterMap, List.mem_map] at hc
          obtain ⟨o, ⟨v, hv, rfl⟩, hc⟩ := hc
          simp at hc
          exact ⟨v, hc.symm⟩
      have e : callsOf n (flowCorrelatorCalls true n data) = .open :: (callsOf n (data.flatMap fun d =>
          OutOp.push n :: (d.map (OutOp.write n)) ++ [.pop n]) ++ .close :: []) := by
        unfold flowCorrelatorCalls
        simp only [if_true]
        rw [List.cons_append, ← List.singleton_append, callsOf_append, callsOf_append]
        simp [callsOf]
      rw [e]
      exact .list inner .nil

/-- The N-flavour updater leaves one list open whenever a configuration is accepted while recording: after `k` recorded
acceptances the history is `k` levels deep. -/
theorem C13_multistep_counterexample (k : ℕ) (d : ℕ → List Char) :
    openCount (callsOf hmcHistory ((List.range k).flatMap fun i => multiStepHistoryCalls true true (d i))) = k := by
  induction k with
  | zero => rfl
  | succ k ih =>
    rw [List.range_succ, List.flatMap_append, callsOf_append, openCount_append, ih]
    have : openCount (callsOf hmcHistory (multiStepHistoryCalls true true (d k))) = 1 := by
      simp [multiStepHistoryCalls, callsOf, openCount]
    simp [this]

/-- The overlap chiral rotation never closes the list of the rotated condensate. -/
theorem C13_rotation_counterexample (re im : List Char) :
    openCount (callsOf "rotated_chiral_condensate".toList (rotatedCondensateCalls true re im)) = 1 := by
  unfold rotatedCondensateCalls
  generalize "rotated_chiral_condensate".toList = n
  simp [callsOf, openCount]

/-- With a format name other than `txt` and `xml` nothing is ever printed: every run leaves the files as they were. -/
theorem C13_unsupported_format_counterexample (name : String) (h : name ≠ "txt") (h' : name ≠ "xml")
    (files : List Char → Option (List Char)) (ops : List OutOp) :
    ∃ st, outRun (setFormat .unset name) (OutState.start files) ops = .ok st ∧ st.files = files := by
  have hf : setFormat .unset name = .unset := by simp [setFormat, h, h']
  rw [hf]
  have pr : ∀ order (m : OutState), ∃ m', outPrint .unset m order = .ok m' ∧ m'.files = m.files := by
    intro order
    induction order with
    | nil => intro m; exact ⟨m, rfl, rfl⟩
    | cons k rest ih =>
      intro m
      have : printOne .unset m k = .ok m := by unfold printOne; split <;> simp
      simp only [outPrint, this, Outcome.bind_ok]
      exact ih m
  have : ∀ (st0 : OutState), ∃ st, outRun .unset st0 ops = .ok st ∧ st.files = st0.files := by
    induction ops with
    | nil => intro st0; exact ⟨st0, rfl, rfl⟩
    | cons o ops ih =>
      intro st0
      have step : ∃ m, outStep .unset st0 o = .ok m ∧ m.files = st0.files := by
        cases o with
        | push n => exact ⟨st0, rfl, rfl⟩
        | pop n => exact ⟨st0, rfl, rfl⟩
        | write n v =>
          refine ⟨_, rfl, ?_⟩
          simp only [outWrite]; split <;> rfl
        | print order => exact pr order st0
      obtain ⟨m, hm, hmf⟩ := step
      obtain ⟨st, hst, hstf⟩ := ih m
      exact ⟨st, by simp only [outRun, hm, Outcome.bind_ok]; exact hst, by rw [hstf, hmf]⟩
  exact this (OutState.start files)

/-! ## C14 -/

/-- **C14 for text files.** Whatever instant the program stops at during a print, every file still begins with all it
contained before that print. -/
theorem C14_txt (st : OutState) (order : List (List Char)) (files : List Char → Option (List Char))
    (hcrash : CrashPrint .txt st order files) (n : List Char) (content : List Char) (hn : st.files n = some content) :
    ∃ more, files n = some (content ++ more) := by
  suffices h : ∀ content, st.files n = some content → ∃ more, files n = some (content ++ more) from h content hn
  clear hn content
  induction hcrash with
  | before => intro c h; exact ⟨[], by simpa using h⟩
  | @during st k rest s file hs hc =>
    intro c h
    by_cases hk : k = n
    · subst hk
      rw [Function.update_self]
      cases hc with
      | untouched => exact ⟨[], by simpa using h⟩
      | @cut a p _ ha hp =>
        simp only [fileAction, Outcome.ok.injEq] at ha
        rw [← ha, h]
        exact ⟨p, by simp [opened]⟩
    · rw [Function.update_of_ne (Ne.symm hk)]; exact ⟨[], by simpa using h⟩
  | @later st st' k rest files hp _ ih =>
    intro c h
    by_cases hk : k = n
    · subst hk
      unfold printOne at hp
      split at hp
      · simp at hp; exact ih c (by rw [← hp]; exact h)
      · next s hs =>
        simp [fileAction] at hp
        obtain ⟨m, hm⟩ := ih (c ++ s.text) (by rw [← hp]; simp [opened, h])
        exact ⟨s.text ++ m, by rw [hm]; simp⟩
    · exact ih c (by rw [(printOne_other _ _ _ _ _ hk hp).2]; exact h)

/-- **C14, whole runs in text format.** After any run and a crash during a further print, the file still holds, read back,
exactly the calls recorded up to the last completed print (possibly followed by more). -/
theorem C14_txt_records (start : OutState) (n : List Char) (hs : start.streams n = none) (hfile : start.files n = none)
    (ops : List OutOp) (hc : CleanOps ops) (order : List (List Char)) (hn : n ∈ order) (st : OutState)
    (hr : outRun .txt start (ops ++ [.print order]) = .ok st) (hne : callsOf n ops ≠ [])
    (later : List OutOp) (st' : OutState) (hlater : outRun .txt st later = .ok st')
    (order' : List (List Char)) (files : List Char → Option (List Char)) (hcrash : CrashPrint .txt st' order' files) :
    ∃ kept more, files n = some (kept ++ more) ∧ readTxt kept = .open :: callsOf n ops := by
  obtain ⟨new, h1, h2⟩ := C13_txt_partial start n hs ops hc order hn st hr hne
  rw [hfile] at h1
  simp only [Option.getD_none, List.nil_append] at h1
  -- the rest of the run only appends
  have grow : ∀ (ops : List OutOp) (st st' : OutState) (c : List Char), outRun .txt st ops = .ok st' → st.files n = some c →
      ∃ more, st'.files n = some (c ++ more) := by
    intro ops
    induction ops with
    | nil => intro st st' c h hf; simp [outRun] at h; rw [← h]; exact ⟨[], by simpa using hf⟩
    | cons o ops ih =>
      intro st st' c h hf
      simp only [outRun] at h
      cases hm : outStep .txt st o with
      | exit c => rw [hm] at h; simp at h
      | ub => rw [hm] at h; simp at h
      | ok m =>
        rw [hm] at h
        simp only [Outcome.bind_ok] at h
        have : ∃ more, m.files n = some (c ++ more) := by
          cases o with
          | push k =>
            simp only [outStep, Outcome.ok.injEq] at hm
            rw [← hm]; refine ⟨[], ?_⟩
            unfold outPush; simp only; split <;> simpa [OutState.setStream] using hf
          | pop k =>
            simp only [outStep, outPop] at hm
            split at hm <;> simp at hm
            rw [← hm]; exact ⟨[], by simpa [OutState.setStream] using hf⟩
          | write k v =>
            simp only [outStep, Outcome.ok.injEq] at hm
            rw [← hm]; refine ⟨[], ?_⟩
            unfold outWrite; simp only; split <;> simpa [OutState.setStream] using hf
          | print order =>
            simp only [outStep] at hm
            clear h ih
            induction order generalizing st c with
            | nil => simp [outPrint] at hm; rw [← hm]; exact ⟨[], by simpa using hf⟩
            | cons k rest ihr =>
              simp only [outPrint] at hm
              cases hp2 : printOne .txt st k with
              | exit c => rw [hp2] at hm; simp at hm
              | ub => rw [hp2] at hm; simp at hm
              | ok m' =>
                rw [hp2] at hm
                simp only [Outcome.bind_ok] at hm
                by_cases hk : k = n
                · subst hk
                  unfold printOne at hp2
                  split at hp2
                  · simp at hp2; exact ihr m' c (by rw [← hp2]; exact hf) hm
                  · next s hs =>
                    simp [fileAction] at hp2
                    obtain ⟨mo, hmo⟩ := ihr m' (c ++ s.text) (by rw [← hp2]; simp [opened, hf]) hm
                    exact ⟨s.text ++ mo, by rw [hmo]; simp⟩
                · exact ihr m' c (by rw [(printOne_other _ _ _ _ _ hk hp2).2]; exact hf) hm
        obtain ⟨more, hmore⟩ := this
        obtain ⟨more', hmore'⟩ := ih m st' _ h hmore
        exact ⟨more ++ more', by rw [hmore']; simp⟩
  obtain ⟨more, hmore⟩ := grow later st st' new hlater h1
  obtain ⟨more', hmore'⟩ := C14_txt st' order' files hcrash n _ hmore
  exact ⟨new, more ++ more', by rw [hmore']; simp, h2⟩

/-- The XML format does lose data: whenever a print rewrites an existing file, a crash just after the file was opened
leaves it empty; and the next print then removes characters that are not there. -/
theorem C14_xml_counterexample (st : OutState) (n : List Char) (s : Stream) (hs : st.streams n = some s) (content : List Char)
    (hf : st.files n = some content) (hl : 9 ≤ content.length) :
    (∃ files, CrashPrint .xml st [n] files ∧ files n = some []) ∧ ∀ text, fileAction .xml (some []) text = .ub := by
  constructor
  · refine ⟨_, .during hs (.cut (a := (true, content.take (content.length - 9) ++ "\n\n".toList ++ s.text ++ xmlFooter)) (p := [])
      (by decide) ?_ (List.nil_prefix)), ?_⟩
    · rw [hf]; simp [fileAction, show ¬ content.length < 9 by omega]
    · simp [opened]
  · intro text; rfl

/-- **C14 for XML files (partial).** A print that completes keeps all records; missing is the case of a crash while an
existing file is rewritten (counterexample). -/
theorem C14_xml_partial (start : OutState) (n : List Char) (hgt : '>' ∉ n) (hs : start.streams n = none) (base : List Char)
    (hb : start.files n = some (base ++ xmlFooter)) (ops : List OutOp) (hc : CleanOps ops) (st : OutState)
    (hr : outRun .xml start ops = .ok st) : ∃ more, st.files n = some (base ++ more ++ xmlFooter) := by
  have inv := xmlInv_run n hgt start hs base (Or.inr hb) ops hc st hr
  unfold XmlInv at inv
  cases h : st.streams n with
  | none => rw [h] at inv; exact ⟨[], by rw [inv.2, hb]; simp⟩
  | some s =>
    rw [h] at inv
    obtain ⟨mid, out, h1, -⟩ := inv
    rcases h1 with ⟨h1, -⟩ | h1
    · exact ⟨[], by rw [h1, hb]; simp⟩
    · exact ⟨mid, h1⟩

example : ∃ st : OutState, ∃ s, st.streams ['a'] = some s ∧ st.files ['a'] = some (xmlHeader ++ "<a>1 </a>".toList ++ xmlFooter) :=
  ⟨⟨fun _ => some ⟨"<a>2 </a>".toList, false⟩, fun _ => some (xmlHeader ++ "<a>1 </a>".toList ++ xmlFooter)⟩, _, rfl, rfl⟩

end Leonard
