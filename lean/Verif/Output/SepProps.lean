import Verif.Output.Props
import Mathlib.Data.List.Chain

/-!
# C13: separators in the text format
-/

set_option autoImplicit false

namespace Leonard

/-- Pieces of a text file including the separators. -/
inductive TxtTok where
  | call (c : Call)
  | sep
deriving DecidableEq, Repr

/-- The pieces of a word: the entry, if any, and the separator, if the word ends with a comma. -/
def wordToks (w : List Char) : List TxtTok :=
  (wordEntry w).map .call ++ if w.getLast? = some ',' then [.sep] else []

/-- One character of a text file. -/
def readTokStep (st : List TxtTok × List Char) (c : Char) : List TxtTok × List Char :=
  if c = '{' then (st.1 ++ wordToks st.2 ++ [.call .open], [])
  else if c = '}' then (st.1 ++ wordToks st.2 ++ [.call .close], [])
  else if isBlank c then (st.1 ++ wordToks st.2, [])
  else (st.1, st.2 ++ [c])

/-- Reading a text file back with its separators. -/
def readToks (s : List Char) : List TxtTok :=
  let r := s.foldl readTokStep ([], [])
  r.1 ++ wordToks r.2

/-- The second of two consecutive pieces may follow the first: a value (an entry or a list) that follows a value is separated
from it. -/
def MayFollow : TxtTok → TxtTok → Prop
  | .call (.entry _), .call (.entry _) => False
  | .call (.entry _), .call .open => False
  | .call .close, .call (.entry _) => False
  | .call .close, .call .open => False
  | _, _ => True

/-- Consecutive values are separated by commas. -/
def Separated (l : List TxtTok) : Prop := List.IsChain MayFollow l

/-- The file never has a list right after an entry of the same list. -/
def NoListAfterEntry (c : List Call) : Prop := ∀ v a b, c ≠ a ++ .entry v :: .open :: b

/-- Is the last call an entry? -/
def lastEntry (c : List Call) : Bool :=
  match c.getLast? with
  | some (.entry _) => true
  | _ => false

theorem lastEntry_snoc (c : List Call) (x : Call) : lastEntry (c ++ [x]) = match x with | .entry _ => true | _ => false := by
  simp only [lastEntry, List.getLast?_append, List.getLast?_singleton, Option.or_some]
  cases x <;> rfl

/-- Pieces that one more call adds. -/
def callToks (afterEntry : Bool) : Call → List TxtTok
  | .open => [.call .open]
  | .close => [.call .close, .sep]
  | .entry v => (if afterEntry then [.sep] else []) ++ [.call (.entry v)]

/-- Pieces of a file after the given calls. -/
inductive FileToks : List Call → List TxtTok → Prop
  | nil : FileToks [] [.call .open]
  | snoc {c : List Call} {t : List TxtTok} (x : Call) : FileToks c t → FileToks (c ++ [x]) (t ++ callToks (lastEntry c) x)

theorem wordToks_clean {v : List Char} (h : CleanValue v) : wordToks v = [.call (.entry v)] := by
  simp [wordToks, wordEntry_clean h, h.2.2]

theorem wordToks_comma {v : List Char} (h : v ≠ []) : wordToks (v ++ [',']) = [.call (.entry v), .sep] := by
  simp [wordToks, wordEntry_comma h]

theorem wordToks_nil : wordToks [] = [] := by decide

theorem tok_fold_word (v : List Char) (h : ∀ c ∈ v, isBlank c = false ∧ c ∉ ['{', '}', '<', '>']) :
    ∀ o w, v.foldl readTokStep (o, w) = (o, w ++ v) := by
  induction v with
  | nil => simp
  | cons c v ih =>
    intro o w
    obtain ⟨h1, h2⟩ := h c (by simp)
    simp only [List.mem_cons, List.not_mem_nil, or_false, not_or] at h2
    have : readTokStep (o, w) c = (o, w ++ [c]) := by simp [readTokStep, h1, h2]
    rw [List.foldl_cons, this, ih fun x hx => h x (by simp [hx])]
    simp

/-- Invariant of one observable in text format, with separators. -/
def TokInv (n : List Char) (start : OutState) (c : List Call) (st : OutState) : Prop :=
  match st.streams n with
  | none => c = [] ∧ st.files n = start.files n
  | some s => c ≠ [] ∧ ∃ printed out w, (st.files n).getD [] = (start.files n).getD [] ++ printed ∧
      (printed ++ s.text).foldl readTokStep ([], []) = (out, w) ∧ FileToks c (out ++ wordToks w) ∧
      s.status = lastEntry c ∧ ((s.status = true ∧ CleanValue w) ∨ (s.status = false ∧ w = []))

theorem tokInv_run (n : List Char) (start : OutState) (hs : start.streams n = none) (ops : List OutOp) (hc : CleanOps ops)
    (st : OutState) (hr : outRun .txt start ops = .ok st) : TokInv n start (callsOf n ops) st := by
  refine outRun_invariant .txt n start (TokInv n start) ?_ ?_ ?_ ?_ ?_ ?_ ops hc st hr
  · simp [TokInv, hs]
  · intro c st hp
    unfold TokInv at hp
    unfold outPush
    cases h : st.streams n with
    | none =>
      rw [h] at hp
      obtain ⟨rfl, hf⟩ := hp
      simp only [TokInv, OutState.setStream, Function.update_self]
      refine ⟨by simp, [], [.call .open, .call .open], [], ?_, ?_, ?_, ?_, Or.inr ⟨by simp, rfl⟩⟩
      · simp [hf]
      · decide
      · exact FileToks.snoc .open FileToks.nil
      · rw [lastEntry_snoc]
    | some s =>
      rw [h] at hp
      obtain ⟨hne, printed, out, w, h1, h2, h3, h5, h4⟩ := hp
      simp only [TokInv, OutState.setStream, Function.update_self]
      refine ⟨by simp, printed, out ++ wordToks w ++ [.call .open], [], h1, ?_, ?_, ?_, Or.inr ⟨by simp, rfl⟩⟩
      · rw [← List.append_assoc, List.foldl_append, h2]
        simp [readTokStep, isBlank, wordToks_nil]
      · rw [wordToks_nil, List.append_nil]; exact FileToks.snoc .open h3
      · rw [lastEntry_snoc]
  · intro c st st' hp hpop
    unfold TokInv at hp
    unfold outPop at hpop
    simp only at hpop
    cases h : st.streams n with
    | none => rw [h] at hpop; simp at hpop
    | some s =>
      rw [h] at hpop hp
      simp only [Outcome.ok.injEq] at hpop
      rw [← hpop]
      obtain ⟨hne, printed, out, w, h1, h2, h3, h5, h4⟩ := hp
      simp only [TokInv, OutState.setStream, Function.update_self]
      refine ⟨by simp, printed, out ++ wordToks w ++ [.call .close, .sep], [], h1, ?_, ?_, ?_, Or.inr ⟨by simp, rfl⟩⟩
      · rw [← List.append_assoc, List.foldl_append, h2]
        have e : wordToks [','] = [.sep] := by decide
        simp [readTokStep, isBlank, e]
      · rw [wordToks_nil, List.append_nil]; exact FileToks.snoc .close h3
      · rw [lastEntry_snoc]
  · intro c st v hp hv
    unfold TokInv at hp
    unfold outWrite
    simp only
    cases h : st.streams n with
    | none =>
      rw [h] at hp
      obtain ⟨rfl, hf⟩ := hp
      simp only [TokInv, OutState.setStream, Function.update_self]
      refine ⟨by simp, [], [.call .open], v, ?_, ?_, ?_, ?_, Or.inl ⟨by simp, hv⟩⟩
      · simp [hf]
      · rw [List.nil_append, List.foldl_cons]
        have : readTokStep ([], []) '{' = ([.call .open], []) := by decide
        rw [this, tok_fold_word v hv.2.1]; simp
      · rw [wordToks_clean hv]; exact FileToks.snoc (.entry v) FileToks.nil
      · rw [lastEntry_snoc]
    | some s =>
      rw [h] at hp
      obtain ⟨hne, printed, out, w, h1, h2, h3, h5, h4⟩ := hp
      simp only [TokInv, OutState.setStream, Function.update_self]
      rcases h4 with ⟨hs, hw⟩ | ⟨hs, hw⟩
      · refine ⟨by simp, printed, out ++ [.call (.entry w), .sep], v, h1, ?_, ?_, ?_, Or.inl ⟨by simp, hv⟩⟩
        · rw [hs]
          simp only [if_true]
          rw [← List.append_assoc, ← List.append_assoc, List.foldl_append, List.foldl_append, h2]
          have : [',', ' '].foldl readTokStep (out, w) = (out ++ [.call (.entry w), .sep], []) := by
            simp only [List.foldl_cons, List.foldl_nil]
            have e1 : readTokStep (out, w) ',' = (out, w ++ [',']) := by simp [readTokStep, isBlank]
            have e2 : readTokStep (out, w ++ [',']) ' ' = (out ++ wordToks (w ++ [',']), []) := by simp [readTokStep, isBlank]
            rw [e1, e2, wordToks_comma hw.1]
          rw [this, tok_fold_word v hv.2.1]; simp
        · have := FileToks.snoc (.entry v) h3
          rw [← h5, hs, wordToks_clean hw] at this
          rw [wordToks_clean hv]
          simpa [callToks] using this
        · rw [lastEntry_snoc]
      · refine ⟨by simp, printed, out, v, h1, ?_, ?_, ?_, Or.inl ⟨by simp, hv⟩⟩
        · rw [hs]
          simp only [Bool.false_eq_true, if_false, List.append_nil]
          rw [← List.append_assoc, List.foldl_append, h2, tok_fold_word v hv.2.1, hw]
          simp
        · have := FileToks.snoc (.entry v) h3
          rw [← h5, hs, hw, wordToks_nil] at this
          rw [wordToks_clean hv]
          simpa [callToks] using this
        · rw [lastEntry_snoc]
  · intro c st st' hp hpr
    unfold printOne at hpr
    unfold TokInv at hp
    cases h : st.streams n with
    | none =>
      rw [h] at hpr hp
      simp only [Outcome.ok.injEq] at hpr
      rw [← hpr]; unfold TokInv; rw [h]; exact hp
    | some s =>
      rw [h] at hpr hp
      simp only [fileAction, reduceCtorEq, if_false, Outcome.bind_ok, Outcome.pure_eq, Outcome.ok.injEq] at hpr
      rw [← hpr]
      obtain ⟨hne, printed, out, w, h1, h2, h3, h5, h4⟩ := hp
      simp only [TokInv, Function.update_self]
      refine ⟨hne, printed ++ s.text, out, w, ?_, by simpa using h2, h3, h5, h4⟩
      simp [opened, h1]
  · intro c st st' hp e1 e2
    unfold TokInv at *
    rw [e1, e2]; exact hp

/-- The pieces of a file are separated if no list follows an entry directly. -/
theorem FileToks.separated {c : List Call} {t : List TxtTok} (h : FileToks c t) (hn : NoListAfterEntry c) :
    Separated t ∧ ∃ a x, t = a ++ [x] ∧ x ≠ .call .close ∧ ((∃ v, x = .call (.entry v)) ↔ lastEntry c = true) := by
  induction h with
  | nil => exact ⟨by simp [Separated], [], _, rfl, by simp, by simp [lastEntry]⟩
  | @snoc c t x h ih =>
    obtain ⟨h1, a, y, rfl, hy, hl⟩ := ih fun v a b e => hn v a (b ++ [x]) (by rw [e]; simp)
    unfold Separated at *
    cases x with
    | «open» =>
      have hle : lastEntry c = false := by
        by_contra hc
        rw [Bool.not_eq_false] at hc
        unfold lastEntry at hc
        split at hc
        · rename_i v hv
          obtain ⟨z, hz⟩ := List.getLast?_eq_some_iff.1 hv
          exact hn v z [] (by rw [hz]; simp)
        · simp at hc
      refine ⟨?_, _, _, rfl, by simp, by simp [lastEntry_snoc]⟩
      simp only [callToks]
      rw [List.isChain_append]
      refine ⟨h1, by simp, ?_⟩
      intro p hp q hq
      simp at hp hq
      subst hp hq
      cases y with
      | sep => simp [MayFollow]
      | call y =>
        cases y with
        | «open» => simp [MayFollow]
        | close => simp at hy
        | entry v => exact absurd (hl.1 ⟨v, rfl⟩) (by simp [hle])
    | close =>
      refine ⟨?_, a ++ [y, .call .close], .sep, by simp [callToks], by simp, by simp [lastEntry_snoc]⟩
      simp only [callToks]
      rw [List.isChain_append]
      refine ⟨h1, by simp [MayFollow], ?_⟩
      intro p hp q hq
      simp at hp hq
      subst hp hq
      cases y with
      | sep => simp [MayFollow]
      | call y => cases y <;> simp [MayFollow]
    | entry v =>
      by_cases hle : lastEntry c = true
      · refine ⟨?_, a ++ [y, .sep], .call (.entry v), by simp [callToks, hle], by simp, by simp [lastEntry_snoc]⟩
        simp only [callToks, hle, if_true]
        rw [List.isChain_append]
        refine ⟨h1, by simp [MayFollow], ?_⟩
        intro p hp q hq
        simp at hp hq
        subst hp hq
        cases y with
        | sep => simp [MayFollow]
        | call y => cases y <;> simp [MayFollow]
      · refine ⟨?_, a ++ [y], .call (.entry v), by simp [callToks, hle], by simp, by simp [lastEntry_snoc]⟩
        simp only [callToks, hle, Bool.false_eq_true, if_false, List.nil_append]
        rw [List.isChain_append]
        refine ⟨h1, by simp, ?_⟩
        intro p hp q hq
        simp at hp hq
        subst hp hq
        cases y with
        | sep => simp [MayFollow]
        | call y =>
          cases y with
          | «open» => simp [MayFollow]
          | close => simp at hy
          | entry w => exact absurd (hl.1 ⟨w, rfl⟩) hle

/-- **C13**, text format: in what a run appends to the file of an observable, consecutive values are separated by commas, if no
list is opened right after an entry of the same list. What is missing: the program writes no comma before a list that follows an
entry (`C13_counterexample_separator`). -/
theorem C13_separators_partial (start : OutState) (n : List Char) (hs : start.streams n = none) (ops : List OutOp)
    (hc : CleanOps ops) (order : List (List Char)) (hn : n ∈ order) (st : OutState)
    (hr : outRun .txt start (ops ++ [.print order]) = .ok st) (hne : callsOf n ops ≠ [])
    (hl : NoListAfterEntry (callsOf n ops)) :
    ∃ new, st.files n = some ((start.files n).getD [] ++ new) ∧ Separated (readToks new) := by
  have hc' : CleanOps (ops ++ [.print order]) := by
    intro a v h
    simp at h
    exact hc a v h
  have inv := tokInv_run n start hs _ hc' st hr
  have hcalls : callsOf n (ops ++ [.print order]) = callsOf n ops := by simp [callsOf]
  obtain ⟨m, hm, hp⟩ := outRun_snoc _ _ _ _ _ hr
  have hempty := printed_buffer_empty .txt (by decide) n order m st hn hp
  unfold TokInv at inv
  rw [hcalls] at inv
  cases h : st.streams n with
  | none => rw [h] at inv; exact absurd inv.1 hne
  | some s =>
    rw [h] at inv
    obtain ⟨-, printed, out, w, h1, h2, h3, -⟩ := inv
    have ht := hempty s h
    rw [ht, List.append_nil] at h2
    obtain ⟨hsep, a, x, hx, -⟩ := h3.separated hl
    refine ⟨printed, ?_, ?_⟩
    · cases hf : st.files n with
      | some x => rw [hf] at h1; simpa using h1
      | none =>
        rw [hf] at h1
        simp only [Option.getD_none] at h1
        have hpr : printed = [] := (List.append_eq_nil_iff.1 h1.symm).2
        rw [hpr] at h2
        simp only [List.foldl_nil, Prod.mk.injEq] at h2
        rw [← h2.1, ← h2.2] at hx
        simp [wordToks_nil] at hx
    · simp only [readToks, h2]; exact hsep

/-- The usual shape of a measurement: lists of numbers inside lists. -/
def separatedOps : List OutOp :=
  [.push ['a'], .push ['a'], .write ['a'] ['1'], .write ['a'] ['2'], .pop ['a'], .push ['a'], .write ['a'] ['3'], .pop ['a'],
   .pop ['a']]

example : CleanOps separatedOps ∧ NoListAfterEntry (callsOf ['a'] separatedOps) ∧
    ∃ st, outRun .txt (OutState.start fun _ => none) (separatedOps ++ [.print [['a']]]) = .ok st ∧
      st.files ['a'] = some "{\n\t{\t{1, 2},\n\t{3},\n},\n".toList := by
  refine ⟨?_, ?_, _, rfl, by decide +kernel⟩
  · intro n v h
    simp only [separatedOps, List.mem_cons, OutOp.write.injEq, reduceCtorEq, false_or, List.not_mem_nil, or_false] at h
    rcases h with ⟨-, rfl⟩ | ⟨-, rfl⟩ | ⟨-, rfl⟩ <;> exact ⟨by decide, by decide, by decide⟩
  · intro v a b e
    have hc : callsOf ['a'] separatedOps = [.open, .open, .entry ['1'], .entry ['2'], .close, .open, .entry ['3'], .close, .close] := by
      decide +kernel
    rw [hc] at e
    rcases a with _ | ⟨_, _ | ⟨_, _ | ⟨_, _ | ⟨_, _ | ⟨_, _ | ⟨_, _ | ⟨_, _ | ⟨_, _ | ⟨_, a⟩⟩⟩⟩⟩⟩⟩⟩⟩ <;> simp at e

/-- **C13**: a list opened right after an entry is not separated from it. -/
theorem C13_counterexample_separator :
    CleanOps exampleOps ∧ Nested (callsOf ['a'] exampleOps) ∧
    ∃ st new, outRun .txt (OutState.start fun _ => none) (exampleOps ++ [.print [['b'], ['a']]]) = .ok st ∧
      st.files ['a'] = some new ∧ ¬ Separated (readToks new) := by
  have hn : Nested (callsOf ['a'] exampleOps) := by
    have : callsOf ['a'] exampleOps = [.open, .entry ['1'], .entry "2.5".toList, .open, .entry ['7'], .close, .close] := by
      decide +kernel
    rw [this]
    exact Nested.list (a := [.entry ['1'], .entry "2.5".toList, .open, .entry ['7'], .close]) (b := [])
      (.entry _ (.entry _ (Nested.list (a := [.entry ['7']]) (b := []) (.entry _ .nil) .nil))) .nil
  refine ⟨exampleOps_clean, hn, _, "{\n\t{1, 2.5\t{7},\n},\n".toList, rfl, by decide +kernel, ?_⟩
  have : readToks "{\n\t{1, 2.5\t{7},\n},\n".toList = [.call .open, .call .open, .call (.entry ['1']), .sep,
      .call (.entry "2.5".toList), .call .open, .call (.entry ['7']), .call .close, .sep, .call .close, .sep] := by
    decide +kernel
  rw [this]
  simp [Separated, MayFollow]

end Leonard
