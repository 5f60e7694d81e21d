import Verif.Output.Spec
import Mathlib.Data.List.Induction

/-!
# Lemmas about the measurement output
-/

set_option autoImplicit false

namespace Leonard

theorem outRun_append (f : Format) (st : OutState) (a b : List OutOp) :
    outRun f st (a ++ b) = (outRun f st a >>= fun st' => outRun f st' b) := by
  induction a generalizing st with
  | nil => rfl
  | cons o a ih =>
    simp only [List.cons_append, outRun]
    cases outStep f st o with
    | ok s => simp only [Outcome.bind_ok, ih]
    | exit c => rfl
    | ub => rfl

theorem outRun_snoc (f : Format) (st : OutState) (a : List OutOp) (o : OutOp) (st' : OutState)
    (h : outRun f st (a ++ [o]) = .ok st') : ∃ m, outRun f st a = .ok m ∧ outStep f m o = .ok st' := by
  rw [outRun_append] at h
  cases hm : outRun f st a with
  | ok m =>
    rw [hm] at h
    simp only [Outcome.bind_ok, outRun] at h
    cases hs : outStep f m o with
    | ok s => rw [hs] at h; simp only [Outcome.bind_ok] at h; exact ⟨m, rfl, by rw [← h]; exact hs⟩
    | exit c => rw [hs] at h; simp at h
    | ub => rw [hs] at h; simp at h
  | exit c => rw [hm] at h; simp at h
  | ub => rw [hm] at h; simp at h

theorem callsOf_append (n : List Char) (a b : List OutOp) : callsOf n (a ++ b) = callsOf n a ++ callsOf n b := by
  simp [callsOf]

theorem printOne_other (f : Format) (m m' : OutState) (k n : List Char) (hk : k ≠ n) (h1 : printOne f m k = .ok m') :
    m'.streams n = m.streams n ∧ m'.files n = m.files n := by
  unfold printOne at h1
  split at h1
  · simp at h1; rw [h1]; simp
  · next s _ =>
    split at h1
    · simp at h1; rw [h1]; simp
    cases h2 : fileAction f (m.files k) s.text with
    | ok a => rw [h2] at h1; simp at h1; rw [← h1]; simp [Function.update_of_ne (Ne.symm hk)]
    | exit c => rw [h2] at h1; simp at h1
    | ub => rw [h2] at h1; simp at h1

/-- An invariant of all runs follows from its preservation by single calls and by printing one observable. -/
theorem outRun_invariant (f : Format) (n : List Char) (start : OutState) (P : List Call → OutState → Prop)
    (h0 : P [] start)
    (hpush : ∀ c st, P c st → P (c ++ [.open]) (outPush f st n))
    (hpop : ∀ c st st', P c st → outPop f st n = .ok st' → P (c ++ [.close]) st')
    (hwrite : ∀ c st v, P c st → CleanValue v → P (c ++ [.entry v]) (outWrite f st n v))
    (hprint : ∀ c st st', P c st → printOne f st n = .ok st' → P c st')
    (hother : ∀ c st st', P c st → st'.streams n = st.streams n → st'.files n = st.files n → P c st')
    (ops : List OutOp) (hc : CleanOps ops) (st : OutState) (hr : outRun f start ops = .ok st) : P (callsOf n ops) st := by
  induction ops using List.reverseRecOn generalizing st with
  | nil => simp only [outRun, Outcome.ok.injEq] at hr; rw [← hr]; exact h0
  | append_singleton ops o ih =>
    obtain ⟨m, hm, hs⟩ := outRun_snoc f start ops o st hr
    have hp := ih (fun a v h => hc a v (by simp [h])) m hm
    rw [callsOf_append]
    cases o with
    | push k =>
      simp only [outStep, Outcome.ok.injEq] at hs
      by_cases hk : k = n
      · subst hk; rw [← hs]; simpa [callsOf] using hpush _ _ hp
      · have : callsOf n [OutOp.push k] = [] := by simp [callsOf, hk]
        rw [this, List.append_nil]
        refine hother _ _ _ hp ?_ ?_ <;> rw [← hs] <;> cases f <;> simp only [outPush] <;> (try split) <;>
          simp [OutState.setStream, Function.update_of_ne (Ne.symm hk)]
    | pop k =>
      simp only [outStep] at hs
      by_cases hk : k = n
      · subst hk; simpa [callsOf] using hpop _ _ _ hp hs
      · have : callsOf n [OutOp.pop k] = [] := by simp [callsOf, hk]
        rw [this, List.append_nil]
        unfold outPop at hs
        refine hother _ _ _ hp ?_ ?_ <;> cases f <;> simp only at hs <;> (try split at hs) <;> simp at hs <;> rw [← hs] <;>
          simp [OutState.setStream, Function.update_of_ne (Ne.symm hk)]
    | write k v =>
      simp only [outStep, Outcome.ok.injEq] at hs
      by_cases hk : k = n
      · subst hk; rw [← hs]; simpa [callsOf] using hwrite _ _ v hp (hc k v (by simp))
      · have : callsOf n [OutOp.write k v] = [] := by simp [callsOf, hk]
        rw [this, List.append_nil]
        refine hother _ _ _ hp ?_ ?_ <;> rw [← hs] <;> cases f <;> simp only [outWrite] <;> split <;>
          simp [OutState.setStream, Function.update_of_ne (Ne.symm hk)]
    | print order =>
      have : callsOf n [OutOp.print order] = [] := by simp [callsOf]
      rw [this, List.append_nil]
      simp only [outStep] at hs
      clear hr hm ih hc this
      induction order generalizing m with
      | nil => simp only [outPrint, Outcome.ok.injEq] at hs; rw [← hs]; exact hp
      | cons k rest ihr =>
        simp only [outPrint] at hs
        cases h1 : printOne f m k with
        | exit c => rw [h1] at hs; simp at hs
        | ub => rw [h1] at hs; simp at hs
        | ok m' =>
          rw [h1] at hs
          simp only [Outcome.bind_ok] at hs
          refine ihr m' ?_ hs
          by_cases hk : k = n
          · subst hk; exact hprint _ _ _ hp h1
          · obtain ⟨e1, e2⟩ := printOne_other f m m' k n hk h1
            exact hother _ _ _ hp e1 e2

/-! ### Text format -/

theorem wordEntry_clean {v : List Char} (h : CleanValue v) : wordEntry v = [.entry v] := by
  simp [wordEntry, h.2.2, h.1]

theorem wordEntry_comma {v : List Char} (h : v ≠ []) : wordEntry (v ++ [',']) = [.entry v] := by
  simp [wordEntry, h]

theorem txt_fold_word (v : List Char) (h : ∀ c ∈ v, isBlank c = false ∧ c ∉ ['{', '}', '<', '>']) :
    ∀ o w, v.foldl readTxtStep (o, w) = (o, w ++ v) := by
  induction v with
  | nil => simp
  | cons c v ih =>
    intro o w
    obtain ⟨h1, h2⟩ := h c (by simp)
    simp only [List.mem_cons, List.not_mem_nil, or_false, not_or] at h2
    have : readTxtStep (o, w) c = (o, w ++ [c]) := by simp [readTxtStep, h1, h2]
    rw [List.foldl_cons, this, ih fun x hx => h x (by simp [hx])]
    simp

/-- Invariant of one observable in text format. -/
def TxtInv (n : List Char) (start : OutState) (c : List Call) (st : OutState) : Prop :=
  match st.streams n with
  | none => c = [] ∧ st.files n = start.files n
  | some s => c ≠ [] ∧ ∃ printed out w, (st.files n).getD [] = (start.files n).getD [] ++ printed ∧
      (printed ++ s.text).foldl readTxtStep ([], []) = (out, w) ∧ out ++ wordEntry w = .open :: c ∧
      ((s.status = true ∧ CleanValue w) ∨ (s.status = false ∧ w = []))

theorem txtInv_run (n : List Char) (start : OutState) (hs : start.streams n = none) (ops : List OutOp) (hc : CleanOps ops)
    (st : OutState) (hr : outRun .txt start ops = .ok st) : TxtInv n start (callsOf n ops) st := by
  refine outRun_invariant .txt n start (TxtInv n start) ?_ ?_ ?_ ?_ ?_ ?_ ops hc st hr
  · simp [TxtInv, hs]
  · intro c st hp
    unfold TxtInv at hp
    unfold outPush
    cases h : st.streams n with
    | none =>
      rw [h] at hp
      obtain ⟨rfl, hf⟩ := hp
      simp only [TxtInv, OutState.setStream, Function.update_self]
      refine ⟨by simp, [], [.open, .open], [], ?_, ?_, ?_, Or.inr ⟨by simp, rfl⟩⟩
      · simp [hf]
      · decide
      · decide
    | some s =>
      rw [h] at hp
      obtain ⟨hne, printed, out, w, h1, h2, h3, h4⟩ := hp
      simp only [TxtInv, OutState.setStream, Function.update_self]
      refine ⟨by simp, printed, out ++ wordEntry w ++ [.open], [], h1, ?_, ?_, Or.inr ⟨by simp, rfl⟩⟩
      · rw [← List.append_assoc, List.foldl_append, h2]
        simp [readTxtStep, isBlank, wordEntry]
      · rw [h3]; simp [wordEntry]
  · intro c st st' hp hpop
    unfold TxtInv at hp
    unfold outPop at hpop
    simp only at hpop
    cases h : st.streams n with
    | none => rw [h] at hpop; simp at hpop
    | some s =>
      rw [h] at hpop hp
      simp only [Outcome.ok.injEq] at hpop
      rw [← hpop]
      obtain ⟨hne, printed, out, w, h1, h2, h3, h4⟩ := hp
      simp only [TxtInv, OutState.setStream, Function.update_self]
      refine ⟨by simp, printed, out ++ wordEntry w ++ [.close], [], h1, ?_, ?_, Or.inr ⟨by simp, rfl⟩⟩
      · rw [← List.append_assoc, List.foldl_append, h2]
        simp [readTxtStep, isBlank, wordEntry]
      · rw [h3]; simp [wordEntry]
  · intro c st v hp hv
    unfold TxtInv at hp
    unfold outWrite
    simp only
    cases h : st.streams n with
    | none =>
      rw [h] at hp
      obtain ⟨rfl, hf⟩ := hp
      simp only [TxtInv, OutState.setStream, Function.update_self]
      refine ⟨by simp, [], [.open], v, ?_, ?_, ?_, Or.inl ⟨by simp, hv⟩⟩
      · simp [hf]
      · rw [List.nil_append, List.foldl_cons]
        have : readTxtStep ([], []) '{' = ([.open], []) := by decide
        rw [this, txt_fold_word v hv.2.1]; simp
      · rw [wordEntry_clean hv]; rfl
    | some s =>
      rw [h] at hp
      obtain ⟨hne, printed, out, w, h1, h2, h3, h4⟩ := hp
      simp only [TxtInv, OutState.setStream, Function.update_self]
      refine ⟨by simp, printed, out ++ wordEntry w, v, h1, ?_, ?_, Or.inl ⟨by simp, hv⟩⟩
      · rcases h4 with ⟨hs, hw⟩ | ⟨hs, hw⟩
        · rw [hs]
          simp only [if_true]
          rw [← List.append_assoc, ← List.append_assoc, List.foldl_append, List.foldl_append, h2]
          have : [',', ' '].foldl readTxtStep (out, w) = (out ++ [.entry w], []) := by
            simp only [List.foldl_cons, List.foldl_nil]
            have e1 : readTxtStep (out, w) ',' = (out, w ++ [',']) := by simp [readTxtStep, isBlank]
            have e2 : readTxtStep (out, w ++ [',']) ' ' = (out ++ wordEntry (w ++ [',']), []) := by simp [readTxtStep, isBlank]
            rw [e1, e2, wordEntry_comma hw.1]
          rw [this, txt_fold_word v hv.2.1, wordEntry_clean hw]; simp
        · rw [hs]
          simp only [Bool.false_eq_true, if_false, List.append_nil]
          rw [← List.append_assoc, List.foldl_append, h2, txt_fold_word v hv.2.1, hw]
          simp [wordEntry]
      · rw [h3, wordEntry_clean hv]; rfl
  · intro c st st' hp hpr
    unfold printOne at hpr
    unfold TxtInv at hp
    cases h : st.streams n with
    | none =>
      rw [h] at hpr hp
      simp only [Outcome.ok.injEq] at hpr
      rw [← hpr]; unfold TxtInv; rw [h]; exact hp
    | some s =>
      rw [h] at hpr hp
      simp only [fileAction, reduceCtorEq, if_false, Outcome.bind_ok, Outcome.pure_eq, Outcome.ok.injEq] at hpr
      rw [← hpr]
      obtain ⟨hne, printed, out, w, h1, h2, h3, h4⟩ := hp
      simp only [TxtInv, Function.update_self]
      refine ⟨hne, printed ++ s.text, out, w, ?_, by simpa using h2, h3, h4⟩
      simp [opened, h1]
  · intro c st st' hp e1 e2
    unfold TxtInv at *
    rw [e1, e2]; exact hp

/-! ### XML format -/

/-- Invariant of one observable in XML format; `base` is what the file contains before the records of this run. -/
def XmlInv (n : List Char) (start : OutState) (base : List Char) (c : List Call) (st : OutState) : Prop :=
  match st.streams n with
  | none => c = [] ∧ st.files n = start.files n
  | some s => ∃ mid out, (st.files n = start.files n ∧ mid = [] ∨ st.files n = some (base ++ mid ++ xmlFooter)) ∧
      (∀ o, mid.foldl readXmlStep (o, false, []) = (o ++ out, false, [])) ∧
      (∃ out', (∀ o, s.text.foldl readXmlStep (o, false, []) = (o ++ out', false, [])) ∧ out ++ out' = c.map (callXml n))

theorem xml_fold_tag (t : List Char) (h : '>' ∉ t) (o : List XmlToken) :
    ('<' :: (t ++ ['>'])).foldl readXmlStep (o, false, []) = (o ++ [.tag t], false, []) := by
  have inner : ∀ (t : List Char), '>' ∉ t → ∀ o w, t.foldl readXmlStep (o, true, w) = (o, true, w ++ t) := by
    intro t
    induction t with
    | nil => simp
    | cons c t ih =>
      intro h o w
      simp only [List.mem_cons, not_or] at h
      have : readXmlStep (o, true, w) c = (o, true, w ++ [c]) := by simp [readXmlStep, Ne.symm h.1]
      rw [List.foldl_cons, this, ih h.2]; simp
  have h0 : readXmlStep (o, false, []) '<' = (o, true, []) := by simp [readXmlStep, xmlWord]
  rw [List.foldl_cons, h0, List.foldl_append, inner t h]
  simp [readXmlStep]

theorem xml_fold_value (v : List Char) (h : CleanValue v) (o : List XmlToken) :
    (v ++ [' ']).foldl readXmlStep (o, false, []) = (o ++ [.word v], false, []) := by
  have inner : ∀ (t : List Char), (∀ c ∈ t, isBlank c = false ∧ c ∉ ['{', '}', '<', '>']) →
      ∀ o w, t.foldl readXmlStep (o, false, w) = (o, false, w ++ t) := by
    intro t
    induction t with
    | nil => simp
    | cons c t ih =>
      intro h o w
      obtain ⟨h1, h2⟩ := h c (by simp)
      simp only [List.mem_cons, List.not_mem_nil, or_false, not_or] at h2
      have : readXmlStep (o, false, w) c = (o, false, w ++ [c]) := by simp [readXmlStep, h1, h2]
      rw [List.foldl_cons, this, ih fun x hx => h x (by simp [hx])]; simp
  rw [List.foldl_append, inner v h.2.1]
  simp [readXmlStep, isBlank, xmlWord, h.1]

theorem xml_fold_blank (o : List XmlToken) : [' '].foldl readXmlStep (o, false, []) = (o, false, []) := by
  simp [readXmlStep, isBlank, xmlWord]

theorem xmlInv_run (n : List Char) (hn : '>' ∉ n) (start : OutState) (hs : start.streams n = none) (base : List Char)
    (hb : start.files n = none ∧ base = xmlHeader ∨ start.files n = some (base ++ xmlFooter)) (ops : List OutOp) (hc : CleanOps ops)
    (st : OutState) (hr : outRun .xml start ops = .ok st) : XmlInv n start base (callsOf n ops) st := by
  refine outRun_invariant .xml n start (XmlInv n start base) ?_ ?_ ?_ ?_ ?_ ?_ ops hc st hr
  · simp [XmlInv, hs]
  · intro c st hp
    unfold XmlInv at hp
    unfold outPush
    cases h : st.streams n with
    | none =>
      rw [h] at hp
      obtain ⟨rfl, hf⟩ := hp
      simp only [XmlInv, OutState.setStream, Function.update_self]
      refine ⟨[], [], Or.inl ⟨hf, rfl⟩, by simp, [.tag n], fun o => xml_fold_tag n hn o, by simp [callXml]⟩
    | some s =>
      rw [h] at hp
      obtain ⟨mid, out, h1, h2, out', h3, h4⟩ := hp
      simp only [XmlInv, OutState.setStream, Function.update_self]
      refine ⟨mid, out, h1, h2, out' ++ [.tag n], fun o => ?_, ?_⟩
      · rw [List.foldl_append, h3, xml_fold_tag n hn]; simp
      · rw [← List.append_assoc, h4]; simp [callXml]
  · intro c st st' hp hpop
    unfold XmlInv at hp
    unfold outPop at hpop
    simp only at hpop
    cases h : st.streams n with
    | none => rw [h] at hpop; simp at hpop
    | some s =>
      rw [h] at hpop hp
      simp only [Outcome.ok.injEq] at hpop
      rw [← hpop]
      obtain ⟨mid, out, h1, h2, out', h3, h4⟩ := hp
      simp only [XmlInv, OutState.setStream, Function.update_self]
      refine ⟨mid, out, h1, h2, out' ++ [.tag ('/' :: n)], fun o => ?_, ?_⟩
      · rw [List.foldl_append, h3]
        have := xml_fold_tag ('/' :: n) (by simp [hn]) (o ++ out')
        simp only [List.cons_append] at this
        rw [this]; simp
      · rw [← List.append_assoc, h4]; simp [callXml]
  · intro c st v hp hv
    unfold XmlInv at hp
    unfold outWrite
    simp only
    cases h : st.streams n with
    | none =>
      rw [h] at hp
      obtain ⟨rfl, hf⟩ := hp
      simp only [XmlInv, OutState.setStream, Function.update_self]
      exact ⟨[], [], Or.inl ⟨hf, rfl⟩, by simp, [.word v], fun o => xml_fold_value v hv o, by simp [callXml]⟩
    | some s =>
      rw [h] at hp
      obtain ⟨mid, out, h1, h2, out', h3, h4⟩ := hp
      simp only [XmlInv, OutState.setStream, Function.update_self]
      refine ⟨mid, out, h1, h2, out' ++ [.word v], fun o => ?_, ?_⟩
      · rw [List.append_assoc s.text, List.foldl_append, h3, List.foldl_append]
        have : (if s.status = true then [' '] else []).foldl readXmlStep (o ++ out', false, []) = (o ++ out', false, []) := by
          split
          · exact xml_fold_blank _
          · rfl
        rw [this, xml_fold_value v hv]; simp
      · rw [← List.append_assoc, h4]; simp [callXml]
  · intro c st st' hp hpr
    unfold printOne at hpr
    unfold XmlInv at hp
    cases h : st.streams n with
    | none =>
      rw [h] at hpr hp
      simp only [Outcome.ok.injEq] at hpr
      rw [← hpr]; unfold XmlInv; rw [h]; exact hp
    | some s =>
      rw [h] at hpr hp
      simp only [reduceCtorEq, if_false] at hpr
      obtain ⟨mid, out, h1, h2, out', h3, h4⟩ := hp
      have l9 : xmlFooter.length = 9 := by decide
      have key : ∃ mid', (∃ a, fileAction .xml (st.files n) s.text = .ok a ∧
          opened (st.files n) a.1 ++ a.2 = base ++ mid' ++ xmlFooter) ∧
          ∀ o, mid'.foldl readXmlStep (o, false, []) = (o ++ (out ++ out'), false, []) := by
        have onexist : ∀ B, st.files n = some (base ++ B ++ xmlFooter) →
            (∀ o, B.foldl readXmlStep (o, false, []) = (o ++ out, false, [])) →
            ∃ mid', (∃ a, fileAction .xml (st.files n) s.text = .ok a ∧
              opened (st.files n) a.1 ++ a.2 = base ++ mid' ++ xmlFooter) ∧
              ∀ o, mid'.foldl readXmlStep (o, false, []) = (o ++ (out ++ out'), false, []) := by
          intro B hB hfold
          refine ⟨B ++ "\n\n".toList ++ s.text, ⟨(true, base ++ B ++ "\n\n".toList ++ s.text ++ xmlFooter), ?_, ?_⟩, ?_⟩
          · rw [hB]
            have hlen : (base ++ B ++ xmlFooter).length = (base ++ B).length + 9 := by rw [List.length_append, l9]
            unfold fileAction
            simp only
            rw [if_neg (by omega), hlen, Nat.add_sub_cancel, List.take_left]
          · simp [opened]
          · intro o
            rw [List.foldl_append, List.foldl_append, hfold]
            have : ("\n\n".toList).foldl readXmlStep (o ++ out, false, []) = (o ++ out, false, []) := by
              have : "\n\n".toList = ['\n', '\n'] := by decide
              rw [this]; simp [readXmlStep, isBlank, xmlWord]
            rw [this, h3]; simp
        rcases h1 with ⟨hf, rfl⟩ | hf
        · rcases hb with ⟨hb1, hb2⟩ | hb
          · refine ⟨s.text, ⟨(false, xmlHeader ++ s.text ++ xmlFooter), ?_, ?_⟩, ?_⟩
            · rw [hf, hb1]; rfl
            · simp [opened, hf, hb1, hb2]
            · intro o
              rw [h3]
              have : out = [] := by
                have := h2 []
                simpa using this.symm
              simp [this]
          · exact onexist [] (by rw [hf, hb]; simp) h2
        · exact onexist mid hf h2
      obtain ⟨mid', ⟨a, ha1, ha2⟩, hm⟩ := key
      rw [ha1] at hpr
      simp only [Outcome.bind_ok, Outcome.pure_eq, Outcome.ok.injEq] at hpr
      rw [← hpr]
      simp only [XmlInv, Function.update_self]
      exact ⟨mid', out ++ out', Or.inr (by rw [ha2]), hm, [], by simp, by simpa using h4⟩
  · intro c st st' hp e1 e2
    unfold XmlInv at *
    rw [e1, e2]; exact hp

end Leonard
