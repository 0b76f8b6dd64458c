import Verif.Sink
/-
Writing into a writer that may fail: what it takes is the start of what is written otherwise.
-/
namespace Verif

/-- The function writes `out`, or a part of it if the writer fails. -/
def Sends (s : Sink) (m : Out) (out : Bytes) : Prop := ∀ d, m d = .ok (d ++ out, true) ∨
  ∃ done next k, s.take done next = some k ∧ m d = .ok (done ++ next.take k, false) ∧ d <+: done ∧ done ++ next <+: d ++ out

variable {s : Sink}

theorem Sends.done : Sends s .done [] := fun d => .inl (by simp [Out.done])

theorem Sends.all (x : Bytes) : Sends s (s.all x) x := by
  intro d
  unfold Sink.all
  cases h : s.take d x with
  | none => exact .inl rfl
  | some k => exact .inr ⟨d, x, k, h, rfl, List.prefix_refl _, List.prefix_refl _⟩

theorem Sends.and {a b : Out} {x y : Bytes} (ha : Sends s a x) (hb : Sends s b y) : Sends s (a >>? b) (x ++ y) := by
  intro d
  unfold Out.and
  rcases ha d with h | ⟨done, next, k, h1, h2, h3, h4⟩
  · simp only [h, bind, Except.bind, if_true]
    rcases hb (d ++ x) with h' | ⟨done, next, k, h1, h2, h3, h4⟩
    · exact .inl (by rw [h', List.append_assoc])
    · exact .inr ⟨done, next, k, h1, h2, (List.prefix_append d x).trans h3, by rw [← List.append_assoc]; exact h4⟩
  · refine .inr ⟨done, next, k, h1, ?_, h3, h4.trans ?_⟩
    · simp only [h2, bind, Except.bind]; rfl
    · rw [← List.append_assoc]; exact List.prefix_append ..

theorem Sends.get {α : Type} {x : Except Stop α} {a : α} {f : α → Out} {out : Bytes} (h : x = .ok a) (hf : Sends s (f a) out) : Sends s (.get x f) out := by
  intro d
  unfold Out.get
  subst h
  exact hf d

theorem Sends.cast {m : Out} {x y : Bytes} (h : Sends s m x) (e : x = y) : Sends s m y := e ▸ h

theorem sends_singleGo : ∀ (x cur : Bytes), Sends s (sendSingleGo s cur x) (cur ++ escapeSingleBody x)
  | [], cur => (Sends.all cur).cast (by simp [escapeSingleBody])
  | b :: r, cur => by
    unfold sendSingleGo escapeSingleBody
    split
    · exact ((Sends.all cur).and ((Sends.all _).and (sends_singleGo r []))).cast (by simp)
    · exact (sends_singleGo r (cur ++ [b])).cast (by simp)

theorem sends_doubleGo : ∀ (x cur : Bytes), Sends s (sendDoubleGo s cur x) (cur ++ escapeDoubleBody x)
  | [], cur => (Sends.all cur).cast (by simp [escapeDoubleBody])
  | b :: r, cur => by
    unfold sendDoubleGo escapeDoubleBody
    cases escapeByte b with
    | some e => exact ((Sends.all cur).and ((Sends.all _).and (sends_doubleGo r []))).cast (by simp)
    | none => exact (sends_doubleGo r (cur ++ [b])).cast (by simp)

theorem sends_str (x : RStr) : Sends s (x.send s) x.write := by
  unfold RStr.send RStr.write
  cases x.kind with
  | bare => exact .all _
  | double => exact ((Sends.all _).and ((sends_doubleGo _ _).and (.all _))).cast (by simp [escapeDouble])
  | single => exact ((Sends.all _).and ((sends_singleGo _ _).and (.all _))).cast (by simp [escapeSingle])
  | original => exact .all _
  | multiline pre => exact (Sends.all _).and (.all _)

theorem sends_null (x : RNull) : Sends s (x.send s) x.write := by
  cases x <;> unfold RNull.send RNull.write
  · exact .all _
  · exact .all _
  · exact .done

theorem sends_open (k : CollKind) (c : UInt8) : Sends s (sendOpen s k c) (openOf k c) := by
  cases k <;> simp only [sendOpen, openOf]
  all_goals first | exact .all _ | exact .done

theorem sends_sep (k : CollKind) (l : Bool) : Sends s (sendSep s k l) (sepOf k l) := by
  cases k <;> cases l <;> simp [sendSep, sepOf]
  all_goals first | exact .all _ | exact .done

theorem sends_close (k : CollKind) (c : UInt8) : Sends s (sendClose s k c) (closeOf k c) := by
  cases k with
  | block => exact .done
  | inline tr suffix =>
    simp only [sendClose, closeOf]
    rw [List.append_assoc]
    refine Sends.and ?_ ((Sends.all _).and (.all _))
    cases tr
    · exact .done
    · exact .all _

theorem except_bind {ε α β : Type} {x : Except ε α} {f : α → Except ε β} {b : β} (h : x.bind f = .ok b) : ∃ a, x = .ok a ∧ f a = .ok b := by
  cases x with
  | error e => cases h
  | ok a => exact ⟨a, rfl, h⟩

theorem sends_seqItems {w : Data → Raw → Except Stop Bytes} {w' : Data → Raw → Out} (hw : ∀ d raw out, w d raw = .ok out → Sends s (w' d raw) out) {d : Data}
    {kind : CollKind} : ∀ (is : List Nat) {out : Bytes}, writeSeqItems w d kind is = .ok out → Sends s (sendSeqItems s w' d kind is) out
  | [], out, h => by cases h; exact .done
  | i :: is, out, h => by
    unfold writeSeqItems at h
    obtain ⟨pre, h1, h⟩ := except_bind h
    obtain ⟨v, h2, h⟩ := except_bind h
    obtain ⟨vpre, h3, h⟩ := except_bind h
    obtain ⟨raw, h4, h⟩ := except_bind h
    obtain ⟨body, h5, h⟩ := except_bind h
    obtain ⟨rest, h6, h⟩ := except_bind h
    cases h
    unfold sendSeqItems
    have hd : Sends s (if kind = .block then s.all [DASH] else .done) (if kind = .block then [DASH] else []) := by
      split
      · exact .all _
      · exact .done
    exact (Sends.get h1 ((Sends.all _).and (hd.and (.get h2 (.get h3 ((Sends.all _).and (.get h4 ((hw _ _ _ h5).and ((sends_sep _ _).and (sends_seqItems hw is h6)))))))))).cast
      (by simp only [List.append_assoc])

theorem sends_mapItems {w : Data → Raw → Except Stop Bytes} {w' : Data → Raw → Out} (hw : ∀ d raw out, w d raw = .ok out → Sends s (w' d raw) out) {d : Data}
    {kind : CollKind} : ∀ (is : List Nat) {out : Bytes}, writeMapItems w d kind is = .ok out → Sends s (sendMapItems s w' d kind is) out
  | [], out, h => by cases h; exact .done
  | i :: is, out, h => by
    unfold writeMapItems at h
    obtain ⟨pre, h1, h⟩ := except_bind h
    obtain ⟨⟨key, v⟩, h2, h⟩ := except_bind h
    obtain ⟨vpre, h3, h⟩ := except_bind h
    obtain ⟨raw, h4, h⟩ := except_bind h
    obtain ⟨body, h5, h⟩ := except_bind h
    obtain ⟨rest, h6, h⟩ := except_bind h
    cases h
    unfold sendMapItems
    exact (Sends.get h1 ((Sends.all _).and (.get h2 ((sends_str key).and ((Sends.all _).and (.get h3 ((Sends.all _).and (.get h4 ((hw _ _ _ h5).and
      ((sends_sep _ _).and (sends_mapItems hw is h6))))))))))).cast (by simp only [List.append_assoc])

theorem sends_raw : ∀ (f : Nat) (d : Data) (raw : Raw) (out : Bytes), writeRawF f d raw = .ok out → Sends s (sendRawF s f d raw) out
  | 0, _, _, _, h => by cases h
  | f + 1, d, raw, out, h => by
    unfold sendRawF
    cases raw with
    | null n => cases h; exact sends_null n
    | bool b x => cases h; exact .all _
    | number x n => cases h; exact .all _
    | string x => cases h; exact sends_str x
    | mapping c =>
      simp only [writeRawF] at h
      obtain ⟨body, h1, h⟩ := except_bind h
      cases h
      exact ((sends_open _ _).and ((sends_mapItems (sends_raw f) _ h1).and (sends_close _ _))).cast (by simp only [List.append_assoc])
    | mappingItem key v =>
      simp only [writeRawF] at h
      obtain ⟨vpre, h1, h⟩ := except_bind h
      obtain ⟨raw, h2, h⟩ := except_bind h
      obtain ⟨body, h3, h⟩ := except_bind h
      cases h
      exact ((sends_str key).and ((Sends.all _).and (.get h1 ((Sends.all _).and (.get h2 (sends_raw f _ _ _ h3)))))).cast (by simp only [List.append_assoc])
    | sequence c =>
      simp only [writeRawF] at h
      obtain ⟨body, h1, h⟩ := except_bind h
      cases h
      exact ((sends_open _ _).and ((sends_seqItems (sends_raw f) _ h1).and (sends_close _ _))).cast (by simp only [List.append_assoc])
    | sequenceItem v =>
      simp only [writeRawF] at h
      obtain ⟨vpre, h1, h⟩ := except_bind h
      obtain ⟨raw, h2, h⟩ := except_bind h
      obtain ⟨body, h3, h⟩ := except_bind h
      cases h
      exact .get h1 ((Sends.all _).and (.get h2 (sends_raw f _ _ _ h3)))

theorem writeTo_sends {doc : Document} {out : Bytes} (h : doc.write = .ok out) : doc.writeTo s = .ok (out, true) ∨
    ∃ done next k, s.take done next = some k ∧ doc.writeTo s = .ok (done ++ next.take k, false) ∧ done ++ next <+: out := by
  unfold Document.write at h
  obtain ⟨pre, h1, h⟩ := except_bind h
  obtain ⟨raw, h2, h⟩ := except_bind h
  obtain ⟨body, h3, h⟩ := except_bind h
  cases h
  have hs : Sends s (doc.send s) _ := .get h1 ((Sends.all _).and (.get h2 ((sends_raw _ _ _ _ h3).and (.all _))))
  rcases hs [] with h | ⟨done, next, k, h4, h5, _, h6⟩
  · exact .inl (h.trans (by simp))
  · exact .inr ⟨done, next, k, h4, h5, by rw [List.append_assoc]; simpa using h6⟩

end Verif
