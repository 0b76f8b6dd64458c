import Verif.Keep
/-
When `Display` shows a tree as it is written.
-/
namespace Verif

mutual
/-- `Display` shows every part of the value as it is written. -/
def Tree.exact {α} : Tree α → Prop
  | .leaf _ p s => s.disp = s.write ∧ lossy p = p ∧ (s = .null .empty → p = [])
  | .node _ p m _ k items => lossy p = p ∧ items.exact m ∧ (k = .block → items.isNil = true → p = []) ∧
      ∀ tr w, k = .inline tr w → lossy w = w
def Items.exact {α} (m : Bool) : Items α → Prop
  | .nil => True
  | .cons _ p key v rest => lossy p = p ∧ (m = true → key.display = key.write) ∧ v.exact ∧ rest.exact m
end

theorem Tree.exact_pre {α} {t : Tree α} (h : t.exact) : (if t.showsPre then lossy t.pre else []) = t.pre := by
  have key : lossy t.pre = t.pre ∧ (t.showsPre = true ∨ t.pre = []) := by
    cases t with
    | leaf i p s =>
      refine ⟨h.2.1, ?_⟩
      by_cases hs : s = .null .empty
      · exact .inr (h.2.2 hs)
      · exact .inl (bne_iff_ne.2 hs)
    | node i p m n k items =>
      refine ⟨h.1, ?_⟩
      by_cases hk : k = .block
      · by_cases hn : items.isNil = true
        · exact .inr (h.2.2.1 hk hn)
        · exact .inl (by simp [Tree.showsPre, hn])
      · exact .inl (by simp [Tree.showsPre, hk])
  by_cases hs : t.showsPre = true
  · rw [if_pos hs, key.1]
  · rw [if_neg hs]
    rcases key.2 with h | h
    · exact absurd h hs
    · exact h.symm

theorem plainScalar_ne (s : Bytes) : plainScalar s ≠ .null .empty := by
  unfold plainScalar
  repeat' split
  all_goals simp

/-- The empty null is only made for missing values. -/
theorem lead_not_empty {f : Nat} {inp : Bytes} {inline tab : Bool} {n : Nat} {ws : Option Bytes} {m : Nat} :
    lead f inp inline tab n ≠ .ok (.scalar (.null .empty) ws m) := by
  intro h
  simp only [lead, bind, Except.bind, pure, Except.pure] at h
  repeat' split at h
  all_goals first
    | (cases h; done)
    | (simp only [Except.ok.injEq, Lead.scalar.injEq] at h; exact plainScalar_ne _ h.1)
    | skip
  rename_i hn
  cases h
  unfold number at hn
  simp only at hn
  repeat' split at hn
  all_goals cases hn

mutual
theorem Tree.exact_disp {α} : ∀ {t : Tree α}, t.exact → t.disp = t.render
  | .leaf _ _ _, h => h.1
  | .node _ _ m _ k items, h => by
    rw [Tree.disp, Tree.render, Items.exact_disp h.2.1]
    congr 1
    cases k with
    | block => rfl
    | inline tr w => simp only [closeOf, closeOfDisplay, h.2.2.2 tr w rfl]
theorem Items.exact_disp {α} {m : Bool} {k : CollKind} : ∀ {is : Items α}, is.exact m → is.disp m k = is.render m k
  | .nil, _ => rfl
  | .cons _ p key v rest, h => by
    obtain ⟨h1, h2, h3, h4⟩ := h
    rw [Items.disp, Items.render, Tree.exact_pre h3, Tree.exact_disp h3, Items.exact_disp h4, h1]
    cases m with
    | true => simp [h2 rfl]
    | false => simp
end

mutual
theorem Tree.label_exact (k : Nat) : ∀ t : Tree Unit, (t.label k).exact ↔ t.exact
  | .leaf _ _ _ => Iff.rfl
  | .node _ _ m _ _ items => by
    simp only [Tree.label, Tree.exact, Items.label_exact (m := m) _ items, Items.label_isNil]
theorem Items.label_exact {m : Bool} (k : Nat) : ∀ is : Items Unit, (is.label k).exact m ↔ is.exact m
  | .nil => Iff.rfl
  | .cons _ p key v rest => by
    simp only [Items.label, Items.exact, Tree.label_exact _ v, Items.label_exact _ rest]
end

theorem Scalar.disp_eq {s : Scalar} (h : validUtf8 s.write = true)
    (hk : ∀ r, s = .string r → r.kind = .bare ∨ r.kind = .original) : s.disp = s.write := by
  cases s with
  | null n => cases n <;> first | rfl | exact lossy_valid h
  | bool v t => exact lossy_valid h
  | number t hint => exact lossy_valid h
  | string r =>
    simp only [Scalar.write, Scalar.disp, RStr.write, RStr.display] at h ⊢
    rcases hk r rfl with hk | hk <;> simp only [hk] at h ⊢ <;> exact lossy_valid h

section
variable (inp : Bytes)

def XV (s : PSt) (n : Nat) (t : Tree Unit) (ws : Option Bytes) (m : Nat) : Prop :=
  n ≤ inp.length → Cut inp n → WsText inp s.pre → Pos inp n m ∧ (∀ w, ws = some w → WsText inp w) ∧ t.exact
def XFS (_last _tr : Bool) (ip : Bytes) (n : Nat) (items : Items Unit) (_tr' : Bool) (w : Bytes) (m : Nat) : Prop :=
  n ≤ inp.length → Cut inp n → WsText inp ip → Pos inp n m ∧ WsText inp w ∧ items.exact false
def XFM (_last _tr : Bool) (ip : Bytes) (_st n : Nat) (items : Items Unit) (_tr' : Bool) (w : Bytes) (_st' m : Nat) : Prop :=
  n ≤ inp.length → Cut inp n → WsText inp ip → Pos inp n m ∧ WsText inp w ∧ items.exact true
def XBS (_ind : Nat) (ip : Bytes) (n : Nat) (items : Items Unit) (w : Bytes) (m : Nat) : Prop :=
  n ≤ inp.length → Cut inp n → WsText inp ip → Pos inp n m ∧ WsText inp w ∧ items.exact false ∧ items.isNil = false
def XBM (_ind _st : Nat) (key : RStr) (ip : Bytes) (n : Nat) (items : Items Unit) (w : Bytes) (m : Nat) : Prop :=
  n ≤ inp.length → Cut inp n → WsText inp ip → key.display = key.write → Pos inp n m ∧ WsText inp w ∧ items.exact true ∧
    items.isNil = false
end

section
variable {inp : Bytes}

theorem WsText.exact (hv : validUtf8 inp = true) {w : Bytes} (h : WsText inp w) : Verif.lossy w = w := by
  rcases h with rfl | ⟨k, h1, h2, rfl⟩
  · rfl
  · exact lossy_valid (valid_slice hv h2 (wsEnd_cut h1 h2))

theorem XV.wsOr {s : PSt} {n : Nat} {t : Tree Unit} {ws : Option Bytes} {m : Nat} (h : XV inp s n t ws m) (hn : n ≤ inp.length)
    (hc : Cut inp n) (hs : WsText inp s.pre) : Pos inp n (wsOr inp ws m).2 ∧ WsText inp (wsOr inp ws m).1 ∧ t.exact := by
  obtain ⟨h1, h2, h5⟩ := h hn hc hs
  cases ws with
  | none => exact ⟨h1.trans (Pos.ws h1.2.1 h1.2.2), .of_ws h1.2.1 h1.2.2, h5⟩
  | some w => exact ⟨h1, h2 w rfl, h5⟩

theorem exact_after {n : Nat} {s : PSt} {t : Tree Unit} {ws : Option Bytes} {m : Nat}
    (hs : s.pre = wsStr inp (bump inp n 1)) (h : XV inp s (wsEnd inp (bump inp n 1)) t ws m) (hn : n ≤ inp.length)
    (h8 : peekAt inp n < 0x80) : Pos inp n (wsOr inp ws m).2 ∧ WsText inp (wsOr inp ws m).1 ∧ t.exact := by
  have hp := Pos.next hn h8
  have hw := Pos.ws hp.2.1 hp.2.2
  obtain ⟨h1, h2, h3⟩ := h.wsOr hw.2.1 hw.2.2 (by rw [hs]; exact .of_ws hp.2.1 hp.2.2)
  exact ⟨hp.trans (hw.trans h1), h2, h3⟩

theorem bare_key (hv : validUtf8 inp = true) {n m : Nat} (hn : Cut inp n) (hm : peekAt inp m = COLON ∨ peekAt inp m = 0) :
    RStr.display ⟨.bare, slice inp n m, slice inp n m⟩ = RStr.write ⟨.bare, slice inp n m, slice inp n m⟩ :=
  lossy_valid (valid_slice hv hn (.inl (colon_ascii hm)))

theorem exact_rules (hv : validUtf8 inp = true) : Rules inp (XV inp) (XFS inp) (XFM inp) (XBS inp) (XBM inp) where
  scalar := by
    intro f s n sc ws m hl hn hc hs
    cases (lead_spec hn).ok hl with
    | block h1 hb =>
      obtain ⟨st, stop, ws0, g1, g2, g3, g4, g5, g6, g7, g8, g9, g10, rfl, rfl, g13⟩ := hb.ex
      have hw := Pos.ws g9 g10
      refine ⟨⟨by have := hw.1; omega, hw.2⟩, fun w h => by cases h; exact .of_ws g9 g10, ?_, hs.exact hv, fun h => by cases h⟩
      simp only [Scalar.disp, Scalar.write, RStr.display, RStr.write, g1, g2]
      rw [lossy_valid (valid_slice hv hc g6), lossy_valid (valid_slice hv g6 g7)]
    | scalar h1 h2 h3 h4 h5 =>
      refine ⟨⟨h1, h2, h3 hc⟩, (fun w h => by cases h),
        Scalar.disp_eq (by rw [h4]; exact valid_slice hv hc (h3 hc)) h5, hs.exact hv, ?_⟩
      intro he
      exfalso
      subst he
      exact lead_not_empty hl
  seq := by
    intro f s n items w m _ hb hn hc hs
    obtain ⟨k1, k2, k3, k4⟩ := hb hn hc (.inl rfl)
    exact ⟨k1, fun w' h => by cases h; exact k2, hs.exact hv, k3, (fun _ h => by rw [k4] at h; cases h), fun _ _ h => by cases h⟩
  flowSeq := by
    intro f s n items tr w m hl hb hr hn hc hs
    cases (lead_spec hn).ok hl with
    | flowSeq h1 =>
    have hp := Pos.next hn (by rw [h1]; decide : peekAt inp n < 0x80)
    have hw := Pos.ws hp.2.1 hp.2.2
    obtain ⟨k1, k2, k3⟩ := hb hw.2.1 hw.2.2 (.of_ws hp.2.1 hp.2.2)
    exact ⟨hp.trans (hw.trans (k1.trans (Pos.next k1.2.1 (by rw [hr]; decide)))), (fun w h => by cases h), hs.exact hv, k3,
      (fun h => by cases h), (fun _ _ h => by cases h; exact k2.exact hv)⟩
  flowMap := by
    intro f s n items tr w st m hl hb hr hn hc hs
    cases (lead_spec hn).ok hl with
    | flowMap h1 =>
    have hp := Pos.next hn (by rw [h1]; decide : peekAt inp n < 0x80)
    have hw := Pos.ws hp.2.1 hp.2.2
    obtain ⟨k1, k2, k3⟩ := hb hw.2.1 hw.2.2 (.of_ws hp.2.1 hp.2.2)
    exact ⟨hp.trans (hw.trans (k1.trans (Pos.next k1.2.1 (by rw [hr]; decide)))), (fun w h => by cases h), hs.exact hv, k3,
      (fun h => by cases h), (fun _ _ h => by cases h; exact k2.exact hv)⟩
  keyNull := by
    intro f s n key m i _ _ _ hn hc hs
    exact ⟨Pos.refl hn hc, fun w h => by cases h; exact hs, rfl, rfl, fun _ => rfl⟩
  keyMap := by
    intro f s n key m items w m' hl _ hb hn hc hs
    cases (lead_spec hn).ok hl with
    | key h1 h2 h3 h4 hi =>
    have hlt := lt_of_peek (inp := inp) (n := m) (by rw [h2]; decide)
    have hk : key.display = key.write := by
      have : validUtf8 key.write = true := by rw [h4]; exact valid_slice hv hc (.inl (by rw [h2]; decide))
      simp only [RStr.write, RStr.display] at this ⊢
      rcases h3 with h3 | h3 <;> simp only [h3] at this ⊢ <;> exact lossy_valid this
    obtain ⟨k1, k2, k3, k4⟩ := hb (by omega) (.inl (by rw [h2]; decide)) (.inl rfl) hk
    exact ⟨⟨Nat.le_trans h1 k1.1, k1.2⟩, fun w' h => by cases h; exact k2, hs.exact hv, k3, (fun _ h => by rw [k4] at h; cases h),
      fun _ _ h => by cases h⟩
  fsStop := by
    intro last tr ip n _ hn hc hi
    exact ⟨Pos.refl hn hc, hi, trivial⟩
  fsLast := by
    intro tr ip n v next m _ hvv hn hc hi
    have hw := Pos.ws hn hc
    obtain ⟨h1, h2, h3⟩ := hvv.wsOr hw.2.1 hw.2.2 (.of_ws hn hc)
    exact ⟨hw.trans h1, h2, hi.exact hv, fun h => (by cases h), h3, trivial⟩
  fsComma := by
    intro tr ip n v next m items tr' w m' _ hvv hcm hrec hn hc hi
    have hw := Pos.ws hn hc
    obtain ⟨h1, h2, h3⟩ := hvv hw.2.1 hw.2.2 (.of_ws hn hc)
    have hp := Pos.next h1.2.1 (by rw [hcm]; decide : peekAt inp m < 0x80)
    have : Pos inp n (wsOr inp next (bump inp m 1)).2 ∧ WsText inp (wsOr inp next (bump inp m 1)).1 := by
      cases next with
      | none => exact ⟨hw.trans (h1.trans (hp.trans (Pos.ws hp.2.1 hp.2.2))), .of_ws hp.2.1 hp.2.2⟩
      | some w => exact ⟨hw.trans (h1.trans hp), h2 w rfl⟩
    obtain ⟨g1, g2, g3⟩ := hrec this.1.2.1 this.1.2.2 this.2
    exact ⟨this.1.trans g1, g2, hi.exact hv, fun h => (by cases h), h3, g3⟩
  fsOther := by
    intro tr ip n v next m items tr' w m' _ hvv _ hrec hn hc hi
    have hw := Pos.ws hn hc
    obtain ⟨h1, h2, h3⟩ := hvv.wsOr hw.2.1 hw.2.2 (.of_ws hn hc)
    obtain ⟨g1, g2, g3⟩ := hrec h1.2.1 h1.2.2 h2
    exact ⟨hw.trans (h1.trans g1), g2, hi.exact hv, fun h => (by cases h), h3, g3⟩
  fmStop := by
    intro last tr ip st n _ hn hc hi
    exact ⟨Pos.refl hn hc, hi, trivial⟩
  fmLast := by
    intro tr ip st n key m0 v next m _ hu hvv hn hc hi
    obtain ⟨u1, u2, u3, u4⟩ := untilColon_spec hn hu
    rcases u4 with ⟨u4, _⟩ | ⟨u4, u5⟩
    · cases u4
    cases u4
    obtain ⟨h1, h2, h3⟩ := exact_after (s := ⟨wsStr inp (bump inp m0 1), true, false, none⟩) rfl hvv u2 (colon_ascii u3)
    exact ⟨⟨Nat.le_trans u1 h1.1, h1.2⟩, h2, hi.exact hv, fun _ => bare_key hv hc u3, h3, trivial⟩
  fmComma := by
    intro tr ip st n key m0 v next m items tr' w st' m' _ hu hvv hcm hrec hn hc hi
    obtain ⟨u1, u2, u3, u4⟩ := untilColon_spec hn hu
    rcases u4 with ⟨u4, _⟩ | ⟨u4, u5⟩
    · cases u4
    cases u4
    obtain ⟨h1, h2, h3⟩ := exact_after (s := ⟨wsStr inp (bump inp m0 1), true, false, none⟩) rfl hvv u2 (colon_ascii u3)
    have hp := Pos.next h1.2.1 (by rw [hcm]; decide)
    have hw := Pos.ws hp.2.1 hp.2.2
    obtain ⟨g1, g2, g3⟩ := hrec hw.2.1 hw.2.2 (.of_ws hp.2.1 hp.2.2)
    have hm := h1.trans (hp.trans (hw.trans g1))
    exact ⟨⟨Nat.le_trans u1 hm.1, hm.2⟩, g2, hi.exact hv, fun _ => bare_key hv hc u3, h3, g3⟩
  fmOther := by
    intro tr ip st n key m0 v next m items tr' w st' m' _ hu hvv _ hrec hn hc hi
    obtain ⟨u1, u2, u3, u4⟩ := untilColon_spec hn hu
    rcases u4 with ⟨u4, _⟩ | ⟨u4, u5⟩
    · cases u4
    cases u4
    obtain ⟨h1, h2, h3⟩ := exact_after (s := ⟨wsStr inp (bump inp m0 1), true, false, none⟩) rfl hvv u2 (colon_ascii u3)
    have hw := Pos.ws h1.2.1 h1.2.2
    obtain ⟨g1, g2, g3⟩ := hrec hw.2.1 hw.2.2 (.of_ws h1.2.1 h1.2.2)
    have hm := h1.trans (hw.trans g1)
    exact ⟨⟨Nat.le_trans u1 hm.1, hm.2⟩, g2, hi.exact hv, fun _ => bare_key hv hc u3, h3, g3⟩
  bsLast := by
    intro ind ip n v ws m hd hvv _ hn hc hi
    obtain ⟨h1, h2, h3⟩ := exact_after (s := ⟨wsStr inp (bump inp n 1), false, true, none⟩) rfl hvv hn (by rw [hd]; decide)
    exact ⟨h1, h2, ⟨hi.exact hv, fun h => (by cases h), h3, trivial⟩, rfl⟩
  bsMore := by
    intro ind ip n v ws m items w m' hd hvv _ _ hrec hn hc hi
    obtain ⟨h1, h2, h3⟩ := exact_after (s := ⟨wsStr inp (bump inp n 1), false, true, none⟩) rfl hvv hn (by rw [hd]; decide)
    obtain ⟨g1, g2, g3, _⟩ := hrec h1.2.1 h1.2.2 h2
    exact ⟨h1.trans g1, g2, ⟨hi.exact hv, fun h => (by cases h), h3, g3⟩, rfl⟩
  bmLast := by
    intro ind st key ip n v ws m hd hvv _ hn hc hi hk
    obtain ⟨h1, h2, h3⟩ := exact_after (s := ⟨wsStr inp (bump inp n 1), false, true, some ind⟩) rfl hvv hn (by rw [hd]; decide)
    exact ⟨h1, h2, ⟨hi.exact hv, fun _ => hk, h3, trivial⟩, rfl⟩
  bmEnd := by
    intro ind st key ip n v ws m m0 hd hvv _ hnk hn hc hi hk
    obtain ⟨h1, h2, h3⟩ := exact_after (s := ⟨wsStr inp (bump inp n 1), false, true, some ind⟩) rfl hvv hn (by rw [hd]; decide)
    have hm0 : m0 = (wsOr inp ws m).2 := by
      rcases (nextMappingKey_spec h1.2.1 hnk).2.2.2 with h | ⟨h, _⟩
      · exact h.2
      · cases h
    subst hm0
    exact ⟨h1, h2, ⟨hi.exact hv, fun _ => hk, h3, trivial⟩, rfl⟩
  bmMore := by
    intro ind st key ip n v ws m m0 key' items w m' hd hvv _ hnk hrec hn hc hi hk
    obtain ⟨h1, h2, h3⟩ := exact_after (s := ⟨wsStr inp (bump inp n 1), false, true, some ind⟩) rfl hvv hn (by rw [hd]; decide)
    obtain ⟨u1, u2, u3, u4⟩ := nextMappingKey_spec h1.2.1 hnk
    rcases u4 with ⟨u4, _⟩ | ⟨u4, u5⟩
    · cases u4
    cases u4
    obtain ⟨g1, g2, g3, _⟩ := hrec u2 (.inl (colon_ascii u3)) h2 (bare_key hv h1.2.2 u3)
    exact ⟨⟨by have := h1.1; have := g1.1; omega, g1.2⟩, g2, ⟨hi.exact hv, fun _ => hk, h3, g3⟩, rfl⟩
end

theorem parse_exact {f : Nat} {inp : Bytes} (hv : validUtf8 inp = true) {t : Tree Unit} {suffix : Bytes}
    (h : pparseF f inp = .ok (t, suffix)) : t.exact ∧ lossy suffix = suffix := by
  unfold pparseF startOfDocument at h
  cases hs : startLoop inp f (wsEnd inp 0) (wsStr inp 0) with
  | error e => simp only [hs, bind, Except.bind] at h; cases h
  | ok r =>
    obtain ⟨pre, n⟩ := r
    obtain ⟨k, k1, k2, rfl, rfl, k5⟩ := startLoop_body f 0 (Nat.zero_le _) (cut_zero _) hs (inp.length + 1) (by simp)
    simp only [hs, bind, Except.bind] at h
    cases hp : pvalue inp f ⟨wsStr inp k, false, true, none⟩ (wsEnd inp k) with
    | error e => rw [hp] at h; cases h
    | ok r =>
      obtain ⟨t', ws, m⟩ := r
      rw [hp] at h
      simp only at h
      split at h
      · cases h
        have hw := Pos.ws k1 k2
        obtain ⟨h1, h2, h3⟩ := ((exact_rules hv).value f _ _ _ _ _ hp).wsOr hw.2.1 hw.2.2 (.of_ws k1 k2)
        exact ⟨h3, h2.exact hv⟩
      · cases h

end Verif
