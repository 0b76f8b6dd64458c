import Verif.PutDocs
/-
A document whose values are where its tree says in its text stays one when a value is replaced.  Used in proofs only; nothing here is part of the Rust code.
-/
namespace Verif

/-- The document is written as the text, and its values are where the tree says in it. -/
structure Laid (inp : Bytes) (doc : Document) (t : Tree Nat) (e : Nat) : Prop where
  laid : LaidOut inp 0 doc t e
  write : doc.write = .ok inp

theorem Parsed.laid {inp : Bytes} {doc : Document} (h : Parsed inp doc) (hw : doc.write = .ok inp) (hh : hasHeader inp = false) : ∃ t e, Laid inp doc t e := by
  obtain ⟨t, k, e, h1, h2, h3⟩ := parsed_laid h
  rw [body_eq hh] at h2
  have hk : k = 0 := by have := congrArg List.length h2; simp at *; omega
  subst hk
  exact ⟨t, e, h3, hw⟩

/-- What is written is read back. -/
theorem Laid.again {inp : Bytes} {doc : Document} {t : Tree Nat} {e : Nat} (h : Laid inp doc t e) (hh : hasHeader inp = false) :
    ∃ doc' v, Parsed inp doc' ∧ Reads doc'.data doc'.root v ∧ Reads doc.data doc.root v := by
  obtain ⟨⟨h1, h2, h3, -⟩, -⟩ := h
  obtain ⟨r, hi, hg, hs, -, hx⟩ := h2.sits
  obtain ⟨doc', hp, hr⟩ := accepted (inp := inp) ⟨r, _, hg.le.2, by rw [body_eq hh, skipBlank_eq, ← hg.eq, wsEnd]; simp, hs.content, by
    rcases hx with rfl | hx
    · exact h3
    · exact hx.1.twice h3⟩
  refine ⟨doc', _, ⟨_, hp⟩, hr, ?_⟩
  rw [Tree.content_erase, h1.root]
  exact Tree.content_reads h1.rep

/-- Another value in the place of a value. -/
theorem Laid.swap {inp : Bytes} {doc : Document} {t : Tree Nat} {e0 : Nat} (h : Laid inp doc t e0) (hh : hasHeader inp = false) (hf : followed inp = true) (hc : noWsComma inp = true ∨ LBR ∉ inp)
    (hu : validUtf8 inp = true ∨ HASH ∉ inp) {x : Nat} (hx : Live doc x) {old : Bytes} (ho : valueText doc.data x = .ok old) (hn : old.headD 0 ≠ 0) :
    ∃ u r s b0 b d E, t.find x = some u ∧ Lies inp s b0 u.erase d ∧ FullGap inp b0 b ∧ FullGap inp 0 r ∧ inp.drop r = skipBlank false inp ∧ b < d ∧ d ≤ inp.length ∧
      isWs (inp.getD b 0) = false ∧ inp.getD b 0 ≠ HASH ∧ inp.getD b 0 ≠ 0 ∧ old = slice inp b d ∧
      (s.inline = true → isCtl (inp.getD b 0) = false) ∧ ReadFrom inp doc x b d ∧ Within inp doc.data.view .block doc.root r s x b ∧
      Outer inp doc.data.view .block doc.root r s x b d E ∧
      ∀ doc' u', u'.id = x → u'.pre = u.pre → doc'.suffix = doc.suffix → Holds doc' (Tree.upd x u' t) → Hole (inp.take b) (slice inp b d) u'.render (inp.drop d) E s.inline →
        Lies (inp.take b ++ u'.render ++ inp.drop d) s b0 u'.erase (inp.take b ++ u'.render).length →
        ∃ e', Laid (inp.take b ++ u'.render ++ inp.drop d) doc' (Tree.upd x u' t) e' := by
  have A := allows_tidied hf hc hu
  obtain ⟨h, hw⟩ := h
  obtain ⟨u, s, b, d, r, lo, p, q, hu, h1, h3, h4, w1, g1, w2, h5, h6, h7, h8, h9, E, h10, -, h11⟩ := laid_part A h hx
  have ht := h.holds
  obtain ⟨par, ha⟩ := ht.at hu
  obtain ⟨lo1, hi, w3, g2, g3, g4⟩ := h4.sits
  obtain rfl : lo1 = lo := by rw [← w3.eq, g1.eq]
  have hr : inp.drop r = skipBlank false inp := by rw [skipBlank_eq, ← w1.eq, wsEnd]; simp
  obtain rfl : u.render = old := by rw [ha.text] at ho; exact Except.ok.inj ho
  have g2' := g2.ids ha.rep
  rw [ha.id] at g2'
  have hW : doc.write = .ok (p ++ u.pre ++ u.render ++ q) := by rw [h8, Tree.text]; simp
  rcases h4.own A with ⟨lo', k1, k2, k3, k4⟩ | ⟨k1, k2⟩
  case inr =>
    rw [Tree.erase_text, Tree.text, List.append_eq_nil_iff] at k1
    rw [k1.2] at hn
    exact absurd rfl hn
  obtain rfl : lo' = lo1 := by rw [← k1.eq, g1.eq]
  rw [Tree.erase_pre] at k2
  rw [Tree.erase_render] at k4
  have hblo := g1.le
  have k5 : Tidied (slice inp 0 lo') (p ++ u.pre) := by
    rw [k2, ← slice_append h1 hblo.1]
    exact A.append h5 (A.refl _)
  rw [hw] at hW
  have e : (p ++ u.pre) ++ (u.render ++ q) = slice inp 0 lo' ++ (slice inp lo' d ++ inp.drop d) := by
    rw [← List.append_assoc, ← Except.ok.inj hW, ← slice_drop, slice_append k3 h3, slice_append (Nat.zero_le _) hblo.2]
    simp [slice]
  obtain ⟨e0', e1⟩ := k5.cut (k4.append h7) e
  obtain ⟨e2, rfl⟩ := k4.cut h7 e1
  have hbd : lo' < d := by
    rcases Nat.lt_or_ge lo' d with h | h
    · exact h
    · rw [e2, slice_none h] at hn; exact absurd rfl hn
  have htake : inp.take lo' = slice inp 0 lo' := by simp [slice]
  have hhi : hi = d ∨ FullGap inp d hi := by
    rcases g4 with g4 | g4
    · exact .inl g4
    · exact .inr g4.1
  have hsolid : isWs (inp.getD lo' 0) = false ∧ inp.getD lo' 0 ≠ HASH := k1.2
  have hzero : inp.getD lo' 0 ≠ 0 := by rw [← slice_headD hbd, ← e2]; exact hn
  refine ⟨u, r, s, b, lo', d, E, hu, h4, g1, w1, hr, hbd, h3, hsolid.1, hsolid.2, hzero, e2, fun hfl => ?_, ⟨r, s, lo', hi, by rw [body_eq hh]; exact hr, w2, g2', .inl ⟨rfl, k3, hhi⟩⟩, w2, h10, ?_⟩
  · cases s with
    | flow => 
      refine g2'.flowStart ?_
      rcases hhi with h | h
      · omega
      · have := h.le; omega
    | _ => cases hfl
  intro doc' u' hid hpre hsuf hh2 H hlies
  have hwr : doc'.write = .ok (inp.take lo' ++ u'.render ++ inp.drop d) := by
    have := h9 doc' _ hid hsuf hh2
    rw [this, htake, ← e0']
    simp [Tree.text, hpre]
  generalize hnw : u'.render = new at *
  have hcut := cut3 (inp := inp) (Nat.le_of_lt hbd)
  have hlb : (inp.take lo').length = lo' := by rw [List.length_take]; omega
  have hld : (inp.take lo' ++ slice inp lo' d).length = d := by rw [List.length_append, slice_length h3, hlb]; omega
  have hput := h11 u' (fun s1 y => s1 = s ∧ y = u'.erase) hid ⟨rfl, rfl⟩
  have hle := hput.le
  have hgap := h.gap
  have hel := hgap.le
  obtain ⟨j, rfl⟩ : ∃ j, e0 = d + j := ⟨e0 - d, by omega⟩
  have hl := LPut.lies (p := inp.take lo') (t := slice inp lo' d) (t' := new) (q := inp.drop d) (B := b) (hi' := d + j) (hi := j) H (by rw [hcut]; exact hf)
    (by rw [hcut, hlb]; exact g1) (K := fun s1 y => s1 = s ∧ y = u'.erase) (fun s1 y _ (hy : s1 = s ∧ y = u'.erase) => by rw [hy.1, hy.2]; exact hlies)
    (by rw [hcut, hld]; exact hput) (by rw [hld])
  have hlen : (inp.take lo' ++ new ++ inp.drop d).length = (inp.take lo' ++ new).length + (inp.length - d) := by rw [List.length_append (bs := inp.drop d), List.length_drop]
  refine ⟨_, ⟨hh2, hl, ?_, ?_⟩, hwr⟩
  · rw [hlen]
    exact mv_full (u := inp.take lo' ++ slice inp lo' d) (u' := inp.take lo' ++ new) (y := inp.drop d) (a := j) (b := inp.length - d)
      (by rw [hcut, hld, show d + (inp.length - d) = inp.length by omega]; exact hgap)
  · rw [hsuf, h.suffix, hlen, mv_slice (u := inp.take lo' ++ slice inp lo' d), hcut, hld, show d + (inp.length - d) = inp.length by omega]

theorem Lies.pre {inp : Bytes} {s : Spot} {a : Nat} {t : Tree Unit} {e lo : Nat} (h : Lies inp s a t e) (hg : FullGap inp a lo) (hlt : lo < e) : t.pre = slice inp a lo := by
  have := hg.le
  cases h with
  | scalar h1 _ _ _ _ => rw [hg.unique h1]; rfl
  | «open» h1 _ _ _ _ => rw [hg.unique h1]; rfl
  | lines h1 _ _ _ _ => rw [hg.unique h1]; rfl
  | empty _ _ _ => omega
  | dashes h1 _ _ => rw [hg.unique h1]; rfl
  | keys h1 _ _ => rw [hg.unique h1]; rfl
  | brackets h1 _ _ _ _ => rw [hg.unique h1]; rfl
  | braces h1 _ _ _ _ => rw [hg.unique h1]; rfl

/-- A scalar in the place of a value. -/
theorem Laid.setT {inp : Bytes} {doc : Document} {t : Tree Nat} {e0 : Nat} (h : Laid inp doc t e0) (hh : hasHeader inp = false) (hf : followed inp = true) (hc : noWsComma inp = true ∨ LBR ∉ inp)
    (hu : validUtf8 inp = true ∨ HASH ∉ inp) {x : Nat} (hx : Live doc x) {old : Bytes} (ho : valueText doc.data x = .ok old) (hn : old.headD 0 ≠ 0) :
    ∃ u r s b0 b d E, t.find x = some u ∧ Lies inp s b0 u.erase d ∧ FullGap inp b0 b ∧ inp.drop r = skipBlank false inp ∧ b < d ∧ d ≤ inp.length ∧ isWs (inp.getD b 0) = false ∧ old = slice inp b d ∧ ReadFrom inp doc x b d ∧
      Within inp doc.data.view .block doc.root r s x b ∧ Outer inp doc.data.view .block doc.root r s x b d E ∧
      ∀ op doc' new a, op.isSet = true → doc.edit x op = .ok doc' → valueText doc'.data x = .ok new → asAny doc'.data x = .ok a → FitsIn inp s.inline b d E new a →
        ∃ sc e', sc.write = new ∧ Laid (inp.take b ++ new ++ inp.drop d) doc' (Tree.upd x (.leaf x u.pre sc) t) e' := by
  have ht := h.laid.holds
  obtain ⟨u, r, s, b0, b, d, E, hu, hl, hg, -, hr, hbd, hd, w1, w2, w3, hold, hctl, hrf, hwi, hE, hall⟩ := h.swap hh hf hc hu hx ho hn
  refine ⟨u, r, s, b0, b, d, E, hu, hl, hg, hr, hbd, hd, w1, hold, hrf, hwi, hE, ?_⟩
  intro op doc' new a hs he hnew ha' hfit
  obtain ⟨sc, -, hsuf, hroot, hh2⟩ := ht.editSet hu hs he
  obtain ⟨_, hat⟩ := hh2.at (Tree.find_upd hu rfl)
  obtain rfl := Except.ok.inj (hat.text.symm.trans hnew)
  obtain rfl := Except.ok.inj ((asAny_leaf hat.rep).symm.trans ha')
  have H := hfit.hole hbd hd w1 w2 w3 hctl
  suffices hlies : _ from by
    obtain ⟨e', h9⟩ := hall doc' (.leaf x u.pre sc) rfl rfl hsuf hh2 H hlies
    exact ⟨sc, e', rfl, h9⟩
  have hlb : (inp.take b).length = b := by rw [List.length_take]; omega
  have hpre : u.pre = slice inp b0 b := by
    rw [← Tree.erase_pre]
    exact hl.pre hg hbd
  have hw0 : (Tree.leaf x u.pre sc).render = sc.write := rfl
  rw [hw0] at H hfit ⊢
  have hcut := cut3 (inp := inp) (Nat.le_of_lt hbd)
  have h3 : slice (inp.take b ++ sc.write ++ inp.drop d) b0 b = slice inp b0 b := by
    have := Hole.slice (p := inp.take b) (t := slice inp b d) (t' := sc.write) (q := inp.drop d) (a := b0) (b := b) (by omega)
    rw [hcut] at this
    exact this
  have h4 := sh_slice (inp.take b) (sc.write ++ inp.drop d) 0 sc.write.length
  rw [Nat.add_zero, ← List.append_assoc, hlb] at h4
  have h5 : slice (sc.write ++ inp.drop d) 0 sc.write.length = sc.write := by simp [slice]
  rw [h5] at h4
  have h6 : (inp.take b ++ sc.write ++ inp.drop d).drop (b + sc.write.length) = inp.drop d := by
    have := sh_drop (inp.take b ++ sc.write) (inp.drop d) 0
    rw [List.length_append, hlb] at this
    simpa using this
  rw [Tree.erase, hpre, ← h3, List.length_append, hlb]
  exact .scalar (by have := H.full (a := b0) (b := b) (by rw [hcut]; exact hg) (by omega); exact this) (by omega) (by simp; omega) (by rw [h4, h6]; exact hfit.token) h4.symm

/-- A scalar in the place of a value. -/
theorem Laid.set {inp : Bytes} {doc : Document} {t : Tree Nat} {e0 : Nat} (h : Laid inp doc t e0) (hh : hasHeader inp = false) (hf : followed inp = true) (hc : noWsComma inp = true ∨ LBR ∉ inp)
    (hu : validUtf8 inp = true ∨ HASH ∉ inp) {x : Nat} (hx : Live doc x) {old : Bytes} (ho : valueText doc.data x = .ok old) (hn : old.headD 0 ≠ 0) :
    ∃ r s b d E, inp.drop r = skipBlank false inp ∧ b < d ∧ d ≤ inp.length ∧ isWs (inp.getD b 0) = false ∧ old = slice inp b d ∧ ReadFrom inp doc x b d ∧
      Within inp doc.data.view .block doc.root r s x b ∧ Outer inp doc.data.view .block doc.root r s x b d E ∧
      ∀ op doc' new a, op.isSet = true → doc.edit x op = .ok doc' → valueText doc'.data x = .ok new → asAny doc'.data x = .ok a → FitsIn inp s.inline b d E new a →
        ∃ t' e', Laid (inp.take b ++ new ++ inp.drop d) doc' t' e' := by
  obtain ⟨u, r, s, b0, b, d, E, -, -, -, h1, h2, h3, h4, h5, h6, h7, h8, h9⟩ := h.setT hh hf hc hu hx ho hn
  refine ⟨r, s, b, d, E, h1, h2, h3, h4, h5, h6, h7, h8, fun op doc' new a a1 a2 a3 a4 a5 => ?_⟩
  obtain ⟨_, e', -, g⟩ := h9 op doc' new a a1 a2 a3 a4 a5
  exact ⟨_, e', g⟩

theorem set_read {inp : Bytes} {doc : Document} (h : Parsed inp doc) (hw : doc.write = .ok inp) (hh : hasHeader inp = false) (hf : followed inp = true)
    (hc : noWsComma inp = true ∨ LBR ∉ inp) (hu : validUtf8 inp = true ∨ HASH ∉ inp) {x : Nat} (hx : Live doc x) {old : Bytes} (ho : valueText doc.data x = .ok old) (hn : old.headD 0 ≠ 0) :
    ∃ r s b d E, inp.drop r = skipBlank false inp ∧ b < d ∧ d ≤ inp.length ∧ isWs (inp.getD b 0) = false ∧ old = slice inp b d ∧ ReadFrom inp doc x b d ∧ Within inp doc.data.view .block doc.root r s x b ∧
      Outer inp doc.data.view .block doc.root r s x b d E ∧
      ∀ op doc' new a, op.isSet = true → doc.edit x op = .ok doc' → valueText doc'.data x = .ok new → asAny doc'.data x = .ok a → FitsIn inp s.inline b d E new a →
        hasHeader (inp.take b ++ new ++ inp.drop d) = false →
        doc'.write = .ok (inp.take b ++ new ++ inp.drop d) ∧ ∃ doc'' v, Parsed (inp.take b ++ new ++ inp.drop d) doc'' ∧ Reads doc''.data doc''.root v ∧ Reads doc'.data doc'.root v := by
  obtain ⟨t, e, hl⟩ := h.laid hw hh
  obtain ⟨r, s, b, d, E, h1, h2, h3, h4, h5, h6, h7, h8, h9⟩ := hl.set hh hf hc hu hx ho hn
  refine ⟨r, s, b, d, E, h1, h2, h3, h4, h5, h6, h7, h8, fun op doc' new a a1 a2 a3 a4 a5 a6 => ?_⟩
  obtain ⟨t', e', hl'⟩ := h9 op doc' new a a1 a2 a3 a4 a5
  exact ⟨hl'.write, hl'.again a6⟩

end Verif
