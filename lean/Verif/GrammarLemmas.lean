import Verif.Eval
import Verif.ForwardBlock
/-
Texts of the grammar of `Verif.Grammar` are accepted, and the tree built is as described.
-/
namespace Verif

set_option linter.unusedVariables false

/-! ### Trees that fit -/

mutual
/-- The tree is laid out and reads as the inline value, with `pre` before it. -/
inductive F.Fits {α : Type} : F → Bytes → Tree α → Prop
  | atom {a : Atom} {pre : Bytes} {i : α} {sc : Scalar} : sc.fits a → F.Fits (.atom a) pre (.leaf i pre sc)
  | coll {m : Bool} {items : Fs} {pre : Bytes} {i : α} {ind : Nat} {its : Items α} : Fs.Fits m items its →
      F.Fits (.coll m items) pre (.node i pre m ind (.inline false []) its)
/-- In a sequence it does not matter how the text before an item is divided. -/
inductive Fs.Fits {α : Type} : Bool → Fs → Items α → Prop
  | nil {m : Bool} : Fs.Fits m .nil .nil
  | cons {m : Bool} {pre key sep ip vp : Bytes} {k : RStr} {v : F} {v' : Tree α} {rest : Fs} {r : Items α} {i : α} :
      (if m then k.write = key ∧ k.id = key ∧ ip = pre ∧ vp = sep else pre = ip ++ vp ∧ gap ip = true ∧ gap vp = true ∧ validUtf8 ip = true ∧ validUtf8 vp = true) → F.Fits v vp v' → Fs.Fits m rest r →
      Fs.Fits m (.cons pre key sep v rest) (.cons i ip k v' r)
end

/-- The text before the first item. -/
def Items.firstPre {α : Type} : Items α → Bytes
  | .nil => []
  | .cons _ p _ _ _ => p

mutual
/-- The tree is laid out and reads as the value in column `c`, with `pre` before it.  It does not matter how `pre` is divided. -/
inductive Y.Fits {α : Type} : Nat → Y → Bytes → Tree α → Prop
  | flow {c : Nat} {f : F} {pre : Bytes} {t : Tree α} : F.Fits f pre t → Y.Fits c (.flow f) pre t
  | block {c : Nat} {b : Blk} {pre : Bytes} {i : α} {s : RStr} : s.write = b.text c → s.id = b.value → Y.Fits c (.block b) pre (.leaf i pre (.string s))
  | hole {c : Nat} {i : α} : Y.Fits c .hole [] (.leaf i [] (.null .empty))
  | coll {c : Nat} {m : Bool} {items : Ys} {pre p : Bytes} {i : α} {its : Items α} : Ys.Fits m c true items its → pre = p ++ its.firstPre →
      (its.firstPre = [] ∨ ∃ b, blank b = true ∧ validUtf8 b = true ∧ its.firstPre = newLine c b) →
      Y.Fits c (.coll m items) pre (.node i p m c .block its)
inductive Ys.Fits {α : Type} : Bool → Nat → Bool → Ys → Items α → Prop
  | nil {m : Bool} {c : Nat} {first : Bool} : Ys.Fits m c first .nil .nil
  | cons {m first : Bool} {c : Nat} {before : Bytes} {place : Place} {ip key : Bytes} {k : RStr} {v : Y} {v' : Tree α} {rest : Ys} {r : Items α} {i : α} :
      (first = false → ip = newLine c before) → (if m then k.write = key ∧ k.id = key else lossy ip = ip) →
      (v.isHole = true ∨ ∃ place0 : Place, place0.ok (v.isFlow || (m && v.isSeq)) = true ∧ (m = true → v.isFlow = false → place0.isHere = false) ∧ v'.pre = place0.sep c ∧
        (v.isFlow = false → place0.col c = place.col c)) →
      Y.Fits (v.col place c) v (place.sep c) v' → Ys.Fits m c false rest r → Ys.Fits m c first (.cons before place key v rest) (.cons i ip k v' r)
end

/-! ### Gaps -/

theorem wsGo_gap : ∀ {c : Bool} {w s : Bytes}, gapGo c w = true → stopWs s → (wsGo c (w ++ s)).1 = w.length
  | true, [], s, h, _ => by cases h
  | false, [], s, _, h => wsGo_append (w := []) (by simp) h
  | true, b :: w, s, h, hs => by
    rw [gapGo] at h
    rw [List.cons_append, wsGo]
    cases h1 : b == NL with
    | true => simp [bne, h1] at h; simp [wsGo_gap h hs]
    | false => simp [bne, h1] at h; simp [wsGo_gap h hs]
  | false, b :: w, s, h, hs => by
    rw [gapGo] at h
    rw [List.cons_append, wsGo]
    split at h
    · next h2 => simp [h2, wsGo_gap h hs]
    · next h2 =>
      simp only [Bool.and_eq_true, isWs, Bool.or_eq_true] at h
      simp only [h2]
      cases h1 : b == NL with
      | true => simp [wsGo_gap h.2 hs]
      | false => simp [h.1.resolve_right (by simp [h1]), wsGo_gap h.2 hs]

theorem gapGo_append : ∀ {c : Bool} {a b : Bytes}, gapGo c a = true → gapGo c (a ++ b) = gapGo false b
  | true, [], b, h => by cases h
  | false, [], b, _ => rfl
  | true, x :: a, b, h => by rw [gapGo] at h; rw [List.cons_append, gapGo, gapGo_append h]
  | false, x :: a, b, h => by
    rw [gapGo] at h; rw [List.cons_append, gapGo]
    split at h
    · next h2 => rw [if_pos h2, gapGo_append h]
    · next h2 => rw [Bool.and_eq_true] at h; rw [if_neg h2, h.1, gapGo_append h.2]; rfl

theorem blank_gap : ∀ {c : Bool} {a b : Bytes}, blankGo c a = true → gapGo c (a ++ NL :: b) = gapGo false b
  | true, [], b, _ => by simp [gapGo]
  | false, [], b, _ => by rw [List.nil_append, gapGo, if_neg (by decide), show isWs NL = true by decide, Bool.true_and]
  | true, x :: a, b, h => by rw [blankGo] at h; rw [List.cons_append, gapGo, blank_gap h]
  | false, x :: a, b, h => by
    rw [blankGo] at h; rw [List.cons_append, gapGo]
    split at h
    · next h2 => rw [if_pos h2, blank_gap h]
    · next h2 => rw [Bool.and_eq_true] at h; rw [if_neg h2, h.1, blank_gap h.2]; rfl

theorem gap_spaces : ∀ n, gap (List.replicate n SP) = true
  | 0 => rfl
  | n + 1 => by
    have := gap_spaces n
    rw [gap] at this ⊢
    rw [List.replicate_succ, gapGo, this, if_neg (by decide), show isWs SP = true by decide]; rfl

theorem gap_newLine {b : Bytes} (c : Nat) (h : blank b = true) : gap (newLine c b) = true := by
  rw [gap, newLine, blank_gap h]; exact gap_spaces c

theorem ws_gap {inp : Bytes} {n : Nat} {w s : Bytes} (h : inp.drop n = w ++ s) (hw : gap w = true) (hs : stopWs s) :
    wsEnd inp n = n + w.length ∧ wsStr inp n = w := ws_of h (wsGo_gap hw hs)

theorem valid_spaces (c : Nat) : validUtf8 (List.replicate c SP) = true := by
  apply valid_of_ascii; intro b hb; rw [List.eq_of_mem_replicate hb]; decide

theorem lossy_newLine {b : Bytes} (c : Nat) (h : validUtf8 b = true) : lossy (newLine c b) = newLine c b := by
  apply lossy_valid
  rw [newLine, valid_append h, valid_ascii (by decide)]; exact valid_spaces c

/-! ### Inline values -/

theorem lead_byte {inp : Bytes} {n : Nat} {b : UInt8} {s : Bytes} {l : Lead} {inl tab : Bool} (h : inp.drop n = b :: s)
    (hb : (b = LBR ∧ l = .flowSeq) ∨ (b = LCB ∧ l = .flowMap)) : lead 0 inp inl tab n = .ok l := by
  rcases hb with ⟨rfl, rfl⟩ | ⟨rfl, rfl⟩
  · simp only [lead, peek_cons h]; rfl
  · simp only [lead, peek_cons h]; rfl

theorem Atom.start {a : Atom} {inl : Bool} (h : a.ok inl = true) (rest : Bytes) : stopWs (a.text ++ rest) ∧
    (inl = true → isCtl (hd (a.text ++ rest)) = false) := by
  cases a with
  | plain s =>
    cases s with
    | nil => cases inl <;> simp [Atom.ok, plainFlow, plainBlock] at h
    | cons b s =>
      have hind : isIndicator b = false := by
        cases inl <;> simp only [Atom.ok, Bool.false_eq_true, if_false, if_true, plainBlock, plainFlow, Bool.and_eq_true, Bool.not_eq_true'] at h
        · exact h.1.1.1.1.2
        · exact h.1.1.1.2
      obtain ⟨i1, _, _, _, _, _, _, i8⟩ := indicator_ne hind
      refine ⟨⟨i8, beq_eq_false_iff_ne.1 i1⟩, ?_⟩
      rintro rfl
      simp only [Atom.ok, if_true, plainFlow, Bool.and_eq_true, Bool.not_eq_true'] at h
      have := h.1.1.2
      rw [List.any_cons, Bool.or_eq_false_iff] at this
      exact this.1
  | single s => exact ⟨⟨rfl, by show SQ ≠ HASH; decide⟩, fun _ => rfl⟩
  | double s => exact ⟨⟨rfl, by show DQ ≠ HASH; decide⟩, fun _ => rfl⟩
  | pieces ps => exact ⟨⟨rfl, by show DQ ≠ HASH; decide⟩, fun _ => rfl⟩

theorem F.start {x : F} {inl : Bool} (h : x.ok inl = true) (rest : Bytes) : stopWs (x.text ++ rest) ∧
    (inl = true → isCtl (hd (x.text ++ rest)) = false) := by
  cases x with
  | atom a => rw [F.ok] at h; rw [F.text]; exact Atom.start h rest
  | coll m items =>
    cases m
    · exact ⟨⟨rfl, by show LBR ≠ HASH; decide⟩, fun _ => rfl⟩
    · exact ⟨⟨rfl, by show LCB ≠ HASH; decide⟩, fun _ => rfl⟩

theorem colonGo_key : ∀ {k : Bytes} {b : UInt8} {r : Bytes}, COLON ∉ k → (0 : UInt8) ∉ k → b = COLON → colonGo (k ++ b :: r) = k.length
  | [], b, r, _, _, h => by subst h; rfl
  | c :: k, b, r, h1, h2, h => by
    have hc : (c == COLON || c == 0) = false := by
      rw [Bool.or_eq_false_iff, beq_eq_false_iff_ne, beq_eq_false_iff_ne]
      constructor
      · rintro rfl; exact h1 (by simp)
      · rintro rfl; exact h2 (by simp)
    rw [List.cons_append, colonGo, hc, colonGo_key (fun hm => h1 (by simp [hm])) (fun hm => h2 (by simp [hm])) h]; simp

theorem untilColon_key {inp : Bytes} {n : Nat} {k r : Bytes} (h : inp.drop n = k ++ COLON :: r) (h1 : COLON ∉ k) (h2 : (0 : UInt8) ∉ k) :
    untilColon inp n = (n + k.length, some ⟨.bare, k, k⟩) := by
  have h3 := drop_add h
  have : n + k.length ≠ inp.length := by have := lt_of_cons h3; omega
  simp only [untilColon, h, colonGo_key h1 h2 rfl, if_neg this, slice_of h]

theorem nextMappingKey_key {inp : Bytes} {n : Nat} {k r : Bytes} (h : inp.drop n = k ++ COLON :: r) (h1 : COLON ∉ k) (h2 : (0 : UInt8) ∉ k)
    (h0 : k ≠ []) : nextMappingKey inp n = (n + k.length, some ⟨.bare, k, k⟩) := by
  simp only [nextMappingKey, h, colonGo_key h1 h2 rfl, slice_of h]
  rw [if_neg (by simpa using h0)]

theorem keyFlow_iff {k : Bytes} (h : keyFlow k = true) : k ≠ [] ∧ COLON ∉ k ∧ (0 : UInt8) ∉ k ∧ isWs (hd k) = false ∧ hd k ≠ HASH ∧ hd k ≠ RCB := by
  simp only [keyFlow, Bool.and_eq_true, Bool.not_eq_true', bne_iff_ne, ne_eq] at h
  obtain ⟨⟨⟨⟨⟨h1, h2⟩, h3⟩, h4⟩, h5⟩, h6⟩ := h
  exact ⟨by simpa using h1, fun hm => by simp [hm] at h2, fun hm => by simp [hm] at h3, h4, h5, h6⟩

theorem follow_true (r : Bytes) {b : UInt8} (h : b = COMMA ∨ b = RBR ∨ b = RCB) : follow true (b :: r) := by
  simp only [follow, if_true]; exact h


theorem Fs.start {m : Bool} {pre key sep : Bytes} {v : F} {r : Fs} (hok : (Fs.cons pre key sep v r).ok m = true) (rest : Bytes) :
    ∃ s, (Fs.cons pre key sep v r).text m ++ rest = pre ++ s ∧ stopWs s ∧ gap pre = true := by
  simp only [Fs.ok, Bool.and_eq_true] at hok
  obtain ⟨⟨⟨⟨h1, _⟩, h2⟩, h3⟩, _⟩ := hok
  refine ⟨_, by rw [Fs.text, List.append_assoc, List.append_assoc, List.append_assoc, List.append_assoc], ?_, h1⟩
  cases m with
  | false => simp only [Bool.false_eq_true, if_false, List.nil_append]; exact (F.start h3 _).1
  | true =>
    simp only [Bool.not_true, Bool.false_or, Bool.and_eq_true] at h2
    obtain ⟨k1, k2, k3, k4, k5, k6⟩ := keyFlow_iff h2.1
    have : ∀ s, hd ((key ++ [COLON] ++ sep) ++ s) = hd key := by intro s; rw [List.append_assoc, List.append_assoc]; exact hd_append k1
    simp only [if_true]
    exact ⟨by rw [this]; exact k4, by rw [this]; exact k5⟩

mutual
theorem parse_F {inp : Bytes} : ∀ (x : F) {inl : Bool} {n : Nat} {rest : Bytes} {s : PSt}, x.ok inl = true →
    inp.drop n = x.text ++ rest → follows inl x.isPlain rest → s.inline = inl → s.tabular = (!inl) →
    ∃ t : Tree Unit, x.Fits s.pre t ∧ VE inp s n t none (n + x.text.length)
  | .atom a, inl, n, rest, s, hok, h, hf, hs1, hs2 => by
    rw [F.ok] at hok
    rw [F.text] at h ⊢
    obtain ⟨sc, h1, f0, h2⟩ := lead_atom h hf hok
    exact ⟨_, .atom h1, (evalRules inp).scalar (by rw [hs1, hs2]; exact h2 f0 (Nat.le_refl _))⟩
  | .coll false items, inl, n, rest, s, hok, h, hf, hs1, hs2 => by
    rw [F.ok] at hok
    have h : inp.drop n = LBR :: (items.text false ++ RBR :: rest) := by rw [h]; simp [F.text]
    have h1 := drop_cons h
    obtain ⟨its, hi, hl⟩ := parse_Fseq items (tr := false) hok h1 (fun _ => rfl)
    have h2 := drop_add h1
    refine ⟨_, .coll (i := ()) (ind := 0) hi, ?_⟩
    have := (evalRules inp).flowSeq (f := 0) (s := s) (n := n) (lead_byte h (.inl ⟨rfl, rfl⟩)) (by rw [bump_cons h]; exact hl) (peek_cons h2)
    rw [bump_cons h2] at this
    have he : n + 1 + (items.text false).length + 1 = n + (F.coll false items).text.length := by simp [F.text]; omega
    rw [← he]; exact this
  | .coll true items, inl, n, rest, s, hok, h, hf, hs1, hs2 => by
    rw [F.ok] at hok
    have h : inp.drop n = LCB :: (items.text true ++ RCB :: rest) := by rw [h]; simp [F.text]
    have h1 := drop_cons h
    obtain ⟨its, st', hi, hl⟩ := parse_Fmap items (tr := false) hok h1 (fun _ => rfl)
    have h2 := drop_add h1
    refine ⟨_, .coll (i := ()) (ind := 0) hi, ?_⟩
    have := (evalRules inp).flowMap (f := 0) (s := s) (n := n) (lead_byte h (.inr ⟨rfl, rfl⟩)) (by rw [bump_cons h]; exact hl) (peek_cons h2)
    rw [bump_cons h2] at this
    have he : n + 1 + (items.text true).length + 1 = n + (F.coll true items).text.length := by simp [F.text]; omega
    rw [← he]; exact this
theorem parse_Fseq {inp : Bytes} : ∀ (xs : Fs) {n : Nat} {rest : Bytes} {tr : Bool}, xs.ok false = true →
    inp.drop n = xs.text false ++ RBR :: rest → (xs = .nil → tr = false) →
    ∃ its : Items Unit, Fs.Fits false xs its ∧ FSE inp false tr (wsStr inp n) (wsEnd inp n) its false [] (n + (xs.text false).length)
  | .nil, n, rest, tr, hok, h, hnil => by
    obtain rfl := hnil rfl
    have h : inp.drop n = RBR :: rest := h
    obtain ⟨w1, w2⟩ := ws_none h ⟨rfl, by show RBR ≠ HASH; decide⟩
    rw [w1, w2]
    exact ⟨.nil, .nil, (evalRules inp).fsStop (.inl (peek_cons h))⟩
  | .cons pre key sep v .nil, n, rest, tr, hok, h, hnil => by
    obtain ⟨s', hs', hst0, hg⟩ := Fs.start hok (RBR :: rest)
    simp only [Fs.ok, Bool.and_eq_true] at hok
    obtain ⟨⟨⟨⟨_, hval⟩, _⟩, hvok⟩, _⟩ := hok
    obtain ⟨w1, w2⟩ := ws_gap (by rw [h, hs']) hg hst0
    simp only [Fs.text, Bool.false_eq_true, if_false, List.append_nil, Fs.isNil, if_true, List.append_assoc] at h ⊢
    have h0 := drop_add h
    rw [w1, w2]
    obtain ⟨hst, hct⟩ := F.start hvok (RBR :: rest)
    have hct := hct rfl
    obtain ⟨w5, w6⟩ := ws_none h0 hst
    obtain ⟨t, ht, hv⟩ := parse_F v (s := ⟨[], true, false, none⟩) hvok h0 (follows_of (follow_true _ (.inr (.inl rfl)))) rfl rfl
    have h2 := drop_add h0
    obtain ⟨w3, w4⟩ := ws_none h2 ⟨rfl, by show RBR ≠ HASH; decide⟩
    refine ⟨_, .cons (i := ()) (k := noKey) (ip := pre) (vp := []) (by simp [hg, hval]; decide) ht .nil, ?_⟩
    have he : n + pre.length + v.text.length = n + (pre ++ v.text).length := by simp; omega
    rw [← he]
    refine (evalRules inp).fsOther (m := n + pre.length + v.text.length) (next := none) ?_ (by rw [w5, w6]; exact hv) (by rw [peek_cons h2]; decide) ?_
    · rw [peek_of h0]; rintro (hq | hq) <;> rw [hq] at hct <;> revert hct <;> decide
    · simp only [wsOr, w3, w4]
      exact (evalRules inp).fsStop (.inl (peek_cons h2))
  | .cons pre key sep v (.cons pre2 key2 sep2 v2 r2), n, rest, tr, hok, h, hnil => by
    obtain ⟨s', hs', hst0, hg⟩ := Fs.start hok (RBR :: rest)
    rw [Fs.ok] at hok
    simp only [Bool.and_eq_true] at hok
    obtain ⟨⟨⟨⟨_, hval⟩, _⟩, hvok⟩, hrok⟩ := hok
    obtain ⟨w1, w2⟩ := ws_gap (by rw [h, hs']) hg hst0
    rw [Fs.text] at h ⊢
    simp only [Bool.false_eq_true, if_false, List.append_nil, Fs.isNil, List.append_assoc] at h ⊢
    have h0 := drop_add h
    rw [w1, w2]
    obtain ⟨hst, hct⟩ := F.start hvok ([COMMA] ++ ((Fs.cons pre2 key2 sep2 v2 r2).text false ++ RBR :: rest))
    have hct := hct rfl
    obtain ⟨w5, w6⟩ := ws_none h0 hst
    obtain ⟨t, ht, hv⟩ := parse_F v (s := ⟨[], true, false, none⟩) hvok h0 (follows_of (follow_true _ (.inl rfl))) rfl rfl
    have h2 : inp.drop (n + pre.length + v.text.length) = COMMA :: ((Fs.cons pre2 key2 sep2 v2 r2).text false ++ RBR :: rest) := drop_add h0
    have h3 := drop_cons h2
    obtain ⟨its, hi, hl⟩ := parse_Fseq (.cons pre2 key2 sep2 v2 r2) (tr := true) hrok h3 (fun h => by cases h)
    refine ⟨_, .cons (i := ()) (k := noKey) (ip := pre) (vp := []) (by simp [hg, hval]; decide) ht hi, ?_⟩
    refine (evalRules inp).fsComma (m := n + pre.length + v.text.length) (next := none) ?_ (by rw [w5, w6]; exact hv) (peek_cons h2) ?_
    · rw [peek_of h0]; rintro (hq | hq) <;> rw [hq] at hct <;> revert hct <;> decide
    · simp only [wsOr, bump_cons h2]
      have he : n + pre.length + v.text.length + 1 + ((Fs.cons pre2 key2 sep2 v2 r2).text false).length =
          n + (pre ++ (v.text ++ ([COMMA] ++ (Fs.cons pre2 key2 sep2 v2 r2).text false))).length := by simp; omega
      rw [← he]; exact hl
theorem parse_Fmap {inp : Bytes} : ∀ (xs : Fs) {n : Nat} {rest : Bytes} {tr : Bool}, xs.ok true = true →
    inp.drop n = xs.text true ++ RCB :: rest → (xs = .nil → tr = false) →
    ∃ (its : Items Unit) (st' : Nat), Fs.Fits true xs its ∧ FME inp false tr (wsStr inp n) n (wsEnd inp n) its false [] st' (n + (xs.text true).length)
  | .nil, n, rest, tr, hok, h, hnil => by
    obtain rfl := hnil rfl
    have h : inp.drop n = RCB :: rest := h
    obtain ⟨w1, w2⟩ := ws_none h ⟨rfl, by show RCB ≠ HASH; decide⟩
    rw [w1, w2]
    exact ⟨.nil, n, .nil, (evalRules inp).fmStop (.inl (peek_cons h))⟩
  | .cons pre key sep v r, n, rest, tr, hok, h, hnil => by
    obtain ⟨s', hs', hst0, hg⟩ := Fs.start hok (RCB :: rest)
    rw [Fs.ok] at hok
    simp only [Bool.and_eq_true, Bool.not_true, Bool.false_or] at hok
    obtain ⟨⟨⟨⟨_, hval⟩, hkey, hsep⟩, hvok⟩, hrok⟩ := hok
    obtain ⟨w1, w2⟩ := ws_gap (by rw [h, hs']) hg hst0
    rw [w1, w2]
    obtain ⟨k1, k2, k3, k4, k5, k6⟩ := keyFlow_iff hkey
    have h : inp.drop n = pre ++ (key ++ COLON :: (sep ++ (v.text ++ ((if r.isNil then [] else [COMMA]) ++ (r.text true ++ RCB :: rest))))) := by
      rw [h, Fs.text]; simp
    have hlen : n + ((Fs.cons pre key sep v r).text true).length =
        n + pre.length + key.length + 1 + sep.length + v.text.length + ((if r.isNil then [] else [COMMA]) ++ r.text true).length := by
      rw [Fs.text]; simp; omega
    rw [hlen]
    have h := drop_add h
    have hp : peekAt inp (n + pre.length) = hd key := by rw [peek_of h]; exact hd_append k1
    have hk0 : hd key ≠ 0 := by
      cases key with
      | nil => exact absurd rfl k1
      | cons b r => rintro (hq : b = 0); subst hq; exact k3 (by simp)
    have h1 := drop_add h
    have h2 := drop_cons h1
    obtain ⟨hst, hct⟩ := F.start hvok ((if r.isNil then [] else [COMMA]) ++ (r.text true ++ RCB :: rest))
    obtain ⟨w3, w4⟩ := ws_gap h2 hsep hst
    have h3 := drop_add h2
    have hf : follow true ((if r.isNil then [] else [COMMA]) ++ (r.text true ++ RCB :: rest)) := by
      cases r with
      | nil => exact follow_true _ (.inr (.inr rfl))
      | cons => exact follow_true _ (.inl rfl)
    obtain ⟨t, ht, hv⟩ := parse_F v (s := ⟨sep, true, false, none⟩) hvok h3 (follows_of hf) rfl rfl
    have h4 := drop_add h3
    cases r with
    | nil =>
      simp only [Fs.isNil, if_true, Fs.text, List.nil_append, List.length_nil, Nat.add_zero] at h4 ⊢
      obtain ⟨w5, w6⟩ := ws_none h4 ⟨rfl, by show RCB ≠ HASH; decide⟩
      refine ⟨_, n + pre.length + key.length + 1 + sep.length + v.text.length,
        .cons (i := ()) (k := ⟨.bare, key, key⟩) (ip := pre) (vp := sep) (by simp only [if_true]; exact ⟨rfl, trivial, trivial, trivial⟩) ht .nil, ?_⟩
      refine (evalRules inp).fmOther (next := none) (by rw [hp]; exact fun hq => hq.elim k6 hk0) (untilColon_key h k2 k3)
        (by rw [bump_cons h1, w3, w4]; exact hv) (by simp only [wsOr, w5]; rw [peek_cons h4]; decide) ?_
      simp only [wsOr, w5, w6]
      exact (evalRules inp).fmStop (.inl (peek_cons h4))
    | cons pre2 key2 sep2 v2 r2 =>
      simp only [Fs.isNil, Bool.false_eq_true, if_false] at h4 ⊢
      obtain ⟨w5, w6⟩ := ws_none h4 ⟨rfl, by show COMMA ≠ HASH; decide⟩
      have h4 : inp.drop (n + pre.length + key.length + 1 + sep.length + v.text.length) = COMMA :: ((Fs.cons pre2 key2 sep2 v2 r2).text true ++ RCB :: rest) := h4
      have h5 := drop_cons h4
      obtain ⟨its, st', hi, hl⟩ := parse_Fmap (.cons pre2 key2 sep2 v2 r2) (tr := true) hrok h5 (fun h => by cases h)
      refine ⟨_, st', .cons (i := ()) (k := ⟨.bare, key, key⟩) (ip := pre) (vp := sep) (by simp only [if_true]; exact ⟨rfl, trivial, trivial, trivial⟩) ht hi, ?_⟩
      refine (evalRules inp).fmComma (next := none) (by rw [hp]; exact fun hq => hq.elim k6 hk0) (untilColon_key h k2 k3)
        (by rw [bump_cons h1, w3, w4]; exact hv) (by simp only [wsOr, w5]; rw [peek_cons h4]) ?_
      simp only [wsOr, w5, bump_cons h4]
      have he : n + pre.length + key.length + 1 + sep.length + v.text.length + 1 + ((Fs.cons pre2 key2 sep2 v2 r2).text true).length =
          n + pre.length + key.length + 1 + sep.length + v.text.length + ([COMMA] ++ (Fs.cons pre2 key2 sep2 v2 r2).text true).length := by simp; omega
      rw [← he]; exact hl
end

/-! ### Block values -/

theorem keyBlock_iff {k : Bytes} (h : keyBlock k = true) : k ≠ [] ∧ isIndicator (hd k) = false ∧ hd k ≠ DASH ∧ NL ∉ k ∧ COLON ∉ k ∧ (0 : UInt8) ∉ k := by
  simp only [keyBlock, Bool.and_eq_true, Bool.not_eq_true', bne_iff_ne, ne_eq] at h
  obtain ⟨⟨⟨⟨⟨h1, h2⟩, h3⟩, h4⟩, h5⟩, h6⟩ := h
  exact ⟨by simpa using h1, h2, h3, fun hm => by simp [hm] at h4, fun hm => by simp [hm] at h5, fun hm => by simp [hm] at h6⟩

theorem isEol_colon : ∀ {r t : Bytes}, NL ∉ r → isEol (r ++ COLON :: t) = false
  | [], t, _ => rfl
  | b :: r, t, h => by
    have hb : (b == NL) = false := by rw [beq_eq_false_iff_ne]; rintro rfl; exact h (by simp)
    rw [List.cons_append, isEol, hb, isEol_colon (fun hm => h (by simp [hm]))]; simp

theorem keyGo_key : ∀ {r t : Bytes}, NL ∉ r → COLON ∉ r → isWs (hd t) = true → keyGo (r ++ COLON :: t) = (r.length, true)
  | [], t, _, _, ht => by
    have : isWs (t.headD 0) = true := ht
    simp only [List.nil_append, keyGo, this]; rfl
  | b :: r, t, h1, h2, ht => by
    have hb : (b == NL) = false := by rw [beq_eq_false_iff_ne]; rintro rfl; exact h1 (by simp)
    have hc : (b == COLON) = false := by rw [beq_eq_false_iff_ne]; rintro rfl; exact h2 (by simp)
    rw [List.cons_append, keyGo, hb, hc, keyGo_key (fun hm => h1 (by simp [hm])) (fun hm => h2 (by simp [hm])) ht]; simp

/-- A plain key is read as such. -/
theorem lead_key {inp : Bytes} {n : Nat} {k t : Bytes} (h : inp.drop n = k ++ COLON :: t) (hk : keyBlock k = true) (ht : isWs (hd t) = true) :
    lead 0 inp false true n = .ok (.key ⟨.bare, k, k⟩ (n + k.length)) := by
  obtain ⟨k1, k2, k3, k4, k5, k6⟩ := keyBlock_iff hk
  have hp : peekAt inp n = hd k := by rw [peek_of h]; exact hd_append k1
  have hdash : (hd k == DASH && isWs (peekAt inp (n + 1)) && !false) = false := by
    rw [beq_eq_false_iff_ne.2 k3]; rfl
  obtain ⟨i1, i2, i3, i4, i5, i6, i7, i8⟩ := indicator_ne k2
  obtain ⟨j, hj, hnum⟩ : ∃ j, j ≤ k.length ∧ number inp true n = (n + j, none) := by
    obtain ⟨hint, h1, h2⟩ := number_eq (tab := true) h k1
    have hk' := numGo_append (wd := true) (we := true) (hn := false) (t := unsigned k) (s := COLON :: t)
      (.inl (stopNum_of (.inr (.inr rfl))))
    rw [hk'] at h2
    have hle := (numGo_spec true true false (unsigned k)).1
    have hl : (unsigned k).length ≤ k.length := by unfold unsigned; split <;> simp
    refine ⟨k.length - (unsigned k).length + (numGo true true false (unsigned k)).1, by omega, ?_⟩
    rw [h2, Nat.add_assoc]
    split
    · rfl
    · have hd' : inp.drop (n + (k.length - (unsigned k).length + (numGo true true false (unsigned k)).1)) =
          k.drop (k.length - (unsigned k).length + (numGo true true false (unsigned k)).1) ++ COLON :: t := by
        rw [← List.drop_drop, h, List.drop_append_of_le_length (by omega)]
      rw [hd', isEol_colon (fun hm => k4 (List.mem_of_mem_drop hm))]; rfl
  have hdj : inp.drop (n + j) = k.drop j ++ COLON :: t := by rw [← List.drop_drop, h, List.drop_append_of_le_length hj]
  have hlen : n + j + (k.drop j).length = n + k.length := by simp; omega
  simp only [lead, hp, hdash, i2, i3, i4, i5, i6, i7, hnum, Bool.false_eq_true, if_false, Bool.or_self, hdj,
    keyGo_key (fun hm => k4 (List.mem_of_mem_drop hm)) (fun hm => k5 (List.mem_of_mem_drop hm)) ht, hlen, slice_of h]
  rfl


theorem Place.sep_gap {p : Place} {lv : Bool} (h : p.ok lv = true) (c : Nat) : gap (p.sep c) = true := by
  cases p with
  | here n => exact gap_spaces _
  | below g n =>
    simp only [Place.ok, Bool.and_eq_true] at h
    exact gap_newLine (c + n) h.1.1
  | none => cases h

theorem Place.sep_hd {p : Place} {lv : Bool} (h : p.ok lv = true) (c : Nat) (r : Bytes) : isWs (hd (p.sep c ++ r)) = true := by
  cases p with
  | here n => rfl
  | below g n =>
    simp only [Place.ok, Bool.and_eq_true, Bool.or_eq_true] at h
    cases g with
    | nil => rfl
    | cons b g => exact h.1.2.resolve_left (by simp)
  | none => cases h

theorem Place.le_col (c : Nat) (p : Place) : c ≤ p.col c := by cases p <;> simp only [Place.col] <;> omega
theorem Place.lt_col {p : Place} (h : p.ok false = true) (c : Nat) : c < p.col c := by
  cases p with
  | here n => simp only [Place.col]; omega
  | below g n =>
    simp only [Place.ok, Bool.and_eq_true, Bool.false_or, decide_eq_true_eq] at h
    simp only [Place.col]; omega
  | none => cases h

theorem Y.le_col (c : Nat) (p : Place) (v : Y) : c ≤ v.col p c := by
  cases v <;> simp only [Y.col, Nat.le_refl]; exact Place.le_col c p
theorem Y.col_coll {v : Y} (h : v.isFlow = false) (c : Nat) (p : Place) : v.col p c = p.col c := by
  cases v <;> first | rfl | cases h

/-- What is said of an item. -/
theorem Ys.ok_cons {strict m : Bool} {before : Bytes} {place : Place} {key : Bytes} {v : Y} {r : Ys} (h : (Ys.cons before place key v r).ok strict m = true) :
    (m = true → keyBlock key = true ∧ (v.isFlow = false → place.isHere = false)) ∧
    ((m = true ∧ strict = false ∧ v = .hole ∧ place = .none ∧ ∃ b2 p2 k2 v2 r2, r = .cons b2 p2 k2 v2 r2 ∧ (b2 = [] ∨ isWs (hd b2) = true)) ∨
      (place.ok (v.isFlow || (m && v.isSeq)) = true ∧ v.ok strict = true)) ∧ r.beforeOk strict v = true ∧ r.ok strict m = true := by
  rw [Ys.ok] at h
  simp only [Bool.and_eq_true, Bool.or_eq_true] at h
  obtain ⟨⟨⟨h1, h2⟩, h3⟩, h4⟩ := h
  refine ⟨fun hm => ?_, h2.imp (fun h => ?_) id, h3, h4⟩
  · have := h1.resolve_left (by simp [hm])
    refine ⟨this.1.1, fun hf => ?_⟩
    have := this.1.2
    rw [hf] at this
    simpa using this
  · obtain ⟨hm, h⟩ := h
    unfold Ys.holeOk at h
    simp only [Bool.and_eq_true, Bool.not_eq_true', beq_iff_eq] at h
    obtain ⟨⟨⟨q1, q2⟩, q3⟩, q4⟩ := h
    refine ⟨hm, q1, (by cases v <;> first | rfl | cases q2), q3, ?_⟩
    cases r with
    | nil => cases q4
    | cons b2 p2 k2 v2 r2 =>
      simp only [Bool.or_eq_true, List.isEmpty_iff] at q4
      exact ⟨b2, p2, k2, v2, r2, rfl, q4⟩

def Ys.before : Ys → Bytes
  | .nil => []
  | .cons b _ _ _ _ => b

theorem Ys.text_false {m : Bool} {c : Nat} {xs : Ys} (h : xs.isNil = false) : xs.text m c false = newLine c xs.before ++ xs.text m c true := by
  cases xs with
  | nil => cases h
  | cons => simp [Ys.text, Ys.before]

theorem Ys.start {m strict : Bool} {xs : Ys} (h : xs.ok strict m = true) (hn : xs.isNil = false) (c : Nat) (rest : Bytes) :
    stopWs (xs.text m c true ++ rest) ∧ (m = true → hd (xs.text m c true ++ rest) ≠ DASH) := by
  cases xs with
  | nil => cases hn
  | cons before place key v r =>
    cases m with
    | false => exact ⟨⟨rfl, by show DASH ≠ HASH; decide⟩, fun h => by cases h⟩
    | true =>
      replace h := ((Ys.ok_cons h).1 rfl).1
      obtain ⟨k1, k2, k3, k4, k5, k6⟩ := keyBlock_iff h
      have : hd ((Ys.cons before place key v r).text true c true ++ rest) = hd key := by
        simp only [Ys.text, List.nil_append, if_true, List.append_assoc]; exact hd_append k1
      obtain ⟨i1, _, _, _, _, _, _, i8⟩ := indicator_ne k2
      exact ⟨⟨by rw [this]; exact i8, by rw [this]; simpa using i1⟩, fun _ => by rw [this]; exact k3⟩

def Blk.body (c : Nat) (b : Blk) : Bytes := b.note ++ linesText (c + 1 + b.more) ((0, b.first) :: b.lines)
def Blk.header (b : Blk) : Bytes := (if b.folded then GT else PIPE) :: b.chomp.text
theorem Blk.text_eq (c : Nat) (b : Blk) : b.text c = b.header ++ b.body c := by simp [Blk.text, Blk.header, Blk.body]

theorem Blk.start (c : Nat) (b : Blk) (rest : Bytes) : stopWs (b.text c ++ rest) := by
  rw [Blk.text_eq, Blk.header]
  cases b.folded with
  | true => exact ⟨rfl, by show GT ≠ HASH; decide⟩
  | false => exact ⟨rfl, by show PIPE ≠ HASH; decide⟩

/-- After a colon or a dash. -/
theorem Ys.sep_ws {strict m : Bool} {before : Bytes} {place : Place} {key : Bytes} {v : Y} {r : Ys} (h : (Ys.cons before place key v r).ok strict m = true) (c : Nat) (rest : Bytes) :
    isWs (hd (place.sep c ++ (v.text (v.col place c) ++ (r.text m c false ++ rest)))) = true := by
  rcases (Ys.ok_cons h).2.1 with ⟨_, _, rfl, rfl, b2, p2, k2, v2, r2, rfl, hb⟩ | ⟨h, _⟩
  · rw [Ys.text_false rfl]
    simp only [Place.sep, Y.text, List.nil_append, newLine, Ys.before, List.append_assoc]
    cases b2 with
    | nil => rfl
    | cons x b2 => exact hb.resolve_left (by simp)
  · exact Place.sep_hd h c _

theorem Y.start {y : Y} {strict : Bool} (h : y.ok strict = true) (c : Nat) (rest : Bytes) : stopWs (y.text c ++ rest) := by
  cases y with
  | flow f => rw [Y.ok] at h; rw [Y.text]; exact (F.start h rest).1
  | block b => rw [Y.text]; exact Blk.start c b rest
  | hole => cases h
  | coll m items =>
    simp only [Y.ok, Bool.and_eq_true, Bool.not_eq_true'] at h
    rw [Y.text]; exact (Ys.start h.2 h.1 c rest).1

/-- Nothing more in column `c` or further to the right, or, for a sequence, no dash in column `c`. -/
def End (inp : Bytes) (seq : Bool) (c m : Nat) : Prop :=
  m = inp.length ∨ indentFrom inp m < c ∨ (seq = true ∧ indentFrom inp m = c ∧ peekAt inp m ≠ DASH)

theorem End.mono {inp : Bytes} {seq seq' : Bool} {c c' m : Nat} (h : End inp seq c m) (hc : c < c') : End inp seq' c' m := by
  rcases h with h | h | h
  · exact .inl h
  · exact .inr (.inl (by omega))
  · exact .inr (.inl (by omega))

theorem nextMappingKey_end {inp : Bytes} : nextMappingKey inp inp.length = (inp.length, none) := by
  simp [nextMappingKey, colonGo, slice]


/-- What follows a value. -/
theorem follows_after {strict : Bool} {v : Y} {s r : Bytes} (h : afterOk strict v s = true) (hr : s ≠ [] ∨ r = [] ∨ hd r = NL) :
    follows false v.plainEnd (s ++ r) := by
  have hnl : ∀ t : Bytes, t = [] ∨ hd t = NL → follows false v.plainEnd t := by
    intro t ht
    apply follows_of
    simp only [follow, Bool.false_eq_true, if_false]
    exact ht
  simp only [afterOk, Bool.and_eq_true, Bool.or_eq_true, Bool.not_eq_true', beq_iff_eq] at h
  cases s with
  | nil => exact hnl r (hr.resolve_left (by simp))
  | cons b s =>
    rcases h.2 with (h2 | h2) | h2
    · simp at h2
    · exact hnl _ (.inr h2)
    · rw [h2.2]
      have h1 := h.1
      show b ≠ SQ ∧ b ≠ COLON
      rw [blank, blankGo] at h1
      constructor
      · rintro rfl; revert h1; rw [if_neg (by decide)]; rw [show isWs SQ = false by decide]; simp
      · rintro rfl; revert h1; rw [if_neg (by decide)]; rw [show isWs COLON = false by decide]; simp

theorem follows_items {strict m : Bool} {c : Nat} {v : Y} {xs : Ys} {rest : Bytes} (h : xs.beforeOk strict v = true)
    (hr : xs.isNil = true → follows false v.plainEnd rest) : follows false v.plainEnd (xs.text m c false ++ rest) := by
  cases xs with
  | nil => exact hr rfl
  | cons before place key v r =>
    rw [Ys.text_false rfl, newLine, List.append_assoc, List.append_assoc]
    simp only [Ys.beforeOk, Bool.and_eq_true] at h
    exact follows_after h.1 (.inr (.inr rfl))

theorem ws_line {inp : Bytes} {n c : Nat} {b s : Bytes} (h : inp.drop n = newLine c b ++ s) (hb : blank b = true) (hs : stopWs s) :
    wsEnd inp n = n + (newLine c b).length ∧ wsStr inp n = newLine c b ∧ inp.drop (n + (newLine c b).length) = s ∧
      Col inp (n + (newLine c b).length) c := by
  obtain ⟨w1, w2⟩ := ws_gap h (gap_newLine c hb) hs
  refine ⟨w1, w2, drop_add h, ?_⟩
  rw [newLine, List.append_assoc] at h
  have := Col.line (drop_add h)
  simpa [newLine, Nat.add_assoc] using this

/-- What `block` reads at the end of a scalar: the line breaks after it, and a line further to the left or the end. -/
structure BlkEnd (inp : Bytes) (b : Blk) (c e : Nat) : Prop where
  breaks : b.chomp = .strip ∨ wsNl inp e = b.breaks
  stop : indentFrom inp (wsEnd inp e) ≤ c ∨ (inp.drop e = [] ∧ b.folded = false)

theorem BlkEnd.mono {inp : Bytes} {b : Blk} {c c' e : Nat} (h : BlkEnd inp b c e) (hc : c ≤ c') : BlkEnd inp b c' e :=
  ⟨h.breaks, h.stop.imp (fun h => by omega) id⟩

/-- Well-formed lines. -/
structure Blk.Lines (b : Blk) : Prop where
  note : blank b.note = true
  noNl : NL ∉ b.note
  noteWs : b.note = [] ∨ isWs (hd b.note) = true
  first : blkLine b.first = true
  lines : ∀ p ∈ b.lines, blkLine p.2 = true

theorem Blk.ok_iff {b : Blk} (h : b.ok = true) : b.Lines ∧ (b.chomp = .clip → b.breaks ≤ 1) := by
  simp only [Blk.ok, Bool.and_eq_true, Bool.or_eq_true, Bool.not_eq_true', List.all_eq_true, decide_eq_true_eq, bne_iff_ne] at h
  obtain ⟨⟨⟨⟨⟨h1, h2⟩, h3⟩, h4⟩, h5⟩, h6⟩ := h
  exact ⟨⟨h1, (fun hm => by simp [hm] at h2), h3.imp (by simp) id, h4, fun p hp => (h5 p hp).1⟩, fun hc => h6.resolve_left (by simp [hc])⟩

theorem wsGo_nl : ∀ {c : Bool} {a r : Bytes}, blankGo c a = true → (wsGo c (a ++ NL :: r)).2 ≠ 0
  | true, [], r, _ => by simp [wsGo]
  | false, [], r, _ => by rw [List.nil_append, wsGo, if_neg (by decide), if_pos (by decide)]; simp
  | true, x :: a, r, h => by
    rw [blankGo] at h; rw [List.cons_append, wsGo]
    cases h1 : x == NL with
    | true => simp
    | false => simp [bne, h1] at h; simp [wsGo_nl h]
  | false, x :: a, r, h => by
    rw [blankGo] at h; rw [List.cons_append, wsGo]
    split at h
    · next h2 => simp [h2, wsGo_nl h]
    · next h2 =>
      simp only [Bool.and_eq_true, isWs, Bool.or_eq_true] at h
      simp only [h2]
      cases h1 : x == NL with
      | true => simp
      | false => simp [h.1.resolve_right (by simp [h1]), wsGo_nl h.2]

theorem lead_block_eq {f : Nat} {inp : Bytes} {inl tab : Bool} {n : Nat} (h : peekAt inp n = GT ∨ peekAt inp n = PIPE) :
    lead f inp inl tab n = (block f inp n (if peekAt inp (n + 1) == DASH || peekAt inp (n + 1) == 43 then 2 else 1) (if peekAt inp n == GT then SP else NL)
      (peekAt inp n == GT) (peekAt inp (n + 1) != DASH) (peekAt inp (n + 1) == DASH)).bind fun r => .ok (.scalar (.string r.1) (some r.2.1) r.2.2) := by
  unfold lead
  rcases h with h | h <;> rw [h] <;> rfl

/-- Lines with any white space around them. -/
structure Blk.Raws (b : Blk) : Prop where
  note : blank b.note = true
  noNl : NL ∉ b.note
  noteWs : b.note = [] ∨ isWs (hd b.note) = true
  first : b.first ≠ [] ∧ NL ∉ b.first ∧ stopWs b.first
  lines : ∀ p ∈ b.lines, RawLine p.2

theorem Blk.Lines.raws {b : Blk} (h : b.Lines) : b.Raws :=
  ⟨h.note, h.noNl, h.noteWs, ⟨(blkLine_iff h.first).1, (blkLine_iff h.first).2.1, (blkLine_iff h.first).2.2.1⟩, fun p hp => blkLine_raw (h.lines p hp)⟩

/-- A block scalar is read line by line, without the white space around the lines; unless stripped, it keeps all line breaks after it. -/
theorem lead_raw {inp : Bytes} {n c : Nat} {b : Blk} {rest : Bytes} {inl tab : Bool} (h : inp.drop n = b.text c ++ rest) (hb : b.Raws) (hr : rest = [] ∨ hd rest = NL)
    (he : indentFrom inp (wsEnd inp (n + (b.text c).length)) ≤ c ∨ (rest = [] ∧ b.folded = false)) :
    lead (b.lines.length + 2) inp inl tab n = .ok (.scalar (.string ⟨.multiline b.header,
      trim b.first ++ linesValue b.folded (trimmed b.lines) ++ (if b.chomp = .strip then [] else List.replicate (wsNl inp (n + (b.text c).length)) NL), b.body c⟩)
      (some (wsStr inp (n + (b.text c).length))) (wsEnd inp (n + (b.text c).length))) := by
  have h0 : inp.drop n = b.header ++ (b.body c ++ rest) := by rw [h, Blk.text_eq, List.append_assoc]
  have h1 := drop_add h0
  have hf := hb.first
  have h1' : inp.drop (n + b.header.length) = newLine (c + 1 + b.more) b.note ++ (b.first ++ (linesText (c + 1 + b.more) b.lines ++ rest)) := by
    rw [h1, Blk.body, newLine, linesText]; simp
  obtain ⟨w1, w2, h2, hcol⟩ := ws_line h1' hb.note (by unfold stopWs; rw [hd_append hf.1]; exact hf.2.2)
  have hlen : n + (b.text c).length = n + b.header.length + (newLine (c + 1 + b.more) b.note).length + (b.first ++ linesText (c + 1 + b.more) b.lines).length := by
    rw [Blk.text_eq, Blk.body, newLine, linesText]; simp; omega
  have hnl : wsNl inp (n + b.header.length) ≠ 0 := by
    rw [wsNl, h1', newLine, List.append_assoc]; exact wsGo_nl hb.note
  have hloop := blockLoop_lines b.lines (inp := inp) (w := c + 1 + b.more) (folded := b.folded) (scratch := []) (ws := wsStr inp (n + b.header.length))
    (stop := n + b.header.length + (newLine (c + 1 + b.more) b.note).length) (nl := wsNl inp (n + b.header.length)) hf.1 hf.2.1 hb.lines h2 hr
    (by rw [← hlen]; exact he.imp (fun h => by omega) id) (Nat.le_refl _)
  rw [← hlen] at hloop
  have hbump : bump inp n b.header.length = n + b.header.length := by
    have := congrArg List.length h0
    simp only [List.length_drop, List.length_append] at this
    have h3 : 0 < b.header.length := by simp [Blk.header]
    unfold bump; omega
  have hx : block (b.lines.length + 2) inp n b.header.length (if b.folded then SP else NL) b.folded (b.chomp != .strip) (b.chomp == .strip) = 
      .ok (⟨.multiline b.header, trim b.first ++ linesValue b.folded (trimmed b.lines) ++
        (if b.chomp = .strip then [] else List.replicate (wsNl inp (n + (b.text c).length)) NL), b.body c⟩,
        wsStr inp (n + (b.text c).length), wsEnd inp (n + (b.text c).length)) := by
    have hs : slice inp (n + b.header.length) (n + (b.text c).length) = b.body c := by
      have := slice_of h1
      rw [← this, Blk.text_eq, List.length_append, Nat.add_assoc]
    simp only [block, hbump, slice_of h0, w1, hnl, if_false, hcol.indentFrom, hloop, bind, Except.bind, List.nil_append, hs]
    cases b.chomp <;> rfl
  have ha : peekAt inp n = if b.folded then GT else PIPE := by rw [peek_of h0]; rfl
  have hbb : peekAt inp (n + 1) = hd (b.chomp.text ++ (b.body c ++ rest)) := peek_of (drop_cons h0)
  have hlen2 : (if peekAt inp (n + 1) == DASH || peekAt inp (n + 1) == 43 then 2 else 1) = b.header.length ∧ (peekAt inp (n + 1) == DASH) = (b.chomp == .strip) := by
    rw [hbb, Blk.header]
    cases b.chomp with
    | strip => exact ⟨rfl, rfl⟩
    | keep => exact ⟨rfl, rfl⟩
    | clip =>
      have : isWs (hd (b.body c ++ rest)) = true := by
        rcases hb.noteWs with hq | hq
        · rw [Blk.body, hq, linesText]; rfl
        · have : b.note ≠ [] := by intro hq2; rw [hq2] at hq; revert hq; decide
          rw [Blk.body, List.append_assoc, hd_append this]; exact hq
      have x1 : (hd (b.body c ++ rest) == DASH) = false := by rw [beq_eq_false_iff_ne]; intro hq; rw [hq] at this; revert this; decide
      have x2 : (hd (b.body c ++ rest) == 43) = false := by rw [beq_eq_false_iff_ne]; intro hq; rw [hq] at this; revert this; decide
      show (if hd (b.body c ++ rest) == DASH || hd (b.body c ++ rest) == 43 then 2 else 1) = 1 ∧ (hd (b.body c ++ rest) == DASH) = false
      rw [x1, x2]; exact ⟨rfl, rfl⟩
  have hne : (peekAt inp (n + 1) != DASH) = (b.chomp != .strip) := by rw [bne, hlen2.2]; rfl
  have ha' : (peekAt inp n == GT) = b.folded := by rw [ha]; cases b.folded <;> rfl
  rw [lead_block_eq (by rw [ha]; cases b.folded <;> simp), hlen2.1, hlen2.2, hne, ha', hx]; rfl

theorem lead_blk {inp : Bytes} {n c : Nat} {b : Blk} {rest : Bytes} {inl tab : Bool} (h : inp.drop n = b.text c ++ rest) (hb : b.Lines) (hr : rest = [] ∨ hd rest = NL)
    (he : indentFrom inp (wsEnd inp (n + (b.text c).length)) ≤ c ∨ (rest = [] ∧ b.folded = false)) :
    lead (b.lines.length + 2) inp inl tab n = .ok (.scalar (.string ⟨.multiline b.header,
      b.first ++ linesValue b.folded b.lines ++ (if b.chomp = .strip then [] else List.replicate (wsNl inp (n + (b.text c).length)) NL), b.body c⟩)
      (some (wsStr inp (n + (b.text c).length))) (wsEnd inp (n + (b.text c).length))) := by
  rw [lead_raw h hb.raws hr he, trimmed_eq hb.lines, (blkLine_iff hb.first).2.2.2]

/-- Where the value of an item begins. -/
theorem item_col {inp : Bytes} {n c : Nat} {place : Place} {b : UInt8} {s : Bytes} (h : inp.drop n = b :: (place.sep c ++ s))
    (hc : place.isHere = true → Col inp n c) (hb : b < 0x80 ∧ b ≠ NL) {lv : Bool} (hp : place.ok lv = true) : Col inp (n + 1 + (place.sep c).length) (place.col c) := by
  cases place with
  | here k =>
    have := (hc rfl).next (x := b :: List.replicate (k + 1) SP) (s := s) h (by
      intro x hx
      rw [List.mem_cons] at hx
      rcases hx with rfl | hx
      · exact hb
      · rw [List.eq_of_mem_replicate hx]; decide)
    have e1 : n + 1 + ((Place.here k).sep c).length = n + (b :: List.replicate (k + 1) SP).length := by simp [Place.sep]; omega
    have e2 : (Place.here k).col c = c + (b :: List.replicate (k + 1) SP).length := by simp [Place.col]; omega
    rw [e1, e2]; exact this
  | below g k =>
    have h1 := drop_cons h
    rw [Place.sep, List.append_assoc] at h1
    have := Col.line (drop_add h1)
    simpa [Place.sep, Place.col, Nat.add_assoc] using this
  | none => cases hp

/-! The number of line breaks. -/

theorem wsGo_count : ∀ {c : Bool} {w s : Bytes}, gapGo c w = true → stopWs s → (wsGo c (w ++ s)).2 = w.count NL
  | true, [], s, h, _ => by cases h
  | false, [], s, _, h => by have := wsGo_spaces (k := 0) h; rw [List.replicate_zero, List.nil_append] at this; rw [List.nil_append, this]; rfl
  | true, b :: w, s, h, hs => by
    rw [gapGo] at h
    rw [List.cons_append, wsGo, List.count_cons]
    cases h1 : b == NL with
    | true => simp [bne, h1] at h; simp [wsGo_count h hs]
    | false => simp [bne, h1] at h; simp [wsGo_count h hs]
  | false, b :: w, s, h, hs => by
    rw [gapGo] at h
    rw [List.cons_append, wsGo, List.count_cons]
    split at h
    · next h2 =>
      have : (b == NL) = false := by rw [beq_iff_eq] at h2; subst h2; rfl
      simp [h2, this, wsGo_count h hs]
    · next h2 =>
      simp only [Bool.and_eq_true, isWs, Bool.or_eq_true] at h
      simp only [h2]
      cases h1 : b == NL with
      | true => simp [wsGo_count h.2 hs]
      | false => simp [h.1.resolve_right (by simp [h1]), wsGo_count h.2 hs]

theorem blk_next {inp : Bytes} {e c c' : Nat} {b2 s : Bytes} {v : Y} (h : inp.drop e = newLine c b2 ++ s) (hb : blank b2 = true) (hs : stopWs s)
    (hv : v.blkAfter (b2 ++ [NL]) = true) (hc : c ≤ c') : ∀ b, v.endBlk = some b → BlkEnd inp b c' e := by
  intro b he
  rw [Y.blkAfter, he] at hv
  simp only [Blk.after, Bool.and_eq_true, Bool.or_eq_true, beq_iff_eq] at hv
  obtain ⟨w1, _, _, w4⟩ := ws_line h hb hs
  refine ⟨hv.2.imp id (fun hq => ?_), .inl (by rw [w1, w4.indentFrom]; exact hc)⟩
  rw [← hq.1, wsNl, h, wsGo_count (gap_newLine c hb) hs, newLine]
  simp [List.count_replicate, SP, NL]

set_option maxRecDepth 4000

mutual
theorem parse_Y {inp : Bytes} {strict : Bool} : ∀ (y : Y) {c n : Nat} {rest : Bytes} {s : PSt}, y.ok strict = true → inp.drop n = y.text c ++ rest →
    follows false y.plainEnd rest → (y.isFlow = false → Col inp n c ∧ End inp y.isSeq c (wsEnd inp (n + (y.text c).length))) →
    (∀ b, y.endBlk = some b → BlkEnd inp b c (n + (y.text c).length)) → s.inline = false → s.tabular = true → (y.isFlow = false → y.isSeq = false → ∀ i, s.parentIndent = some i → i < c) →
    ∃ (t : Tree Unit) (ws : Option Bytes) (m : Nat), y.Fits c s.pre t ∧ t.pre = s.pre ∧ VE inp s n t ws m ∧
      wsOr inp ws m = (wsStr inp (n + (y.text c).length), wsEnd inp (n + (y.text c).length))
  | .flow f, c, n, rest, s, hok, h, hf, hcol, hbe, hs1, hs2, hpi => by
    rw [Y.ok] at hok
    rw [Y.text] at h ⊢
    obtain ⟨t, ht, hv⟩ := parse_F f hok h hf hs1 (by rw [hs2]; rfl)
    exact ⟨t, none, _, .flow ht, by cases ht <;> rfl, hv, rfl⟩
  | .hole, c, n, rest, s, hok, h, hf, hcol, hbe, hs1, hs2, hpi => by cases hok
  | .block b, c, n, rest, s, hok, h, hf, hcol, hbe, hs1, hs2, hpi => by
    rw [Y.ok] at hok
    obtain ⟨hl, hclip⟩ := Blk.ok_iff hok
    have hb := hbe b rfl
    rw [Y.text] at h hb ⊢
    have hlead := lead_blk (inl := s.inline) (tab := s.tabular) h hl hf (hb.stop.imp id (fun hq => ⟨by rw [← hq.1, drop_add h], hq.2⟩))
    refine ⟨_, _, _, .block (s := ⟨.multiline b.header, _, b.body c⟩) (by rw [Blk.text_eq]; rfl) ?_, rfl, (evalRules inp).scalar hlead, rfl⟩
    rw [Blk.value]
    show _ ++ _ = _
    congr 1
    cases hc : b.chomp with
    | strip => rfl
    | keep => rw [if_neg (by simp), hb.breaks.resolve_left (by simp [hc])]; rfl
    | clip =>
      rw [if_neg (by simp), hb.breaks.resolve_left (by simp [hc]), Chomp.final, Nat.min_eq_left (hclip hc)]
  | .coll false items, c, n, rest, s, hok, h, hf, hcol, hbe, hs1, hs2, hpi => by
    simp only [Y.ok, Bool.and_eq_true, Bool.not_eq_true'] at hok
    obtain ⟨hcol, hend⟩ := hcol rfl
    rw [Y.text] at h hend hbe ⊢
    obtain ⟨its, hi, hfp, hl⟩ := parse_Yseq items (ip := []) (first := true) hok.2 hok.1 h hf hcol hend hbe (fun h => by cases h) rfl
    refine ⟨_, some (wsStr inp (n + (items.text false c true).length)), wsEnd inp (n + (items.text false c true).length),
      .coll (i := ()) (p := s.pre) hi (by rw [hfp, List.append_nil]) (.inl hfp), rfl, ?_, ?_⟩
    · have hlead : lead 0 inp s.inline s.tabular n = .ok .seq := by
        cases items with
        | nil => cases hok.1
        | cons before place key v r =>
          have hpl := hok.2
          have h : inp.drop n = DASH :: (place.sep c ++ (v.text (v.col place c) ++ (r.text false c false ++ rest))) := by
            rw [h]; simp [Ys.text]
          have h1 := drop_cons h
          have : isWs (peekAt inp (n + 1)) = true := by rw [peek_of h1]; exact Ys.sep_ws hpl c _
          rw [hs1]
          simp only [lead, peek_cons h, this, beq_self_eq_true, Bool.not_false, Bool.and_self, if_true]
          rfl
      have := (evalRules inp).seq (f := 0) (s := s) (n := n) hlead (by rw [hcol.indentFrom]; exact hl)
      rw [hcol.indentFrom] at this
      exact this
    · rfl
  | .coll true (.nil), c, n, rest, s, hok, h, hf, hcol, hbe, hs1, hs2, hpi => by
    simp only [Y.ok, Bool.and_eq_true, Bool.not_eq_true'] at hok
    cases hok.1
  | .coll true (.cons before place key v r), c, n, rest, s, hok, h, hf, hcol, hbe, hs1, hs2, hpi => by
    rw [Y.ok] at hok
    simp only [Bool.and_eq_true, Bool.not_eq_true'] at hok
    obtain ⟨hcol, hend⟩ := hcol rfl
    rw [Y.text] at h hend hbe ⊢
    have hx := Ys.ok_cons hok.2
    have h' : inp.drop n = key ++ COLON :: (place.sep c ++ (v.text (v.col place c) ++ (r.text true c false ++ rest))) := by
      rw [h]; simp [Ys.text]
    obtain ⟨its, hi, hfp, hl⟩ := parse_Ymap (.cons before place key v r) (ip := []) (first := true) (st := n) (k := ⟨.bare, key, key⟩) hok.2 hok.1 h hf hcol hend hbe
      (fun h => by cases h) before place key v r rfl ⟨rfl, rfl⟩
    refine ⟨_, some (wsStr inp (n + ((Ys.cons before place key v r).text true c true).length)),
      wsEnd inp (n + ((Ys.cons before place key v r).text true c true).length), .coll (i := ()) (p := s.pre) hi (by rw [hfp, List.append_nil]) (.inl hfp), rfl, ?_, ?_⟩
    · have := (evalRules inp).keyMap (f := 0) (s := s) (n := n)
        (by rw [hs1, hs2]; exact lead_key h' (hx.1 rfl).1 (Ys.sep_ws hok.2 c _))
        (by rw [hcol.indentFrom]; exact hpi rfl rfl) (by rw [hcol.indentFrom]; exact hl)
      rw [hcol.indentFrom] at this
      exact this
    · rfl
theorem parse_Yseq {inp : Bytes} {strict : Bool} : ∀ (xs : Ys) {c n : Nat} {rest : Bytes} {ip : Bytes} {first : Bool}, xs.ok strict false = true → xs.isNil = false →
    inp.drop n = xs.text false c true ++ rest → follows false xs.plainEnd rest → Col inp n c → End inp true c (wsEnd inp (n + (xs.text false c true).length)) →
    (∀ b, xs.endBlk = some b → BlkEnd inp b c (n + (xs.text false c true).length)) → (first = false → ip = newLine c xs.before) → lossy ip = ip →
    ∃ its : Items Unit, Ys.Fits false c first xs its ∧ its.firstPre = ip ∧
      BSE inp c ip n its (wsStr inp (n + (xs.text false c true).length)) (wsEnd inp (n + (xs.text false c true).length))
  | .nil, c, n, rest, ip, first, hok, hnil, h, hf, hcol, hend, hbe, hip, hlossy => by cases hnil
  | .cons before place key v r, c, n, rest, ip, first, hok, hnil, h, hf, hcol, hend, hbe, hip, hlossy => by
    obtain ⟨_, hpv, hbok, hrok⟩ := Ys.ok_cons hok
    obtain ⟨hplace, hvok⟩ := hpv.resolve_left (fun h => by cases h.1)
    simp only [Bool.false_and, Bool.or_false] at hplace
    have hlen : n + ((Ys.cons before place key v r).text false c true).length =
        n + 1 + (place.sep c).length + (v.text (v.col place c)).length + (r.text false c false).length := by
      simp [Ys.text]; omega
    rw [hlen] at hend hbe ⊢
    have h : inp.drop n = DASH :: (place.sep c ++ (v.text (v.col place c) ++ (r.text false c false ++ rest))) := by
      rw [h]; simp [Ys.text]
    have h1 := drop_cons h
    obtain ⟨w1, w2⟩ := ws_gap h1 (Place.sep_gap hplace c) (Y.start hvok _ _)
    have h2 := drop_add h1
    have h3 := drop_add h2
    have hvcol : v.isFlow = false → Col inp (n + 1 + (place.sep c).length) (v.col place c) := fun hfl => by
      rw [Y.col_coll hfl]; exact item_col h (fun _ => hcol) (by decide) hplace
    have hlt : v.isFlow = false → c < v.col place c := fun hfl => by
      rw [Y.col_coll hfl]; exact Place.lt_col (by rw [hfl] at hplace; exact hplace) c
    have hp0 : ∃ place0 : Place, place0.ok (v.isFlow || (false && v.isSeq)) = true ∧ (false = true → v.isFlow = false → place0.isHere = false) ∧
        place.sep c = place0.sep c ∧ (v.isFlow = false → place0.col c = place.col c) :=
      ⟨place, by simpa using hplace, (fun h => by cases h), rfl, fun _ => rfl⟩
    cases r with
    | nil =>
      simp only [Ys.text, List.length_nil, Nat.add_zero] at *
      obtain ⟨t, ws, m, ht, htp, hv, hw⟩ := parse_Y v (s := ⟨place.sep c, false, true, none⟩) hvok h2 (by simpa [Ys.plainEnd, Ys.isNil] using hf)
        (fun hfl => ⟨hvcol hfl, hend.mono (hlt hfl)⟩) (fun b hb => (hbe b (by simpa [Ys.endBlk, Ys.isNil] using hb)).mono (Y.le_col c place v)) rfl rfl (by simp)
      refine ⟨_, .cons (i := ()) (k := noKey) (ip := ip) hip hlossy (.inr (by rw [htp]; exact hp0)) ht .nil, rfl, ?_⟩
      have := (evalRules inp).bsLast (ind := c) (ip := ip) (n := n) (peek_cons h) (by rw [bump_cons h, w1, w2]; exact hv)
        (by
          rw [hw]
          rcases hend with he | he | he
          · right; simp only [he]; rw [peekAt_ge (Nat.le_refl _)]; decide
          · left; simp only; omega
          · right; exact he.2.2)
      rw [hw] at this
      exact this
    | cons before2 place2 key2 v2 r2 =>
      have hb2 := hbok
      simp only [Ys.beforeOk, afterOk, Bool.and_eq_true] at hb2
      have h3' : inp.drop (n + 1 + (place.sep c).length + (v.text (v.col place c)).length) =
          newLine c before2 ++ ((Ys.cons before2 place2 key2 v2 r2).text false c true ++ rest) := by
        rw [h3, Ys.text_false rfl]; simp [Ys.before]
      obtain ⟨u1, u2, h4, hc2⟩ := ws_line h3' hb2.1.1 (Ys.start hrok rfl c rest).1
      obtain ⟨t, ws, m, ht, htp, hv, hw⟩ := parse_Y v (s := ⟨place.sep c, false, true, none⟩) hvok h2 (follows_items hbok (fun h => by cases h))
        (fun hfl => ⟨hvcol hfl, .inr (.inl (by rw [u1, hc2.indentFrom]; exact hlt hfl))⟩)
        (blk_next h3' hb2.1.1 (Ys.start hrok rfl c rest).1 hb2.2.2 (Y.le_col c place v)) rfl rfl (by simp)
      rw [u1, u2] at hw
      have hlen2 : n + 1 + (place.sep c).length + (v.text (v.col place c)).length + (newLine c before2).length + ((Ys.cons before2 place2 key2 v2 r2).text false c true).length =
          n + 1 + (place.sep c).length + (v.text (v.col place c)).length + ((Ys.cons before2 place2 key2 v2 r2).text false c false).length := by
        rw [Ys.text_false rfl]; simp [Ys.before]; omega
      rw [← hlen2] at hend hbe ⊢
      obtain ⟨its, hi, hfp, hl⟩ := parse_Yseq (.cons before2 place2 key2 v2 r2) (ip := newLine c before2) (first := false) hrok rfl h4
        (by simpa [Ys.plainEnd, Ys.isNil] using hf) hc2 hend (fun b hb => hbe b (by simpa [Ys.endBlk, Ys.isNil] using hb)) (fun _ => rfl) (lossy_newLine c hb2.2.1)
      refine ⟨_, .cons (i := ()) (k := noKey) (ip := ip) hip hlossy (.inr (by rw [htp]; exact hp0)) ht hi, rfl, ?_⟩
      refine (evalRules inp).bsMore (ind := c) (ip := ip) (n := n) (peek_cons h) (by rw [bump_cons h, w1, w2]; exact hv)
        (by rw [hw]; exact hc2.indentFrom) (by rw [hw, peek_of h4]; simp [Ys.text]) (by rw [hw]; exact hl)
theorem parse_Ymap {inp : Bytes} {strict : Bool} : ∀ (xs : Ys) {c n : Nat} {rest : Bytes} {ip : Bytes} {first : Bool} {st : Nat} {k : RStr},
    xs.ok strict true = true → xs.isNil = false →
    inp.drop n = xs.text true c true ++ rest → follows false xs.plainEnd rest → Col inp n c → End inp false c (wsEnd inp (n + (xs.text true c true).length)) →
    (∀ b, xs.endBlk = some b → BlkEnd inp b c (n + (xs.text true c true).length)) → (first = false → ip = newLine c xs.before) →
    ∀ before place key v r, xs = .cons before place key v r → k.write = key ∧ k.id = key →
    ∃ its : Items Unit, Ys.Fits true c first xs its ∧ its.firstPre = ip ∧
      BME inp c st k ip (n + key.length) its (wsStr inp (n + (xs.text true c true).length)) (wsEnd inp (n + (xs.text true c true).length))
  | .nil, c, n, rest, ip, first, st, k, hok, hnil, h, hf, hcol, hend, hbe, hip, _, _, _, _, _, _, _ => by cases hnil
  | .cons before place key v r, c, n, rest, ip, first, st, k, hok, hnil, h, hf, hcol, hend, hbe, hip, _, _, _, _, _, rfl, hk => by
    obtain ⟨hkey, hpv, hbok, hrok⟩ := Ys.ok_cons hok
    obtain ⟨hkey, hhere⟩ := hkey rfl
    have hlen : n + ((Ys.cons before place key v r).text true c true).length =
        n + key.length + 1 + (place.sep c).length + (v.text (v.col place c)).length + (r.text true c false).length := by
      simp [Ys.text]; omega
    rw [hlen] at hend hbe ⊢
    have h0 : inp.drop n = key ++ COLON :: (place.sep c ++ (v.text (v.col place c) ++ (r.text true c false ++ rest))) := by
      rw [h]; simp [Ys.text]
    have hx := drop_add h0
    have h1 := drop_cons hx
    rcases hpv with ⟨_, rfl, rfl, rfl, before2, place2, key2, v2, r2, rfl, hbw⟩ | ⟨hplace, hvok⟩
    · have hb2 := hbok
      simp only [Ys.beforeOk, afterOk, Bool.and_eq_true] at hb2
      obtain ⟨hst, hnd⟩ := Ys.start hrok rfl c rest
      have h3' : inp.drop (n + key.length + 1) = newLine c before2 ++ ((Ys.cons before2 place2 key2 v2 r2).text true c true ++ rest) := by
        rw [h1, Ys.text_false rfl]; simp [Ys.before, Place.sep, Y.text]
      obtain ⟨u1, u2, h4, hc2⟩ := ws_line h3' hb2.1.1 hst
      have hk2 : keyBlock key2 = true := ((Ys.ok_cons hrok).1 rfl).1
      obtain ⟨k1, _, _, _, k5, k6⟩ := keyBlock_iff hk2
      have h4' : inp.drop (n + key.length + 1 + (newLine c before2).length) =
          key2 ++ COLON :: (place2.sep c ++ (v2.text (v2.col place2 c) ++ (r2.text true c false ++ rest))) := by
        rw [h4]; simp [Ys.text]
      have hlen2 : n + key.length + 1 + (newLine c before2).length + ((Ys.cons before2 place2 key2 v2 r2).text true c true).length =
          n + key.length + 1 + (Place.none.sep c).length + (Y.hole.text (Y.hole.col .none c)).length + ((Ys.cons before2 place2 key2 v2 r2).text true c false).length := by
        rw [Ys.text_false rfl]; simp [Ys.before, Place.sep, Y.text]; omega
      rw [← hlen2] at hend hbe ⊢
      obtain ⟨its, hi, hfp, hl⟩ := parse_Ymap (.cons before2 place2 key2 v2 r2) (ip := newLine c before2) (first := false)
        (st := n + key.length + 1 + (newLine c before2).length) (k := ⟨.bare, key2, key2⟩)
        hrok rfl h4 (by simpa [Ys.plainEnd, Ys.isNil] using hf) hc2 hend (fun b hb => hbe b (by simpa [Ys.endBlk, Ys.isNil] using hb))
        (fun _ => rfl) before2 place2 key2 v2 r2 rfl ⟨rfl, rfl⟩
      have hv : VE inp ⟨newLine c before2, false, true, some c⟩ (n + key.length + 1 + (newLine c before2).length) (.leaf () [] (.null .empty)) (some (newLine c before2))
          (n + key.length + 1 + (newLine c before2).length) :=
        (evalRules inp).keyNull (f := 0) (lead_key h4' hk2 (Ys.sep_ws hrok c rest)) rfl (by rw [hc2.indentFrom]; exact Nat.le_refl _)
      refine ⟨_, .cons (i := ()) (k := k) (ip := ip) hip hk (.inl rfl) (.hole (i := ())) hi, rfl, ?_⟩
      refine (evalRules inp).bmMore (ind := c) (st := st) (key := k) (ip := ip) (n := n + key.length) (ws := some (newLine c before2)) (peek_cons hx)
        (by rw [bump_cons hx, u1, u2]; exact hv) hc2.indentFrom (nextMappingKey_key h4' k5 k6 k1) hl
    obtain ⟨w1, w2⟩ := ws_gap h1 (Place.sep_gap hplace c) (Y.start hvok _ _)
    have h2 := drop_add h1
    have h3 := drop_add h2
    have hvcol : v.isFlow = false → Col inp (n + key.length + 1 + (place.sep c).length) (v.col place c) := by
      intro hfl
      rw [Y.col_coll hfl]
      refine item_col hx (fun hpl => ?_) (by decide) hplace
      rw [hhere hfl] at hpl
      cases hpl
    have hle := Y.le_col c place v
    have hlt : v.isFlow = false → v.isSeq = false → c < v.col place c := by
      intro h1 h2; rw [Y.col_coll h1]; rw [h1, h2] at hplace; exact Place.lt_col hplace c
    have hp0 : ∃ place0 : Place, place0.ok (v.isFlow || (true && v.isSeq)) = true ∧ (true = true → v.isFlow = false → place0.isHere = false) ∧
        place.sep c = place0.sep c ∧ (v.isFlow = false → place0.col c = place.col c) :=
      ⟨place, by simpa using hplace, (fun _ hfl => hhere hfl), rfl, fun _ => rfl⟩
    cases r with
    | nil =>
      simp only [Ys.text, List.length_nil, Nat.add_zero] at *
      have hend' := hend.imp id (fun h => h.resolve_right (fun h => by cases h.1))
      obtain ⟨t, ws, m, ht, htp, hv, hw⟩ := parse_Y v (s := ⟨place.sep c, false, true, some c⟩) hvok h2 (by simpa [Ys.plainEnd, Ys.isNil] using hf)
        (fun hfl => ⟨hvcol hfl, hend'.imp id (fun h => .inl (by omega))⟩)
        (fun b hb => (hbe b (by simpa [Ys.endBlk, Ys.isNil] using hb)).mono hle) rfl rfl (by rintro h1 h2 i hi; cases hi; exact hlt h1 h2)
      refine ⟨_, .cons (i := ()) (k := k) (ip := ip) hip hk (.inr (by rw [htp]; obtain ⟨q, q1, q2, q3⟩ := hp0; exact ⟨q, q1, fun _ => q2 trivial, q3⟩)) ht .nil, rfl, ?_⟩
      by_cases hi : indentFrom inp (wsEnd inp (n + key.length + 1 + (place.sep c).length + (v.text (v.col place c)).length)) = c
      · have he := hend'.resolve_right (by omega)
        have := (evalRules inp).bmEnd (ind := c) (st := st) (key := k) (ip := ip) (n := n + key.length) (m0 := inp.length) (peek_cons hx)
          (by rw [bump_cons hx, w1, w2]; exact hv) (by rw [hw]; exact hi) (by rw [hw]; simp only [he]; exact nextMappingKey_end)
        rw [hw] at this
        rw [he]
        exact this
      · have := (evalRules inp).bmLast (ind := c) (st := st) (key := k) (ip := ip) (n := n + key.length) (peek_cons hx)
          (by rw [bump_cons hx, w1, w2]; exact hv) (by rw [hw]; exact hi)
        rw [hw] at this
        exact this
    | cons before2 place2 key2 v2 r2 =>
      have hb2 := hbok
      simp only [Ys.beforeOk, afterOk, Bool.and_eq_true] at hb2
      have h3' : inp.drop (n + key.length + 1 + (place.sep c).length + (v.text (v.col place c)).length) =
          newLine c before2 ++ ((Ys.cons before2 place2 key2 v2 r2).text true c true ++ rest) := by
        rw [h3, Ys.text_false rfl]; simp [Ys.before]
      obtain ⟨hst, hnd⟩ := Ys.start hrok rfl c rest
      obtain ⟨u1, u2, h4, hc2⟩ := ws_line h3' hb2.1.1 hst
      obtain ⟨t, ws, m, ht, htp, hv, hw⟩ := parse_Y v (s := ⟨place.sep c, false, true, some c⟩) hvok h2 (follows_items hbok (fun h => by cases h))
        (fun hfl => ⟨hvcol hfl, .inr (by
          rw [u1, hc2.indentFrom]
          by_cases hq : c < v.col place c
          · exact .inl hq
          · refine .inr ⟨?_, by omega, by rw [peek_of h4]; exact hnd rfl⟩
            cases hsq : v.isSeq with
            | true => rfl
            | false => exact absurd (hlt hfl hsq) hq)⟩) (blk_next h3' hb2.1.1 hst hb2.2.2 hle) rfl rfl (by rintro h1 h2 i hi; cases hi; exact hlt h1 h2)
      rw [u1, u2] at hw
      have hlen2 : n + key.length + 1 + (place.sep c).length + (v.text (v.col place c)).length + (newLine c before2).length + ((Ys.cons before2 place2 key2 v2 r2).text true c true).length =
          n + key.length + 1 + (place.sep c).length + (v.text (v.col place c)).length + ((Ys.cons before2 place2 key2 v2 r2).text true c false).length := by
        rw [Ys.text_false rfl]; simp [Ys.before]; omega
      rw [← hlen2] at hend hbe ⊢
      have hk2 : keyBlock key2 = true := ((Ys.ok_cons hrok).1 rfl).1
      obtain ⟨k1, _, _, _, k5, k6⟩ := keyBlock_iff hk2
      have h4' : inp.drop (n + key.length + 1 + (place.sep c).length + (v.text (v.col place c)).length + (newLine c before2).length) =
          key2 ++ COLON :: (place2.sep c ++ v2.text (v2.col place2 c) ++ r2.text true c false ++ rest) := by
        rw [h4]; simp [Ys.text]
      obtain ⟨its, hi, hfp, hl⟩ := parse_Ymap (.cons before2 place2 key2 v2 r2) (ip := newLine c before2) (first := false)
        (st := n + key.length + 1 + (place.sep c).length + (v.text (v.col place c)).length + (newLine c before2).length) (k := ⟨.bare, key2, key2⟩)
        hrok rfl h4 (by simpa [Ys.plainEnd, Ys.isNil] using hf) hc2 hend (fun b hb => hbe b (by simpa [Ys.endBlk, Ys.isNil] using hb)) (fun _ => rfl) before2 place2 key2 v2 r2 rfl ⟨rfl, rfl⟩
      refine ⟨_, .cons (i := ()) (k := k) (ip := ip) hip hk (.inr (by rw [htp]; exact hp0)) ht hi, rfl, ?_⟩
      refine (evalRules inp).bmMore (ind := c) (st := st) (key := k) (ip := ip) (n := n + key.length) (peek_cons hx)
        (by rw [bump_cons hx, w1, w2]; exact hv)
        (by rw [hw]; exact hc2.indentFrom) (by rw [hw]; exact nextMappingKey_key h4' k5 k6 k1) (by rw [hw]; exact hl)
end

/-! ### What follows from fitting -/

theorem Items.label_firstPre (its : Items Unit) (k : Nat) : (its.label k).firstPre = its.firstPre := by cases its <;> rfl

mutual
theorem F.Fits.label : ∀ {x : F} {pre : Bytes} {t : Tree Unit} (k : Nat), x.Fits pre t → x.Fits pre (t.label k)
  | .atom a, _, _, k, .atom h => .atom h
  | .coll m items, _, _, k, .coll h => .coll (h.label (k + 1))
theorem Fs.Fits.label : ∀ {m : Bool} {xs : Fs} {its : Items Unit} (k : Nat), Fs.Fits m xs its → Fs.Fits m xs (its.label k)
  | m, .nil, _, k, .nil => .nil
  | m, .cons pre key sep v rest, .cons _ _ _ v' _, k, .cons h1 h2 h3 => .cons h1 (h2.label (k + 1)) (h3.label (k + 1 + v'.size))
end

mutual
theorem Y.Fits.label : ∀ {c : Nat} {y : Y} {pre : Bytes} {t : Tree Unit} (k : Nat), y.Fits c pre t → y.Fits c pre (t.label k)
  | c, .flow f, _, _, k, .flow h => .flow (h.label k)
  | c, .block b, _, _, k, .block h1 h2 => .block h1 h2
  | c, .hole, _, _, k, .hole => .hole
  | c, .coll m items, _, .node _ _ _ _ _ its, k, .coll h hp hq => .coll (h.label (k + 1)) (by rw [Items.label_firstPre]; exact hp) (by rw [Items.label_firstPre]; exact hq)
theorem Ys.Fits.label : ∀ {m : Bool} {c : Nat} {first : Bool} {xs : Ys} {its : Items Unit} (k : Nat), Ys.Fits m c first xs its →
    Ys.Fits m c first xs (its.label k)
  | m, c, _, .nil, _, k, .nil => .nil
  | m, c, _, .cons before place key v rest, .cons _ _ _ v' _, k, .cons h1 h2 h3 h4 h5 =>
    .cons h1 h2 (by rw [Tree.label_pre]; exact h3) (h4.label (k + 1)) (h5.label (k + 1 + v'.size))
end

theorem F.Fits.pre {α : Type} {x : F} {pre : Bytes} {t : Tree α} (h : x.Fits pre t) : t.pre = pre := by cases h <;> rfl

mutual
theorem F.Fits.render {α : Type} : ∀ {x : F} {pre : Bytes} {t : Tree α}, x.Fits pre t → t.render = x.text
  | .atom a, _, _, .atom h => by rw [Tree.render, F.text, h.1]
  | .coll m items, _, _, .coll h => by
    have := h.render
    rw [Tree.render, F.text, this]; cases m <;> rfl
theorem Fs.Fits.render {α : Type} : ∀ {m : Bool} {xs : Fs} {its : Items α}, Fs.Fits m xs its → its.render m (.inline false []) = xs.text m
  | m, .nil, _, .nil => rfl
  | m, .cons pre key sep v rest, .cons i _ k v' r, .cons h1 h2 h3 => by
    rw [Items.render, Fs.text, h2.render, h2.pre, h3.render]
    have hsep : sepOf (.inline false []) r.isNil = if rest.isNil then [] else [COMMA] := by cases h3 <;> rfl
    rw [hsep]
    cases m with
    | true => simp only [if_true] at h1 ⊢; obtain ⟨h1, _, rfl, rfl⟩ := h1; simp [h1]
    | false => simp only [Bool.false_eq_true, if_false] at h1 ⊢; obtain ⟨rfl, _, _, h1, _⟩ := h1; simp [lossy_valid h1]
end

mutual
theorem Y.Fits.text {α : Type} : ∀ {c : Nat} {y : Y} {pre : Bytes} {t : Tree α}, y.Fits c pre t → t.text = pre ++ y.text c
  | c, .flow f, _, _, .flow h => by rw [Y.text, Tree.text, h.render, h.pre]
  | c, .block b, _, _, .block h _ => by rw [Y.text, Tree.text, Tree.render, ← h]; rfl
  | c, .hole, _, _, .hole => rfl
  | c, .coll m items, _, .node _ _ _ _ _ its, .coll h hp _ => by
    rw [Tree.text, Tree.render, Y.text, h.render, hp]
    cases h with
    | nil => simp [openOf, closeOf, Items.firstPre]
    | cons => simp [openOf, closeOf, Items.firstPre]
theorem Ys.Fits.render {α : Type} : ∀ {m : Bool} {c : Nat} {first : Bool} {xs : Ys} {its : Items α}, Ys.Fits m c first xs its →
    its.render m .block = (if first then its.firstPre else []) ++ xs.text m c first
  | m, c, first, .nil, _, .nil => by cases first <;> rfl
  | m, c, first, .cons before place key v rest, .cons i ip k v' r, .cons h1 h2 h3 h4 h5 => by
    have h := h4.text
    rw [Tree.text] at h
    rw [Items.render, Ys.text, h5.render]
    have hip : (if first then ip else []) ++ (if first then [] else newLine c before) = ip := by
      cases first with
      | true => simp
      | false => simp [h1 rfl]
    have : ∀ z : Bytes, v'.pre ++ (v'.render ++ z) = place.sep c ++ (v.text (v.col place c) ++ z) := by
      intro z; rw [← List.append_assoc, h, List.append_assoc]
    simp only [Items.firstPre, List.append_assoc, this]
    rw [← List.append_assoc (if first then ip else []), hip]
    cases m with
    | true => simp only [if_true] at h2 ⊢; simp [h2.1, sepOf]
    | false => simp only [Bool.false_eq_true, if_false] at h2 ⊢; simp [h2, sepOf]
end

end Verif
