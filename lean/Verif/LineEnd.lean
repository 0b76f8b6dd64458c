import Verif.Again
import Verif.Fault
/-
Block mappings with one key and one line of text for each value.
-/
namespace Verif

/-! ### Specification -/

/-- The text without the white space at its end. -/
def trimEnd (v : Bytes) : Bytes := (v.reverse.dropWhile isOtherWs).reverse

/-- How the text after a key is read: up to the end of the line, except that there may be white space after a number. -/
def lineValue (v : Bytes) : AnyV := if isNumber (trimEnd v) then .number (trimEnd v) else plainValue v

/-- The text after a key, up to the end of the line, if it is not in quotes or brackets and there is no key in it. -/
def restOk (v : Bytes) : Bool := !v.isEmpty && !isIndicator (v.headD 0) && !dashed v && !v.contains NL && noKeySep v

/-- A key and a text on a line. -/
def lineOf (e : Bytes × Bytes) : Bytes := e.1 ++ (b! ": " ++ (e.2 ++ [NL]))

/-- The keys with the values of the lines. -/
def lineEntries : List (Bytes × Bytes) → Entries
  | [] => .nil
  | (k, v) :: rest => .cons k (.scalar (lineValue v)) (lineEntries rest)

/-! ### Lemmas -/

theorem lineEntries_list : ∀ l : List (Bytes × Bytes), (lineEntries l).list = l.map fun e => (e.1, Content.scalar (lineValue e.2))
  | [] => rfl
  | (k, v) :: rest => by rw [lineEntries, Entries.list, lineEntries_list rest]; rfl

theorem trimEnd_split (v : Bytes) : ∃ w, v = trimEnd v ++ w ∧ ∀ b ∈ w, isOtherWs b = true := by
  refine ⟨(v.reverse.takeWhile isOtherWs).reverse, ?_, ?_⟩
  · rw [trimEnd, ← List.reverse_append, List.takeWhile_append_dropWhile, List.reverse_reverse]
  · intro b hb
    exact List.all_eq_true.1 List.all_takeWhile b (List.mem_reverse.1 hb)

theorem number_noWs {s : Bytes} (h : isNumber s = true) : ∀ b ∈ s, isOtherWs b = false := by
  intro b hb
  rcases isNumber_chars h b hb with h | rfl
  · cases hw : isOtherWs b with
    | false => rfl
    | true =>
      simp only [isOtherWs, Bool.or_eq_true, beq_iff_eq] at hw
      rcases hw with ((rfl | rfl) | rfl) | rfl <;> exact absurd h (by decide)
  · rfl

/-- White space after a text without white space. -/
theorem trimEnd_append {s w : Bytes} (hs : ∀ b ∈ s, isOtherWs b = false) (hw : ∀ b ∈ w, isOtherWs b = true) : trimEnd (s ++ w) = s := by
  have h1 : ∀ l : Bytes, (∀ b ∈ l, isOtherWs b = true) → ∀ r, (l ++ r).dropWhile isOtherWs = r.dropWhile isOtherWs := by
    intro l
    induction l with
    | nil => intros; rfl
    | cons b l ih =>
      intro h r
      rw [List.cons_append, List.dropWhile_cons, if_pos (h b (List.mem_cons_self ..))]
      exact ih (fun c hc => h c (List.mem_cons_of_mem _ hc)) r
  rw [trimEnd, List.reverse_append, h1 _ fun b hb => hw b (List.mem_reverse.1 hb)]
  cases hr : s.reverse with
  | nil => rw [← List.reverse_reverse s, hr]; rfl
  | cons b r =>
    have := hs b (List.mem_reverse.1 (by rw [hr]; exact List.mem_cons_self ..))
    rw [List.dropWhile_cons, if_neg (by rw [this]; decide), ← hr, List.reverse_reverse]

theorem full_drop {inp : Bytes} {n : Nat} {w s : Bytes} (h : inp.drop n = w ++ s) (hn : n ≤ inp.length) (hw : ∀ b ∈ w, isWs b = true) (hs : stopWs s) :
    FullGap inp n (n + w.length) := by
  have := FullGap.ws hn
  rwa [wsEnd, h, wsGo_append hw hs] at this

theorem restOk_mem {v : Bytes} (h : restOk v = true) :
    v ≠ [] ∧ isIndicator (v.headD 0) = false ∧ dashed v = false ∧ NL ∉ v ∧ noKeySep v = true := by
  simpa [restOk, and_assoc] using h

/-- The text after a key is a scalar. -/
theorem rest_token {v r : Bytes} (h : restOk v = true) : ∃ t w, v = t ++ w ∧ (∀ b ∈ w, isOtherWs b = true) ∧ t ≠ [] ∧
    Token false (w ++ NL :: r) t (lineValue v) := by
  obtain ⟨h1, h2, h3, h4, h5⟩ := restOk_mem h
  unfold lineValue
  split
  · next hn =>
    obtain ⟨w, e, hw⟩ := trimEnd_split v
    refine ⟨trimEnd v, w, e, hw, (fun h0 => by rw [h0] at hn; exact absurd hn (by decide)), .number hn ?_⟩
    have h1 : ∀ l : Bytes, (∀ b ∈ l, isOtherWs b = true) → ∀ r, (l ++ r).dropWhile isOtherWs = r.dropWhile isOtherWs := by
      intro l
      induction l with
      | nil => intros; rfl
      | cons b l ih =>
        intro h r
        rw [List.cons_append, List.dropWhile_cons, if_pos (h b (List.mem_cons_self ..))]
        exact ih (fun c hc => h c (List.mem_cons_of_mem _ hc)) r
    simp only [Bool.false_eq_true, if_false]
    rw [lineEnds, h1 w hw, List.dropWhile_cons, if_neg (by decide)]
    rfl
  · next hn =>
    refine ⟨v, [], (List.append_nil v).symm, by simp, h1, .plain ?_ ?_⟩
    · intro k hk
      refine ⟨rfl, ?_⟩
      cases hl : lineEnds (v.drop k) with
      | false => rfl
      | true =>
        exfalso
        apply hn
        have hw : ∀ b ∈ v.drop k, isOtherWs b = true := by
          have hmem : NL ∉ v.drop k := fun h => h4 (List.mem_of_mem_drop h)
          unfold lineEnds at hl
          cases hd : (v.drop k).dropWhile isOtherWs with
          | nil =>
            intro b hb
            rw [← List.takeWhile_append_dropWhile (p := isOtherWs) (l := v.drop k), hd, List.append_nil] at hb
            exact List.all_eq_true.1 List.all_takeWhile b hb
          | cons b r =>
            rw [hd] at hl
            simp only [List.headD_cons, beq_iff_eq] at hl
            subst hl
            exact absurd ((List.dropWhile_sublist _).mem (by rw [hd]; exact List.mem_cons_self ..)) hmem
        have := trimEnd_append (number_noWs hk) hw
        rw [List.take_append_drop] at this
        rw [this]
        exact hk
    · have hd : dashes (v ++ ([] ++ NL :: r)) = false := by
        cases v with
        | nil => exact absurd rfl h1
        | cons b v =>
          cases v with
          | nil =>
            simp only [dashed, List.head?_cons, List.tail_cons, List.isEmpty_nil, Bool.true_or, Bool.and_true, beq_eq_false_iff_ne, ne_eq, Option.some.injEq] at h3
            simp [dashes, h3]
          | cons c v =>
            simpa [dashed, dashes] using h3
      rw [plainText, h2, if_neg (by decide), hd, h5]
      simpa using h4

theorem column_nl {inp : Bytes} {n : Nat} (h : inp[n]? = some NL) : columnAt inp (n + 1) = 0 := by
  unfold columnAt
  rw [List.take_add_one, h]
  simp only [Option.toList_some, List.reverse_append, List.reverse_cons, List.reverse_nil, List.nil_append, List.cons_append]
  rw [List.takeWhile_cons, if_neg (by decide)]
  rfl

theorem keyBlock_mem {k : Bytes} (h : keyBlock k = true) :
    k ≠ [] ∧ isIndicator (k.headD 0) = false ∧ k.headD 0 ≠ DASH ∧ NL ∉ k ∧ COLON ∉ k ∧ 0 ∉ k := by
  simpa [keyBlock, and_assoc] using h

theorem stop_of {k r : Bytes} (h : k ≠ []) (hi : isIndicator (k.headD 0) = false) : stopWs (k ++ r) := by
  cases k with
  | nil => exact absurd rfl h
  | cons b k =>
    simp only [isIndicator, List.headD_cons, Bool.or_eq_false_iff, beq_eq_false_iff_ne] at hi
    exact ⟨hi.1.1.1.1.1.1.1, hi.1.1.1.1.1.1.2⟩

theorem head_line {inp : Bytes} {first : Bool} {k r : Bytes} {lo : Nat} (hk : keyBlock k = true) (h : inp.drop lo = k ++ (b! ": " ++ r)) :
    Head inp first (some k) lo (lo + k.length + 1) := by
  obtain ⟨k1, k2, k3, k4, k5, k6⟩ := keyBlock_mem hk
  have hd := drop_add h
  have hc : inp[lo + k.length]? = some COLON := by
    rw [← List.head?_drop, hd]; rfl
  have hs : slice inp lo (lo + k.length) = k := slice_of h
  refine ⟨lo + k.length, rfl, ?_⟩
  cases first with
  | false =>
    simp only [Bool.false_eq_true, if_false]
    refine ⟨?_, hc, hs, k5, k6⟩
    have : 0 < k.length := List.length_pos_iff.2 k1
    omega
  | true =>
    simp only [if_true]
    have hg : inp.getD lo 0 = k.headD 0 := by
      rw [List.getD_eq_getElem?_getD, ← List.head?_drop, h]
      cases k with
      | nil => exact absurd rfl k1
      | cons b k => rfl
    refine ⟨by omega, hc, .inr ⟨hs, by rw [hg]; exact k2, ?_, k4, ⟨hc, .inl ?_⟩, ?_⟩⟩
    · rw [h]
      cases k with
      | nil => exact absurd rfl k1
      | cons b k =>
        simp only [List.headD_cons] at k3
        simp [dashes, k3]
    · rw [List.getD_eq_getElem?_getD, ← List.head?_drop, ← List.drop_drop, hd]; rfl
    · intro p h1 h2 h3
      apply k5
      have := h3.1
      rw [← hs]
      unfold slice
      rw [List.mem_iff_getElem?]
      refine ⟨p - lo, ?_⟩
      rw [List.getElem?_take, if_pos (by omega), List.getElem?_drop, show lo + (p - lo) = p by omega]
      exact this

theorem lines_rows {inp : Bytes} : ∀ (l : List (Bytes × Bytes)) (first : Bool) (lo : Nat), (∀ e ∈ l, keyBlock e.1 = true ∧ restOk e.2 = true) → l ≠ [] →
    columnAt inp lo = 0 → inp.drop lo = l.flatMap lineOf →
    ∃ hi, Rows inp contentView 0 first (l.map fun e => (some e.1, Content.scalar (lineValue e.2))) lo hi ∧ FullGap inp hi inp.length
  | [], _, _, _, h, _, _ => absurd rfl h
  | (k, v) :: rest, first, lo, hl, _, hc, hd => by
    obtain ⟨hk, hv⟩ := hl _ (List.mem_cons_self ..)
    obtain ⟨t, w, rfl, hw, ht, htok⟩ := rest_token (r := rest.flatMap lineOf) hv
    have hd1 : inp.drop lo = k ++ (b! ": " ++ (t ++ (w ++ NL :: rest.flatMap lineOf))) := by
      rw [hd]
      simp [lineOf]
    have hd2 : inp.drop (lo + k.length + 1) = [SP] ++ (t ++ (w ++ NL :: rest.flatMap lineOf)) := by
      have := drop_add hd1
      exact drop_add (x := [COLON]) this
    have hd3 := drop_add hd2
    have hd4 := drop_add hd3
    have hd5 : inp.drop (lo + k.length + 1 + [SP].length + t.length + (w ++ [NL]).length) = rest.flatMap lineOf :=
      drop_add (by rw [hd4]; simp)
    have hlt : lo + k.length + 1 + [SP].length + t.length + w.length < inp.length := lt_of_cons (drop_add hd4)
    have hnl : inp[lo + k.length + 1 + [SP].length + t.length + w.length]? = some NL := by
      rw [← List.head?_drop, drop_add hd4]; rfl
    obtain ⟨v1, v2, -, -, -⟩ := restOk_mem hv
    have hstop : stopWs (t ++ (w ++ NL :: rest.flatMap lineOf)) := by
      refine stop_of ht ?_
      cases t with
      | nil => exact absurd rfl ht
      | cons b t => exact v2
    have g1 : FullGap inp (lo + k.length + 1) (lo + k.length + 1 + [SP].length) := full_drop hd2 (by omega) (by decide) hstop
    have hsit : Sits inp contentView (.item 0 (some k)) (.scalar (lineValue (t ++ w))) (lo + k.length + 1 + [SP].length) (lo + k.length + 1 + [SP].length + t.length) := by
      refine .scalar rfl (by omega) (by omega) ?_
      rw [slice_of hd3, hd4]
      exact htok
    have hws : ∀ b ∈ w ++ [NL], isWs b = true := by
      intro b hb
      rcases List.mem_append.1 hb with hb | hb
      · rw [isWs, hw b hb]; rfl
      · rw [List.mem_singleton.1 hb]; rfl
    have hsp : inp.drop (lo + k.length + 1 + [SP].length + t.length) = (w ++ [NL]) ++ rest.flatMap lineOf := by rw [hd4]; simp
    cases rest with
    | nil =>
      have g2 := full_drop hsp (by omega) hws stopWs_nil
      have he : lo + k.length + 1 + [SP].length + t.length + (w ++ [NL]).length = inp.length := by
        have h := List.drop_eq_nil_iff.1 hd5
        have := g2.le.2
        omega
      rw [he] at g2
      refine ⟨_, .last hc (head_line hk hd1) g1 hsit g2 ?_, g2⟩
      rintro ⟨-, h⟩
      simp only [Option.isSome_some, if_true] at h
      exact h.2 (by rw [List.getD_eq_getElem?_getD, List.getElem?_eq_none (Nat.le_refl _)]; rfl)
    | cons e rest =>
      have hke := hl e (by simp)
      obtain ⟨e1, e2, -⟩ := keyBlock_mem hke.1
      have g2 := full_drop hsp (by omega) hws (by
        rw [List.flatMap_cons, lineOf, List.append_assoc]
        exact stop_of e1 e2)
      have hcol : columnAt inp (lo + k.length + 1 + [SP].length + t.length + (w ++ [NL]).length) = 0 := by
        rw [List.length_append, ← Nat.add_assoc]
        exact column_nl hnl
      obtain ⟨hi, r1, r2⟩ := lines_rows (e :: rest) false _ (fun e' he' => hl e' (List.mem_cons_of_mem _ he')) (by simp) hcol hd5
      exact ⟨hi, .more hc (head_line hk hd1) g1 hsit g2 r1, r2⟩

/-- Lines with a key and a text each are read as a mapping. -/
theorem lines_accepts {l : List (Bytes × Bytes)} (hl : ∀ e ∈ l, keyBlock e.1 = true ∧ restOk e.2 = true) (hne : l ≠ []) (hp : (l.flatMap lineOf).headD 0 ≠ PCT) :
    Accepts (l.flatMap lineOf) (.map (lineEntries l)) := by
  obtain ⟨hi, h1, h2⟩ := lines_rows (inp := l.flatMap lineOf) l true 0 hl hne rfl rfl
  refine ⟨0, hi, Nat.zero_le _, ?_, .keys ⟨_, rfl, rfl⟩ ?_ ?_, h2⟩
  · obtain ⟨⟨k, v⟩, rest, rfl⟩ := List.exists_cons_of_ne_nil hne
    obtain ⟨k1, k2, k3, -⟩ := keyBlock_mem (hl _ (List.mem_cons_self ..)).1
    obtain ⟨b, k, rfl⟩ := List.exists_cons_of_ne_nil k1
    have hs : skipBlank false (((b :: k, v) :: rest).flatMap lineOf) = ((b :: k, v) :: rest).flatMap lineOf := by
      have := stop_of (r := []) k1 k2
      rw [List.flatMap_cons, lineOf, List.cons_append, List.cons_append, skipBlank, if_neg (by simpa using this.2), if_neg (by rw [show isWs b = false from this.1]; decide)]
    rw [body_eq, hs, List.drop_zero]
    rw [hasHeader, hs]
    simp only [List.headD_cons] at k3
    simp only [Bool.or_eq_false_iff, beq_eq_false_iff_ne]
    refine ⟨hp, ?_⟩
    intro h0
    rw [List.flatMap_cons, lineOf, List.cons_append, List.cons_append, List.take_succ_cons] at h0
    exact k3 (List.cons.inj h0).1
  · exact ⟨by decide, fun _ h => by cases h⟩
  · rw [lineEntries_list, List.map_map]
    exact h1

end Verif
