import Verif.LiesMove
import Verif.PutInner
/-
The places of the values of a tree when the text after them is another.  Used in proofs only; nothing here is part of the Rust code.
-/
namespace Verif

/-- The value of a key starts after a colon. -/
def FromColon (inp : Bytes) (s : Spot) (a : Nat) : Prop := ∀ c, s = .under c → ∃ b, inp[b]? = some COLON ∧ a = b + 1

theorem FromColon.flow {inp : Bytes} {a : Nat} : FromColon inp .flow a := nofun

theorem FromColon.item {inp : Bytes} {first : Bool} {k : Option Bytes} {lo a c : Nat} (h : Head inp first k lo a) : FromColon inp (.item c k) a := by
  cases k with
  | none => exact nofun
  | some k =>
    obtain ⟨q, rfl, h⟩ := h
    refine fun _ _ => ⟨q, ?_, rfl⟩
    cases first with
    | true => exact h.2.1
    | false => exact h.2.1

theorem Joint.cellSpace {x y y' : Bytes} {m blk last : Bool} {e start n : Nat} (h : n ≤ x.length) :
    Verif.cellSpace (x ++ y') m blk last e start n = Verif.cellSpace (x ++ y) m blk last e start n := by
  unfold Verif.cellSpace
  split
  · exact Joint.slice (by omega)
  · exact Joint.slice h

theorem Joint.cellKey {x y y' : Bytes} {m : Bool} {n a : Nat} (h : a ≤ x.length) : Verif.cellKey (x ++ y') m n a = Verif.cellKey (x ++ y) m n a := by
  unfold Verif.cellKey
  split
  · rw [Joint.slice (by omega)]
  · rfl

theorem Lies.start_le {inp : Bytes} {a e b : Nat} {t : Tree Unit} (h : Lies inp .flow a t e) (h0 : FullGap inp a b) : b ≤ e := by
  cases h with
  | scalar h1 h2 _ _ _ => rw [h0.unique h1]; exact h2
  | «open» h1 _ _ _ _ => exact h0.le.2
  | lines h1 h2 _ _ _ => rw [h0.unique h1]; exact h2.le
  | dashes _ h2 _ => exact absurd rfl h2
  | keys _ h2 _ => exact absurd rfl h2.1
  | brackets h1 _ h3 h4 _ => have := h3.le; have := h4.le; rw [h0.unique h1]; omega
  | braces h1 _ h3 h4 _ => have := h3.le; have := h4.le; rw [h0.unique h1]; omega

mutual
theorem Lies.before {x y y' : Bytes} (H : Ahead x y y') (hf : followed (x ++ y) = true) {s : Spot} {t : Tree Unit} {a e q : Nat} :
    Lies (x ++ y) s a t e → FullGap (x ++ y) e q → e < x.length → q ≤ x.length → (s = .flow ∨ q < x.length) → FromColon (x ++ y) s a → Lies (x ++ y') s a t e
  | .scalar h1 h2 h3 h4 h5, hg, hh, hq, hs, hk => by
    have := hg.le
    rw [← Joint.slice (t' := y') (by omega)]
    exact .scalar (H.full h1 (by omega)) h2 (Nat.le_of_lt (H.lt_length' (by omega))) (H.token hh h4) (by rw [h5]; exact (Joint.slice (by omega)).symm)
  | .open h1 h2 h3 h4 h5, hg, hh, hq, hs, hk => by
    have := hg.le
    have := H.lt_length (Nat.le_refl _)
    omega
  | .lines h1 h2 h3 h4 h5, hg, hh, hq, hs, hk => by
    have := hg.le
    have := h2.le
    rw [← Joint.slice (t' := y') (by omega)]
    refine .lines (H.full h1 (by omega)) (H.block h2 hg hh hq) h3 (Nat.le_of_lt (H.lt_length' (by omega))) ?_
    rcases h5 with h5 | ⟨h5, -⟩
    · exact .inl (by rw [h5]; exact (Joint.slice (by omega)).symm)
    · rw [hf] at h5; cases h5
  | .empty h1 h2 h3, hg, hh, hq, hs, hk => by
    obtain rfl := h1.unique hg
    have hq := hs.resolve_left (by simp)
    rw [← Joint.column (t' := y') (by omega)] at h3
    obtain ⟨b, h5, rfl⟩ := hk _ rfl
    obtain ⟨k', q', h4⟩ := H.keys b _ _ _ h5 h1 (by omega) h2
    exact .empty (H.full h1 (by omega)) h4 h3
  | .dashes h1 h2 h3, hg, hh, hq, hs, hk => by
    have h4 := h3.le
    have := hg.le
    have := h3.before H hf hg (hs.resolve_left h2)
    rw [← Joint.column (t' := y') (by omega)] at this ⊢
    rw [← Joint.slice (t' := y') (by omega)]
    exact .dashes (H.full h1 (by omega)) h2 this
  | .keys h1 h2 h3, hg, hh, hq, hs, hk => by
    have h4 := h3.le
    have := hg.le
    have := h3.before H hf hg (hs.resolve_left h2.1)
    rw [← Joint.column (t' := y') (by omega)] at this h2 ⊢
    rw [← Joint.slice (t' := y') (by omega)]
    exact .keys (H.full h1 (by omega)) h2 this
  | .brackets h1 h2 h3 h4 h5, hg, hh, hq, hs, hk => by
    have := h1.le
    have h6 := h4.le
    have h7 := h3.le
    have := hg.le
    have h8 := h4.before H hf (by omega)
    rw [← Joint.slice (t' := y') (by omega)] at h8
    rw [← Joint.slice (t' := y') (by omega)]
    exact .brackets (H.full h1 (by omega)) (by rw [Joint.get (by omega)]; exact h2) (H.full h3 (by omega)) h8 h5
  | .braces h1 h2 h3 h4 h5, hg, hh, hq, hs, hk => by
    have := h1.le
    have h6 := h4.le
    have h7 := h3.le
    have := hg.le
    have h8 := h4.before H hf (by omega)
    rw [← Joint.slice (t' := y') (by omega)] at h8
    rw [← Joint.slice (t' := y') (by omega)]
    exact .braces (H.full h1 (by omega)) (by rw [Joint.get (by omega)]; exact h2) (H.full h3 (by omega)) h8 h5
theorem LiesRows.before {x y y' : Bytes} (H : Ahead x y y') (hf : followed (x ++ y) = true) {m : Bool} {c : Nat} {first : Bool} {ip : Bytes} {items : Items Unit}
    {lo hi q : Nat} : LiesRows (x ++ y) m c first ip lo items hi → FullGap (x ++ y) hi q → q < x.length → LiesRows (x ++ y') m c first ip lo items hi
  | .last h1 h2 h3 h4 h5 h6, hg, hq => by
    obtain rfl := h5.unique hg
    have h7 := h4.le
    have h9 := h2.lt
    have h10 := hg.le
    exact .last (by rw [Joint.column (by omega)]; exact h1) (H.head h2 (by omega)) (by rw [h3]; exact (Joint.slice (by omega)).symm) (h4.before H hf hg (by omega) (by omega) (.inr hq) (.item h2))
      (H.full hg (by omega)) (Ahead.goes hq h6)
  | .more h1 h2 h3 h4 h5 h6, hg, hq => by
    have h7 := h4.le
    have h9 := h2.lt
    have h10 := hg.le
    have h11 := h6.le
    have h12 := h5.le
    have h13 := h6.before H hf hg hq
    rw [← Joint.slice (t' := y') (by omega)] at h13
    exact .more (by rw [Joint.column (by omega)]; exact h1) (H.head h2 (by omega)) (by rw [h3]; exact (Joint.slice (by omega)).symm) (h4.before H hf h5 (by omega) (by omega) (.inr (by omega)) (.item h2))
      (H.full h5 (by omega)) h13
theorem LiesCells.before {x y y' : Bytes} (H : Ahead x y y') (hf : followed (x ++ y) = true) {m last : Bool} {w : Bytes} {items : Items Unit} {tr : Bool} {w' : Bytes} {n hi : Nat} :
    LiesCells (x ++ y) m last w n items tr w' hi → hi < x.length → LiesCells (x ++ y') m last w n items tr w' hi
  | .none h, hq => .none (by rw [Joint.get hq]; exact h)
  | .final h1 h2 h3 h4 h5 h6, hq => by
    have h7 := h4.le
    have h9 := h2.le
    have h10 := h5.le
    rw [← Joint.slice (t' := y') (by omega)]
    exact .final (by unfold Opens; rw [Joint.getD (by omega)]; exact h1) (Joint.cellHead h2 (by omega)) (fun hm => (h3 hm).trans (Joint.cellKey (by omega)).symm)
      (h4.before H hf h5 (by omega) (by omega) (.inl rfl) .flow) (H.full h5 (by omega)) (by rw [Joint.get hq]; exact h6)
  | .cell (b := b) (start := start) h1 h2 h3 h0 h4 h5 h6 h8, hq => by
    have h7 := h4.le
    have h9 := h2.le
    have h10 := h6.le
    obtain ⟨⟨q, h11, h12⟩, h13⟩ := H.nextCellIn (by omega) h5
    have h14 := h11.le
    have hb : b < x.length := by have := h4.start_le h0; omega
    have h15 := h6.before H hf hq
    have hat : atBlock (x ++ y') b = atBlock (x ++ y) b := by unfold atBlock; rw [Joint.getD hb]
    rw [← Joint.cellSpace (y' := y') (by omega), ← hat] at h15
    rw [← hat] at h13
    exact .cell (by unfold Opens; rw [Joint.getD (by omega)]; exact h1) (Joint.cellHead h2 (by omega)) (fun hm => (h3 hm).trans (Joint.cellKey (by omega)).symm) (H.full h0 (by omega))
      (h4.before H hf h11 (by omega) (by omega) (.inl rfl) .flow) h13 h15 h8
end

mutual
theorem Lies.inner {x y y' : Bytes} (H : KeysStay x y y') (hf : followed (x ++ y) = true) {s : Spot} {t : Tree Unit} {a e q : Nat} :
    Lies (x ++ y) s a t e → FullGap (x ++ y) e q → q < x.length → FromColon (x ++ y) s a → Lies (x ++ y') s a t e
  | .scalar h1 h2 h3 h4 h5, hg, hq, hk => by
    have := hg.le
    rw [← Joint.slice (t' := y') (by omega)]
    exact .scalar (Inner.full h1 (by omega)) h2 (Nat.le_of_lt (Inner.len (by omega) _)) (Inner.token hg hq h4) (by rw [h5]; exact (Joint.slice (by omega)).symm)
  | .open h1 h2 h3 h4 h5, hg, hq, hk => by
    have := hg.le
    have := Inner.len hq y
    omega
  | .lines h1 h2 h3 h4 h5, hg, hq, hk => by
    have := hg.le
    have := h2.le
    rw [← Joint.slice (t' := y') (by omega)]
    refine .lines (Inner.full h1 (by omega)) (Inner.block h2 hg hq) h3 (Nat.le_of_lt (Inner.len (by omega) _)) ?_
    rcases h5 with h5 | ⟨h5, -⟩
    · exact .inl (by rw [h5]; exact (Joint.slice (by omega)).symm)
    · rw [hf] at h5; cases h5
  | .empty h1 h2 h3, hg, hq, hk => by
    obtain rfl := h1.unique hg

    rw [← Joint.column (t' := y') (by omega)] at h3
    obtain ⟨b, h5, rfl⟩ := hk _ rfl
    obtain ⟨k', q', h4⟩ := H b _ _ _ h5 h1 (by omega) h2
    exact .empty (Inner.full h1 (by omega)) h4 h3
  | .dashes h1 h2 h3, hg, hq, hk => by
    have h4 := h3.le
    have := hg.le
    have := h3.inner H hf hg hq
    rw [← Joint.column (t' := y') (by omega)] at this ⊢
    rw [← Joint.slice (t' := y') (by omega)]
    exact .dashes (Inner.full h1 (by omega)) h2 this
  | .keys h1 h2 h3, hg, hq, hk => by
    have h4 := h3.le
    have := hg.le
    have := h3.inner H hf hg hq
    rw [← Joint.column (t' := y') (by omega)] at this h2 ⊢
    rw [← Joint.slice (t' := y') (by omega)]
    exact .keys (Inner.full h1 (by omega)) h2 this
  | .brackets h1 h2 h3 h4 h5, hg, hq, hk => by
    have := h1.le
    have h6 := h4.le
    have h7 := h3.le
    have := hg.le
    have h8 := h4.inner H hf (by omega)
    rw [← Joint.slice (t' := y') (by omega)] at h8
    rw [← Joint.slice (t' := y') (by omega)]
    exact .brackets (Inner.full h1 (by omega)) (by rw [Joint.get (by omega)]; exact h2) (Inner.full h3 (by omega)) h8 h5
  | .braces h1 h2 h3 h4 h5, hg, hq, hk => by
    have := h1.le
    have h6 := h4.le
    have h7 := h3.le
    have := hg.le
    have h8 := h4.inner H hf (by omega)
    rw [← Joint.slice (t' := y') (by omega)] at h8
    rw [← Joint.slice (t' := y') (by omega)]
    exact .braces (Inner.full h1 (by omega)) (by rw [Joint.get (by omega)]; exact h2) (Inner.full h3 (by omega)) h8 h5
theorem LiesRows.inner {x y y' : Bytes} (H : KeysStay x y y') (hf : followed (x ++ y) = true) {m : Bool} {c : Nat} {first : Bool} {ip : Bytes} {items : Items Unit}
    {lo hi q : Nat} : LiesRows (x ++ y) m c first ip lo items hi → FullGap (x ++ y) hi q → q < x.length → LiesRows (x ++ y') m c first ip lo items hi
  | .last h1 h2 h3 h4 h5 h6, hg, hq => by
    obtain rfl := h5.unique hg
    have h7 := h4.le
    have h9 := h2.lt
    have h10 := hg.le
    exact .last (by rw [Joint.column (by omega)]; exact h1) (Inner.head h2 (by omega)) (by rw [h3]; exact (Joint.slice (by omega)).symm) (h4.inner H hf hg hq (.item h2))
      (Inner.full hg (by omega)) (Ahead.goes hq h6)
  | .more h1 h2 h3 h4 h5 h6, hg, hq => by
    have h7 := h4.le
    have h9 := h2.lt
    have h10 := hg.le
    have h11 := h6.le
    have h12 := h5.le
    have h13 := h6.inner H hf hg hq
    rw [← Joint.slice (t' := y') (by omega)] at h13
    exact .more (by rw [Joint.column (by omega)]; exact h1) (Inner.head h2 (by omega)) (by rw [h3]; exact (Joint.slice (by omega)).symm) (h4.inner H hf h5 (by omega) (.item h2))
      (Inner.full h5 (by omega)) h13
theorem LiesCells.inner {x y y' : Bytes} (H : KeysStay x y y') (hf : followed (x ++ y) = true) {m last : Bool} {w : Bytes} {items : Items Unit} {tr : Bool} {w' : Bytes} {n hi : Nat} :
    LiesCells (x ++ y) m last w n items tr w' hi → hi < x.length → LiesCells (x ++ y') m last w n items tr w' hi
  | .none h, hq => .none (by rw [Joint.get hq]; exact h)
  | .final h1 h2 h3 h4 h5 h6, hq => by
    have h7 := h4.le
    have h9 := h2.le
    have h10 := h5.le
    rw [← Joint.slice (t' := y') (by omega)]
    exact .final (by unfold Opens; rw [Joint.getD (by omega)]; exact h1) (Joint.cellHead h2 (by omega)) (fun hm => (h3 hm).trans (Joint.cellKey (by omega)).symm)
      (h4.inner H hf h5 (by omega) .flow) (Inner.full h5 (by omega)) (by rw [Joint.get hq]; exact h6)
  | .cell (b := b) (start := start) h1 h2 h3 h0 h4 h5 h6 h8, hq => by
    have h7 := h4.le
    have h9 := h2.le
    have h10 := h6.le
    obtain ⟨⟨q, h11, h12⟩, h13⟩ := Inner.nextCell (y' := y') (by omega) h5
    have h14 := h11.le
    have hb : b < x.length := by have := h4.start_le h0; omega
    have h15 := h6.inner H hf hq
    have hat : atBlock (x ++ y') b = atBlock (x ++ y) b := by unfold atBlock; rw [Joint.getD hb]
    rw [← Joint.cellSpace (y' := y') (by omega), ← hat] at h15
    rw [← hat] at h13
    exact .cell (by unfold Opens; rw [Joint.getD (by omega)]; exact h1) (Joint.cellHead h2 (by omega)) (fun hm => (h3 hm).trans (Joint.cellKey (by omega)).symm) (Inner.full h0 (by omega))
      (h4.inner H hf h11 (by omega) .flow) h13 h15 h8
end

end Verif
