import Verif.EchoLead
import Verif.PlaceRules
import Verif.Leaves
/-
Facts about all scalars of a parsed document, with their place in the text.
-/
namespace Verif

section
variable (inp : Bytes) (P : Scalar → Prop)

def LV (s : PSt) (n : Nat) (t : Tree Unit) (_ws : Option Bytes) (m : Nat) : Prop :=
  n ≤ inp.length → wsEnd inp n = n → s.tabular = !s.inline → m ≤ inp.length ∧ t.all P
def LFS (_last _tr : Bool) (_ip : Bytes) (n : Nat) (items : Items Unit) (_tr' : Bool) (_w : Bytes) (m : Nat) : Prop :=
  n ≤ inp.length → m ≤ inp.length ∧ items.all P
def LFM (_last _tr : Bool) (_ip : Bytes) (_st n : Nat) (items : Items Unit) (_tr' : Bool) (_w : Bytes) (_st' m : Nat) : Prop :=
  n ≤ inp.length → m ≤ inp.length ∧ items.all P
def LBS (_ind : Nat) (_ip : Bytes) (n : Nat) (items : Items Unit) (_w : Bytes) (m : Nat) : Prop :=
  n ≤ inp.length → m ≤ inp.length ∧ items.all P
def LBM (_ind _st : Nat) (_key : RStr) (_ip : Bytes) (n : Nat) (items : Items Unit) (_w : Bytes) (m : Nat) : Prop :=
  n ≤ inp.length → m ≤ inp.length ∧ items.all P
end

section
variable {inp : Bytes} {P : Scalar → Prop}

theorem bump_in {inp : Bytes} {n k : Nat} (_ : n ≤ inp.length) : bump inp n k ≤ inp.length := by
  unfold bump; omega

theorem wsOr_le {ws : Option Bytes} {m : Nat} (h : m ≤ inp.length) : (wsOr inp ws m).2 ≤ inp.length := by
  cases ws with
  | none => exact wsEnd_le h
  | some w => exact h

theorem LV.at {s : PSt} {a : Nat} {t : Tree Unit} {ws : Option Bytes} {m : Nat} (h : LV inp P s (wsEnd inp a) t ws m) (ha : a ≤ inp.length)
    (hs : s.tabular = !s.inline) : m ≤ inp.length ∧ t.all P := h (wsEnd_le ha) (wsEnd_idem _ _) hs

theorem leafRules (h0 : P (.null .empty))
    (hl : ∀ {f i n s ws m}, n ≤ inp.length → wsEnd inp n = n → lead f inp i (!i) n = .ok (.scalar s ws m) → P s) :
    Rules inp (LV inp P) (LFS inp P) (LFM inp P) (LBS inp P) (LBM inp P) where
  scalar := by
    intro f s n sc ws m h hn hw ht
    refine ⟨?_, ?_⟩
    · cases (lead_back hn hw ht h).1 _ _ _ rfl with
      | text h1 h2 h3 => exact h2
      | «open» h1 h2 h3 => exact Nat.le_refl _
      | block h1 h2 h3 => exact wsEnd_le h3
    · rw [ht] at h
      exact hl hn hw h
  seq := fun _ hb hn _ _ => hb hn
  flowSeq := fun _ hb _ hn _ _ => have h := hb (wsEnd_le (bump_in hn)); ⟨bump_in h.1, h.2⟩
  flowMap := fun _ hb _ hn _ _ => have h := hb (wsEnd_le (bump_in hn)); ⟨bump_in h.1, h.2⟩
  keyNull := fun _ _ _ hn _ _ => ⟨hn, h0⟩
  keyMap := by
    intro f s n key m items w m' h hp hb hn hw ht
    refine hb ?_
    cases (lead_spec hn).ok h with
    | key _ h2 _ _ _ => exact Nat.le_of_lt (lt_of_peek (by rw [h2]; decide))
  fsStop := fun _ hn => ⟨hn, trivial⟩
  fsLast := fun _ hv hn => have h := hv.at hn rfl; ⟨wsOr_le h.1, h.2, trivial⟩
  fsComma := fun _ hv _ hr hn => have h := hv.at hn rfl; have h' := hr (wsOr_le (bump_in h.1)); ⟨h'.1, h.2, h'.2⟩
  fsOther := fun _ hv _ hr hn => have h := hv.at hn rfl; have h' := hr (wsOr_le h.1); ⟨h'.1, h.2, h'.2⟩
  fmStop := fun _ hn => ⟨hn, trivial⟩
  fmLast := fun _ hk hv hn => have h := hv.at (bump_in (Nat.le_of_lt (untilColon_back hn hk).2.1)) rfl; ⟨wsOr_le h.1, h.2, trivial⟩
  fmComma := fun _ hk hv _ hr hn =>
    have h := hv.at (bump_in (Nat.le_of_lt (untilColon_back hn hk).2.1)) rfl; have h' := hr (wsEnd_le (bump_in (wsOr_le h.1))); ⟨h'.1, h.2, h'.2⟩
  fmOther := fun _ hk hv _ hr hn =>
    have h := hv.at (bump_in (Nat.le_of_lt (untilColon_back hn hk).2.1)) rfl; have h' := hr (wsEnd_le (wsOr_le h.1)); ⟨h'.1, h.2, h'.2⟩
  bsLast := fun _ hv _ hn => have h := hv.at (bump_in hn) rfl; ⟨wsOr_le h.1, h.2, trivial⟩
  bsMore := fun _ hv _ _ hr hn => have h := hv.at (bump_in hn) rfl; have h' := hr (wsOr_le h.1); ⟨h'.1, h.2, h'.2⟩
  bmLast := fun _ hv _ hn => have h := hv.at (bump_in hn) rfl; ⟨wsOr_le h.1, h.2, trivial⟩
  bmEnd := by
    intro ind st key ip n v ws m m0 _ hv _ hnk hn
    have h := hv.at (bump_in hn) rfl
    rw [nextKey_end (wsOr_le h.1) hnk]
    exact ⟨wsOr_le h.1, h.2, trivial⟩
  bmMore := by
    intro ind st key ip n v ws m m0 key' items w m' _ hv _ hnk hr hn
    have h := hv.at (bump_in hn) rfl
    have h' := hr (by have := nextKey_some (wsOr_le h.1) hnk; omega)
    exact ⟨h'.1, h.2, h'.2⟩
end

/-- Like `parsed_all`, with what is known of the place where a scalar is read. -/
theorem parsed_leaves {inp : Bytes} {doc : Document} {P : Scalar → Prop} (h : Parsed inp doc) (h0 : P (.null .empty))
    (hl : ∀ {f i n s ws m}, n ≤ inp.length → wsEnd inp n = n → lead f inp i (!i) n = .ok (.scalar s ws m) → P s) : ∃ t, Holds doc t ∧ t.all P := by
  obtain ⟨f, h⟩ := h
  rw [parseF_refine] at h
  cases hp : pparseF f inp with
  | error e => rw [hp] at h; cases h
  | ok r =>
    obtain ⟨t, suffix⟩ := r
    rw [hp] at h
    cases h
    refine ⟨_, docOf_holds t suffix, Tree.all_label 0 ?_⟩
    unfold pparseF startOfDocument at hp
    cases hs : startLoop inp f (wsEnd inp 0) (wsStr inp 0) with
    | error e => simp only [hs, bind, Except.bind] at hp; cases hp
    | ok r =>
      obtain ⟨pre, n⟩ := r
      obtain ⟨k, k1, k2, rfl, rfl, k5⟩ := startLoop_body f 0 (Nat.zero_le _) (cut_zero _) hs (inp.length + 1) (by simp)
      simp only [hs, bind, Except.bind] at hp
      cases hv : pvalue inp f ⟨wsStr inp k, false, true, none⟩ (wsEnd inp k) with
      | error e => rw [hv] at hp; cases hp
      | ok r =>
        obtain ⟨t', ws, m⟩ := r
        rw [hv] at hp
        simp only at hp
        split at hp
        · cases hp
          exact (((leafRules h0 hl).value f _ _ _ _ _ hv).at k1 rfl).2
        · cases hp

end Verif
