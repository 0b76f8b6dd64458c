import Verif.PParse
import Verif.Forward
import Verif.ScanLemmas
import Verif.Rules
/-
Reading a text from a later position: everything the parser computes from position `K + n` of a
text whose rest from `K` is `inp`, and whose line at `K` starts there, is what it computes from
position `n` of `inp`, with all positions moved by `K`.
-/
namespace Verif

/-- `T` continues as `inp` from position `K`, where a line begins. -/
structure Shifted (T inp : Bytes) (K : Nat) : Prop where
  len : T.length = K + inp.length
  drop : ∀ n, T.drop (K + n) = inp.drop n
  indent : ∀ n, indentFrom T (K + n) = indentFrom inp n

/-- The outcome with every position of an error moved by `K`. -/
def Stop.shift (K : Nat) : Stop → Stop
  | .err a b k => .err (K + a) (K + b) k
  | s => s

/-- A result under `g`, or the error moved by `K`. -/
def moved (K : Nat) (g : α → β) : Except Stop α → Except Stop β
  | .ok a => .ok (g a)
  | .error e => .error (e.shift K)

namespace Shifted

variable {T inp : Bytes} {K : Nat} (h : Shifted T inp K)
include h

theorem slice (a b : Nat) : slice T (K + a) (K + b) = Verif.slice inp a b := by
  unfold Verif.slice
  rw [h.drop, Nat.add_sub_add_left]

theorem peek (n : Nat) : peekAt T (K + n) = peekAt inp n := by
  unfold peekAt
  rw [h.drop]

theorem bump (n k : Nat) : bump T (K + n) k = K + Verif.bump inp n k := by
  unfold Verif.bump
  rw [h.len]
  omega

theorem wsEnd (n : Nat) : wsEnd T (K + n) = K + Verif.wsEnd inp n := by
  unfold Verif.wsEnd
  rw [h.drop]
  omega

theorem wsNl (n : Nat) : wsNl T (K + n) = Verif.wsNl inp n := by
  unfold Verif.wsNl
  rw [h.drop]

theorem wsStr (n : Nat) : wsStr T (K + n) = Verif.wsStr inp n := by
  unfold Verif.wsStr
  rw [h.wsEnd, h.slice]

theorem atEnd (n : Nat) : (K + n = T.length) = (n = inp.length) := by
  rw [h.len]
  exact propext (by omega)

theorem untilColon (n : Nat) : untilColon T (K + n) = (K + (Verif.untilColon inp n).1, (Verif.untilColon inp n).2) := by
  unfold Verif.untilColon
  simp only [h.drop, Nat.add_assoc, h.atEnd, h.slice]
  split <;> rfl

theorem nextMappingKey (n : Nat) :
    nextMappingKey T (K + n) = (K + (Verif.nextMappingKey inp n).1, (Verif.nextMappingKey inp n).2) := by
  unfold Verif.nextMappingKey
  simp only [h.drop, Nat.add_assoc, h.slice]
  split <;> rfl

theorem wsOr (ws : Option Bytes) (n : Nat) : wsOr T ws (K + n) = ((Verif.wsOr inp ws n).1, K + (Verif.wsOr inp ws n).2) := by
  cases ws with
  | some w => rfl
  | none => simp only [Verif.wsOr, h.wsStr, h.wsEnd]

theorem number (tab : Bool) (n : Nat) : number T tab (K + n) = (K + (Verif.number inp tab n).1, (Verif.number inp tab n).2) := by
  unfold Verif.number
  simp only [h.peek, h.bump]
  rw [show (if (peekAt inp n == DASH) = true then K + Verif.bump inp n 1 else K + n)
    = K + if (peekAt inp n == DASH) = true then Verif.bump inp n 1 else n by split <;> rfl]
  simp only [h.drop, Nat.add_assoc, h.slice]
  repeat' split
  all_goals rfl

theorem singleQuoted (f n : Nat) :
    singleQuoted f T (K + n) = moved K (fun r => (r.1, K + r.2)) (Verif.singleQuoted f inp n) := by
  unfold Verif.singleQuoted
  simp only [h.bump, h.drop]
  cases hs : sqScan f (inp.drop (Verif.bump inp n 1)) 0 with
  | error e => rw [sqScan_err hs]; rfl
  | ok r =>
    simp only [Nat.add_assoc, h.drop, h.slice, h.bump, h.atEnd, bind, Except.bind]
    split
    · cases hs : sqEsc f (inp.drop (Verif.bump inp n 1 + r.1)) (Verif.slice inp (Verif.bump inp n 1) (Verif.bump inp n 1 + r.1)) 0 with
      | error e => rw [sqEsc_err hs]; rfl
      | ok r' => rfl
    · rfl

theorem unescapeUnicode (start : Nat) (k : ErrKind) : ∀ (count n c : Nat),
    unescapeUnicode T (K + start) k count (K + n) c = moved K (fun r => (r.1, K + r.2)) (Verif.unescapeUnicode inp start k count n c)
  | 0, n, c => by unfold Verif.unescapeUnicode; split <;> rfl
  | count + 1, n, c => by
    unfold Verif.unescapeUnicode
    simp only [h.peek, h.bump]
    cases hexVal (peekAt inp n) with
    | none => rfl
    | some v => exact unescapeUnicode start k count _ _

theorem unescape (start n : Nat) : unescape T (K + start) (K + n) = moved K (fun r => (r.1, K + r.2)) (Verif.unescape inp start n) := by
  unfold Verif.unescape
  simp only [h.peek, h.bump]
  cases simpleEscape (peekAt inp n) with
  | some x => rfl
  | none =>
    simp only [h.unescapeUnicode]
    repeat' split
    all_goals rfl

theorem dqEsc : ∀ (f n : Nat) (s : Bytes), dqEsc T f (K + n) s = moved K (fun r => (r.1, K + r.2)) (Verif.dqEsc inp f n s)
  | 0, _, _ => rfl
  | f + 1, n, s => by
    unfold Verif.dqEsc
    simp only [h.peek, h.bump, h.unescape]
    split
    · rfl
    · split
      · cases Verif.unescape inp n (Verif.bump inp n 1) with
        | error e => rfl
        | ok r => exact dqEsc f r.2 _
      · exact dqEsc f _ _

theorem doubleQuoted (f n : Nat) :
    doubleQuoted f T (K + n) = moved K (fun r => (r.1, K + r.2)) (Verif.doubleQuoted f inp n) := by
  unfold Verif.doubleQuoted
  simp only [h.bump, h.drop, Nat.add_assoc, h.slice, h.dqEsc, h.atEnd]
  split
  · cases Verif.dqEsc inp f (Verif.bump inp n 1 + (dqScan (inp.drop (Verif.bump inp n 1))).1)
      (Verif.slice inp (Verif.bump inp n 1) (Verif.bump inp n 1 + (dqScan (inp.drop (Verif.bump inp n 1))).1)) with
    | error e => rfl
    | ok r => simp only [moved, bind, Except.bind, h.bump, h.slice]; rfl
  · rfl

/-- The state of the loop in `block`, moved. -/
def _root_.Verif.BlockSt.shift (K : Nat) (st : BlockSt) : BlockSt := ⟨K + st.n, st.scratch, K + st.stop, st.ws, st.nl⟩

theorem blockLoop (indent : Nat) (join : UInt8) (folded : Bool) : ∀ (f : Nat) (st : BlockSt),
    blockLoop T indent join folded f (st.shift K) = moved K (BlockSt.shift K) (Verif.blockLoop inp indent join folded f st)
  | 0, _ => rfl
  | f + 1, st => by
    unfold Verif.blockLoop
    simp only [BlockSt.shift, h.atEnd, h.drop, Nat.add_assoc, h.slice, h.wsEnd, h.wsNl, h.wsStr, h.indent]
    split
    · rfl
    · split
      · rfl
      · exact blockLoop indent join folded f ⟨_, _, _, _, _⟩

theorem block (f n hdr : Nat) (join : UInt8) (folded chomp clip : Bool) :
    block f T (K + n) hdr join folded chomp clip =
      moved K (fun r => (r.1, r.2.1, K + r.2.2)) (Verif.block f inp n hdr join folded chomp clip) := by
  unfold Verif.block
  simp only [h.bump, h.wsNl, h.wsEnd, h.drop, Nat.add_assoc, h.slice, h.atEnd, h.wsStr]
  have key : ∀ st : BlockSt, (do
        let st ← Verif.blockLoop T (indentFrom T (st.shift K).n) join folded f (st.shift K)
        pure (({ kind := .multiline (Verif.slice inp n (Verif.bump inp n hdr)),
                 id := st.scratch ++ if chomp = true then if clip = true then List.replicate (min st.nl 1) NL else List.replicate st.nl NL else [],
                 original := Verif.slice T (K + Verif.bump inp n hdr) st.stop } : RStr), st.ws, st.n) : Except Stop (RStr × Bytes × Nat)) =
      moved K (fun r => (r.1, r.2.1, K + r.2.2)) (do
        let st ← Verif.blockLoop inp (indentFrom inp st.n) join folded f st
        pure (({ kind := .multiline (Verif.slice inp n (Verif.bump inp n hdr)),
                 id := st.scratch ++ if chomp = true then if clip = true then List.replicate (min st.nl 1) NL else List.replicate st.nl NL else [],
                 original := Verif.slice inp (Verif.bump inp n hdr) st.stop } : RStr), st.ws, st.n)) := by
    intro st
    rw [h.blockLoop, show (st.shift K).n = K + st.n from rfl, h.indent]
    cases Verif.blockLoop inp (indentFrom inp st.n) join folded f st with
    | error e => rfl
    | ok st => simp only [moved, bind, Except.bind, BlockSt.shift, h.slice]; rfl
  by_cases hz : Verif.wsNl inp (Verif.bump inp n hdr) = 0
  · simp only [if_pos hz]
    exact key ⟨_, _, _, _, _⟩
  · simp only [if_neg hz]
    exact key ⟨_, _, _, _, _⟩

/-- A start of a value, moved. -/
def _root_.Verif.Lead.shift (K : Nat) : Lead → Lead
  | .key k n => .key k (K + n)
  | .scalar s ws n => .scalar s ws (K + n)
  | l => l

theorem lead (f : Nat) (inl tab : Bool) (n : Nat) : lead f T inl tab (K + n) = moved K (Lead.shift K) (Verif.lead f inp inl tab n) := by
  unfold Verif.lead
  simp only [h.peek, Nat.add_assoc, h.doubleQuoted, h.singleQuoted, h.block, h.number]
  split
  · rfl
  split
  · cases Verif.doubleQuoted f inp n with
    | error e => rfl
    | ok r =>
      simp only [moved, bind, Except.bind, h.peek]
      split <;> rfl
  split
  · cases Verif.singleQuoted f inp n with
    | error e => rfl
    | ok r =>
      simp only [moved, bind, Except.bind, h.peek]
      split <;> rfl
  split
  · rfl
  split
  · rfl
  split
  · cases Verif.block f inp n (if (peekAt inp (n + 1) == DASH || peekAt inp (n + 1) == 43) = true then 2 else 1)
      (if (peekAt inp n == GT) = true then SP else NL) (peekAt inp n == GT) (peekAt inp (n + 1) != DASH) (peekAt inp (n + 1) == DASH) with
    | error e => rfl
    | ok r => rfl
  · rcases Verif.number inp tab n with ⟨e, _ | s⟩
    · simp only [h.drop, Nat.add_assoc, h.slice]
      split
      · rfl
      · split <;> rfl
    · rfl

theorem startLoop : ∀ (f n : Nat) (p : Bytes), startLoop T f (K + n) p = moved K (fun r => (r.1, K + r.2)) (Verif.startLoop inp f n p)
  | 0, _, _ => rfl
  | f + 1, n, p => by
    unfold Verif.startLoop
    simp only [h.peek, h.bump, h.drop, Nat.add_assoc, h.wsEnd, h.wsStr]
    split
    · exact startLoop f _ _
    · split <;> rfl

end Shifted

/-! ### White space handed on lies before the position -/

theorem slice_short (inp : Bytes) (a b : Nat) : (slice inp a b).length ≤ b := by
  unfold slice
  rw [List.length_take]
  omega

theorem wsStr_short (inp : Bytes) (n : Nat) : (wsStr inp n).length ≤ wsEnd inp n := slice_short _ _ _

theorem blockLoop_short {inp : Bytes} {indent : Nat} {join : UInt8} {folded : Bool} : ∀ {f : Nat} {st st' : BlockSt},
    st.ws.length ≤ st.n → blockLoop inp indent join folded f st = .ok st' → st'.ws.length ≤ st'.n
  | 0, _, _, _, h => by cases h
  | f + 1, st, st', hs, h => by
    unfold blockLoop at h
    simp only at h
    split at h
    · cases h; exact hs
    · split at h
      · cases h; exact wsStr_short _ _
      · exact blockLoop_short (wsStr_short _ _) h

theorem block_short {f : Nat} {inp : Bytes} {n hdr : Nat} {join : UInt8} {folded chomp clip : Bool} {s : RStr} {w : Bytes} {m : Nat}
    (h : block f inp n hdr join folded chomp clip = .ok (s, w, m)) : w.length ≤ m := by
  unfold block at h
  simp only [bind, Except.bind] at h
  split at h
  · cases h
  · next st hst =>
    cases h
    refine blockLoop_short ?_ hst
    split <;> exact wsStr_short _ _

theorem lead_short {f : Nat} {inp : Bytes} {inl tab : Bool} {n : Nat} {sc : Scalar} {w : Bytes} {m : Nat}
    (h : lead f inp inl tab n = .ok (.scalar sc (some w) m)) : w.length ≤ m := by
  unfold lead at h
  simp only [bind, Except.bind] at h
  split at h
  · cases h
  split at h
  · split at h
    · cases h
    · split at h <;> cases h
  split at h
  · split at h
    · cases h
    · split at h <;> cases h
  split at h
  · cases h
  split at h
  · cases h
  split at h
  · split at h
    · cases h
    · next r hr => cases h; exact block_short hr
  · split at h
    · cases h
    · split at h
      · cases h
      · split at h <;> cases h

theorem wsOr_short {inp : Bytes} {ws : Option Bytes} {m : Nat} (h : ∀ w, ws = some w → w.length ≤ m) : (wsOr inp ws m).1.length ≤ (wsOr inp ws m).2 := by
  cases ws with
  | none => exact wsStr_short _ _
  | some w => exact h w rfl

theorem short_rules (inp : Bytes) : Rules inp (fun s n _ ws m => s.pre.length ≤ n → ∀ w, ws = some w → w.length ≤ m)
    (fun _ _ ip n _ _ w m => ip.length ≤ n → w.length ≤ m) (fun _ _ _ _ _ _ _ _ _ _ => True)
    (fun _ _ _ _ w m => w.length ≤ m) (fun _ _ _ _ _ _ w m => w.length ≤ m) where
  scalar := fun h _ w hw => by subst hw; exact lead_short h
  seq := fun _ h _ w hw => by cases hw; exact h
  flowSeq := fun _ _ _ _ _ hw => by cases hw
  flowMap := fun _ _ _ _ _ hw => by cases hw
  keyNull := fun _ _ _ h w hw => by cases hw; exact h
  keyMap := fun _ _ h _ w hw => by cases hw; exact h
  fsStop := fun _ h => h
  fsLast := fun _ h _ => wsOr_short (h (wsStr_short _ _))
  fsComma := fun _ h hc h' _ => h' (wsOr_short fun w hw => by
    have := h (wsStr_short _ _) w hw
    have := lt_of_peek (inp := inp) (by rw [hc]; decide)
    unfold bump
    omega)
  fsOther := fun _ h _ h' _ => h' (wsOr_short (h (wsStr_short _ _)))
  fmStop := fun _ => trivial
  fmLast := fun _ _ _ => trivial
  fmComma := fun _ _ _ _ _ => trivial
  fmOther := fun _ _ _ _ _ => trivial
  bsLast := fun _ h _ => wsOr_short (h (wsStr_short _ _))
  bsMore := fun _ _ _ _ h => h
  bmLast := fun _ h _ => wsOr_short (h (wsStr_short _ _))
  bmEnd := fun _ h _ h' => by
    have := wsOr_short (inp := inp) (h (wsStr_short _ _))
    have : _ = _ := congrArg Prod.fst h'
    unfold nextMappingKey at this
    simp only at this
    split at this <;> (simp only at this; omega)
  bmMore := fun _ _ _ _ h => h

/-! ### The recursive part -/

/-- A reader that is another one, moved. -/
def Moves (K : Nat) (rec' rec : PSt → Nat → PRes) : Prop :=
  ∀ s n, rec' s (K + n) = moved K (fun r => (r.1, r.2.1, K + r.2.2)) (rec s n)

/-- `rec` returns white space that lies before the position. -/
def Short (rec : PSt → Nat → PRes) : Prop :=
  ∀ s n t ws m, rec s n = .ok (t, ws, m) → s.pre.length ≤ n → ∀ w, ws = some w → w.length ≤ m

theorem pvalue_short (inp : Bytes) (f : Nat) : Short (pvalue inp f) := (short_rules inp).value f

namespace Shifted

variable {T inp : Bytes} {K : Nat} (h : Shifted T inp K) {rec' rec : PSt → Nat → PRes}
include h

theorem pflowSeqLoop (H : Moves K rec' rec) : ∀ (f : Nat) (last tr : Bool) (ip : Bytes) (n : Nat),
    pflowSeqLoop rec' T f last tr ip (K + n) =
      moved K (fun r => (r.1, r.2.1, r.2.2.1, K + r.2.2.2)) (Verif.pflowSeqLoop rec inp f last tr ip n)
  | 0, _, _, _, _ => rfl
  | f + 1, last, tr, ip, n => by
    unfold Verif.pflowSeqLoop
    simp only [h.peek, h.wsStr, h.wsEnd]
    split
    · rfl
    · rw [H]
      cases hv : rec ⟨Verif.wsStr inp n, true, false, none⟩ (Verif.wsEnd inp n) with
      | error e => rfl
      | ok r =>
        obtain ⟨v, next, m⟩ := r
        simp only [moved, bind, Except.bind, h.wsOr, h.peek, h.bump]
        split
        · rfl
        · rw [show (if (peekAt inp m == COMMA) = true then K + Verif.bump inp m 1 else K + m)
            = K + if (peekAt inp m == COMMA) = true then Verif.bump inp m 1 else m by split <;> rfl, h.wsOr, pflowSeqLoop H f]
          cases Verif.pflowSeqLoop rec inp f (!peekAt inp m == COMMA) (peekAt inp m == COMMA)
            (Verif.wsOr inp next (if (peekAt inp m == COMMA) = true then Verif.bump inp m 1 else m)).1
            (Verif.wsOr inp next (if (peekAt inp m == COMMA) = true then Verif.bump inp m 1 else m)).2 with
          | error e => rfl
          | ok r => rfl

theorem pflowSeq (H : Moves K rec' rec) (S : Short rec) (f : Nat) (s : PSt) (n : Nat) : pflowSeq rec' T f s (K + n) =
    moved K (fun r => (r.1, r.2.1, K + r.2.2)) (Verif.pflowSeq rec inp f s n) := by
  unfold Verif.pflowSeq
  simp only [h.bump, h.wsStr, h.wsEnd, h.pflowSeqLoop H]
  cases hl : Verif.pflowSeqLoop rec inp f false false (Verif.wsStr inp (Verif.bump inp n 1)) (Verif.wsEnd inp (Verif.bump inp n 1)) with
  | error e => rfl
  | ok r =>
    obtain ⟨items, tr, w, m⟩ := r
    simp only [moved, bind, Except.bind, h.peek, h.bump]
    split
    · rfl
    · have : w.length ≤ m := (short_rules inp).fsLoop S f hl (wsStr_short _ _)
      simp only [Stop.shift]
      rw [Nat.add_sub_assoc this]

theorem pflowMapLoop (H : Moves K rec' rec) : ∀ (f : Nat) (last tr : Bool) (ip : Bytes) (st n : Nat),
    pflowMapLoop rec' T f last tr ip (K + st) (K + n) =
      moved K (fun r => (r.1, r.2.1, r.2.2.1, K + r.2.2.2.1, K + r.2.2.2.2)) (Verif.pflowMapLoop rec inp f last tr ip st n)
  | 0, _, _, _, _, _ => rfl
  | f + 1, last, tr, ip, st, n => by
    unfold Verif.pflowMapLoop
    simp only [h.peek, h.untilColon]
    split
    · rfl
    · rcases Verif.untilColon inp n with ⟨m0, _ | key⟩
      · rfl
      simp only [h.bump, h.wsStr, h.wsEnd]
      rw [H]
      cases hv : rec ⟨Verif.wsStr inp (Verif.bump inp m0 1), true, false, none⟩ (Verif.wsEnd inp (Verif.bump inp m0 1)) with
      | error e => rfl
      | ok r =>
        obtain ⟨v, next, m⟩ := r
        simp only [moved, bind, Except.bind, h.wsOr, h.peek, h.bump]
        generalize (Verif.wsOr inp next m).2 = m
        split
        · rfl
        · rw [show (if (peekAt inp m == COMMA) = true then K + Verif.bump inp m 1 else K + m)
            = K + if (peekAt inp m == COMMA) = true then Verif.bump inp m 1 else m by split <;> rfl, h.wsStr, h.wsEnd, pflowMapLoop H f]
          cases Verif.pflowMapLoop rec inp f (!peekAt inp m == COMMA) (peekAt inp m == COMMA)
            (Verif.wsStr inp (if (peekAt inp m == COMMA) = true then Verif.bump inp m 1 else m))
            (if (peekAt inp m == COMMA) = true then Verif.bump inp m 1 else m)
            (Verif.wsEnd inp (if (peekAt inp m == COMMA) = true then Verif.bump inp m 1 else m)) with
          | error e => rfl
          | ok r => rfl

theorem pflowMap (H : Moves K rec' rec) (f : Nat) (s : PSt) (n : Nat) : pflowMap rec' T f s (K + n) =
    moved K (fun r => (r.1, r.2.1, K + r.2.2)) (Verif.pflowMap rec inp f s n) := by
  unfold Verif.pflowMap
  simp only [h.bump, h.wsStr, h.wsEnd, h.pflowMapLoop H]
  cases Verif.pflowMapLoop rec inp f false false (Verif.wsStr inp (Verif.bump inp n 1)) (Verif.bump inp n 1) (Verif.wsEnd inp (Verif.bump inp n 1)) with
  | error e => rfl
  | ok r =>
    simp only [moved, bind, Except.bind, h.peek, h.bump]
    split <;> rfl

theorem pseqLoop (H : Moves K rec' rec) (ind : Nat) : ∀ (f : Nat) (ip : Bytes) (n : Nat), pseqLoop rec' T ind f ip (K + n) =
    moved K (fun r => (r.1, r.2.1, K + r.2.2)) (Verif.pseqLoop rec inp ind f ip n)
  | 0, _, _ => rfl
  | f + 1, ip, n => by
    unfold Verif.pseqLoop
    simp only [h.bump, h.wsStr, h.wsEnd]
    rw [H]
    cases rec ⟨Verif.wsStr inp (Verif.bump inp n 1), false, true, none⟩ (Verif.wsEnd inp (Verif.bump inp n 1)) with
    | error e => rfl
    | ok r =>
      obtain ⟨v, ws, m⟩ := r
      simp only [moved, bind, Except.bind, h.wsOr, h.peek, h.indent]
      split
      · rfl
      · rw [pseqLoop H ind f]
        cases Verif.pseqLoop rec inp ind f (Verif.wsOr inp ws m).1 (Verif.wsOr inp ws m).2 with
        | error e => rfl
        | ok r => rfl

theorem psequence (H : Moves K rec' rec) (f : Nat) (s : PSt) (n : Nat) : psequence rec' T f s (K + n) =
    moved K (fun r => (r.1, r.2.1, K + r.2.2)) (Verif.psequence rec inp f s n) := by
  unfold Verif.psequence
  simp only [h.indent, h.pseqLoop H]
  cases Verif.pseqLoop rec inp (indentFrom inp n) f [] n with
  | error e => rfl
  | ok r => rfl

theorem pmapLoop (H : Moves K rec' rec) (ind : Nat) : ∀ (f st : Nat) (key : RStr) (ip : Bytes) (n : Nat), pmapLoop rec' T ind f (K + st) key ip (K + n) =
    moved K (fun r => (r.1, r.2.1, K + r.2.2)) (Verif.pmapLoop rec inp ind f st key ip n)
  | 0, _, _, _, _ => rfl
  | f + 1, st, key, ip, n => by
    unfold Verif.pmapLoop
    simp only [h.peek, h.bump, h.wsStr, h.wsEnd]
    split
    · rfl
    rw [H]
    cases rec ⟨Verif.wsStr inp (Verif.bump inp n 1), false, true, some ind⟩ (Verif.wsEnd inp (Verif.bump inp n 1)) with
    | error e => rfl
    | ok r =>
      obtain ⟨v, ws, m⟩ := r
      simp only [moved, bind, Except.bind, h.wsOr, h.indent, h.nextMappingKey]
      split
      · rfl
      · rcases Verif.nextMappingKey inp (Verif.wsOr inp ws m).2 with ⟨m0, _ | key'⟩
        · rfl
        simp only
        rw [pmapLoop H ind f]
        cases Verif.pmapLoop rec inp ind f (Verif.wsOr inp ws m).2 key' (Verif.wsOr inp ws m).1 m0 with
        | error e => rfl
        | ok r => rfl

theorem pmappingOrNul (H : Moves K rec' rec) (f : Nat) (s : PSt) (st : Nat) (key : RStr) (n : Nat) : pmappingOrNul rec' T f s (K + st) key (K + n) =
    moved K (fun r => (r.1, r.2.1, K + r.2.2)) (Verif.pmappingOrNul rec inp f s st key n) := by
  have hgo : ∀ ind, pmappingOrNul.go rec' T f s (K + st) key (K + n) ind =
      moved K (fun r => (r.1, r.2.1, K + r.2.2)) (Verif.pmappingOrNul.go rec inp f s st key n ind) := fun ind => by
    unfold Verif.pmappingOrNul.go
    rw [h.pmapLoop H]
    cases Verif.pmapLoop rec inp ind f st key [] n with
    | error e => rfl
    | ok r => rfl
  unfold Verif.pmappingOrNul
  simp only [h.indent, hgo]
  split
  · split <;> rfl
  · rfl

theorem pvalue : ∀ f, Moves K (pvalue T f) (Verif.pvalue inp f)
  | 0 => fun _ _ => rfl
  | f + 1 => fun s n => by
    unfold Verif.pvalue
    rw [h.lead]
    cases Verif.lead f inp s.inline s.tabular n with
    | error e => rfl
    | ok l =>
      simp only [moved, bind, Except.bind]
      cases l with
      | seq => exact h.psequence (pvalue f) f s n
      | flowSeq => exact h.pflowSeq (pvalue f) (pvalue_short inp f) f s n
      | flowMap => exact h.pflowMap (pvalue f) f s n
      | key k m => exact h.pmappingOrNul (pvalue f) f s n k m
      | scalar sc ws m => rfl

end Shifted

end Verif
