import Verif.Write
/-
`write_to` into a writer that may fail.
-/
namespace Verif

/-- A writer (`io::Write`), by what `write_all` does: after `done` was taken, and with the next bytes, it takes all of them (`none`) or takes
the first `k` of them and returns an error (`some k`). -/
structure Sink where
  take : (done next : Bytes) → Option Nat

/-- A function that writes and returns `io::Result<()>`: from the bytes taken before to the bytes taken after it and whether it returned `Ok`. -/
def Out := Bytes → Except Stop (Bytes × Bool)

/-- `Ok(())`. -/
def Out.done : Out := fun d => .ok (d, true)

/-- `write_all(next)`, and `write!` of text without arguments.  `write!` of a `BStr` hands over each valid part and each replacement character with a call of
its own; they are one call here. -/
def Sink.all (s : Sink) (next : Bytes) : Out := fun d =>
  match s.take d next with
  | none => .ok (d ++ next, true)
  | some k => .ok (d ++ next.take k, false)

/-- `a?; b`. -/
def Out.and (a b : Out) : Out := fun d => do
  let (d', ok) ← a d
  if ok then b d' else return (d', false)

/-- A lookup that may panic. -/
def Out.get {α : Type} (x : Except Stop α) (f : α → Out) : Out := fun d => do f (← x) d

infixr:60 " >>? " => Out.and

/-- raw.rs:626-634, the loop of `escape_single_quoted` in `write_to`; `cur` is the piece up to the next quote. -/
def sendSingleGo (s : Sink) : (cur : Bytes) → Bytes → Out
  | cur, [] => s.all cur
  | cur, b :: r => if b == SQ then s.all cur >>? s.all [SQ, SQ] >>? sendSingleGo s [] r else sendSingleGo s (cur ++ [b]) r

/-- raw.rs:620-639 `escape_single_quoted`. -/
def sendSingle (s : Sink) (x : Bytes) : Out := s.all [SQ] >>? sendSingleGo s [] x >>? s.all [SQ]

/-- raw.rs:650-678, the loop of `escape_double_quoted` in `write_to`; `cur` is the piece since the last escape. -/
def sendDoubleGo (s : Sink) : (cur : Bytes) → Bytes → Out
  | cur, [] => s.all cur
  | cur, b :: r =>
    match escapeByte b with
    | some e => s.all cur >>? s.all e >>? sendDoubleGo s [] r
    | none => sendDoubleGo s (cur ++ [b]) r

/-- raw.rs:643-681 `escape_double_quoted`. -/
def sendDouble (s : Sink) (x : Bytes) : Out := s.all [DQ] >>? sendDoubleGo s [] x >>? s.all [DQ]

/-- raw.rs:614-705 `String::write_to`. -/
def RStr.send (s : Sink) (x : RStr) : Out :=
  match x.kind with
  | .bare => s.all x.id
  | .double => sendDouble s x.id
  | .single => sendSingle s x.id
  | .original => s.all x.original
  | .multiline pre => s.all pre >>? s.all x.original

/-- raw.rs:383-400 `Null::write_to`. -/
def RNull.send (s : Sink) : RNull → Out
  | .keyword x => s.all x
  | .tilde => s.all (b! "~")
  | .empty => .done

/-- raw.rs:797-799, 940-942: the opening bracket. -/
def sendOpen (s : Sink) (kind : CollKind) (c : UInt8) : Out :=
  match kind with
  | .inline _ _ => s.all [c]
  | .block => .done

/-- raw.rs:812-816, 950-954: the comma after an item. -/
def sendSep (s : Sink) (kind : CollKind) (last : Bool) : Out :=
  if last then .done else
  match kind with
  | .inline _ _ => s.all [COMMA]
  | .block => .done

/-- raw.rs:819-826, 957-964: the comma after the last item, the white space and the closing bracket. -/
def sendClose (s : Sink) (kind : CollKind) (c : UInt8) : Out :=
  match kind with
  | .inline tr suffix => (if tr then s.all [COMMA] else .done) >>? s.all suffix >>? s.all [c]
  | .block => .done

/-- raw.rs:803-817, items of `Sequence::write_to`, and 845-852 `SequenceItem::write_to`; `w` writes a value. -/
def sendSeqItems (s : Sink) (w : Data → Raw → Out) (d : Data) (kind : CollKind) : List Nat → Out
  | [] => .done
  | i :: is =>
    .get (d.pre i) fun pre => s.all (lossy pre) >>? (if kind = .block then s.all [DASH] else .done) >>?
    .get (d.sequenceItem i) fun v => .get (d.pre v) fun vpre => s.all vpre >>?
    .get (d.raw v) fun raw => w d raw >>? sendSep s kind is.isEmpty >>? sendSeqItems s w d kind is

/-- raw.rs:946-955, items of `Mapping::write_to`, and 986-995 `MappingItem::write_to`. -/
def sendMapItems (s : Sink) (w : Data → Raw → Out) (d : Data) (kind : CollKind) : List Nat → Out
  | [] => .done
  | i :: is =>
    .get (d.pre i) fun pre => s.all pre >>?
    .get (d.mappingItem i) fun (key, v) => key.send s >>? s.all [COLON] >>? .get (d.pre v) fun vpre => s.all vpre >>?
    .get (d.raw v) fun raw => w d raw >>? sendSep s kind is.isEmpty >>? sendMapItems s w d kind is

/-- raw.rs:277-309 `Raw::write_to`, with fuel for the nesting depth. -/
def sendRawF (s : Sink) : Nat → Data → Raw → Out
  | 0, _, _ => fun _ => .error .fuel
  | f + 1, d, raw =>
    match raw with
    | .null n => n.send s
    | .bool _ x => s.all x
    | .number x _ => s.all x
    | .string x => x.send s
    | .mapping c => sendOpen s c.kind LCB >>? sendMapItems s (sendRawF s f) d c.kind c.items >>? sendClose s c.kind RCB
    | .mappingItem key v => key.send s >>? s.all [COLON] >>? .get (d.pre v) fun vpre => s.all vpre >>? .get (d.raw v) fun raw => sendRawF s f d raw
    | .sequence c => sendOpen s c.kind LBR >>? sendSeqItems s (sendRawF s f) d c.kind c.items >>? sendClose s c.kind RBR
    | .sequenceItem v => .get (d.pre v) fun vpre => s.all vpre >>? .get (d.raw v) fun raw => sendRawF s f d raw

/-- document.rs:266-274 `Document::write_to`. -/
def Document.send (doc : Document) (s : Sink) : Out :=
  .get (doc.data.pre doc.root) fun pre => s.all pre >>? .get (doc.data.raw doc.root) fun raw => sendRawF s doc.data.fuel doc.data raw >>? s.all doc.suffix

/-- The bytes the writer took from `Document::write_to`, and whether it returned `Ok`. -/
def Document.writeTo (doc : Document) (s : Sink) : Except Stop (Bytes × Bool) := doc.send s []

end Verif
