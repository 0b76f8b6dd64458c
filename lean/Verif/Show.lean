import Verif.Write
/-
`Display` of the handles of collections.
-/
namespace Verif

/-- mapping/mapping.rs:234-239 `Display for Mapping`. -/
def mappingDisplay (d : Data) (id : Nat) : Except Stop Bytes := do
  dispRawF d.fuel d (.mapping (← d.mapping id)) none

/-- sequence/sequence.rs:314-319 `Display for Sequence`. -/
def sequenceDisplay (d : Data) (id : Nat) : Except Stop Bytes := do
  dispRawF d.fuel d (.sequence (← d.sequence id)) none

end Verif
