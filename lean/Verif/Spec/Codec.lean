import Verif.Model.MsgpData
import Verif.Spec.Disk
/-!
# Specification: what the generated record code promises
-/
namespace Ripsrc.Spec

/-- What a user of the generated code of one type relies on; `same` compares two objects as records. -/
structure Codec {σ : Type} (encode : σ → Str) (marshal : σ → Str → Str) (msgsize : σ → Nat) (decode unmarshal : σ → Str → Dec σ) (small : σ → Prop) (same : σ → σ → Prop) : Prop where
  /-- `MarshalMsg` appends the bytes `EncodeMsg` writes. -/
  marshal : ∀ z b, marshal z b = b ++ encode z
  /-- They are at most `Msgsize` many. -/
  size : ∀ z, (encode z).length ≤ msgsize z
  /-- They are one object: `Skip` skips exactly these. -/
  skipped : ∀ z, small z → ∀ rest, skip (encode z ++ rest) = .ok () rest
  /-- `DecodeMsg` into an object with any content reads exactly the record. -/
  decoded : ∀ z, small z → ∀ z0 rest, ∃ z', decode z0 (encode z ++ rest) = .ok z' rest ∧ same z' z
  /-- So does `UnmarshalMsg`. -/
  unmarshaled : ∀ z, small z → ∀ z0 rest, ∃ z', unmarshal z0 (encode z ++ rest) = .ok z' rest ∧ same z' z

/-- Sizes MessagePack can represent. -/
structure DData.Small (z : DData) : Prop where
  data : z.data.vis.length < 2 ^ 32 ∧ ∀ a ∈ z.data.vis, DRow.Small a
  blames : z.blames.vis.length < 2 ^ 32 ∧ ∀ a ∈ z.blames.vis, DBlame.Small a
  lines : z.lines.vis.length < 2 ^ 32 ∧ ∀ a ∈ z.lines.vis, DLine.Small a
  lineData : z.lineData.vis.length < 2 ^ 32 ∧ ∀ a ∈ z.lineData.vis, DLineData.Small a

/-- The same slices; what is behind them does not count. -/
def DData.Same (z z' : DData) : Prop :=
  z.data.vis = z'.data.vis ∧ z.blames.vis = z'.blames.vis ∧ z.lines.vis = z'.lines.vis ∧ z.lineData.vis = z'.lineData.vis

end Ripsrc.Spec
