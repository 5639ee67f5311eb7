import Verif.Model.Bytes
import Verif.Model.Word
/-!
# Protocol framing

Models `getProtoSize`, `encodeProto` and `decodeProto` of `pj/context.cpp` (152-259), for an
arbitrary list of versions (`FOR_EACH_COMPATIBLE_VERSION`, `pj/schema/versions.hpp`).  The payload
of a version, produced by `ENCODE_PROTO`, is an opaque byte string here.
-/
namespace PJ

/-- One block: version number, size, payload (`pj/context.cpp` 178-186). -/
def frameBlock (b : Nat × List UInt8) : List UInt8 :=
  leBytes 8 b.1 ++ leBytes 8 b.2.length ++ b.2

/-- `getProtoSize` (`pj/context.cpp` 152-169). -/
def protoSize (bs : List (Nat × List UInt8)) : Nat :=
  bs.foldl (fun n b => n + 8 + 8 + b.2.length) 8

/-- `encodeProto` (`pj/context.cpp` 171-193): the blocks, preceded by the number of bytes
written. -/
def encodeProto (bs : List (Nat × List UInt8)) : List UInt8 :=
  let body := (bs.map frameBlock).flatten
  leBytes 8 (8 + body.length) ++ body

/-- Outcome of `decodeProto` up to the decoding of the payload. -/
inductive FrameRes
  /-- a read outside of the given bytes, or pointer overflow -/
  | undefined
  /-- the empty protocol (`pj/context.cpp` 240-242) -/
  | incompatible
  /-- version, position of the payload, payload -/
  | found (version pos : Nat) (payload : List UInt8)
deriving DecidableEq

/-- `std::memcpy` of 8 bytes at `pos`. -/
def read64 (buf : List UInt8) (pos : Nat) : Option Nat :=
  if pos + 8 ≤ buf.length then some (ofLE ((buf.drop pos).take 8)) else none

/-- What happens after the loop (`pj/context.cpp` 240-256).  The decoder gets a pointer to the
payload: the position, and the `size` bytes at that place. -/
def frameFinish (buf : List UInt8) (latest : Nat × Nat × Nat) : FrameRes :=
  if latest.1 = 0 then .incompatible
  else if latest.2.1 + latest.2.2 ≤ buf.length then
    .found latest.1 latest.2.1 ((buf.drop latest.2.1).take latest.2.2)
  else .undefined

/-- The search loop (`pj/context.cpp` 211-238); `known` are the reader's versions, `latest` is
`latest_compatible` (version, position, size). -/
def frameLoop (known : Nat → Bool) (buf : List UInt8) (bufEnd : Nat) (pos : Nat)
    (latest : Nat × Nat × Nat) : FrameRes :=
  if _h : pos < bufEnd then
    match read64 buf pos, read64 buf (pos + 8) with
    | some version, some size =>
      if known version && decide (version > latest.1) then
        if pos + 16 + size < W64 then
          frameLoop known buf bufEnd (pos + 16 + size) (version, pos + 16, size)
        else .undefined
      else frameFinish buf latest
    | _, _ => .undefined
  else frameFinish buf latest
termination_by bufEnd - pos

/-- `decodeProto` (`pj/context.cpp` 195-259). -/
def decodeProto (known : Nat → Bool) (buf : List UInt8) : FrameRes :=
  match read64 buf 0 with
  | some size => frameLoop known buf size 8 (0, 0, 0)
  | none => .undefined

end PJ
