import Verif.Model.Bytes
import Verif.Model.Word
/-!
# Self describing record files

Models the reader in `main` of `pj/pjcat.cpp` (103-170).  The stream is the list of the bytes of
the file that have not been read yet.
-/
namespace PJ

/-- How reading ended. -/
inductive FileStatus
  /-- end of file reached after a complete record -/
  | complete
  /-- "Invalid PJ data file" (`pj/pjcat.cpp` 108-111, 118-121, 141-144, 149-152) -/
  | invalid
  /-- a negative length: `resize` throws, or memory in front of the buffer is used -/
  | undefined
deriving DecidableEq

/-- The record loop (`pj/pjcat.cpp` 138-152): the messages handed to the decoder, and how it
ended. -/
def readRecords (s : List UInt8) : List (List UInt8) × FileStatus :=
  if _h : s = [] then ([], .complete)
  else if (s.take 8).length ≠ 8 then ([], .invalid)
  else
    let len := toSigned 8 (ofLE (s.take 8))
    if len < 0 then ([], .undefined)
    else
      let msg := (s.drop 8).take len.toNat
      if msg.length ≠ len.toNat then ([], .invalid)
      else
        let r := readRecords ((s.drop 8).drop len.toNat)
        (msg :: r.1, r.2)
termination_by s.length
decreasing_by
  have : s.length ≠ 0 := by simpa using _h
  simp only [List.length_drop]
  omega

/-- The protocol block followed by the records (`pj/pjcat.cpp` 103-124): the buffer passed to
`decodeProto`, if any, and the result of the record loop. -/
def readFile (s : List UInt8) : Option (List UInt8) × List (List UInt8) × FileStatus :=
  if (s.take 8).length ≠ 8 then (none, [], .invalid)
  else
    let len := toSigned 8 (ofLE (s.take 8))
    if len < 8 then (none, [], .undefined)
    else
      let rest := (s.drop 8).take (len.toNat - 8)
      if rest.length ≠ len.toNat - 8 then (none, [], .invalid)
      else (some (s.take 8 ++ rest), readRecords ((s.drop 8).drop (len.toNat - 8)))

/-- What a writer stores for a message (`README.md` 1-13): its length, its bytes. -/
def writeRecord (m : List UInt8) : List UInt8 := leBytes 8 m.length ++ m

/-- A record file: the output of `encodeProto`, then the records (`README.md` 1-13). -/
def writeFile (proto : List UInt8) (msgs : List (List UInt8)) : List UInt8 :=
  proto ++ (msgs.map writeRecord).flatten

/-- One decode attempt: the size told to the decoder and the size of the memory behind the pointer
that is passed along. -/
structure Attempt where
  claimed : Nat
  owned : Nat
deriving DecidableEq

/-- The retry loop for one message needing `need` bytes of buffer (`pj/pjcat.cpp` 154-167).
`dec_size` is doubled, but line 166 declares a new variable `dec_buffer` instead of assigning the
outer one, so that `owned` never changes.  Returns the attempts and the new `dec_size`. -/
def retryLoop (need claimed owned : Nat) : List Attempt × Nat :=
  if need ≤ claimed then ([⟨claimed, owned⟩], claimed)
  else if _h : claimed = 0 then ([], 0)
  else
    let r := retryLoop need (2 * claimed) owned
    (⟨claimed, owned⟩ :: r.1, r.2)
termination_by need - claimed

/-- All decode attempts for a list of messages (`pj/pjcat.cpp` 136-168). -/
def decodeAll (needs : List Nat) (claimed owned : Nat) : List Attempt :=
  match needs with
  | [] => []
  | n :: ns =>
    let r := retryLoop n claimed owned
    r.1 ++ decodeAll ns r.2 owned

/-- The attempts made by `main`, which starts with a buffer of 1024 bytes (136-137). -/
def pjcatAttempts (needs : List Nat) : List Attempt := decodeAll needs 1024 1024

end PJ
