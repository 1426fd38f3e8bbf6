import Verif.Model.Hash
import Verif.Model.Codec

/-!
# Message identifiers and parsed topics

message/id.go, uid/uid.go, message/topic.go (binary form and hashes; text parsing is in `Model/TopicParse.lean`).
The clock is a parameter: Unix seconds as an integer.
-/

namespace Verif

/-- uid/uid.go:29. -/
def apochOffset : Int := 1555770000

/-- uid/uid.go:44-47 `NewApoch`. -/
def newApoch (now : Int) : UInt32 := 0xFFFFFFFF - UInt32.ofInt (now - apochOffset)

/-- uid/uid.go:59-61 `Time`, on the first four bytes. -/
def uidTime (id : Bytes) : Option Int :=
  (get32 id 0).map fun x => ((0xFFFFFFFF - x).toNat : Int) + apochOffset

/-- message/id.go:28. -/
def masterContract : UInt32 := 3376684800

/-- message/id.go:45-52 `NewID`. -/
def newID (now : Int) (seq : UInt64) : Bytes :=
  put32 (newApoch now) ++ (put32 masterContract ++ put64 seq)

/-- message/id.go:60-62 `Sequence`; panics on a short id. -/
def idSequence (id : Bytes) : Option UInt64 := get64 id 8

/-- The contract stored in the id (message/id.go:83, 85). -/
def idContract (id : Bytes) : Option UInt32 := get32 id 4

/-- message/id.go:65-70 `SetContract`: copy into a fresh 16 byte id, then overwrite bytes 4..8. -/
def setContract (id : Bytes) (c : UInt32) : Bytes :=
  patch ((id ++ List.replicate 16 0).take 16) 4 (put32 c)

/-- message/id.go:73-77 `Prefix`. -/
def idPrefix (id : Bytes) : Option Bytes := slice? id 0 8

/-- message/id.go:80-86 `EvalPrefix`; `cutoff` is in Unix seconds. -/
def evalPrefix (id : Bytes) (contract : UInt32) (cutoff : Int) : Option Bool := do
  let c ← idContract id
  if cutoff > 0 then
    let t ← uidTime id
    pure (decide (t ≥ cutoff) && c == contract)
  else pure (c == contract)

/-! ## Parsed topics -/

/-- message/topic.go:52-55 `Part`. -/
structure Part where
  hash : UInt32
  wildchars : UInt8
deriving DecidableEq, Repr, Inhabited

/-- message/topic.go:58-65 `Topic`, the parsed fields. -/
structure Topic where
  parts : List Part
  depth : UInt8
deriving DecidableEq, Repr

/-- message/topic.go:68-75 `AddContract`. -/
def Topic.addContract (t : Topic) (c : UInt32) : Topic := { t with parts := ⟨c, 0⟩ :: t.parts }

/-- The xor of the part hashes (message/topic.go:82-85). -/
def xorHashes (ps : List Part) : UInt32 := ps.foldl (fun h p => h ^^^ p.hash) 0

/-- message/topic.go:78-87 `GetHash`, after `AddContract`. Go: `uint64(h)<<32 + uint64((contract<<8)|uint32(depth))`. -/
def Topic.getHash (t : Topic) (contract : UInt32) : UInt64 :=
  if t.parts.length = 1 then contract.toUInt64
  else (xorHashes t.parts).toUInt64 <<< 32 + ((contract <<< 8) ||| t.depth.toUInt32).toUInt64

def Part.encode (p : Part) : Bytes := [p.wildchars] ++ put32 p.hash

/-- message/topic.go:299-319 `Marshal`. -/
def Topic.marshal (t : Topic) : Bytes := [t.depth] ++ t.parts.flatMap Part.encode

/-- message/topic.go:327-337, the loop `for i := 0; i <= depth; i++` that stops when the buffer is empty. `none` is the panic
of `binary.LittleEndian.Uint32` on fewer than four bytes. -/
def unmarshalParts : (n : Nat) → Bytes → Option (List Part)
  | 0, _ => some []
  | _ + 1, [] => some []
  | n + 1, w :: rest => do
    let h ← get32 rest 0
    let ps ← unmarshalParts n (rest.drop 4)
    pure (⟨h, w⟩ :: ps)

/-- message/topic.go:322-341 `Unmarshal`; an empty input panics. -/
def Topic.unmarshal : Bytes → Option Topic
  | [] => none
  | d :: rest => do
    let parts ← unmarshalParts (d.toNat + 1) rest
    pure { parts, depth := d }

theorem length_newID (now : Int) (seq : UInt64) : (newID now seq).length = 16 := by simp [newID]

theorem unmarshalParts_encode (ps : List Part) (n : Nat) (h : ps.length ≤ n) :
    unmarshalParts n (ps.flatMap Part.encode) = some ps := by
  induction ps generalizing n with
  | nil => cases n <;> rfl
  | cons p ps ih =>
    obtain ⟨m, rfl⟩ : ∃ m, n = m + 1 := ⟨n - 1, by simp at h; omega⟩
    have := ih m (by simpa using h)
    simp [List.flatMap_cons, Part.encode, unmarshalParts, this]

end Verif
