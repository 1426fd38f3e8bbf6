import Verif.Model.Mac
import Verif.Model.TextId
import Verif.Model.TopicParse

/-!
# Client identifiers, topic keys and the request check

server/internal/pkg/uid/clientid.go, server/internal/message/security/key.go,
server/internal/types (Access) and the key check of server/internal/hdl_conn.go.
-/

namespace Verif

/-! ## The salt: both identifiers are XORed with their first two bytes -/

def xorRest (a b : UInt8) : Bytes → Bytes
  | [] => []
  | x :: xs => (x ^^^ a) :: xorRest b a xs

/-- clientid.go:95-102, 126-131 and key.go:206-212, 229-233: bytes from index 2 on are XORed with bytes
0 and 1 alternately (bytes 0 and 1 are not changed, so the loop that decodes is the same loop). -/
def xorSalt : Bytes → Bytes
  | a :: b :: rest => a :: b :: xorRest a b rest
  | l => l

theorem xorRest_xorRest (a b : UInt8) (l : Bytes) : xorRest a b (xorRest a b l) = l := by
  induction l generalizing a b with
  | nil => rfl
  | cons x xs ih => simp [xorRest, ih, UInt8.xor_assoc]

theorem xorSalt_xorSalt (l : Bytes) : xorSalt (xorSalt l) = l := by
  match l with
  | [] => rfl
  | [_] => rfl
  | a :: b :: rest => simp [xorSalt, xorRest_xorRest]

@[simp] theorem length_xorRest (a b : UInt8) (l : Bytes) : (xorRest a b l).length = l.length := by
  induction l generalizing a b with
  | nil => rfl
  | cons x xs ih => simp [xorRest, ih]

@[simp] theorem length_xorSalt (l : Bytes) : (xorSalt l).length = l.length := by
  match l with
  | [] => rfl
  | [_] => rfl
  | a :: b :: rest => simp [xorSalt]

/-! ## Big-endian fields -/

/-- `byte(v>>24), byte(v>>16), byte(v>>8), byte(v)`. -/
def be32 (v : UInt32) : Bytes := (put32 v).reverse

/-- `uint32(b[o])<<24 | … | uint32(b[o+3])`; positions beyond the slice panic in Go (`none`). -/
def be32At (b : Bytes) (o : Nat) : Option UInt32 :=
  (slice? b o (o + 4)).map fun s => UInt32.ofNat (leNat s.reverse)

@[simp] theorem length_be32 (v : UInt32) : (be32 v).length = 4 := by simp [be32, put32]

theorem be32At_mid (a z : Bytes) (v : UInt32) (o : Nat) (h : o = a.length) : be32At (a ++ be32 v ++ z) o = some v := by
  have hs : slice? (a ++ be32 v ++ z) o (o + 4) = some (be32 v) :=
    slice?_mid a (be32 v) z o (o + 4) h (by simp [h])
  have hl := leNat_leBytes 4 v.toNat
  have hv : v.toNat < 2 ^ 32 := v.toNat_lt
  have : leNat (put32 v) = v.toNat := by
    rw [show put32 v = leBytes 4 v.toNat from rfl, hl]
    exact Nat.mod_eq_of_lt (by omega)
  rw [be32At, hs, Option.map_some, be32, List.reverse_reverse, this]
  simp

/-! ## Client identifiers -/

/-- clientid.go:31-33 `IsPrimary`, 77-80 `Permissions`. -/
def cidPermissions (id : Bytes) : Option UInt32 := id[7]?.map UInt8.toUInt32
/-- clientid.go:29-30, 43-45. -/
def cidIsPrimary (id : Bytes) : Option Bool := (cidPermissions id).map (· == 1)
/-- clientid.go:48-50 `Epoch`. -/
def cidEpoch (id : Bytes) : Option UInt32 := be32At id 0
/-- clientid.go:82-84 `Contract`. -/
def cidContract (id : Bytes) : Option UInt32 := be32At id 8
/-- clientid.go:60-63 `Primary`: a `uint16`, the byte shifted by 16 is lost. -/
def cidPrimary (id : Bytes) : Option UInt16 := do
  let b5 ← id[5]?
  let b6 ← id[6]?
  pure ((b5.toUInt16 <<< 8) ||| b6.toUInt16)

/-- clientid.go:140-153 `NewClientID`: epoch, the 24-bit primary field of a `uint16`, flags and contract. -/
def newClientID (epoch : UInt32) (master : UInt16) (perms : UInt8) (contract : UInt32) : Bytes :=
  be32 epoch ++ [(0 : UInt8), (master >>> 8).toUInt8, master.toUInt8, perms] ++ be32 contract

/-- clientid.go:94-108 `Encode` for an id of 12 bytes (`none`: a shorter id panics). -/
def cidEncode (m : Mac) (id : Bytes) : Option Bytes :=
  if id.length < 12 then none
  else (m.encrypt (xorSalt (id.take 12))).map TextId.encode32

/-- clientid.go:110-135 `Decode` (`none`: an error is returned). -/
def cidDecode (m : Mac) (text : Bytes) : Option Bytes :=
  if text.length < 52 then none
  else
    let buf := TextId.decodeInPlace 32 text
    match (m.decrypt (buf.take 32)).1 with
    | none => none
    | some key => some (xorSalt (key.take 12))

/-! ## Topic keys -/

/-- key.go:31-36, the permission flags. -/
def allowOwner : UInt32 := 2
def allowAdmin : UInt32 := 4
def allowRead : UInt32 := 8
def allowWrite : UInt32 := 16

/-- server/internal/types: `KeyGenRequest.Access`, one flag letter. -/
def accessOf (c : UInt8) : UInt32 :=
  if c = 111 then allowOwner ||| allowAdmin ||| (allowRead ||| allowWrite)
  else if c = 97 then allowAdmin ||| (allowRead ||| allowWrite)
  else if c = 114 then allowRead
  else if c = 119 then allowWrite
  else 0

/-- `KeyGenRequest.Access` over the whole request. -/
def access (type : Bytes) : UInt32 := type.foldl (fun r c => r ||| accessOf c) 0

/-- server/internal/pkg/hash/hash.go:66-69 with `binary.BigEndian`: the salt bytes of the server's copy
are the reverse of the client library's. -/
def serverSaltByte (contract : UInt32) (v : Nat) : Nat := ((be32 contract)[v]?.getD 0).toNat

/-- server/internal/pkg/hash/hash.go `WithSalt`. -/
def serverHash (text : Bytes) (contract : UInt32) : UInt32 :=
  Hash.new (if contract = 0 then text else Hash.shuffleLoop (serverSaltByte contract) (text.length - 1) 0 0 text)

/-- "..." -/
def dots3 : Bytes := [46, 46, 46]

/-- The path bits set by one part (key.go:168-173). -/
def partBit (idx : Nat) (part : Bytes) : UInt32 :=
  if !hasSuffix part [chStar] && !hasSuffix part dots3 then (1 : UInt32) <<< UInt32.ofNat (22 - idx) else 0

/-- key.go:168-173, the loop from part `idx` on. -/
def pathBits : (idx : Nat) → UInt32 → List Bytes → UInt32
  | _, acc, [] => acc
  | idx, acc, p :: ps => pathBits (idx + 1) (acc ||| partBit idx p) ps

/-- key.go:143-185 `SetTarget`: the bit path and the target hash (`none`: `ErrTargetTooLong`). -/
def keyTarget (contract : UInt32) (topic : Bytes) : Option (UInt32 × UInt32) :=
  let parts := fields chDot topic
  if parts.length > 23 then none
  else
    let start : UInt32 := if hasSuffix topic dots3 then 0 else (1 : UInt32) <<< 23
    let start := if parts.any (fun p => hasSuffix p [chStar]) then 0 else start
    some (pathBits 0 start parts, serverHash topic contract)

/-- `byte(p>>16), byte(p>>8), byte(p)`. -/
def be24 (v : UInt32) : Bytes := (be32 v).drop 1

/-- key.go:194-202 `GenerateKey` before encoding: permissions byte, path, target. -/
def rawKey (contract : UInt32) (topic : Bytes) (perms : UInt32) : Option Bytes :=
  (keyTarget contract topic).map fun (path, target) => perms.toUInt8 :: (be24 path ++ be32 target)

/-- key.go:204-218 `Encode`. -/
def keyEncode (k : Bytes) : Bytes := TextId.encode8 (xorSalt k)

/-- key.go:220-238 `DecodeKey` (`none`: wrong length). -/
def keyDecode (text : Bytes) : Option Bytes :=
  if text.length ≠ 13 then none else some (xorSalt (TextId.decode8 text))

/-- key.go:194-202 `GenerateKey`. -/
def generateKey (contract : UInt32) (topic : Bytes) (perms : UInt32) : Option Bytes :=
  (rawKey contract topic perms).map keyEncode

/-- key.go:188-191 `HasPermission`. -/
def hasPermission (k : Bytes) (flag : UInt32) : Bool :=
  match k with
  | p :: _ => p.toUInt32 &&& flag == flag
  | [] => false

/-- key.go:124-141 `ValidateTopic`: accepted, wildcard (an 8-byte key). -/
def validateTopic (k : Bytes) (contract : UInt32) (topic : Bytes) : Bool × Bool :=
  let target := (be32At k 4).getD 0
  let path := UInt32.ofNat (leNat (((k.drop 1).take 3).reverse))
  if path = 0 then
    if target = serverHash dots3 contract then (true, true)
    else (target == serverHash topic contract, true)
  else (serverHash topic contract == target, (path >>> 23) &&& 1 == 0)

/-! ## Topic requests -/

def chSlash : UInt8 := 47

/-- key.go:68-74 `Topic`. `valid` is `TopicType != TopicInvalid`: `TopicInvalid` is `iota` at
position 6 of its constant block, so a zero `TopicType` is not it. -/
structure ReqTopic where
  key : Bytes
  topic : Bytes
  size : Nat
  valid : Bool
  deriving DecidableEq, Repr

/-- key.go:98-121 `ParseKey`; `none`: `parts[0]` of an empty list panics. -/
def parseRequest (text : Bytes) : Option ReqTopic :=
  match fields chSlash text with
  | [] => none
  | [t] => some { key := [], topic := t, size := t.length, valid := true }
  | key :: t :: _ =>
    match fields chQuery t with
    | [] => some { key := key, topic := t, size := 0, valid := false }
    | p :: _ => some { key := key, topic := t, size := p.length, valid := true }

/-- Outcomes of the request check: types.ErrBadRequest, types.ErrUnauthorized, types.ErrForbidden or granted. -/
inductive Verdict
  | badRequest
  | unauthorized
  | forbidden
  | granted (wildcard : Bool)
  deriving DecidableEq, Repr

/-- hdl_conn.go:488-507 `onSecureRequest`. -/
def onSecureRequest (contract : UInt32) (t : ReqTopic) : Verdict :=
  match keyDecode t.key with
  | none => .badRequest
  | some k =>
    if !hasPermission k allowRead then .unauthorized
    else
      let (ok, wildcard) := validateTopic k contract (t.topic.take t.size)
      if !ok then .unauthorized else .granted wildcard

/-- hdl_conn.go:384-405, 351-372, 411-431 (subscribe, relay, unsubscribe): the decision for one topic text. -/
def onTopicRequest (insecure : Bool) (contract : UInt32) (text : Bytes) : Option Verdict :=
  (parseRequest text).map fun t =>
    if !t.valid then .badRequest
    else if insecure then .granted false
    else onSecureRequest contract t

/-- "unitdb" -/
def specialKey : Bytes := "unitdb".toUTF8.toList

/-- hdl_conn.go:434-476 `onPublish`: the decision for one message (`none`: panic). A special request is
not stored; it is `granted false` here with the key `unitdb` visible in the parsed topic. -/
def onPublishRequest (insecure : Bool) (contract : UInt32) (text : Bytes) : Option Verdict :=
  (parseRequest text).map fun t =>
    if !t.valid then .badRequest
    else if t.key = specialKey then .granted false
    else if insecure then .granted false
    else match onSecureRequest contract t with
      | .granted true => .forbidden
      | v => v

/-! ## Connecting -/

/-- The service's cache of secondary clients: the key of clientid text bytes 4..7, and a contract. -/
abbrev ClientCache := List (UInt32 × UInt32)

/-- `cache.Load`. -/
def ClientCache.load (c : ClientCache) (k : UInt32) : Option UInt32 := (c.find? (·.1 == k)).map (·.2)

/-- `cache.LoadOrStore`: an existing entry is kept. -/
def ClientCache.store (c : ClientCache) (k v : UInt32) : ClientCache :=
  match c.load k with
  | some _ => c
  | none => (k, v) :: c

/-- `crypto.SignatureToUint32(text[4:8])`, a big-endian read of four text characters. -/
def cacheKey (text : Bytes) : UInt32 := UInt32.ofNat (leNat ((text.drop 4).take 4).reverse)

/-- How a connect request ends. -/
inductive ConnectOut
  | accepted (id : Bytes)
  | invalid
  deriving DecidableEq, Repr

/-- hdl_conn.go:311-347 `onConnect`. `epoch` is the fresh epoch of `CachedClientID`; a new client id is
generated for an invalid one, which the caller sends back before closing (`invalid`). The id given to
`IsPrimary`/`Contract` has 12 bytes, so the accessors do not panic. -/
def onConnect (m : Mac) (cache : ClientCache) (epoch : UInt32) (text : Bytes) : ConnectOut × ClientCache :=
  match (if text.length > m.overhead then cache.load (cacheKey text) else none) with
  | some contract => (.accepted (newClientID epoch 1 0 contract), cache)
  | none =>
    match cidDecode m text with
    | none => (.invalid, cache)
    | some id =>
      if cidIsPrimary id = some true then (.accepted id, cache)
      else
        match cidEncode m id with
        | none => (.accepted id, cache)
        | some t => (.accepted id, cache.store (cacheKey t) ((cidContract id).getD 0))

/-! ## Lemmas -/

theorem byteAt_append (h s : Bytes) (i : Nat) (hi : i < h.length) : TextId.byteAt (h ++ s) i = TextId.byteAt h i := by
  simp [TextId.byteAt, List.getElem?_append_left hi]

/-- The first eight characters of a text depend on the first five bytes only. -/
theorem encIndex_append (h s : Bytes) (k : Nat) (hk : k < 8) (hl : 5 ≤ h.length) :
    TextId.encIndex (h ++ s) k = TextId.encIndex h k := by
  have h0 : k / 8 = 0 := by omega
  simp only [TextId.encIndex, h0, Nat.mul_zero, Nat.zero_add]
  rw [byteAt_append _ _ 0 (by omega), byteAt_append _ _ 1 (by omega), byteAt_append _ _ 2 (by omega),
    byteAt_append _ _ 3 (by omega), byteAt_append _ _ 4 (by omega)]

theorem cacheKey_encode32 (h s : Bytes) (hl : 5 ≤ h.length) :
    cacheKey (TextId.encode32 (h ++ s)) = cacheKey (TextId.encodeN 8 h) := by
  have e : ∀ n k x, k < n → (TextId.encodeN n x)[k]? = some (TextId.encChar (TextId.encIndex x k)) := by
    intro n k x hk; simp [TextId.encodeN, hk]
  have : ((TextId.encode32 (h ++ s)).drop 4).take 4 = ((TextId.encodeN 8 h).drop 4).take 4 := by
    apply List.ext_getElem?
    intro i
    by_cases hi : i < 4
    · rw [List.getElem?_take_of_lt hi, List.getElem?_take_of_lt hi, List.getElem?_drop, List.getElem?_drop,
        TextId.encode32, e 52 _ _ (by omega), e 8 _ _ (by omega), encIndex_append h s _ (by omega) hl]
    · rw [List.getElem?_eq_none (by simp; omega), List.getElem?_eq_none (by simp; omega)]
  simp only [cacheKey, this]

theorem be24_path (v : UInt32) (h : v.toNat < 2 ^ 24) : UInt32.ofNat (leNat (be24 v).reverse) = v := by
  have h1 : be32 v = (put32 v).reverse := rfl
  have h2 : (be24 v).reverse = leBytes 3 v.toNat := by
    simp [be24, be32, put32, leBytes]
  rw [h2, leNat_leBytes]
  have : v.toNat % 256 ^ 3 = v.toNat := Nat.mod_eq_of_lt (by omega)
  rw [this]; simp

@[simp] theorem length_be24 (v : UInt32) : (be24 v).length = 3 := by simp [be24]

theorem keyDecode_keyEncode (k : Bytes) (h : k.length = 8) : keyDecode (keyEncode k) = some k := by
  have hl : (keyEncode k).length = 13 := by simp [keyEncode, TextId.encode8]
  have hd : TextId.decode8 (keyEncode k) = xorSalt k :=
    TextId.decodeN_encodeN (xorSalt k) (by simp [h]) (by omega)
  simp [keyDecode, hl, hd, xorSalt_xorSalt]

theorem cidDecode_cidEncode (m : Mac) (hs : m.cipher.Sound) (id : Bytes) (h : id.length = 12) :
    ∃ text, cidEncode m id = some text ∧ text.length = 52 ∧ cidDecode m text = some id := by
  have ht : id.take 12 = id := List.take_of_length_le (by omega)
  have hx : 4 ≤ (xorSalt id).length := by simp [h]
  obtain ⟨out, ho⟩ : ∃ out, m.encrypt (xorSalt id) = some out := ⟨_, m.encrypt_eq _ hx⟩
  obtain ⟨hd, hl⟩ := m.decrypt_encrypt hs _ _ ho
  have hlo : out.length = 32 := by rw [hl]; simp [h]
  refine ⟨TextId.encode32 out, ?_, by simp [TextId.encode32], ?_⟩
  · have : ¬ id.length < 12 := by omega
    simp [cidEncode, this, ht, ho]
  · have h52 : ¬ (TextId.encode32 out).length < 52 := by simp [TextId.encode32]
    have hdec : (TextId.decodeInPlace 32 (TextId.encode32 out)).take 32 = out := by
      rw [TextId.decodeInPlace_eq 32 _ (by simp [TextId.encode32])]
      rw [show TextId.decodeN 32 (TextId.encode32 out) = out from TextId.decodeN_encodeN out hlo (by omega)]
      exact List.take_left' hlo
    simp only [cidDecode, if_neg h52, hdec, hd]
    rw [List.take_of_length_le (by simp [h]), xorSalt_xorSalt]

theorem length_rawKey {c : UInt32} {t : Bytes} {p : UInt32} {k : Bytes} (h : rawKey c t p = some k) : k.length = 8 := by
  simp only [rawKey, Option.map_eq_some_iff] at h
  obtain ⟨⟨a, b⟩, _, rfl⟩ := h
  simp

end Verif
