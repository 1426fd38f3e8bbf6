import Verif.Model.Delivery

/-!
# Asking the server for keys and client ids

server/internal/hdl_conn.go:510-588 and server/internal/types/types.go:55-77: what is answered to a message published to
"unitdb/clientid" or "unitdb/keygen". Answers are values here; `encoding/json` turns them into the payload of a message.
-/

namespace Verif

/-- types.go:55-58 `KeyGenRequest`. -/
structure KeyAsk where
  topic : Bytes
  type : Bytes
  deriving DecidableEq, Repr

/-- types.go:79-97 `KeyGenResponse`, `ClientIdResponse` and the errors. -/
inductive Issued
  | keys (answers : List (Bytes × Bytes))
  | clientId (text : Bytes)
  | idForbidden
  | badRequest
  | tooLong
  | notFound
  deriving DecidableEq, Repr

/-- clientid.go:153-163 `NewSecondaryClientID`: the contract is that of the other id (`none`: `Contract` of a shorter id panics). -/
def newSecondary (epoch : UInt32) (own : Bytes) : Option Bytes :=
  (cidContract own).map fun c => newClientID epoch 1 0 c

/-- hdl_conn.go:540-555 `onClientIDRequest` (`none`: a panic). -/
def onClientIdRequest (m : Mac) (epoch : UInt32) (own : Bytes) : Option Issued :=
  match cidIsPrimary own with
  | none => none
  | some false => some .idForbidden
  | some true => do
    let id ← newSecondary epoch own
    let text ← cidEncode m id
    pure (.clientId text)

/-- hdl_conn.go:567-584, the loop of `onKeyGen`: keys with their topics (`none`: a topic has too many parts). -/
def keyGenLoop (contract : UInt32) : List KeyAsk → List (Bytes × Bytes) → Option (List (Bytes × Bytes))
  | [], acc => some acc
  | a :: as, acc =>
    match generateKey contract a.topic (access a.type) with
    | none => none
    | some key => keyGenLoop contract as (acc ++ [(key, a.topic)])

/-- hdl_conn.go:558-588 `onKeyGen`; `asks` is what `json.Unmarshal` makes of the payload, `none` for an error of it. -/
def onKeyGen (own : Bytes) (asks : Option (List KeyAsk)) : Option Issued :=
  match asks with
  | none => some .badRequest
  | some [] => some (.keys [])
  | some l =>
    (cidContract own).map fun c =>
      match keyGenLoop c l [] with
      | none => .tooLong
      | some answers => .keys answers

/-- hdl_conn.go:510-536 `onSpecialRequest` for the topic text without its options. -/
def onSpecialRequest (m : Mac) (epoch : UInt32) (own : Bytes) (topic : Bytes) (asks : Option (List KeyAsk)) : Option Issued :=
  if topic = [] then some .notFound
  else if serverHash topic messageContract = requestClientId then onClientIdRequest m epoch own
  else if serverHash topic messageContract = requestKeygen then onKeyGen own asks
  else some .notFound

end Verif
