import Verif.Model.Engine
import Verif.Model.Message

/-!
# Get: reading candidates and the pagination loop

db.go:222-319. The candidates come from the time windows (`Model/TimeWindow.lean`); here they are any list of sequences.
-/

namespace Verif

/-- What a Get reads from: the in-memory store, the two files, and the decoders (`mac.Decrypt`, `snappy.Decode`), which are
parameters; `none` is an error. -/
structure View where
  mem : UInt64 → Option Bytes
  index : Bytes
  data : Bytes
  decrypt : Bytes → Option Bytes
  decode : Bytes → Option Bytes

/-- Reading one message. -/
inductive Fetch where
  | ok (id val : Bytes)
  /-- `errMsgIDDeleted` -/
  | deleted
  /-- any other error -/
  | fail
  | panic
deriving DecidableEq, Repr

/-- block_reader.go:81-90 `readMessage`, the split of the record; the index `topicSize+idSize` is a uint16 sum. -/
def splitMessage (m : Bytes) (topicSize : UInt16) : Fetch :=
  match slice? m 0 9, slice? m (topicSize + 9).toNat m.length with
  | some id, some val => .ok id val
  | _, _ => .panic

/-- db_internal.go:196-212 `readEntry` and block_reader.go:81-90 `readMessage`: the memory copy first, then the files. -/
def fetch (v : View) (seq : UInt64) : Fetch :=
  match v.mem seq with
  | some d =>
    match EntryHdr.unmarshal d with
    | none => .panic
    | some h => splitMessage (d.drop entrySize) h.topicSize
  | none =>
    match readEntry v.index seq with
    | .error .deleted => .deleted
    | .error _ => .fail
    | .ok e =>
      match readAt v.data e.msgOffset.toInt e.mSize.toNat with
      | none => .fail
      | some m => splitMessage m e.topicSize

/-- What the body of the loop does with one candidate. -/
inductive Step where
  /-- nothing (sequence 0) -/
  | skip
  /-- `invalidCount++` -/
  | invalid
  /-- the payload is appended to the result -/
  | item (x : Bytes)
  /-- return the items so far and an error -/
  | fail
  | panic
deriving DecidableEq, Repr

/-- db.go:251-295, the body of the loop for one candidate. -/
def candStep (v : View) (contract : UInt32) (cutoff : Int) (seq : UInt64) : Step :=
  if seq = 0 then .skip
  else match fetch v seq with
    | .deleted => .invalid
    | .fail => .fail
    | .panic => .panic
    | .ok id val =>
      match evalPrefix id contract cutoff with
      | none => .panic
      | some false => .invalid
      | some true =>
        match (if id[8]? = some 1 then v.decrypt val else some val) with
        | none => .fail
        | some val =>
          match v.decode val with
          | none => .fail
          | some x => .item x

/-- How Get ends. `running` only when the fuel of the model runs out. -/
inductive GetOut where
  | ok (items : List Bytes)
  | err (items : List Bytes)
  | panic
  | running
deriving DecidableEq, Repr

/-- db.go:250-300, one pass over the candidates of a page: the items so far and the number of invalid candidates of this page. -/
def getPage (step : UInt64 → Step) : List UInt64 → List Bytes → Nat → GetOut ⊕ (List Bytes × Nat)
  | [], items, inv => .inr (items, inv)
  | c :: cs, items, inv =>
    match step c with
    | .skip => getPage step cs items inv
    | .invalid => getPage step cs items (inv + 1)
    | .item x => getPage step cs (items ++ [x]) inv
    | .fail => .inl (.err items)
    | .panic => .inl .panic

/-- db.go:248-315, the pagination loop. `cands` is `winEntries`, in a backing array of `cap` elements whose rest is zero: slicing
up to the capacity is legal and beyond it panics. -/
def getLoop (step : UInt64 → Step) (cands : List UInt64) (cap : Nat) (q : Int) :
    (fuel : Nat) → (start limit : Int) → List Bytes → GetOut
  | 0, _, _, _ => .running
  | fuel + 1, start, limit, items =>
    if start < 0 ∨ limit < start ∨ (cap : Int) < limit then .panic
    else
      match getPage step (((cands ++ List.replicate (cap - cands.length) 0).take limit.toNat).drop start.toNat) items 0 with
      | .inl out => out
      | .inr (items, inv) =>
        if inv = 0 ∨ (items.length : Int) = q ∨ (cands.length : Int) = limit then .ok items
        else if (cands.length : Int) ≤ q + inv then getLoop step cands cap q fuel limit cands.length items
        else getLoop step cands cap q fuel limit (limit + inv) items

/-- db.go:237-319, Get after the lookup, on the sorted candidates. -/
def getItems (step : UInt64 → Step) (cands : List UInt64) (cap : Nat) (q : Int) : GetOut :=
  if cands = [] then .ok []
  else getLoop step cands cap q (cap + 2) 0 (if (cands.length : Int) < q then cands.length else q) []

/-! ## Lemmas -/

/-- The payloads that reading the candidates yields. -/
def payloads (step : UInt64 → Step) (cs : List UInt64) : List Bytes :=
  cs.filterMap fun c => match step c with | .item x => some x | _ => none

/-- The number of candidates that are read and turn out invalid. -/
def invalids (step : UInt64 → Step) (cs : List UInt64) : Nat := cs.countP fun c => step c = .invalid

@[simp] theorem payloads_nil (step : UInt64 → Step) : payloads step [] = [] := rfl

theorem payloads_append (step : UInt64 → Step) (a b : List UInt64) :
    payloads step (a ++ b) = payloads step a ++ payloads step b := by simp [payloads]

theorem invalids_append (step : UInt64 → Step) (a b : List UInt64) :
    invalids step (a ++ b) = invalids step a + invalids step b := by simp [invalids]

theorem payloads_zeros {step : UInt64 → Step} (h0 : step 0 = .skip) (n : Nat) : payloads step (List.replicate n 0) = [] := by
  unfold payloads
  rw [List.filterMap_eq_nil_iff]
  intro a ha
  rw [(List.mem_replicate.1 ha).2, h0]

theorem invalids_zeros {step : UInt64 → Step} (h0 : step 0 = .skip) (n : Nat) : invalids step (List.replicate n 0) = 0 := by
  unfold invalids
  rw [List.countP_eq_zero]
  intro a ha
  rw [(List.mem_replicate.1 ha).2, h0]
  simp

/-- A page either ends the Get with a prefix of its payloads, or yields all of them and counts the invalid ones. -/
theorem getPage_spec (step : UInt64 → Step) (cs : List UInt64) : ∀ (items : List Bytes) (inv : Nat),
    getPage step cs items inv = .inl .panic ∨
    (∃ done rest, cs = done ++ rest ∧ getPage step cs items inv = .inl (.err (items ++ payloads step done))) ∨
    getPage step cs items inv = .inr (items ++ payloads step cs, inv + invalids step cs) := by
  induction cs with
  | nil => intro items inv; right; right; simp [getPage, invalids]
  | cons c cs ih =>
    intro items inv
    cases hs : step c with
    | skip =>
      simp only [getPage, hs]
      rcases ih items inv with h | ⟨d, r, h1, h2⟩ | h
      · exact .inl h
      · exact .inr (.inl ⟨c :: d, r, by simp [h1], by simp [h2, payloads, hs]⟩)
      · right; right; simp [h, payloads, invalids, hs]
    | invalid =>
      simp only [getPage, hs]
      rcases ih items (inv + 1) with h | ⟨d, r, h1, h2⟩ | h
      · exact .inl h
      · exact .inr (.inl ⟨c :: d, r, by simp [h1], by simp [h2, payloads, hs]⟩)
      · right; right; simp [h, payloads, invalids, hs]; omega
    | item x =>
      simp only [getPage, hs]
      rcases ih (items ++ [x]) inv with h | ⟨d, r, h1, h2⟩ | h
      · exact .inl h
      · exact .inr (.inl ⟨c :: d, r, by simp [h1], by simp [h2, payloads, hs]⟩)
      · right; right; simp [h, payloads, invalids, hs]
    | fail =>
      simp only [getPage, hs]
      exact .inr (.inl ⟨[], c :: cs, rfl, by simp⟩)
    | panic => simp [getPage, hs]

/-- No page panics when no candidate does. -/
theorem getPage_no_panic (step : UInt64 → Step) (cs : List UInt64) (h : ∀ c ∈ cs, step c ≠ .panic) :
    ∀ (items : List Bytes) (inv : Nat), getPage step cs items inv ≠ .inl .panic := by
  induction cs with
  | nil => intro items inv; simp [getPage]
  | cons c cs ih =>
    intro items inv
    have ih' := ih fun x hx => h x (List.mem_cons_of_mem _ hx)
    cases hs : step c with
    | skip => simpa only [getPage, hs] using ih' items inv
    | invalid => simpa only [getPage, hs] using ih' items (inv + 1)
    | item x => simpa only [getPage, hs] using ih' (items ++ [x]) inv
    | fail => simp [getPage, hs]
    | panic => exact absurd hs (h c (by simp))

/-- Candidates and invalid ones account for everything read, unless a candidate is 0. -/
theorem count_split (step : UInt64 → Step) (cs : List UInt64) :
    (payloads step cs).length + invalids step cs ≤ cs.length := by
  induction cs with
  | nil => simp [invalids]
  | cons c cs ih => cases hs : step c <;> simp [payloads, invalids, hs] at ih ⊢ <;> omega

end Verif
