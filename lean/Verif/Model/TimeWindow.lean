import Verif.Model.Get
import Verif.Model.File
import Verif.Model.Codec
import Mathlib.Tactic.ByContra
import Mathlib.Data.List.Sort

/-!
# Time windows: which messages a topic has

time_window.go. Unsynced entries are in memory, one list per time block; synced entries are in chained window blocks on file,
newest block first.
-/

namespace Verif

/-- time_window.go:63-65 `isExpired`; `now` is `uint32(time.Now().Unix())`. -/
def WinEntry.isExpired (now : UInt32) (e : WinEntry) : Bool := e.expiresAt ≠ 0 && decide (e.expiresAt ≤ now)

/-- The entries of a list that are not expired. -/
def live (now : UInt32) (es : List WinEntry) : List WinEntry := es.filter fun e => !e.isExpired now

/-- time_window.go:225-252, the loop of `ilookup`: `lists` are the lists of the topic's time blocks in the order the map iteration
gives, `l` the variable of that name. `addExpiry` never fails, so `expiryCount` stays 0. The loop index runs from `len-1` down to
`len-l`. -/
def ilookupLoop (now : UInt32) (limit : Int) : List (List WinEntry) → (l : Int) → List WinEntry
  | [], _ => []
  | es :: rest, l =>
    if es.length > 0 then
      let l := limit - l
      let l : Int := if (es.length : Int) < l then es.length else l
      live now (es.reverse.take l.toNat) ++ ilookupLoop now limit rest l
    else ilookupLoop now limit rest l

/-- time_window.go:220-254 `ilookup`. -/
def ilookup (now : UInt32) (lists : List (List WinEntry)) (limit : Int) : List WinEntry := ilookupLoop now limit lists 0

/-- time_window_reader.go:45-55 `readWindowBlock`. -/
def readWindowBlock (file : Bytes) (off : Int) : Option WinBlock := (readAt file off blockSize).bind WinBlock.unmarshal

/-- time_window.go:67-69 `cutoff`. -/
def WinBlock.cutoff (b : WinBlock) (cutoff : Int) : Bool := b.cutoffTime ≠ 0 && decide (b.cutoffTime.toInt < cutoff)

/-- What the callback of `lookup` does with one block. -/
inductive BlockRes where
  | stop (acc : List WinEntry)
  | next (acc : List WinEntry) (limit : Int)
  | panic

/-- time_window.go:283-322, the callback: `acc` is `winEntries`. Slicing `entries[:entryIdx]` past 335 panics. -/
def lookupBlock (now : UInt32) (hash : UInt64) (cutoff : Int) (b : WinBlock) (acc : List WinEntry) (limit : Int) : BlockRes :=
  if b.topicHash ≠ hash then .stop acc
  else if entriesPerWindowBlock < b.entryIdx.toNat then .panic
  else
    let es := (b.entries.take b.entryIdx.toNat).reverse
    let full (acc : List WinEntry) (limit : Int) : BlockRes :=
      let acc := acc ++ live now es
      if b.cutoff cutoff then .stop acc else .next acc limit
    if (acc.length : Int) > limit - b.entryIdx.toNat then
      let limit := limit - acc.length
      let acc := acc ++ live now (es.take limit.toNat)
      if (acc.length : Int) ≥ limit then .stop acc else full acc limit
    else full acc limit

/-- time_window.go:266-281, following the chain of blocks from `off`. `none` only when the fuel of the model runs out or the code
panics; a read error ends the lookup with what was found. -/
def lookupChain (now : UInt32) (file : Bytes) (hash : UInt64) (cutoff : Int) :
    (fuel : Nat) → (off : Int) → List WinEntry → (limit : Int) → Option (List WinEntry)
  | 0, _, _, _ => none
  | fuel + 1, off, acc, limit =>
    match readWindowBlock file off with
    | none => some acc
    | some b =>
      match lookupBlock now hash cutoff b acc limit with
      | .panic => none
      | .stop acc => some acc
      | .next acc limit => if b.next = 0 then some acc else lookupChain now file hash cutoff fuel b.next.toInt acc limit

/-- time_window.go:257-330 `lookup`; the fuel is one more than the number of blocks in the file. -/
def windowLookup (now : UInt32) (lists : List (List WinEntry)) (file : Bytes) (hash : UInt64) (off cutoff limit : Int) :
    Option (List WinEntry) :=
  let acc := ilookup now lists limit
  if (acc.length : Int) ≥ limit then some acc
  else lookupChain now file hash cutoff (file.length / blockSize + 1) off acc limit

/-- db_internal.go:217-234 `lookup`: the topics found by the trie, sorted by offset; `lists` gives the unsynced entries of a topic.
`cands` is `winEntries` of the query, which is not cleared before. -/
def dbLookup (now : UInt32) (lists : UInt64 → List (List WinEntry)) (file : Bytes) (cutoff limit : Int) :
    List (UInt64 × Int) → List UInt64 → Option (List UInt64)
  | [], cands => some cands
  | (hash, off) :: ts, cands =>
    if (cands.length : Int) > limit then some cands
    else do
      let es ← windowLookup now (lists hash) file hash off cutoff (limit - cands.length)
      dbLookup now lists file cutoff limit ts (cands ++ es.map (·.seq))

/-- db.go:243-245: the candidates sorted by sequence, highest first. -/
def sortDesc (cands : List UInt64) : List UInt64 := cands.insertionSort (fun a b => b ≤ a)

/-- A query after parsing: contract, cutoff in Unix seconds, limit. -/
structure Ask where
  contract : UInt32
  cutoff : Int
  limit : Int

/-- db.go:235-319: lookup, sort and pagination. `topics` is the result of the trie lookup, `old` the candidates a reused query
object still holds (`winEntries`), `cap` the capacity of the candidate slice. -/
def dbGet (v : View) (now : UInt32) (lists : UInt64 → List (List WinEntry)) (file : Bytes) (a : Ask)
    (topics : List (UInt64 × Int)) (old : List UInt64) (cap : Nat) : GetOut :=
  match dbLookup now lists file a.cutoff a.limit topics old with
  | none => .panic
  | some cands => getItems (candStep v a.contract a.cutoff) (sortDesc cands) cap a.limit

/-! ## Lemmas -/

theorem mem_live {now : UInt32} {es : List WinEntry} {e : WinEntry} : e ∈ live now es ↔ e ∈ es ∧ e.isExpired now = false := by
  simp [live, List.mem_filter]

theorem mem_ilookupLoop {now : UInt32} {limit : Int} {e : WinEntry} (lists : List (List WinEntry)) :
    ∀ l : Int, e ∈ ilookupLoop now limit lists l → e.isExpired now = false ∧ ∃ es ∈ lists, e ∈ es := by
  induction lists with
  | nil => intro l h; simp [ilookupLoop] at h
  | cons es rest ih =>
    intro l h
    rw [ilookupLoop] at h
    split at h
    · rw [List.mem_append] at h
      rcases h with h | h
      · have := mem_live.1 h
        exact ⟨this.2, es, by simp, List.mem_reverse.1 (List.mem_of_mem_take this.1)⟩
      · obtain ⟨h1, x, h2, h3⟩ := ih _ h
        exact ⟨h1, x, List.mem_cons_of_mem _ h2, h3⟩
    · obtain ⟨h1, x, h2, h3⟩ := ih _ h
      exact ⟨h1, x, List.mem_cons_of_mem _ h2, h3⟩

/-- The entries a block adds are live entries of the block. -/
theorem mem_lookupBlock {now : UInt32} {hash : UInt64} {cutoff : Int} {b : WinBlock} {acc acc' : List WinEntry} {limit : Int}
    (h : lookupBlock now hash cutoff b acc limit = .stop acc' ∨ ∃ l', lookupBlock now hash cutoff b acc limit = .next acc' l')
    {e : WinEntry} (he : e ∈ acc') : e ∈ acc ∨ (e.isExpired now = false ∧ b.topicHash = hash ∧ e ∈ b.entries.take b.entryIdx.toNat) := by
  have mem1 : ∀ n, e ∈ live now ((b.entries.take b.entryIdx.toNat).reverse.take n) →
      e.isExpired now = false ∧ e ∈ b.entries.take b.entryIdx.toNat := fun n hm =>
    ⟨(mem_live.1 hm).2, List.mem_reverse.1 (List.mem_of_mem_take (mem_live.1 hm).1)⟩
  have mem2 : e ∈ live now (b.entries.take b.entryIdx.toNat).reverse →
      e.isExpired now = false ∧ e ∈ b.entries.take b.entryIdx.toNat := fun hm =>
    ⟨(mem_live.1 hm).2, List.mem_reverse.1 (mem_live.1 hm).1⟩
  unfold lookupBlock at h
  by_cases hh : b.topicHash ≠ hash
  · simp only [if_pos hh] at h
    rcases h with h | ⟨_, h⟩ <;> cases h
    exact .inl he
  · have hh' : b.topicHash = hash := by
      by_contra hc; exact hh hc
    simp only [if_neg hh] at h
    by_cases hp : entriesPerWindowBlock < b.entryIdx.toNat
    · simp only [if_pos hp] at h
      rcases h with h | ⟨_, h⟩ <;> cases h
    · simp only [if_neg hp] at h
      by_cases h1 : (acc.length : Int) > limit - b.entryIdx.toNat
      · simp only [if_pos h1] at h
        split at h
        · rcases h with h | ⟨_, h⟩ <;> cases h
          rcases List.mem_append.1 he with he | he
          · exact .inl he
          · exact .inr ⟨(mem1 _ he).1, hh', (mem1 _ he).2⟩
        · have : acc' = acc ++ live now ((b.entries.take b.entryIdx.toNat).reverse.take (limit - acc.length).toNat) ++
              live now (b.entries.take b.entryIdx.toNat).reverse := by
            split at h <;> rcases h with h | ⟨_, h⟩ <;> cases h <;> rfl
          rw [this, List.mem_append, List.mem_append] at he
          rcases he with (he | he) | he
          · exact .inl he
          · exact .inr ⟨(mem1 _ he).1, hh', (mem1 _ he).2⟩
          · exact .inr ⟨(mem2 he).1, hh', (mem2 he).2⟩
      · simp only [if_neg h1] at h
        have : acc' = acc ++ live now (b.entries.take b.entryIdx.toNat).reverse := by
          split at h <;> rcases h with h | ⟨_, h⟩ <;> cases h <;> rfl
        rw [this, List.mem_append] at he
        rcases he with he | he
        · exact .inl he
        · exact .inr ⟨(mem2 he).1, hh', (mem2 he).2⟩

/-- Where an entry found on file comes from. -/
def OnFile (file : Bytes) (hash : UInt64) (e : WinEntry) : Prop :=
  ∃ off b, readWindowBlock file off = some b ∧ b.topicHash = hash ∧ e ∈ b.entries.take b.entryIdx.toNat

theorem mem_lookupChain {now : UInt32} {file : Bytes} {hash : UInt64} {cutoff : Int} {e : WinEntry} (fuel : Nat) :
    ∀ (off : Int) (acc : List WinEntry) (limit : Int) (r : List WinEntry),
      lookupChain now file hash cutoff fuel off acc limit = some r → e ∈ r →
      e ∈ acc ∨ (e.isExpired now = false ∧ OnFile file hash e) := by
  induction fuel with
  | zero => intro off acc limit r h; simp [lookupChain] at h
  | succ fuel ih =>
    intro off acc limit r h he
    rw [lookupChain] at h
    cases hb : readWindowBlock file off with
    | none => rw [hb] at h; cases h; exact .inl he
    | some b =>
      rw [hb] at h
      dsimp only at h
      cases hl : lookupBlock now hash cutoff b acc limit with
      | panic => rw [hl] at h; cases h
      | stop acc' =>
        rw [hl] at h; cases h
        rcases mem_lookupBlock (.inl hl) he with h1 | ⟨h1, h2, h3⟩
        · exact .inl h1
        · exact .inr ⟨h1, off, b, hb, h2, h3⟩
      | next acc' l' =>
        rw [hl] at h
        dsimp only at h
        have key : e ∈ acc' → e ∈ acc ∨ (e.isExpired now = false ∧ OnFile file hash e) := by
          intro he
          rcases mem_lookupBlock (.inr ⟨l', hl⟩) he with h1 | ⟨h1, h2, h3⟩
          · exact .inl h1
          · exact .inr ⟨h1, off, b, hb, h2, h3⟩
        split at h
        · cases h; exact key he
        · rcases ih _ _ _ _ h he with h1 | h1
          · exact key h1
          · exact .inr h1

theorem mem_windowLookup {now : UInt32} {lists : List (List WinEntry)} {file : Bytes} {hash : UInt64} {off cutoff limit : Int}
    {r : List WinEntry} (h : windowLookup now lists file hash off cutoff limit = some r) {e : WinEntry} (he : e ∈ r) :
    e.isExpired now = false ∧ ((∃ es ∈ lists, e ∈ es) ∨ OnFile file hash e) := by
  unfold windowLookup at h
  dsimp only at h
  split at h
  · cases h
    obtain ⟨h1, h2⟩ := mem_ilookupLoop lists 0 he
    exact ⟨h1, .inl h2⟩
  · rcases mem_lookupChain _ _ _ _ _ h he with h1 | h1
    · obtain ⟨h1, h2⟩ := mem_ilookupLoop lists 0 h1
      exact ⟨h1, .inl h2⟩
    · exact ⟨h1.1, .inr h1.2⟩

theorem mem_dbLookup {now : UInt32} {lists : UInt64 → List (List WinEntry)} {file : Bytes} {cutoff limit : Int}
    (ts : List (UInt64 × Int)) : ∀ {cands r : List UInt64}, dbLookup now lists file cutoff limit ts cands = some r →
    ∀ {q : UInt64}, q ∈ r → q ∈ cands ∨ ∃ e : WinEntry, e.seq = q ∧ e.isExpired now = false ∧
      ∃ t ∈ ts, (∃ es ∈ lists t.1, e ∈ es) ∨ OnFile file t.1 e := by
  induction ts with
  | nil => intro cands r h q hq; cases h; exact .inl hq
  | cons t ts ih =>
    intro cands r h q hq
    obtain ⟨hash, off⟩ := t
    rw [dbLookup] at h
    split at h
    · cases h; exact .inl hq
    · simp only [Option.bind_eq_bind, Option.bind_eq_some_iff] at h
      obtain ⟨es, h1, h2⟩ := h
      rcases ih h2 hq with h3 | ⟨e, h3, h4, t, h5, h6⟩
      · rw [List.mem_append, List.mem_map] at h3
        rcases h3 with h3 | ⟨e, he, rfl⟩
        · exact .inl h3
        · obtain ⟨a, b⟩ := mem_windowLookup h1 he
          exact .inr ⟨e, rfl, a, (hash, off), by simp, b⟩
      · exact .inr ⟨e, h3, h4, t, List.mem_cons_of_mem _ h5, h6⟩

end Verif
