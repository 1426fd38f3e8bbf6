import Verif.Model.ServerState

/-! # Message ids, subscription counts, the message log and sessions (C50, C53, C57, C64, C65, C66) -/

namespace Verif

/-! ## C50: message identifiers -/

/-- What happens to the identifiers of one connection. -/
inductive MidOp where
  | alloc
  | free (i : UInt32)
  | resume (i : UInt32)
  deriving DecidableEq, Repr

/-- A run: the identifiers handed out, oldest first; `none`: an allocation never returns. -/
def MidOp.run : MIds → List MidOp → Option (List UInt32 × MIds)
  | m, [] => some ([], m)
  | m, .alloc :: ops => m.nextID.bind fun (i, m') => (run m' ops).map fun (is, m'') => (i :: is, m'')
  | m, .free i :: ops => run (m.freeID i) ops
  | m, .resume i :: ops => run (m.resumeID i) ops

theorem MidOp.run_ids (ops : List MidOp) (m m' : MIds) (out : List UInt32) (h : run m ops = some (out, m')) :
    (∀ k (hk : k < out.length), out[k] = m.id + UInt32.ofNat (k + 1)) := by
  induction ops generalizing m out with
  | nil =>
    simp only [run, Option.some.injEq, Prod.mk.injEq] at h
    obtain ⟨rfl, rfl⟩ := h
    intro k hk; simp at hk
  | cons op ops ih =>
    cases op with
    | free i => exact ih (m.freeID i) out h
    | resume i => exact ih (m.resumeID i) out h
    | alloc =>
      simp only [run, Option.bind_eq_some_iff, Option.map_eq_some_iff] at h
      obtain ⟨⟨i, m1⟩, hn, ⟨is, m2⟩, hr, he⟩ := h
      simp only [Prod.mk.injEq] at he
      obtain ⟨rfl, rfl⟩ := he
      simp only [MIds.nextID] at hn
      split at hn
      · simp at hn
      · simp only [Option.some.injEq, Prod.mk.injEq] at hn
        obtain ⟨rfl, rfl⟩ := hn
        intro k hk
        cases k with
        | zero => rfl
        | succ k =>
          simp only [List.length_cons, Nat.add_lt_add_iff_right] at hk
          have := ih _ _ hr k hk
          simp only [List.getElem_cons_succ, this]
          rw [UInt32.add_assoc]
          congr 1
          rw [show k + 1 + 1 = 1 + (k + 1) by omega, UInt32.ofNat_add 1 (k + 1)]
          rfl

/-- C50, what does hold: in every history of allocations, frees and resumes in which the allocations
return, up to 2^32 consecutive identifiers are distinct as 32-bit numbers. -/
theorem C50_distinct_partial (ops : List MidOp) (m m' : MIds) (out : List UInt32) (h : MidOp.run m ops = some (out, m'))
    (hl : out.length ≤ 2 ^ 32) : out.Nodup := by
  have hr := MidOp.run_ids ops m m' out h
  rw [List.nodup_iff_pairwise_ne, List.pairwise_iff_getElem]
  intro i j hi hj hij e
  rw [hr i hi, hr j hj] at e
  have e' := congrArg (fun x : UInt32 => (x - m.id).toNat) e
  have hs : ∀ x y : UInt32, (x + y - x) = y := by intro x y; rw [UInt32.add_comm]; exact UInt32.add_sub_cancel y x
  rw [hs, hs] at e'
  simp only [UInt32.toNat_ofNat'] at e'
  omega

example : MidOp.run .new [.resume 9, .alloc, .free 1, .alloc, .alloc] =
    some ([1, 2, 3], ⟨3, [9], [3, 2]⟩) := by decide

/-- C50, what does hold: a resumed identifier is not handed out later (as a 32-bit number). -/
theorem C50_resumed_partial (m m' : MIds) (i : UInt32) (h : m.nextID = some (i, m')) : i ∉ m.resume := by
  simp only [MIds.nextID] at h
  split at h
  · simp at h
  · next hn =>
    simp only [Option.some.injEq, Prod.mk.injEq] at h
    obtain ⟨rfl, _⟩ := h
    exact hn

example : (MIds.new.resumeID 5).nextID = some (1, ⟨1, [5], [1]⟩) := by decide

/-- `n` allocations in a row. -/
theorem MidOp.run_allocs (m : MIds) (n : Nat) (h : ∀ k, k < n → m.id + UInt32.ofNat (k + 1) ∉ m.resume) :
    ∃ out m', run m (List.replicate n .alloc) = some (out, m') ∧ m'.id = m.id + UInt32.ofNat n ∧ m'.resume = m.resume := by
  induction n generalizing m with
  | zero => exact ⟨[], m, rfl, by simp, rfl⟩
  | succ n ih =>
    have h0 : m.id + 1 ∉ m.resume := by
      have := h 0 (by omega)
      simpa using this
    obtain ⟨out, m', h1, h2, h3⟩ := ih { m with id := m.id + 1, index := (m.id + 1) :: m.index } (by
      intro k hk
      have := h (k + 1) (by omega)
      rw [show k + 1 + 1 = 1 + (k + 1) by omega, UInt32.ofNat_add 1 (k + 1), ← UInt32.add_assoc] at this
      exact this)
    refine ⟨(m.id + 1) :: out, m', ?_, ?_, h3⟩
    · simp only [List.replicate_succ, run, MIds.nextID, if_neg h0, Option.bind_some, h1, Option.map_some]
    · rw [h2, show n + 1 = 1 + n by omega, UInt32.ofNat_add 1 n, ← UInt32.add_assoc]
      rfl

/-- C50 (violated): after a session with an unacknowledged message `i` has been resumed, the `i`-th
message sent on the connection blocks for ever: allocations 1 … i−1 succeed and the next never returns. -/
theorem C50_resume_blocks_violated (i : UInt16) (hi : i ≠ 0) :
    (∃ out m', MidOp.run (MIds.new.resumeID i.toUInt32) (List.replicate (i.toNat - 1) .alloc) = some (out, m')) ∧
      MidOp.run (MIds.new.resumeID i.toUInt32) (List.replicate i.toNat .alloc) = none := by
  have hpos : 0 < i.toNat := by
    rcases Nat.eq_zero_or_pos i.toNat with h | h
    · exact absurd (UInt16.toNat_inj.mp (by simpa using h)) hi
    · exact h
  have hlt := i.toNat_lt
  obtain ⟨out, m', h1, h2, h3⟩ := MidOp.run_allocs (MIds.new.resumeID i.toUInt32) (i.toNat - 1) (by
    intro k hk
    simp only [MIds.resumeID, MIds.new, List.mem_singleton]
    intro e
    have := congrArg UInt32.toNat e
    simp only [UInt32.zero_add, UInt32.toNat_ofNat', UInt16.toNat_toUInt32] at this
    omega)
  refine ⟨⟨out, m', h1⟩, ?_⟩
  have happ : ∀ (a b : List MidOp) (m : MIds), MidOp.run m (a ++ b) =
      (MidOp.run m a).bind fun (o, m') => (MidOp.run m' b).map fun (o', m'') => (o ++ o', m'') := by
    intro a b
    induction a with
    | nil => intro m; simp [MidOp.run]
    | cons op a ih =>
      intro m
      cases op with
      | free i => simp only [List.cons_append, MidOp.run, ih]
      | resume i => simp only [List.cons_append, MidOp.run, ih]
      | alloc =>
        simp only [List.cons_append, MidOp.run]
        cases m.nextID with
        | none => rfl
        | some im =>
          simp only [Option.bind_some, ih]
          cases MidOp.run im.2 a with
          | none => rfl
          | some om =>
            simp only [Option.bind_some, Option.map_some]
            cases MidOp.run om.2 b <;> rfl
  have hsplit : List.replicate i.toNat MidOp.alloc = List.replicate (i.toNat - 1) .alloc ++ [.alloc] := by
    rw [← List.replicate_succ']
    congr 1; omega
  rw [hsplit, happ, h1]
  have hmem : m'.id + 1 ∈ m'.resume := by
    rw [h2, h3]
    simp only [MIds.resumeID, MIds.new, List.mem_singleton, UInt32.zero_add]
    apply UInt32.toNat_inj.mp
    simp only [UInt32.toNat_add, UInt32.toNat_ofNat', UInt16.toNat_toUInt32, UInt32.reduceToNat]
    omega
  simp [MidOp.run, MIds.nextID, hmem]

/-- C50 (violated): the identifier in a packet has 16 bits, so it repeats after 65536 messages: of any
65537 consecutive allocations the first and the last put the same identifier on the wire. -/
theorem C50_wire_repeats_violated (ops : List MidOp) (m m' : MIds) (out : List UInt32) (h : MidOp.run m ops = some (out, m'))
    (k : Nat) (hk : k + 65536 < out.length) : wireID out[k] = wireID out[k + 65536] := by
  have hr := MidOp.run_ids ops m m' out h
  rw [hr k (by omega), hr (k + 65536) hk]
  apply UInt16.toNat_inj.mp
  simp only [wireID, UInt32.toNat_toUInt16, UInt32.toNat_add, UInt32.toNat_ofNat']
  omega

/-- …and such runs exist. -/
theorem C50_wire_runs_exist (n : Nat) : ∃ out m', MidOp.run .new (List.replicate n .alloc) = some (out, m') := by
  obtain ⟨out, m', h, _⟩ := MidOp.run_allocs .new n (by intro k _; simp [MIds.new])
  exact ⟨out, m', h⟩

/-! ## C53: subscription counting -/

/-- Subscribes and unsubscribes of one connection. -/
inductive SubOp where
  | sub (topic key id : Bytes)
  | unsub (key : Bytes)
  deriving DecidableEq, Repr

/-- The counts after a history. -/
def SubOp.run (s : SubStats) : List SubOp → SubStats
  | [] => s
  | .sub t k i :: ops => run (s.increment t k i).2 ops
  | .unsub k :: ops => run (s.decrement k).2.2 ops

/-- How many subscribes of `key` exceed its effective unsubscribes (those made while there were any), and
the identifier that came with the subscribe that opened it. Newest operation first. -/
def Spec.subCount (key : Bytes) : List SubOp → Nat × Bytes
  | [] => (0, [])
  | .sub _ k i :: older =>
    let (n, id) := Spec.subCount key older
    if k = key then (n + 1, if n = 0 then i else id) else (n, id)
  | .unsub k :: older =>
    let (n, id) := Spec.subCount key older
    if k = key then (n - 1, id) else (n, id)

theorem SubOp.run_append (s : SubStats) (a b : List SubOp) : run s (a ++ b) = run (run s a) b := by
  induction a generalizing s with
  | nil => rfl
  | cons op a ih => cases op <;> simp [run, ih]

theorem SubOp.run_spec (ops : List SubOp) (key : Bytes) :
    match run .new ops key with
    | none => (Spec.subCount key ops.reverse).1 = 0
    | some st => 0 < (Spec.subCount key ops.reverse).1 ∧ st.counter = (Spec.subCount key ops.reverse).1 ∧
        st.id = (Spec.subCount key ops.reverse).2 := by
  generalize hr : ops.reverse = rev
  have ho : ops = rev.reverse := by rw [← hr, List.reverse_reverse]
  subst ho
  clear hr
  induction rev with
  | nil => simp [run, SubStats.new, Spec.subCount]
  | cons op rev ih =>
    simp only [List.reverse_cons, run_append]
    cases op with
    | sub t k i =>
      simp only [run, SubStats.increment, Spec.subCount]
      by_cases hk : key = k
      · subst hk
        simp only [if_true]
        cases hs : run SubStats.new rev.reverse key with
        | none => simp only [hs] at ih; simp [ih]
        | some st =>
          simp only [hs] at ih
          obtain ⟨h1, h2, h3⟩ := ih
          refine ⟨by omega, ?_, ?_⟩
          · simp only [Option.getD_some, h2]; omega
          · rw [if_neg (by omega)]; exact h3
      · rw [if_neg hk, if_neg (fun e => hk e.symm)]
        exact ih
    | unsub k =>
      simp only [run, Spec.subCount]
      by_cases hk : key = k
      · subst hk
        simp only [if_true]
        unfold SubStats.decrement
        cases hs : run SubStats.new rev.reverse key with
        | none => simp only [hs] at ih ⊢; omega
        | some st =>
          simp only [hs] at ih
          obtain ⟨h1, h2, h3⟩ := ih
          by_cases hc : st.counter - 1 ≤ 0
          · simp only [hc, if_true]; omega
          · simp only [hc, if_false, if_true]
            refine ⟨by omega, by omega, h3⟩
      · rw [if_neg (fun e => hk e.symm)]
        unfold SubStats.decrement
        cases hs : run SubStats.new rev.reverse k with
        | none => exact ih
        | some st =>
          by_cases hc : st.counter - 1 ≤ 0 <;> simp only [hc, if_true, if_false, if_neg hk] <;> exact ih

/-- C53: a key is reported present exactly while its subscribes outnumber its effective unsubscribes. -/
theorem C53_present (ops : List SubOp) (key : Bytes) :
    (SubOp.run .new ops).exists key = true ↔ 0 < (Spec.subCount key ops.reverse).1 := by
  have := SubOp.run_spec ops key
  simp only [SubStats.exists]
  cases h : SubOp.run .new ops key with
  | none => simp [h] at this ⊢; omega
  | some st => simp [h] at this ⊢; omega

/-- C53: a subscribe is reported as the first exactly when there was none before. -/
theorem C53_first (ops : List SubOp) (topic key id : Bytes) :
    ((SubOp.run .new ops).increment topic key id).1 = true ↔ (Spec.subCount key ops.reverse).1 = 0 := by
  have := SubOp.run_spec ops key
  simp only [SubStats.increment, beq_iff_eq]
  cases h : SubOp.run .new ops key with
  | none => simp [h] at this ⊢; omega
  | some st => simp [h] at this ⊢; omega

/-- C53: an unsubscribe is reported as the last exactly when one subscribe was left, together with the
identifier of the subscribe that was reported as the first; otherwise no identifier is returned. -/
theorem C53_last (ops : List SubOp) (key : Bytes) :
    (((SubOp.run .new ops).decrement key).1 = true ↔ (Spec.subCount key ops.reverse).1 = 1) ∧
      ((SubOp.run .new ops).decrement key).2.1 =
        if (Spec.subCount key ops.reverse).1 = 1 then some (Spec.subCount key ops.reverse).2 else none := by
  have := SubOp.run_spec ops key
  simp only [SubStats.decrement]
  cases h : SubOp.run .new ops key with
  | none => simp only [h] at this; simp [this]
  | some st =>
    simp only [h] at this
    obtain ⟨h1, h2, h3⟩ := this
    by_cases hc : st.counter - 1 ≤ 0
    · have : (Spec.subCount key ops.reverse).1 = 1 := by omega
      simp [hc, this, h3]
    · have : ¬ (Spec.subCount key ops.reverse).1 = 1 := by omega
      simp [hc, this]

example : Spec.subCount [1] [.sub [] [1] [7], .unsub [1], .unsub [1], .sub [] [2] [8], .sub [] [1] [9]] = (1, [7]) := by decide

/-! ## C57: the keys of stored packets -/

theorem packetKey_toNat (mid : UInt16) (block : UInt32) : (packetKey mid block).toNat = mid.toNat * 2 ^ 32 + block.toNat := by
  have h1 := mid.toNat_lt
  have h2 := block.toNat_lt
  simp only [packetKey, UInt64.toNat_add, UInt64.toNat_shiftLeft, UInt16.toNat_toUInt64, UInt32.toNat_toUInt64,
    UInt64.reduceToNat, Nat.shiftLeft_eq, show 32 % 64 = 32 by rfl]
  omega

theorem inBlock_packetKey (mid : UInt16) (b block : UInt32) : inBlock b (packetKey mid block) = true ↔ b = block := by
  simp only [inBlock, beq_iff_eq]
  have h1 := b.toNat_lt
  have h2 := block.toNat_lt
  rw [← UInt64.toNat_inj, UInt64.toNat_and, packetKey_toNat, UInt32.toNat_toUInt64]
  rw [show (0xFFFFFFFF : UInt64).toNat = 2 ^ 32 - 1 by decide, Nat.and_two_pow_sub_one_eq_mod]
  constructor
  · intro h; apply UInt32.toNat_inj.mp; omega
  · rintro rfl; omega

/-- C57: the storage key determines the connection and the packet. -/
theorem C57_key_injective (m m' : UInt16) (b b' : UInt32) (h : packetKey m b = packetKey m' b') : m = m' ∧ b = b' := by
  have e := congrArg UInt64.toNat h
  rw [packetKey_toNat, packetKey_toNat] at e
  have h1 := b.toNat_lt
  have h2 := b'.toNat_lt
  exact ⟨UInt16.toNat_inj.mp (by omega), UInt32.toNat_inj.mp (by omega)⟩

theorem find?_eq_of_pred {α : Type} (l : List α) (p q : α → Bool) (h : ∀ x, p x = q x) : l.find? p = l.find? q := by
  rw [show p = q from funext h]

theorem LogMap.get_put (l : LogMap) (k k' : UInt64) (v : Bytes) : (l.put k v).get k' = if k' = k then some v else l.get k' := by
  by_cases h : k' = k
  · subst h; simp [LogMap.put, LogMap.get]
  · have h' : ¬ k = k' := fun e => h e.symm
    simp only [LogMap.put, LogMap.get, if_neg h, List.find?_cons]
    rw [show (k == k') = false by simp [h']]
    simp only [List.find?_filter]
    congr 1
    refine find?_eq_of_pred l _ _ fun x => ?_
    by_cases hx : x.1 = k' <;> simp [hx, h]

theorem LogMap.get_delete (l : LogMap) (k k' : UInt64) : (l.delete k).get k' = if k' = k then none else l.get k' := by
  simp only [LogMap.delete, LogMap.get, List.find?_filter]
  by_cases h : k' = k
  · subst h
    rw [if_pos rfl]
    rw [Option.map_eq_none_iff, List.find?_eq_none]
    intro x _
    by_cases hx : x.1 = k' <;> simp [hx]
  · rw [if_neg h]
    congr 1
    refine find?_eq_of_pred l _ _ fun x => ?_
    by_cases hx : x.1 = k' <;> simp [hx, h]

theorem LogMap.mem_keys (l : LogMap) (k : UInt64) : k ∈ l.map (·.1) ↔ (l.get k).isSome = true := by
  simp only [LogMap.get, Option.isSome_map, List.find?_isSome, List.mem_map, beq_iff_eq]

theorem LogMap.get_reset (l : LogMap) (b : UInt32) (k : UInt64) : (l.reset b).get k = if inBlock b k then none else l.get k := by
  have key : ∀ (ks : List UInt64) (acc : LogMap), (ks.foldl (fun acc k => if inBlock b k then acc.delete k else acc) acc).get k =
      if inBlock b k ∧ k ∈ ks then none else acc.get k := by
    intro ks
    induction ks with
    | nil => intro acc; simp
    | cons x ks ih =>
      intro acc
      rw [List.foldl_cons, ih]
      by_cases hb : inBlock b k = true
      · by_cases hx : k = x
        · subst hx; simp [hb, LogMap.get_delete]
        · by_cases hbx : inBlock b x = true
          · simp [hb, hx, hbx, LogMap.get_delete]
          · simp [hb, hx, hbx]
      · by_cases hx : k = x
        · subst hx; simp [hb]
        · by_cases hbx : inBlock b x = true
          · simp [hb, hx, hbx, LogMap.get_delete]
          · simp [hb, hbx]
  rw [LogMap.reset, key]
  by_cases hb : inBlock b k = true
  · simp only [hb, true_and, if_true]
    split
    · rfl
    · next h =>
      rw [LogMap.mem_keys] at h
      simpa using h
  · simp [hb]

/-- What connections do with the message log. -/
inductive LogOp where
  | persist (conn : UInt32) (mid : UInt16) (raw : Bytes)
  | complete (conn : UInt32) (mid : UInt16)
  | reset (conn : UInt32)
  deriving DecidableEq, Repr

/-- The log after a history. -/
def LogOp.run (l : LogMap) : List LogOp → LogMap
  | [] => l
  | .persist c m raw :: ops => run (l.persist c m raw) ops
  | .complete c m :: ops => run (l.delete (packetKey m c)) ops
  | .reset c :: ops => run (l.reset c) ops

/-- Every connection has its own packets; newest operation first. -/
def Spec.packetOf (conn : UInt32) (mid : UInt16) : List LogOp → Option Bytes
  | [] => none
  | .persist c m raw :: older => if c = conn ∧ m = mid then some raw else Spec.packetOf conn mid older
  | .complete c m :: older => if c = conn ∧ m = mid then none else Spec.packetOf conn mid older
  | .reset c :: older => if c = conn then none else Spec.packetOf conn mid older

theorem LogOp.run_append (l : LogMap) (a b : List LogOp) : run l (a ++ b) = run (run l a) b := by
  induction a generalizing l with
  | nil => rfl
  | cons op a ih => cases op <;> simp [run, ih]

/-- C57: for every history of persisting, completing and clearing by any number of connections, a packet
read back is that of its own connection's history. -/
theorem C57_isolated (ops : List LogOp) (conn : UInt32) (mid : UInt16) :
    (LogOp.run [] ops).get (packetKey mid conn) = Spec.packetOf conn mid ops.reverse := by
  generalize hr : ops.reverse = rev
  have ho : ops = rev.reverse := by rw [← hr, List.reverse_reverse]
  subst ho
  clear hr
  have hinj : ∀ (c : UInt32) (m : UInt16), packetKey mid conn = packetKey m c ↔ (c = conn ∧ m = mid) := by
    intro c m
    constructor
    · intro h; obtain ⟨rfl, rfl⟩ := C57_key_injective _ _ _ _ h; exact ⟨rfl, rfl⟩
    · rintro ⟨rfl, rfl⟩; rfl
  induction rev with
  | nil => rfl
  | cons op rev ih =>
    simp only [List.reverse_cons, run_append]
    cases op with
    | persist c m raw =>
      simp only [LogOp.run, LogMap.persist, LogMap.get_put, hinj, Spec.packetOf, ih]
    | complete c m => simp only [LogOp.run, LogMap.get_delete, hinj, Spec.packetOf, ih]
    | reset c => simp only [LogOp.run, LogMap.get_reset, inBlock_packetKey, Spec.packetOf, ih]
  where run_append := LogOp.run_append

/-- C57: listing a connection's packets finds exactly those it has. -/
theorem C57_list (ops : List LogOp) (conn : UInt32) (key : UInt64) :
    key ∈ (LogOp.run [] ops).keysOf conn ↔ ∃ mid, key = packetKey mid conn ∧ (Spec.packetOf conn mid ops.reverse).isSome = true := by
  have hkeys : ∀ (rev : List LogOp) (l : LogMap), (∀ k ∈ l.map (·.1), ∃ m c, k = packetKey m c) →
      ∀ k ∈ (LogOp.run l rev).map (·.1), ∃ m c, k = packetKey m c := by
    intro rev
    induction rev with
    | nil => intro l h; exact h
    | cons op rev ih =>
      intro l h
      cases op with
      | persist c m raw =>
        apply ih
        intro k hk
        rw [LogMap.mem_keys, LogMap.persist, LogMap.get_put] at hk
        split at hk
        · next e => exact ⟨m, c, e⟩
        · exact h k ((LogMap.mem_keys _ _).mpr hk)
      | complete c m =>
        apply ih
        intro k hk
        rw [LogMap.mem_keys, LogMap.get_delete] at hk
        split at hk
        · simp at hk
        · exact h k ((LogMap.mem_keys _ _).mpr hk)
      | reset c =>
        apply ih
        intro k hk
        rw [LogMap.mem_keys, LogMap.get_reset] at hk
        split at hk
        · simp at hk
        · exact h k ((LogMap.mem_keys _ _).mpr hk)
  simp only [LogMap.keysOf, List.mem_filter]
  constructor
  · rintro ⟨hm, hb⟩
    obtain ⟨m, c, rfl⟩ := hkeys ops [] (by simp) key hm
    rw [inBlock_packetKey] at hb
    subst hb
    refine ⟨m, rfl, ?_⟩
    rw [← C57_isolated, ← LogMap.mem_keys]
    exact hm
  · rintro ⟨m, rfl, hs⟩
    rw [← C57_isolated, ← LogMap.mem_keys] at hs
    exact ⟨hs, (inBlock_packetKey _ _ _).mpr rfl⟩

example : (LogOp.run [] [.persist 5 1 [1], .persist 6 1 [2], .persist 5 2 [3], .complete 5 1]).keysOf 5 = [packetKey 2 5] := by
  decide

end Verif
