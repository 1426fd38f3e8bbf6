import Verif.Model.MemDbInv
import Verif.Props.Bloom

/-! # C39, C44: the in-memory store -/

namespace Verif

/-- What a user or the background writer does to the store. `rotate` is the clock starting a new tiny log, `write`
writes the block of a tiny log to the log file. -/
inductive MOp where
  | rotate (t : Int)
  | put (key : UInt64) (d : Bytes)
  | delete (key : UInt64)
  | get (key : UInt64)
  | write (id t : Int) (managed : Bool)

def MemDb.step (e : MEnv) (s : MemDb) : MOp → MemDb × MOut
  | .rotate t => (s.rotate t, .ok)
  | .put k d => s.put e k d
  | .delete k => s.delete e k
  | .get k => s.get e k
  | .write id t managed => (s.write id t managed, .ok)

/-- The state after a history and what its operations answered. -/
def MemDb.run (e : MEnv) : MemDb → List MOp → MemDb × List MOut
  | s, [] => (s, [])
  | s, op :: ops =>
    let r := s.step e op
    let rest := MemDb.run e r.1 ops
    (rest.1, r.2 :: rest.2)

namespace Spec

/-- The reference: a map. -/
def mapStep (m : UInt64 → Option Bytes) : MOp → (UInt64 → Option Bytes) × MOut
  | .rotate _ => (m, .ok)
  | .put k d => (fun k' => if k' = k then some d else m k', .ok)
  | .delete k => (fun k' => if k' = k then none else m k', match m k with | some _ => .ok | none => .notFound)
  | .get k => (m, match m k with | some d => .value d | none => .notFound)
  | .write _ _ _ => (m, .ok)

def mapRun : (UInt64 → Option Bytes) → List MOp → List MOut
  | _, [] => []
  | m, op :: ops => (mapStep m op).2 :: mapRun (mapStep m op).1 ops

/-- The time id of the current tiny log after an operation. -/
def memClock (cur : Int) : MOp → Int
  | .rotate t => t
  | _ => cur

/-- Histories in which the clock does not go back and no key is put while it is present. -/
def TidyMem : Int → (UInt64 → Option Bytes) → List MOp → Prop
  | _, _, [] => True
  | cur, m, op :: ops =>
    (match op with
      | .rotate t => cur ≤ t
      | .put k d => m k = none ∧ d.length + 13 < 2 ^ 32
      | _ => True) ∧
    TidyMem (memClock cur op) (mapStep m op).1 ops

end Spec

theorem run_refines (e : MEnv) (htest : ∀ ks k, k ∈ ks → e.test ks k = true) (ops : List MOp) (s : MemDb) (m : UInt64 → Option Bytes)
    (h : MInv e s m) (hready : (s.blocks.get s.cur).isSome) (htidy : Spec.TidyMem s.cur m ops) (hfull : MOut.full ∉ (s.run e ops).2) : (s.run e ops).2 = Spec.mapRun m ops := by
  induction ops generalizing s m with
  | nil => rfl
  | cons op ops ih =>
    simp only [MemDb.run, List.mem_cons, not_or] at hfull ⊢
    simp only [Spec.TidyMem] at htidy
    obtain ⟨h0, hrest⟩ := htidy
    have key : (s.step e op).2 = (Spec.mapStep m op).2 ∧ MInv e (s.step e op).1 (Spec.mapStep m op).1 ∧
        (s.step e op).1.cur = Spec.memClock s.cur op ∧
        ((s.step e op).1.blocks.get (s.step e op).1.cur).isSome := by
      cases op with
      | rotate t => exact ⟨rfl, h.rotate t h0, rfl, s.rotate_ready t⟩
      | put k d =>
        obtain ⟨h1, h2⟩ := h.put k d h0.2 h0.1 hready (fun hc => hfull.1 hc.symm)
        refine ⟨h1, h2, s.putAt_cur e _ k d, ?_⟩
        simp only [MemDb.step, MemDb.put, MemDb.put_blocks, MemDb.putAt_cur]
        exact hready
      | delete k =>
        obtain ⟨h1, h2⟩ := h.delete htest k hready (fun hc => hfull.1 hc.symm)
        obtain ⟨c1, c2⟩ := s.delete_same e k
        refine ⟨?_, h2, c1, ?_⟩
        · simp only [MemDb.step, Spec.mapStep, h1]
          cases m k <;> rfl
        · simp only [MemDb.step, c1, c2]; exact hready
      | get k =>
        obtain ⟨h1, h2⟩ := h.get htest k
        obtain ⟨c1, c2⟩ := MemDb.getFuel_same e 2 s k
        exact ⟨h2, h1, c1, by simp only [MemDb.step, MemDb.get, c1, c2]; exact hready⟩
      | write id t managed =>
        obtain ⟨c1, c2⟩ := s.write_same id t managed
        exact ⟨rfl, h.write id t managed, c1, by simp only [MemDb.step, c1, c2]; exact hready⟩
    obtain ⟨k1, k2, k3, k4⟩ := key
    rw [Spec.mapRun, k1]
    congr 1
    apply ih _ _ k2 k4 _ hfull.2
    rw [k3]
    exact hrest

/-- C39 (partial: keys are put again only after they were deleted, the clock does not go back, time ids are larger than
the buffer size, no buffer is full): every history of puts, deletes, reads, block rotations and log writes answers like
a map. The filter may have any false positives, the cache any content the history gives it. -/
theorem C39_refines_partial (e : MEnv) (htest : ∀ ks k, k ∈ ks → e.test ks k = true) (t0 : Int) (ht : (e.cap : Int) ≤ t0) (ops : List MOp)
    (htidy : Spec.TidyMem t0 (fun _ => none) ops) (hfull : MOut.full ∉ ((MemDb.new t0).run e ops).2) :
    ((MemDb.new t0).run e ops).2 = Spec.mapRun (fun _ => none) ops :=
  run_refines e htest ops _ _ (MInv.new e t0 ht) (MemDb.rotate_ready _ t0) htidy hfull

/-- The store with the Bloom filter of the code: every shard has its own hash keys. -/
def MEnv.bloom (shard : UInt64 → Nat) (keys : Nat → List UInt64) (cap : Nat) : MEnv where
  shard := shard
  test := fun ks k => ((Bloom.build (keys (shard k)) Bloom.bloomBits ks).bind fun f =>
    (Bloom.ofBytes f.bytes Bloom.bloomBits (keys (shard k)).length).bind fun g => g.test k) = some true
  cap := cap

/-- C39 with the Bloom filter of the code, written to bytes and read back as the code does. -/
theorem C39_bloom_partial (shard : UInt64 → Nat) (keys : Nat → List UInt64) (cap : Nat) (t0 : Int) (ht : (cap : Int) ≤ t0) (ops : List MOp)
    (htidy : Spec.TidyMem t0 (fun _ => none) ops) (hfull : MOut.full ∉ ((MemDb.new t0).run (MEnv.bloom shard keys cap) ops).2) :
    ((MemDb.new t0).run (MEnv.bloom shard keys cap) ops).2 = Spec.mapRun (fun _ => none) ops := by
  apply C39_refines_partial (MEnv.bloom shard keys cap) _ t0 ht ops htidy hfull
  intro ks k hk
  simp only [MEnv.bloom, decide_eq_true_eq]
  obtain ⟨f, hf, h1⟩ := C45_no_false_negative (keys (shard k)) Bloom.bloomBits ks (by decide) (by decide)
  rw [hf]
  exact (h1 k hk).2

/-- The environment of the examples: one shard, a filter without false positives. -/
def MEnv.one : MEnv := ⟨fun _ => 0, fun ks k => ks.contains k, 1000⟩

def exampleMemHistory : List MOp :=
  [.put 1 [1], .put 2 [2], .get 1, .rotate 2000, .put 3 [3], .get 1, .delete 1, .get 1, .put 1 [4], .get 1, .write 2001 2000 false,
    .delete 2, .get 2, .get 3, .delete 9, .rotate 3000, .delete 3, .get 1]

example : (∀ ks k, k ∈ ks → MEnv.one.test ks k = true) ∧ (MEnv.one.cap : Int) ≤ 1000 ∧ Spec.TidyMem 1000 (fun _ => none) exampleMemHistory ∧
    MOut.full ∉ ((MemDb.new 1000).run MEnv.one exampleMemHistory).2 := by
  refine ⟨fun ks k h => by simpa [MEnv.one] using h, by decide, ?_, by decide +kernel⟩
  simp [exampleMemHistory, Spec.TidyMem, Spec.mapStep, Spec.memClock]

example : ((MemDb.new 1000).run MEnv.one exampleMemHistory).2 = [.ok, .ok, .value [1], .ok, .ok, .value [1], .ok, .notFound, .ok, .value [4], .ok,
    .ok, .notFound, .value [3], .notFound, .ok, .ok, .value [4]] := by decide +kernel

/-- The full statement of C39: every history answers like a map unless a buffer is full. -/
def C39_statement : Prop := ∀ (e : MEnv), (∀ ks k, k ∈ ks → e.test ks k = true) → ∀ (t0 : Int), (e.cap : Int) ≤ t0 → ∀ ops : List MOp,
  (∀ k d, MOp.put k d ∈ ops → d.length + 13 < 2 ^ 32) → (∀ t, MOp.rotate t ∈ ops → t0 ≤ t) → MOut.full ∉ ((MemDb.new t0).run e ops).2 →
  ((MemDb.new t0).run e ops).2 = Spec.mapRun (fun _ => none) ops

/-- C39 is false: put twice across a rotation, then delete. The delete removes the newer value only, the older one
comes back. -/
theorem C39_reput_violated : ((MemDb.new 1000).run MEnv.one [.put 1 [1], .rotate 2000, .put 1 [2], .delete 1, .get 1]).2 =
    [.ok, .ok, .ok, .ok, .value [1]] := by decide +kernel

/-- C39 is false: a read before the second put fixes the block it was found in; later reads return the old value. -/
theorem C39_cache_violated : ((MemDb.new 1000).run MEnv.one [.put 1 [1], .get 1, .rotate 2000, .put 1 [2], .get 1]).2 =
    [.ok, .value [1], .ok, .ok, .value [1]] := by decide +kernel

theorem C39_violated : ¬ C39_statement := by
  intro h
  have := h MEnv.one (fun ks k h => by simpa [MEnv.one] using h) 1000 (by decide) [.put 1 [1], .get 1, .rotate 2000, .put 1 [2], .get 1]
    (by simp; rintro k d (⟨_, rfl⟩ | ⟨_, rfl⟩) <;> decide) (by simp) (by decide +kernel)
  rw [C39_cache_violated] at this
  exact absurd this (by decide +kernel)

/-- C39 is false when the clock goes back: a key put afterwards in the older block is hidden by the newer one. -/
theorem C39_clock_violated : ((MemDb.new 1000).run MEnv.one [.rotate 2000, .put 1 [1], .rotate 1000, .put 2 [2], .get 2]).2 =
    [.ok, .ok, .ok, .ok, .notFound] := by decide +kernel

/-- C39 is false when the buffer is full: the delete fails, yet the key is gone. -/
theorem C39_full_violated : ((MemDb.new 1000).run { MEnv.one with cap := 20 } [.put 1 [1], .put 2 [], .get 1, .delete 1, .get 1]).2 =
    [.ok, .full, .value [1], .full, .notFound] := by decide +kernel

/-- C39 is false when a block is freed after it was read (the database does this at every sync): the next read of the
key goes to the buffer that was given back. -/
theorem C39_freed_violated : (((MemDb.new 1000).run MEnv.one [.put 1 [1], .get 1]).1.release 1000).2 = .ok ∧
    ((((MemDb.new 1000).run MEnv.one [.put 1 [1], .get 1]).1.release 1000).1.get MEnv.one 1).2 = .stale := by decide +kernel

/-- C39: `Get` never calls itself more than once, whatever the state. -/
theorem C39_get_terminates (e : MEnv) (s : MemDb) (key : UInt64) : (s.get e key).2 ≠ .loops := by
  have hread : ∀ (s : MemDb) (a : Nat) (off : Int), s.readAt a off ≠ .loops := by
    intro s a off
    simp only [MemDb.readAt]
    split
    · simp
    · split <;> simp
  have hscan : ∀ (s : MemDb) ts r, s.scanCache e key ts = some r → r.2 ≠ .loops := by
    intro s ts r h
    induction ts with
    | nil => simp [MemDb.scanCache] at h
    | cons t ts ih =>
      simp only [MemDb.scanCache] at h
      split at h
      · exact ih h
      · split at h
        · simp only [Option.some.injEq] at h; subst h; exact hread _ _ _
        · split at h
          · exact ih h
          · simp at h
  have htry : ∀ (s : MemDb) r, s.tryCache e key = some r → r.2 ≠ .loops := by
    intro s r h
    simp only [MemDb.tryCache] at h
    split at h
    · simp only [Option.some.injEq] at h; subst h; exact hread _ _ _
    · exact hscan _ _ _ h
  have hone : ∀ s : MemDb, s.qfilters (e.shard key) = [] → ∀ n, (MemDb.getFuel e (n + 1) s key).2 ≠ .loops := by
    intro s hs n
    simp only [MemDb.getFuel, hs, AMap.keys, List.map_nil, List.isEmpty_nil, if_true]
    split
    · simp
    · split
      · simp
      · next s' hk =>
        obtain ⟨r, hr⟩ := Option.isSome_iff_exists.mp (s.tryCache_seek e s' key hs hk)
        rw [hr]
        exact htry _ _ hr
  unfold MemDb.get
  by_cases hemp : s.qfilters (e.shard key) = []
  · exact hone s hemp 1
  · rw [MemDb.getFuel]
    have hne : (s.qfilters (e.shard key)).keys.isEmpty = false := by
      cases hq : s.qfilters (e.shard key) with
      | nil => exact absurd hq hemp
      | cons p l => rfl
    simp only [hne]
    split
    · simp
    · split
      · simp
      · next s' hs =>
        split
        · next r hr => exact htry _ _ hr
        · exact hone _ (by simp) 0

/-! ## Batches -/

/-- memdb/batch.go:24-36 `Batch`. -/
structure MBatch where
  tid : Int
  group : List Int := []
  managed : Bool := false

/-- What a function given to `Batch` can do: put, or write what it put so far (the clock gives the next time id). -/
inductive MBatchOp where
  | put (key : UInt64) (d : Bytes)
  | write (next : Int)

/-- memdb/batch.go:59-94 `Put` and `Write`, memdb/batch.go:39-43 `newTinyLog`. -/
def MBatch.step (e : MEnv) (s : MemDb) (b : MBatch) : MBatchOp → MemDb × MBatch
  | .put k d => ((s.putAt e b.tid k d).1, b)
  | .write next => ((s.write b.tid b.tid true).addTimeBlock next, { b with group := b.group ++ [b.tid], tid := next })

def MBatch.steps (e : MEnv) : MemDb → MBatch → List MBatchOp → MemDb × MBatch
  | s, b, [] => (s, b)
  | s, b, op :: ops => let r := MBatch.step e s b op; MBatch.steps e r.1 r.2 ops

/-- memdb/batch.go:119-129 `Abort`: releases the written blocks until one is missing. -/
def MBatch.abortGroup (s : MemDb) : List Int → MemDb × MOut
  | [] => (s, .ok)
  | t :: ts => match s.release t with
    | (s, .ok) => MBatch.abortGroup s ts
    | r => r

def MBatch.abort (s : MemDb) (b : MBatch) : MemDb × MOut := if b.managed then (s, .panic) else MBatch.abortGroup s b.group

/-- memdb/batch.go:98-116 `Commit`: write, mark the group as written, forget the group, then the deferred `Abort`. -/
def MBatch.commit (e : MEnv) (s : MemDb) (b : MBatch) (next : Int) : MemDb × MOut :=
  if b.managed then (s, .panic) else
  let r := MBatch.step e s b (.write next)
  let s := { r.1 with mark := r.2.group.foldl (fun m t => (m.add t).release t) r.1.mark }
  (MBatch.abort s { r.2 with group := [] }).1 |> fun s => (s, .ok)

/-- memdb/db.go:405-418 `Batch`; the function does `ops` and then fails or not. -/
def MemDb.batch (e : MEnv) (s : MemDb) (t next : Int) (ops : List MBatchOp) (fails : Bool) : MemDb × MOut :=
  let s := s.addTimeBlock t
  let r := MBatch.steps e s { tid := t, managed := true } ops
  if fails then MBatch.abort r.1 r.2 else MBatch.commit e r.1 { r.2 with managed := false } next

theorem MBatch.steps_managed (e : MEnv) (ops : List MBatchOp) (s : MemDb) (b : MBatch) : (MBatch.steps e s b ops).2.managed = b.managed := by
  induction ops generalizing s b with
  | nil => rfl
  | cons op ops ih =>
    simp only [MBatch.steps]
    rw [ih]
    cases op <;> rfl

/-- C44 is false, for every store, batch and failing function: the call panics instead of returning the error, and
everything the batch wrote is still there. -/
theorem C44_panics_violated (e : MEnv) (s : MemDb) (t next : Int) (ops : List MBatchOp) :
    s.batch e t next ops true = ((MBatch.steps e (s.addTimeBlock t) { tid := t, managed := true } ops).1, .panic) := by
  simp only [MemDb.batch, if_true, MBatch.abort, MBatch.steps_managed]

/-- … so its writes can be read. -/
theorem C44_visible_violated : ((MemDb.new 1000).batch MEnv.one 1500 1600 [.put 7 [1, 2]] true).2 = .panic ∧
    (((MemDb.new 1000).batch MEnv.one 1500 1600 [.put 7 [1, 2]] true).1.get MEnv.one 7).2 = .value [1, 2] := by decide +kernel

/-- C44 is false for a batch the caller runs and aborts: what was put since the last write stays. -/
theorem C44_abort_keeps_violated :
    let r := MBatch.steps MEnv.one ((MemDb.new 1000).addTimeBlock 1500) { tid := 1500 } [.put 7 [1], .write 1600, .put 8 [2]]
    let a := MBatch.abort r.1 r.2
    a.2 = .ok ∧ (a.1.get MEnv.one 7).2 = .notFound ∧ (a.1.get MEnv.one 8).2 = .value [2] := by decide +kernel

theorem MemDb.release_blocks (s : MemDb) (t : Int) : (s.release t).1.blocks = s.blocks.del t := by
  simp only [MemDb.release]
  split
  · next h => exact (AMap.del_of_get_none _ _ h).symm
  · rfl

theorem MBatch.abort_blocks (ts : List Int) (s : MemDb) (h : (MBatch.abortGroup s ts).2 = .ok) :
    (∀ t ∈ ts, (MBatch.abortGroup s ts).1.blocks.get t = none) ∧
      (∀ t, t ∉ ts → (MBatch.abortGroup s ts).1.blocks.get t = s.blocks.get t) ∧ (MBatch.abortGroup s ts).1.heap = s.heap ∧
      (MBatch.abortGroup s ts).1.closed = s.closed := by
  induction ts generalizing s with
  | nil => exact ⟨by simp, fun _ _ => rfl, rfl, rfl⟩
  | cons t ts ih =>
    simp only [MBatch.abortGroup] at h ⊢
    have hb := s.release_blocks t
    cases hr : s.release t with
    | mk s' o =>
      rw [hr] at hb h
      have hheap : s'.heap = s.heap := by
        have : (s.release t).1.heap = s.heap := by simp only [MemDb.release]; split <;> rfl
        rw [hr] at this; exact this
      have hclosed : s'.closed = s.closed := by
        have : (s.release t).1.closed = s.closed := by simp only [MemDb.release]; split <;> rfl
        rw [hr] at this; exact this
      cases o <;> simp only [reduceCtorEq] at h
      obtain ⟨h1, h2, h3, h4⟩ := ih s' h
      simp only at hb
      refine ⟨?_, ?_, by rw [h3, hheap], by rw [h4, hclosed]⟩
      · intro t' ht'
        rcases List.mem_cons.mp ht' with rfl | ht'
        · by_cases hm : t' ∈ ts
          · exact h1 t' hm
          · rw [h2 t' hm, hb, AMap.get_del_self]
        · exact h1 t' ht'
      · intro t' ht'
        simp only [List.mem_cons, not_or] at ht'
        rw [h2 t' ht'.2, hb, AMap.get_del_ne _ ht'.1]

/-- C44 (partial: a batch run by the caller, and only the blocks it has already written): after a successful `Abort` no
written block of the batch can be looked up, and every other block is as before. -/
theorem C44_abort_partial (s : MemDb) (b : MBatch) (h : (MBatch.abort s b).2 = .ok) :
    (∀ t ∈ b.group, ∀ key, s.closed = false → (MBatch.abort s b).1.lookup t key = .notFound) ∧
      (∀ t, t ∉ b.group → (MBatch.abort s b).1.blocks.get t = s.blocks.get t) ∧ ∀ a, (MBatch.abort s b).1.at a = s.at a := by
  simp only [MBatch.abort] at h ⊢
  split at h
  · simp at h
  · next hm =>
    obtain ⟨h1, h2, h3, h4⟩ := MBatch.abort_blocks b.group s h
    rw [if_neg hm]
    refine ⟨fun t ht key hc => ?_, h2, fun a => by simp only [MemDb.at, h3]⟩
    simp only [MemDb.lookup, h1 t ht, h4, hc]
    rfl

example : let r := MBatch.steps MEnv.one ((MemDb.new 1000).addTimeBlock 1500) { tid := 1500 } [.put 7 [1], .write 1600, .put 8 [2]]
    (MBatch.abort r.1 r.2).2 = .ok ∧ r.2.group = [1500] ∧ r.1.lookup 1500 7 = .value [1] := by decide +kernel

end Verif
