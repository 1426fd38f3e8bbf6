import Verif.Model.StreamConn

/-! # C49: the byte stream of a connection -/

namespace Verif

/-- What the two ends of a connection do. -/
inductive StreamOp where
  | write (p : Bytes)
  | read (size : Nat)
  deriving DecidableEq, Repr

/-- The bytes written, in order. -/
def Spec.written : List StreamOp → Bytes
  | [] => []
  | .write p :: ops => p ++ Spec.written ops
  | .read _ :: ops => Spec.written ops

/-- No read uses an empty buffer. -/
def Spec.buffersNonempty (ops : List StreamOp) : Prop := ∀ n, StreamOp.read n ∈ ops → 0 < n

/-- A run: the bytes the reads returned, in order, and the connection. A read that finds no message
waits; it returns later, as one of the following reads. -/
def StreamOp.run (chunk : Option Nat) : SConn → List StreamOp → Bytes × SConn
  | c, [] => ([], c)
  | c, .write p :: ops => run chunk (c.write chunk p) ops
  | c, .read n :: ops =>
    match c.read n with
    | none => run chunk c ops
    | some (out, c') => let (rest, c'') := run chunk c' ops; (out ++ rest, c'')

/-- A fresh connection (conn.go:41-72). -/
def SConn.fresh : SConn := ⟨[], [], 0⟩

theorem SConn.write_ok (c : SConn) (h : c.Ok) (chunk : Option Nat) (hc : ∀ s, chunk = some s → 0 < s) (p : Bytes) :
    (c.write chunk p).Ok ∧ (c.write chunk p).pending = c.pending ++ p := by
  refine ⟨h, ?_⟩
  simp only [SConn.write, SConn.pending, List.flatten_append, List.append_assoc]
  rw [writeMessages_flatten chunk hc _ _ (Nat.lt_succ_self _)]
  rfl

theorem StreamOp.run_spec (chunk : Option Nat) (hc : ∀ s, chunk = some s → 0 < s) (ops : List StreamOp)
    (hb : Spec.buffersNonempty ops) (c : SConn) (h : c.Ok) :
    (run chunk c ops).2.Ok ∧ (run chunk c ops).1 ++ (run chunk c ops).2.pending = c.pending ++ Spec.written ops := by
  induction ops generalizing c with
  | nil => exact ⟨h, by simp [run, Spec.written]⟩
  | cons op ops ih =>
    have hb' : Spec.buffersNonempty ops := fun n hn => hb n (List.mem_cons_of_mem _ hn)
    cases op with
    | write p =>
      obtain ⟨h1, h2⟩ := c.write_ok h chunk hc p
      obtain ⟨h3, h4⟩ := ih hb' _ h1
      exact ⟨h3, by simp only [run, Spec.written, h4, h2, List.append_assoc]⟩
    | read n =>
      simp only [run]
      cases hr : c.read n with
      | none => exact ih hb' c h
      | some oc =>
        obtain ⟨out, c'⟩ := oc
        obtain ⟨h1, h2, _⟩ := c.read_spec h n (hb n List.mem_cons_self) out c' hr
        obtain ⟨h3, h4⟩ := ih hb' _ h1
        exact ⟨h3, by simp only [Spec.written, List.append_assoc, h4]; rw [← List.append_assoc, h2]⟩

theorem StreamOp.run_append (chunk : Option Nat) (a b : List StreamOp) (c : SConn) :
    run chunk c (a ++ b) = ((run chunk c a).1 ++ (run chunk (run chunk c a).2 b).1, (run chunk (run chunk c a).2 b).2) := by
  induction a generalizing c with
  | nil => simp [run]
  | cons op a ih =>
    cases op with
    | write p => simp only [List.cons_append, run, ih]
    | read n =>
      simp only [List.cons_append, run]
      cases c.read n with
      | none => exact ih c
      | some oc => simp only [ih, List.append_assoc]

theorem StreamOp.run_drains (chunk : Option Nat) (sizes : List Nat) (hs : ∀ n ∈ sizes, 0 < n) (c : SConn) (h : c.Ok)
    (hw : c.work ≤ sizes.length) : (run chunk c (sizes.map .read)).2.pending = [] := by
  induction sizes generalizing c with
  | nil =>
    have : c.pending.length = 0 := by simp [SConn.work] at hw; simp [hw]
    simpa [run] using this
  | cons n sizes ih =>
    simp only [List.map_cons, run]
    cases hr : c.read n with
    | none =>
      have h0 : c.offset = 0 ∧ c.queue = [] := by
        simp only [SConn.read] at hr
        by_cases h0 : c.offset = 0
        · cases hq : c.queue with
          | nil => exact ⟨h0, rfl⟩
          | cons m q =>
            simp only [h0, hq, if_true] at hr
            split at hr <;> simp at hr
        · simp only [h0, if_false] at hr
          split at hr <;> simp at hr
      have : c.work = 0 := by simp [SConn.work, SConn.pending, h0]
      exact ih (fun m hm => hs m (List.mem_cons_of_mem _ hm)) c h (by omega)
    | some oc =>
      obtain ⟨out, c'⟩ := oc
      obtain ⟨h1, _, h3⟩ := c.read_spec h n (hs n List.mem_cons_self) out c' hr
      simp only [List.length_cons] at hw
      exact ih (fun m hm => hs m (List.mem_cons_of_mem _ hm)) c' h1 (by omega)

/-- C49: however reads and writes alternate, and whatever chunk size the writer uses, what has been read
so far is a prefix of what has been written. -/
theorem C49_prefix (chunk : Option Nat) (hc : ∀ s, chunk = some s → 0 < s) (ops : List StreamOp)
    (hb : Spec.buffersNonempty ops) : (StreamOp.run chunk .fresh ops).1 <+: Spec.written ops := by
  have := (StreamOp.run_spec chunk hc ops hb .fresh (Or.inl rfl)).2
  simp only [SConn.pending, SConn.fresh, if_true, List.flatten_nil, List.append_nil, List.nil_append] at this
  exact ⟨_, this⟩

example : Spec.buffersNonempty [.write [1, 2, 3, 4, 5], .read 2, .read 2, .write [6], .read 10] ∧
    (StreamOp.run (some 3) .fresh [.write [1, 2, 3, 4, 5], .read 2, .read 2, .write [6], .read 10]).1 = [1, 2, 3, 4, 5] := by
  constructor
  · intro n hn; simp at hn; omega
  · decide

/-- C49: everything written is read: once the reader has made enough further reads, of whatever
non-zero sizes, it has all of it. -/
theorem C49_all_delivered (chunk : Option Nat) (hc : ∀ s, chunk = some s → 0 < s) (ops : List StreamOp)
    (hb : Spec.buffersNonempty ops) :
    ∃ reads, ∀ sizes : List Nat, (∀ n ∈ sizes, 0 < n) → reads ≤ sizes.length →
      (StreamOp.run chunk .fresh (ops ++ sizes.map .read)).1 = Spec.written ops := by
  obtain ⟨h1, h2⟩ := StreamOp.run_spec chunk hc ops hb .fresh (Or.inl rfl)
  refine ⟨(StreamOp.run chunk .fresh ops).2.work, fun sizes hs hl => ?_⟩
  have hd := StreamOp.run_drains chunk sizes hs _ h1 hl
  have hb' : Spec.buffersNonempty (ops ++ sizes.map .read) := by
    intro n hn
    rcases List.mem_append.mp hn with hn | hn
    · exact hb n hn
    · simp only [List.mem_map, StreamOp.read.injEq] at hn
      obtain ⟨m, hm, rfl⟩ := hn
      exact hs m hm
  have h3 := (StreamOp.run_spec chunk hc _ hb' .fresh (Or.inl rfl)).2
  have hwr : ∀ a b, Spec.written (a ++ b) = Spec.written a ++ Spec.written b := by
    intro a b
    induction a with
    | nil => rfl
    | cons op a ih => cases op <;> simp [Spec.written, ih]
  have hreads : Spec.written (sizes.map .read) = [] := by
    clear hs hl hd hb' h3
    induction sizes with
    | nil => rfl
    | cons n sizes ih => simpa [Spec.written] using ih
  rw [StreamOp.run_append] at h3 ⊢
  simp only [hd, List.append_nil, hwr, hreads] at h3
  simpa [SConn.pending, SConn.fresh] using h3

example : (StreamOp.run (some 3) .fresh ([.write [1, 2, 3, 4, 5], .read 2, .write [6]] ++ List.map .read [2, 2, 2, 2])).1 =
    [1, 2, 3, 4, 5, 6] := by decide

/-- C49 needs the reader's buffers to be non-empty: a read with an empty buffer loses the whole message
it finds. -/
theorem C49_empty_buffer_loses :
    (StreamOp.run none .fresh [.write [1, 2], .read 0, .write [3], .read 5]).1 = [3] := by decide

end Verif
