import Verif.Model.DbLocks
import Verif.Props.MemLocks

/-!
# C114: operations of the database do not wait for each other for ever
-/

namespace Verif

open DbLocks

/-- The order in which the locks of the database are taken. -/
def DbLocks.rank : Lock → Nat
  | .sync => 0
  | .batch _ => 0
  | .get _ => 1
  | .topic _ => 2
  | .trie => 3
  | .window => 4
  | .blocks => 5
  | .shard _ => 6
  | .files => 7
  | .filter => 8
  | .lease _ => 9
  | .mem l => 10 + Locks.rank l
  | .expiries => 19
  | .expiry i => 20 + i

def DbLocks.lockOf : Locks.Act Lock → Lock
  | .r l => l
  | .w l => l
  | .done l => l

/-- A program in order that only touches locks from a rank on. -/
def DbLocks.Above (n : Nat) (p : Prog) : Prop := Locks.Ordered rank [] p ∧ ∀ a ∈ p, n ≤ rank (lockOf a)

theorem dbl_under (H : List Lock) (q : Prog) (hq : Locks.Ordered rank H q) : ∀ (p : Prog) (held : List Lock), Locks.Ordered rank held p →
    (∀ a ∈ p, ∀ h ∈ H, rank h < rank (lockOf a)) → Locks.Ordered rank (held ++ H) (p ++ q)
  | [], held, hp, _ => by
    rw [Locks.Ordered] at hp
    subst hp
    exact hq
  | .r l :: p, held, hp, ha => by
    refine ⟨?_, dbl_under H q hq p (l :: held) hp.2 fun a h => ha a (by simp [h])⟩
    intro h hh
    rcases List.mem_append.mp hh with hh | hh
    · exact hp.1 h hh
    · exact ha (.r l) (by simp) h hh
  | .w l :: p, held, hp, ha => by
    refine ⟨?_, dbl_under H q hq p (l :: held) hp.2 fun a h => ha a (by simp [h])⟩
    intro h hh
    rcases List.mem_append.mp hh with hh | hh
    · exact hp.1 h hh
    · exact ha (.w l) (by simp) h hh
  | .done l :: p, held, hp, ha => by
    rw [List.cons_append, Locks.Ordered, List.filter_append]
    rw [Locks.Ordered] at hp
    have : H.filter (fun x => decide (x ≠ l)) = H := by
      rw [List.filter_eq_self]
      intro h hh
      have := ha (.done l) (by simp) h hh
      simp only [ne_eq, decide_not, Bool.not_eq_eq_eq_not, Bool.not_true, decide_eq_false_iff_not]
      rintro rfl
      exact Nat.lt_irrefl _ this
    rw [this]
    exact dbl_under H q hq p _ hp fun a h => ha a (by simp [h])

theorem dbl_nil (n : Nat) : Above n [] := ⟨rfl, by simp⟩

theorem dbl_append {n : Nat} {p q : Prog} (hp : Above n p) (hq : Above n q) : Above n (p ++ q) :=
  ⟨ordered_append p [] q hp.1 hq.1, by
    intro a ha
    rcases List.mem_append.mp ha with h | h
    · exact hp.2 a h
    · exact hq.2 a h⟩

theorem dbl_flatMap {β : Type} {n : Nat} (f : β → Prog) (h : ∀ b, Above n (f b)) : ∀ l : List β, Above n (l.flatMap f)
  | [] => dbl_nil n
  | b :: l => by
    rw [List.flatMap_cons]
    exact dbl_append (h b) (dbl_flatMap f h l)

theorem dbl_replicate {n : Nat} {p : Prog} (h : Above n p) : ∀ k, Above n (List.replicate k p).flatten
  | 0 => dbl_nil n
  | k + 1 => by
    rw [List.replicate_succ, List.flatten_cons]
    exact dbl_append h (dbl_replicate h k)

theorem dbl_mono {m n : Nat} {p : Prog} (h : Above n p) (hm : m ≤ n) : Above m p := ⟨h.1, fun a ha => Nat.le_trans hm (h.2 a ha)⟩

theorem dbl_around {n : Nat} {l : Lock} {p : Prog} (hl : n ≤ rank l) (h : Above (rank l + 1) p) :
    Above n (writing l p) ∧ Above n (reading l p) := by
  have ho : Locks.Ordered rank [l] (p ++ [.done l]) := by
    have := dbl_under [l] [.done l] (by simp [Locks.Ordered]) p [] h.1 (by
      intro a ha x hx
      rw [List.mem_singleton.mp hx]
      exact h.2 a ha)
    simpa using this
  have hr : ∀ a ∈ p ++ [.done l], n ≤ rank (lockOf a) := by
    intro a ha
    rcases List.mem_append.mp ha with ha | ha
    · have := h.2 a ha; omega
    · rw [List.mem_singleton.mp ha]; exact hl
  refine ⟨⟨⟨by simp, ho⟩, ?_⟩, ⟨⟨by simp, ho⟩, ?_⟩⟩
  · intro a ha
    rcases List.mem_cons.mp ha with rfl | ha
    · exact hl
    · exact hr a ha
  · intro a ha
    rcases List.mem_cons.mp ha with rfl | ha
    · exact hl
    · exact hr a ha

theorem dbl_writing {n : Nat} {l : Lock} {p : Prog} (hl : n ≤ rank l) (h : Above (rank l + 1) p) : Above n (writing l p) := (dbl_around hl h).1

theorem dbl_reading {n : Nat} {l : Lock} {p : Prog} (hl : n ≤ rank l) (h : Above (rank l + 1) p) : Above n (reading l p) := (dbl_around hl h).2

theorem dbl_mem_ordered : ∀ (p : List (Locks.Act Locks.Lock)) (held : List Locks.Lock), Locks.Ordered Locks.rank held p →
    Locks.Ordered rank (held.map Lock.mem) (inMem p)
  | [], held, h => by
    rw [Locks.Ordered] at h
    subst h
    rfl
  | .r l :: p, held, h => by
    refine ⟨?_, dbl_mem_ordered p (l :: held) h.2⟩
    intro x hx
    obtain ⟨y, hy, rfl⟩ := List.mem_map.mp hx
    have := h.1 y hy
    simp only [rank]
    omega
  | .w l :: p, held, h => by
    refine ⟨?_, dbl_mem_ordered p (l :: held) h.2⟩
    intro x hx
    obtain ⟨y, hy, rfl⟩ := List.mem_map.mp hx
    have := h.1 y hy
    simp only [rank]
    omega
  | .done l :: p, held, h => by
    have := dbl_mem_ordered p _ h
    show Locks.Ordered rank ((held.map Lock.mem).filter (fun x => decide (x ≠ .mem l))) (inMem p)
    rw [List.filter_map]
    have he : ((fun x => decide (x ≠ Lock.mem l)) ∘ Lock.mem) = fun x => decide (x ≠ l) := by
      funext x
      simp
    rw [he]
    exact this

theorem dbl_mem {n : Nat} (hn : n ≤ 10) {p : List (Locks.Act Locks.Lock)} (h : Locks.Ordered Locks.rank [] p) : Above n (inMem p) := by
  refine ⟨dbl_mem_ordered p [] h, ?_⟩
  intro a ha
  obtain ⟨b, _, rfl⟩ := List.mem_map.mp ha
  cases b <;> simp only [memAct, lockOf, rank] <;> omega

theorem dbl_addExpiry {n : Nat} (hn : n ≤ 19) (i : Nat) : Above n (addExpiry i) :=
  dbl_append (dbl_reading (by simpa [rank] using hn) (dbl_nil _)) (dbl_writing (by simp only [rank]; omega) (dbl_nil _))

theorem dbl_expired : ∀ n i, Above (20 + i) (expired n i)
  | 0, i => dbl_nil _
  | n + 1, i => dbl_writing (by simp [rank]) (dbl_expired n (i + 1))

theorem dbl_windowLookup {n : Nat} (hn : n ≤ 5) (i : Nat) (es fs : List Nat) : Above n (windowLookup i es fs) := by
  refine dbl_append (dbl_append (dbl_append (dbl_reading hn (dbl_nil _)) (dbl_reading (by simp only [rank]; omega) ?_))
    (dbl_writing (by simp only [rank]; omega) (dbl_nil _))) (dbl_flatMap _ (fun i => dbl_addExpiry (by omega) i) fs)
  exact dbl_flatMap _ (fun i => dbl_addExpiry (by simp [rank]) i) es

theorem dbl_windowAdd {n : Nat} (hn : n ≤ 4) (i : Nat) : Above n (windowAdd i) :=
  dbl_append (dbl_reading hn (dbl_reading (by simp [rank]) (dbl_nil _))) (dbl_writing (by simp only [rank]; omega) (dbl_nil _))

theorem dbl_trieAdd {n : Nat} (hn : n ≤ 2) (h : Nat) (parts : List Bool) : Above n (trieAdd h parts) := by
  refine dbl_writing hn (dbl_append (dbl_flatMap _ (fun b => ?_) parts) (dbl_writing (by simp [rank]) (dbl_nil _)))
  refine dbl_append (dbl_reading (by simp [rank]) (dbl_nil _)) ?_
  cases b
  · exact dbl_nil _
  · exact dbl_writing (by simp [rank]) (dbl_nil _)

theorem dbl_putTrie {n : Nat} (hn : n ≤ 2) (e : Put) : Above n e.trie := by
  unfold Put.trie
  cases e.topic with
  | none => exact dbl_nil _
  | some t => exact dbl_trieAdd hn _ _

theorem dbl_op_mem {n : Nat} (hn : n ≤ 10) (o : Locks.Op) (h : Spec.plain o = true) : Above n (inMem o.prog) := dbl_mem hn (ordered_op o h)

theorem dbl_peek {n : Nat} (hn : n ≤ 10) (l : Locks.Lock) : Above n (inMem (Locks.peek l)) := dbl_mem hn (by simp [Locks.peek, Locks.Ordered])

/-- A lock taken and given back at once. -/
theorem dbl_touch {n : Nat} {l : Lock} (h : n ≤ rank l) : Above n (writing l []) ∧ Above n (reading l []) :=
  ⟨dbl_writing h (dbl_nil _), dbl_reading h (dbl_nil _)⟩

theorem dbl_block (b : Block) : Above 1 b.prog := by
  have t : ∀ l, 1 ≤ rank l → Above 1 (writing l []) ∧ Above 1 (reading l []) := fun l h => dbl_touch h
  refine dbl_append (dbl_append (dbl_append (dbl_append (dbl_append (dbl_append ?_ ?_) ?_) ?_) ?_) ?_) (dbl_op_mem (by omega) _ rfl)
  · exact dbl_mem (by omega) (by simp [Locks.look, Locks.peek, Locks.Ordered])
  · refine dbl_flatMap _ (fun i => ?_) _
    exact dbl_append (dbl_append (dbl_append (dbl_op_mem (by omega) _ rfl) (t _ (by simp [rank])).1) (t _ (by simp [rank])).1) (t _ (by simp [rank])).1
  · exact dbl_replicate (dbl_append (dbl_append (t _ (by simp [rank])).2 (t _ (by simp [rank])).1) (t _ (by simp [rank])).1) _
  · exact (t _ (by simp [rank])).1
  · exact (t _ (by simp [rank])).2
  · exact dbl_flatMap _ (fun i => dbl_append (t _ (by simp [rank])).2 (t _ (by simp [rank])).1) _

theorem dbl_batch (b : Nat) (es : List Put) : Above 0 (batchProg b es) := by
  refine dbl_writing (Nat.zero_le _) (dbl_append (dbl_append (dbl_peek (by simp [rank]) _) (dbl_flatMap _ (fun e => ?_) es)) (dbl_op_mem (by simp [rank]) _ rfl))
  exact dbl_append (dbl_append (dbl_putTrie (by simp [rank]) e) (dbl_op_mem (by simp [rank]) _ rfl)) (dbl_windowAdd (by simp [rank]) _)

/-- All operations but closing. -/
def Spec.dbOpen : Op → Bool
  | .close => false
  | _ => true

theorem dbl_op (o : Op) (h : Spec.dbOpen o = true) : Above 0 o.prog := by
  have t : ∀ l, Above 0 (writing l []) ∧ Above 0 (reading l []) := fun l => dbl_touch (Nat.zero_le _)
  have t1 : ∀ l, 1 ≤ rank l → Above 1 (writing l []) ∧ Above 1 (reading l []) := fun l h => dbl_touch h
  cases o with
  | get p topics entries =>
    refine dbl_reading (Nat.zero_le _) (dbl_append (dbl_append (dbl_reading (by simp [rank]) (dbl_nil _)) ?_) ?_)
    · exact dbl_flatMap _ (fun t => dbl_windowLookup (by simp [rank]) _ _ _) topics
    · exact dbl_flatMap _ (fun e => dbl_append (dbl_op_mem (by simp [rank]) _ rfl) (dbl_writing (by simp [rank]) (dbl_nil _))) entries
  | put e =>
    exact dbl_append (dbl_append (dbl_append (t _).2 (dbl_op_mem (by omega) _ rfl)) (dbl_windowAdd (by omega) _)) (dbl_putTrie (by omega) e)
  | delete k i ts a b last lease =>
    refine dbl_append (dbl_append (dbl_append (dbl_append (dbl_append (t _).2 (dbl_op_mem (by omega) _ ?_)) (t _).2) (t _).1) (t _).1) (t _).2
    cases last <;> rfl
  | batchPut => exact (t _).2
  | batchWrite b es => exact dbl_batch b es
  | batchCommit b es => exact dbl_append (dbl_batch b es) (dbl_op_mem (by omega) _ rfl)
  | sync shards blocks =>
    refine dbl_writing (Nat.zero_le _) ?_
    refine dbl_append (dbl_append (dbl_append (dbl_append ?_ ?_) (dbl_flatMap _ dbl_block _)) (t1 _ (by simp [rank])).1) (t1 _ (by simp [rank])).2
    · exact dbl_flatMap _ (fun i => (t1 _ (by simp [rank])).2) _
    · exact dbl_mem (by simp [rank]) (by simp [Locks.peek, Locks.Ordered])
  | expire n leases =>
    refine dbl_writing (Nat.zero_le _) (dbl_append (dbl_mono (dbl_expired n 0) (by simp [rank])) (dbl_flatMap _ (fun i => ?_) _))
    exact dbl_append (dbl_append (t1 _ (by simp [rank])).2 (t1 _ (by simp [rank])).1) (t1 _ (by simp [rank])).1
  | tinyWrite i a => exact dbl_op_mem (by omega) _ rfl
  | rotate a => exact dbl_op_mem (by omega) _ rfl
  | fileSize => exact (t _).2
  | close => cases h

/-- C114, what holds: any number of goroutines that put, get, delete, write batches, sync, expire and write logs, in any order, all come to their end: every
schedule is finite, and while a goroutine is not finished one can go on. Close is left out. -/
theorem C114_ends_partial (ops : List (List Op)) (h : ∀ os ∈ ops, ∀ o ∈ os, Spec.dbOpen o = true) (is : List Nat) (s : List (Locks.Gor Lock))
    (hr : Locks.run is (ops.map gor) = some s) :
    ((∀ g ∈ s, g.todo = []) ∨ ∃ i s', Locks.step i s = some s') ∧ is.length ≤ ((ops.map gor).map Locks.work).sum := by
  have h0 : Locks.Good rank (ops.map gor) := by
    intro g hg
    obtain ⟨os, hos, rfl⟩ := List.mem_map.mp hg
    have : ∀ os : List Op, (∀ o ∈ os, Spec.dbOpen o = true) → Above 0 (os.flatMap Op.prog) := by
      intro os
      induction os with
      | nil => intro _; exact dbl_nil _
      | cons o os ih =>
        intro hp
        rw [List.flatMap_cons]
        exact dbl_append (dbl_op o (hp o (by simp))) (ih fun o ho => hp o (by simp [ho]))
    exact (this os (h os hos)).1
  exact good_ends is _ s h0 hr

/-- With Close it is false: it keeps the lock of Sync, and a Sync or a round of the expirer that comes after it waits for ever. -/
theorem C114_closed_violated (n : Nat) (blocks : List Block) : ∃ is s, Locks.run is [gor [.close], gor [.sync n blocks]] = some s ∧
    (∃ g ∈ s, g.todo ≠ []) ∧ ∀ i, Locks.step i s = none := by
  refine ⟨[0, 0, 1], [⟨[(.sync, true)], [], false⟩, ⟨[], (gor [.sync n blocks]).todo, true⟩], ?_, ⟨_, List.mem_cons_of_mem _ (List.mem_cons_self), ?_⟩, ?_⟩
  · simp [Locks.run, Locks.step, gor, Op.prog, writing]
  · simp [gor, Op.prog, writing]
  · intro i
    match i with
    | 0 => simp [Locks.step]
    | 1 => simp [Locks.step, gor, Op.prog, writing]
    | i + 2 => simp [Locks.step]

/-- A Get that meets an expired entry and a round of the expirer at the same time, to the end. -/
example : ∃ is s, Locks.run is [gor [.get 3 [(1, [2], [])] []], gor [.expire 4 [7]]] = some s ∧ ∀ g ∈ s, g.todo = [] ∧ g.held = [] := by
  refine ⟨List.replicate 6 0 ++ List.replicate 5 1 ++ List.replicate 10 0 ++ List.replicate 18 1, _, rfl, by decide +kernel⟩

end Verif
