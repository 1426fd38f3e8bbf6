import Verif.Model.TopicLookup
import Verif.Base.AMap
import Verif.Model.Consistent
import Mathlib.Data.List.Induction

/-!
# Adding topics to the trie from several goroutines

trie.go:117-153 `add` holds the mutex of its topic hash (mutex.go:50-52: one of 100000, picked by the hash) for the whole walk, but the
lock of the trie only for single accesses: it looks for a child under the read lock (trie.go:131-133) and, if there is none, links
a new node under the write lock (trie.go:134-142) without looking again. So two adds of different topics interleave. Here nodes
are pointers (positions in a list), and an add is a sequence of steps between which other adds may run:

* take the mutex and look into the summary (trie.go:119-124; the summary is read without the trie's lock),
* look for the next child,
* link a new child where there was none,
* file the topic in the last node and in the summary (trie.go:145-148),
* set the depth of the node (trie.go:150).
-/

namespace Verif

/-- trie.go:58-64 `_Node`; a node is known to its parent under its part. -/
structure HNode where
  depth : UInt8 := 0
  kids : AMap Part Nat := []
  topics : List TTopic := []
deriving DecidableEq

/-- trie.go:78-91: the nodes in the order of their creation, the root first; the summary points to nodes. -/
structure HTrie where
  nodes : List HNode := [{}]
  summary : AMap UInt64 Nat := []

namespace HTrie

/-- The node a pointer refers to. -/
def node (h : HTrie) (n : Nat) : HNode := h.nodes.getD n {}

/-- Writing through a pointer. -/
def setNode (h : HTrie) (n : Nat) (x : HNode) : HTrie := { h with nodes := h.nodes.set n x }

/-- The tree below a node, as deep as the first argument says. The children of a node are created after it, so the
number of nodes is deep enough. -/
def treeFrom (h : HTrie) : Nat → Part → Nat → TNode
  | 0, p, _ => .mk p 0 [] []
  | f + 1, p, n => .mk p (h.node n).depth (h.node n).topics ((h.node n).kids.map fun c => h.treeFrom f c.1 c.2)

/-- What a lookup walks through (trie.go:156-188). -/
def tree (h : HTrie) : TNode := h.treeFrom h.nodes.length ⟨0, 0⟩ 0

/-- trie.go:156-161 `lookup`, with nobody else at work. -/
def lookup (h : HTrie) (query : List Part) (depth : UInt8) (ty : TopicType) : List TTopic := h.tree.look depth ty query []

/-- db_internal.go:218 with query.go:94-102: the topics a query for `key` visits. -/
def find (h : HTrie) (c : UInt32) (key : Bytes) : List TTopic :=
  let (t, ty) := parseTopic c key
  h.lookup t.parts t.depth ty

/-- trie.go:190-201 `getOffset`. -/
def getOffset (h : HTrie) (x : UInt64) : Option Int64 :=
  match h.summary.get x with
  | some n => ((h.node n).topics.find? (·.hash = x)).map TTopic.offset
  | none => none

end HTrie

/-- Where an add is. -/
inductive AddPc where
  | ready
  | walk (n : Nat) (rest : List Part)
  | make (n : Nat) (p : Part) (rest : List Part)
  | deepen (n : Nat)
  | done (added : Bool)
deriving DecidableEq, Repr

/-- A running `add`. -/
structure Adder where
  topic : TTopic
  parts : List Part
  depth : UInt8
  pc : AddPc := .ready

/-- Does it hold its mutex. -/
def Adder.busy (a : Adder) : Bool :=
  match a.pc with
  | .ready => false
  | .done _ => false
  | _ => true

/-- trie.go:117-153 `add`, one step. -/
def Adder.step (h : HTrie) (a : Adder) : HTrie × Adder :=
  match a.pc with
  | .ready => (h, { a with pc := if (h.summary.get a.topic.hash).isSome then .done false else .walk 0 a.parts })
  | .walk n [] => ({ h.setNode n { h.node n with topics := addUnique a.topic (h.node n).topics } with
      summary := h.summary.set a.topic.hash n }, { a with pc := .deepen n })
  | .walk n (p :: ps) => match (h.node n).kids.get p with
    | some c => (h, { a with pc := .walk c ps })
    | none => (h, { a with pc := .make n p ps })
  | .make n p ps => ({ h with nodes := h.nodes.set n { h.node n with kids := (h.node n).kids.set p h.nodes.length } ++ [{}] },
      { a with pc := .walk h.nodes.length ps })
  | .deepen n => (h.setNode n { h.node n with depth := a.depth }, { a with pc := .done true })
  | .done _ => (h, a)

/-- The trie and the adds at work on it. -/
structure Race where
  trie : HTrie
  adds : List Adder

/-- The scheduler lets add number `i` make a step, unless it waits for a mutex. `mu` picks the mutex of a hash. -/
def Race.step (mu : UInt64 → Nat) (s : Race) (i : Nat) : Race :=
  match s.adds[i]? with
  | none => s
  | some a =>
    if a.pc = .ready ∧ s.adds.any (fun b => b.busy && mu b.topic.hash == mu a.topic.hash) then s
    else ⟨(a.step s.trie).1, s.adds.set i (a.step s.trie).2⟩

def Race.run (mu : UInt64 → Nat) (s : Race) (sched : List Nat) : Race := sched.foldl (Race.step mu) s

/-- mutex.go:31-52, db_internal.go:38: the mutex of a topic hash, one of 100000. (The table is all zero, C13, so one step finds it.) -/
def trieMutex (x : UInt64) : Nat := ((Anchor.init 100000 100000).bind fun s => s.find 1 x).getD 0

/-- The add at the end of a put of a topic (contract and name) that was not in the trie; db.go:375-380. -/
def putAdd (t : UInt32 × Bytes) : Adder := ⟨⟨topicHash t.1 t.2, 0⟩, (parseTopic t.1 t.2).1.parts, (parseTopic t.1 t.2).1.depth, .ready⟩

end Verif
