import Verif.Model.TopicParse

/-!
# Topic trie

trie.go. Nodes are a tree; `summary` maps a topic hash to a node, given here by the node's path from the root (nodes are
never removed: `orphan` has no caller). Go iterates `children` in random order; here it is the order of insertion, and the
theorems speak about the set of results. Each operation holds the trie's locks, so it is one step.
-/

namespace Verif

/-- trie.go:29-32 `_Topic`. -/
structure TTopic where
  hash : UInt64
  offset : Int64
deriving DecidableEq, Repr

/-- trie.go:41-51 `addUnique`. -/
def addUnique (v : TTopic) : List TTopic → List TTopic
  | [] => [v]
  | t :: ts => if t.hash = v.hash then { t with offset := v.offset } :: ts else t :: addUnique v ts

/-- trie.go:58-64 `_Node`. -/
inductive TNode where
  | mk (part : Part) (depth : UInt8) (topics : List TTopic) (children : List TNode)

namespace TNode
def part : TNode → Part | mk p _ _ _ => p
def depth : TNode → UInt8 | mk _ d _ _ => d
def topics : TNode → List TTopic | mk _ _ t _ => t
def children : TNode → List TNode | mk _ _ _ c => c
end TNode

/-- `child, ok := curr.children[newPart]`, creating the child when it is missing (trie.go:126-144), then `f` on it. -/
def updChild (q : Part) (f : TNode → TNode) : List TNode → List TNode
  | [] => [f (.mk q 0 [] [])]
  | c :: cs => if c.part = q then f c :: cs else c :: updChild q f cs

/-- trie.go:125-151: walk down the parts, then `addUnique` and set the depth. -/
def TNode.insert (t : TTopic) (d : UInt8) : List Part → TNode → TNode
  | [], .mk p _ ts cs => .mk p d (addUnique t ts) cs
  | q :: qs, .mk p d' ts cs => .mk p d' ts (updChild q (TNode.insert t d qs) cs)

/-- The node a summary pointer refers to: apply `f` to the node at a path. -/
def modChild (q : Part) (f : TNode → TNode) : List TNode → List TNode
  | [] => []
  | c :: cs => if c.part = q then f c :: cs else c :: modChild q f cs

def TNode.modify (f : List TTopic → List TTopic) : List Part → TNode → TNode
  | [], .mk p d ts cs => .mk p d (f ts) cs
  | q :: qs, .mk p d ts cs => .mk p d ts (modChild q (TNode.modify f qs) cs)

/-- The topics of the node at a path. -/
def TNode.topicsAt : List Part → TNode → List TTopic
  | [], n => n.topics
  | q :: qs, n => match n.children.find? (·.part = q) with
    | some c => c.topicsAt qs
    | none => []

structure Trie where
  root : TNode
  summary : List (UInt64 × List Part)

/-- trie.go:84-91. -/
def Trie.empty : Trie := ⟨.mk ⟨0, 0⟩ 0 [] [], []⟩

/-- trie.go:117-153 `add`. -/
def Trie.add (s : Trie) (t : TTopic) (parts : List Part) (d : UInt8) : Trie :=
  match s.summary.lookup t.hash with
  | some _ => s
  | none => ⟨s.root.insert t d parts, (t.hash, parts) :: s.summary⟩

/-- trie.go:203-211 `setOffset`. -/
def Trie.setOffset (s : Trie) (t : TTopic) : Trie :=
  match s.summary.lookup t.hash with
  | some path => { s with root := s.root.modify (addUnique t) path }
  | none => s

/-- trie.go:190-201 `getOffset`. -/
def Trie.getOffset (s : Trie) (h : UInt64) : Option Int64 :=
  match s.summary.lookup h with
  | some path => ((s.root.topicsAt path).find? (·.hash = h)).map TTopic.offset
  | none => none

/-- trie.go:165 the condition under which a node's topics are added. -/
def TNode.hit (depth : UInt8) (ty : TopicType) (n : TNode) : Bool :=
  n.depth == depth || (ty == .static && n.part.hash == wildcardHash)

mutual
/-- trie.go:163-188 `ilookup`; `acc` is `tops`. -/
def TNode.look (depth : UInt8) (ty : TopicType) : TNode → List Part → List TTopic → List TTopic
  | .mk p d ts cs, query, acc =>
    let acc := if (d == depth || (ty == .static && p.hash == wildcardHash)) then ts.foldl (fun a t => addUnique t a) acc else acc
    match query with
    | [] => acc
    | q :: qs => lookChildren depth ty cs q qs acc
/-- trie.go:178-187, the loop over the children. -/
def lookChildren (depth : UInt8) (ty : TopicType) : List TNode → Part → List Part → List TTopic → List TTopic
  | [], _, _, acc => acc
  | .mk p d ts cs :: rest, q, qs, acc =>
    let n := TNode.look depth ty (.mk p d ts cs)
    let acc :=
      if p.hash = q.hash ∧ q.wildchars = p.wildchars then n qs acc
      else if p.hash = q.hash ∧ UInt8.ofNat (q :: qs).length ≥ p.wildchars + 1 then
        n ((q :: qs).drop (p.wildchars + 1).toNat) acc
      else if p.hash = wildcardHash then n (q :: qs) acc
      else acc
    lookChildren depth ty rest q qs acc
end

/-- trie.go:156-161 `lookup`. -/
def Trie.lookup (s : Trie) (query : List Part) (depth : UInt8) (ty : TopicType) : List TTopic :=
  s.root.look depth ty query []

end Verif
