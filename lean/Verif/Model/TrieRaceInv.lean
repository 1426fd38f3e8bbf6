import Verif.Model.TrieRace

/-!
# What stays true while topics are added from several goroutines
-/

namespace Verif

namespace HTrie

/-- The node reached from node `n` along some parts. -/
def pathFrom (h : HTrie) : Nat → List Part → Option Nat
  | n, [] => some n
  | n, p :: ps => ((h.node n).kids.get p).bind fun c => h.pathFrom c ps

theorem pathFrom_append (h : HTrie) (ps qs : List Part) : ∀ n, h.pathFrom n (ps ++ qs) = (h.pathFrom n ps).bind fun m => h.pathFrom m qs := by
  induction ps with
  | nil => intro n; rfl
  | cons p ps ih =>
    intro n
    simp only [List.cons_append, pathFrom, Option.bind_assoc]
    congr 1
    funext c
    exact ih c

theorem pathFrom_snoc (h : HTrie) (ps : List Part) (p : Part) (n : Nat) :
    h.pathFrom n (ps ++ [p]) = (h.pathFrom n ps).bind fun m => (h.node m).kids.get p := by
  rw [pathFrom_append]
  congr 1
  funext m
  simp [pathFrom]

/-- The pointers form a tree, older nodes above newer ones; no map has a key twice. -/
structure WF (h : HTrie) : Prop where
  pos : 0 < h.nodes.length
  range : ∀ n p c, (h.node n).kids.get p = some c → n < c ∧ c < h.nodes.length
  one : ∀ n p n' p' c, (h.node n).kids.get p = some c → (h.node n').kids.get p' = some c → n = n' ∧ p = p'
  kids : ∀ n, (h.node n).kids.Nodup
  topics : ∀ n, ((h.node n).topics.map TTopic.hash).Nodup

theorem WF.pathFrom_le {h : HTrie} (w : h.WF) (ps : List Part) : ∀ n c, n < h.nodes.length → h.pathFrom n ps = some c → n ≤ c ∧ c < h.nodes.length := by
  induction ps with
  | nil =>
    intro n c hn hc
    simp only [pathFrom, Option.some.injEq] at hc
    omega
  | cons p ps ih =>
    intro n c hn hc
    simp only [pathFrom, Option.bind_eq_some_iff] at hc
    obtain ⟨m, h1, h2⟩ := hc
    have := w.range _ _ _ h1
    have := ih m c this.2 h2
    omega

/-- Two paths from the root to the same node are the same. -/
theorem WF.path_inj {h : HTrie} (w : h.WF) (ps : List Part) : ∀ (qs : List Part) c, h.pathFrom 0 ps = some c → h.pathFrom 0 qs = some c → ps = qs := by
  induction ps using List.reverseRecOn with
  | nil =>
    intro qs c h1 h2
    simp only [pathFrom, Option.some.injEq] at h1
    subst h1
    rcases List.eq_nil_or_concat' qs with rfl | ⟨q, p, rfl⟩
    · rfl
    · rw [pathFrom_snoc, Option.bind_eq_some_iff] at h2
      obtain ⟨m, _, h3⟩ := h2
      have := (w.range _ _ _ h3).1
      omega
  | append_singleton ps p ih =>
    intro qs c h1 h2
    rw [pathFrom_snoc, Option.bind_eq_some_iff] at h1
    obtain ⟨m, h1, h3⟩ := h1
    rcases List.eq_nil_or_concat' qs with rfl | ⟨q, p', rfl⟩
    · simp only [pathFrom, Option.some.injEq] at h2
      subst h2
      have := (w.range _ _ _ h3).1
      omega
    · rw [pathFrom_snoc, Option.bind_eq_some_iff] at h2
      obtain ⟨m', h2, h4⟩ := h2
      obtain ⟨rfl, rfl⟩ := w.one _ _ _ _ _ h3 h4
      rw [ih q m h1 h2]

/-! ## The tree -/

theorem mem_children {h : HTrie} (w : h.WF) {f : Nat} {p : Part} {n : Nat} {c : TNode} :
    c ∈ (h.treeFrom (f + 1) p n).children ↔ ∃ q m, (h.node n).kids.get q = some m ∧ c = h.treeFrom f q m := by
  simp only [treeFrom, TNode.children, List.mem_map, Prod.exists]
  constructor
  · rintro ⟨q, m, hm, rfl⟩
    exact ⟨q, m, (w.kids n).get_of_mem hm, rfl⟩
  · rintro ⟨q, m, hm, rfl⟩
    exact ⟨q, m, AMap.mem_of_get _ hm, rfl⟩

theorem part_treeFrom (h : HTrie) (f : Nat) (p : Part) (n : Nat) : (h.treeFrom f p n).part = p := by
  cases f <;> rfl

theorem hasPath_tree {h : HTrie} (w : h.WF) (q : List Part) : ∀ (f : Nat) (p : Part) (n : Nat), n < h.nodes.length → h.nodes.length ≤ f + n → ∀ m,
    (HasPath (h.treeFrom f p n) q m ↔ ∃ c, h.pathFrom n q = some c ∧ m = h.treeFrom (f - q.length) (q.foldl (fun _ x => x) p) c) := by
  induction q with
  | nil =>
    intro f p n hn hf m
    constructor
    · rintro ⟨⟩
      exact ⟨n, rfl, rfl⟩
    · rintro ⟨c, h1, rfl⟩
      simp only [pathFrom, Option.some.injEq] at h1
      subst h1
      exact .nil _
  | cons a q ih =>
    intro f p n hn hf m
    obtain ⟨f, rfl⟩ : ∃ g, f = g + 1 := ⟨f - 1, by omega⟩
    have hl : f + 1 - (a :: q).length = f - q.length := by simp
    constructor
    · intro hp
      generalize hx : a :: q = aq at hp
      cases hp with
      | nil => simp at hx
      | @cons _ c _ ps hc hp =>
        obtain ⟨b, k, hk, rfl⟩ := (mem_children w).1 hc
        rw [part_treeFrom] at hx ⊢
        obtain ⟨rfl, rfl⟩ : a = b ∧ q = ps := by simpa using hx
        have hr := w.range _ _ _ hk
        obtain ⟨c, h1, h2⟩ := (ih f a k hr.2 (by omega) m).1 hp
        exact ⟨c, by simp [pathFrom, hk, h1], by rw [hl, h2]; rfl⟩
    · rintro ⟨c, h1, rfl⟩
      simp only [pathFrom, Option.bind_eq_some_iff] at h1
      obtain ⟨k, hk, h1⟩ := h1
      have hr := w.range _ _ _ hk
      have := (ih f a k hr.2 (by omega) _).2 ⟨c, h1, rfl⟩
      have hm := (mem_children w (p := p) (f := f)).2 ⟨a, k, hk, rfl⟩
      have := HasPath.cons hm this
      rw [part_treeFrom, ← hl] at this
      exact this

theorem WF.pathFrom_len {h : HTrie} (w : h.WF) (ps : List Part) : ∀ n c, h.pathFrom n ps = some c → n + ps.length ≤ c := by
  induction ps with
  | nil =>
    intro n c hc
    simp only [pathFrom, Option.some.injEq] at hc
    simp [hc]
  | cons p ps ih =>
    intro n c hc
    simp only [pathFrom, Option.bind_eq_some_iff] at hc
    obtain ⟨m, h1, h2⟩ := hc
    have := w.range _ _ _ h1
    have := ih m c h2
    simp only [List.length_cons]
    omega

theorem hasPath_root {h : HTrie} (w : h.WF) (q : List Part) (m : TNode) :
    HasPath h.tree q m ↔ ∃ c f, h.pathFrom 0 q = some c ∧ m = h.treeFrom (f + 1) (q.foldl (fun _ x => x) ⟨0, 0⟩) c ∧ f + 1 = h.nodes.length - q.length := by
  rw [tree, hasPath_tree w q _ _ 0 w.pos (by omega)]
  constructor
  · rintro ⟨c, h1, h2⟩
    have := w.pathFrom_len q 0 c h1
    have := w.pathFrom_le q 0 c w.pos h1
    exact ⟨c, h.nodes.length - q.length - 1, h1, by rw [h2]; congr 1; omega, by omega⟩
  · rintro ⟨c, f, h1, h2, h3⟩
    exact ⟨c, h1, by rw [h2, h3]⟩

theorem holds_tree {h : HTrie} (w : h.WF) (q : List Part) (x : TTopic) (e : UInt8) :
    Holds h.tree q x e ↔ ∃ c, h.pathFrom 0 q = some c ∧ x ∈ (h.node c).topics ∧ (h.node c).depth = e := by
  constructor
  · rintro ⟨m, hp, h1, h2⟩
    obtain ⟨c, f, h3, rfl, _⟩ := (hasPath_root w q m).1 hp
    exact ⟨c, h3, h1, h2⟩
  · rintro ⟨c, h1, h2, h3⟩
    have := w.pathFrom_len q 0 c h1
    have := w.pathFrom_le q 0 c w.pos h1
    exact ⟨_, (hasPath_root w q _).2 ⟨c, h.nodes.length - q.length - 1, h1, rfl, by omega⟩, h2, h3⟩

theorem wf_tree {h : HTrie} (w : h.WF) : h.tree.WF := by
  intro q m hp
  obtain ⟨c, f, h3, rfl, _⟩ := (hasPath_root w q m).1 hp
  refine ⟨?_, w.topics c⟩
  have : (h.treeFrom (f + 1) (q.foldl (fun _ x => x) ⟨0, 0⟩) c).children.map TNode.part = (h.node c).kids.keys := by
    simp only [treeFrom, TNode.children, List.map_map, AMap.keys]
    refine List.map_congr_left fun a _ => ?_
    exact part_treeFrom h f _ _
  rw [this]
  exact w.kids c


theorem node_setNode {h : HTrie} {n : Nat} (hn : n < h.nodes.length) (x : HNode) (m : Nat) :
    (h.setNode n x).node m = if m = n then x else h.node m := by
  simp only [node, setNode, List.getD_eq_getElem?_getD, List.getElem?_set]
  by_cases e : m = n
  · simp [e, hn]
  · rw [if_neg (fun h => e h.symm), if_neg e]

theorem pathFrom_congr {h h' : HTrie} (e : ∀ n, (h'.node n).kids = (h.node n).kids) (ps : List Part) : ∀ n, h'.pathFrom n ps = h.pathFrom n ps := by
  induction ps with
  | nil => intro n; rfl
  | cons p ps ih =>
    intro n
    simp only [pathFrom, e]
    congr 1
    funext c
    exact ih c

theorem pathFrom_mono {h h' : HTrie} (e : ∀ n p c, (h.node n).kids.get p = some c → (h'.node n).kids.get p = some c) (ps : List Part) :
    ∀ n c, h.pathFrom n ps = some c → h'.pathFrom n ps = some c := by
  induction ps with
  | nil => intro n c hc; exact hc
  | cons p ps ih =>
    intro n c hc
    simp only [pathFrom, Option.bind_eq_some_iff] at hc ⊢
    obtain ⟨m, h1, h2⟩ := hc
    exact ⟨m, e _ _ _ h1, ih _ _ h2⟩

end HTrie

/-- The entry an add makes. -/
def Adder.entry (a : Adder) : TEntry := ⟨a.topic.hash, a.parts, a.depth, a.topic.offset⟩

/-- What is known about an add from where it is. -/
def Adder.At (h : HTrie) (l : List TEntry) (a : Adder) : Prop :=
  match a.pc with
  | .ready => True
  | .walk n rest => a.topic.hash ∉ l.map TEntry.hash ∧ ∃ pre, pre ++ rest = a.parts ∧ h.pathFrom 0 pre = some n
  | .make n p rest => a.topic.hash ∉ l.map TEntry.hash ∧ ∃ pre, pre ++ p :: rest = a.parts ∧ h.pathFrom 0 pre = some n ∧ (h.node n).kids.get p = none
  | .deepen n => h.pathFrom 0 a.parts = some n ∧ a.entry ∈ l
  | .done _ => a.topic.hash ∈ l.map TEntry.hash

/-- The trie holds the entries `l`, whose depth `D` gives, while adds are at work that share only prefixes the trie has. -/
structure RaceInv (mu : UInt64 → Nat) (D : List Part → UInt8) (s : Race) (l : List TEntry) : Prop where
  wf : s.trie.WF
  nodup : (l.map TEntry.hash).Nodup
  summary : ∀ x, s.trie.summary.get x = (l.find? (·.hash = x)).bind fun a => s.trie.pathFrom 0 a.parts
  known : ∀ a ∈ l, ∃ n, s.trie.pathFrom 0 a.parts = some n
  topics : ∀ n x, x ∈ (s.trie.node n).topics ↔ ∃ a ∈ l, s.trie.pathFrom 0 a.parts = some n ∧ x = a.topic
  depth : ∀ a ∈ l, ∀ n, s.trie.pathFrom 0 a.parts = some n → (s.trie.node n).depth = a.depth ∨ ∃ (j : Nat) (b : Adder), s.adds[j]? = some b ∧ b.pc = .deepen n
  ofList : ∀ a ∈ l, a.depth = D a.parts
  ofAdds : ∀ (j : Nat) (b : Adder), s.adds[j]? = some b → b.depth = D b.parts
  lone : ∀ (i j : Nat) (a b : Adder), s.adds[i]? = some a → s.adds[j]? = some b → i ≠ j → a.busy = true → b.busy = true → mu a.topic.hash ≠ mu b.topic.hash
  shared : ∀ (i j : Nat) (a b : Adder), s.adds[i]? = some a → s.adds[j]? = some b → i ≠ j → a.topic.hash ≠ b.topic.hash →
    ∀ pre, pre <+: a.parts → pre <+: b.parts → ∃ n, s.trie.pathFrom 0 pre = some n
  place : ∀ (j : Nat) (b : Adder), s.adds[j]? = some b → b.At s.trie l

theorem getElem?_set_iff {α : Type} {l : List α} {i : Nat} {a : α} (hi : l[i]? = some a) (a' : α) (j : Nat) (b : α) :
    (l.set i a')[j]? = some b ↔ (j = i ∧ b = a') ∨ (j ≠ i ∧ l[j]? = some b) := by
  have hlt : i < l.length := by
    rcases Nat.lt_or_ge i l.length with h | h
    · exact h
    · rw [List.getElem?_eq_none h] at hi; simp at hi
  rw [List.getElem?_set]
  by_cases e : i = j
  · subst e
    simp [hlt, eq_comm]
  · have e' : j ≠ i := fun h => e h.symm
    simp [e, e']

/-- Steps that leave the trie as it is. -/
theorem RaceInv.move {mu : UInt64 → Nat} {D : List Part → UInt8} {s : Race} {l : List TEntry} (I : RaceInv mu D s l) {i : Nat} {a : Adder}
    (hi : s.adds[i]? = some a) (pc : AddPc) (hpc : ∀ n, a.pc ≠ .deepen n)
    (hb : ({ a with pc := pc } : Adder).busy = true → a.busy = true ∨ ∀ (j : Nat) (b : Adder), s.adds[j]? = some b → b.busy = true → mu b.topic.hash ≠ mu a.topic.hash)
    (hp : ({ a with pc := pc } : Adder).At s.trie l) : RaceInv mu D ⟨s.trie, s.adds.set i { a with pc := pc }⟩ l := by
  refine ⟨I.wf, I.nodup, I.summary, I.known, I.topics, ?_, I.ofList, ?_, ?_, ?_, ?_⟩
  · intro x hx n hn
    rcases I.depth x hx n hn with h | ⟨j, b, h1, h2⟩
    · exact .inl h
    · refine .inr ⟨j, b, (getElem?_set_iff hi _ j b).2 (.inr ⟨?_, h1⟩), h2⟩
      rintro rfl
      rw [hi, Option.some.injEq] at h1
      subst h1
      exact hpc n h2
  · intro j b hj
    rcases (getElem?_set_iff hi _ j b).1 hj with ⟨_, rfl⟩ | ⟨_, hj⟩
    · exact I.ofAdds i a hi
    · exact I.ofAdds j b hj
  · intro j k b c hj hk hne h1 h2
    rcases (getElem?_set_iff hi _ j b).1 hj with ⟨rfl, rfl⟩ | ⟨nj, gj⟩ <;> rcases (getElem?_set_iff hi _ k c).1 hk with ⟨rfl, rfl⟩ | ⟨nk, gk⟩
    · exact absurd rfl hne
    · rcases hb h1 with h | h
      · exact I.lone j k a c hi gk hne h h2
      · exact (h k c gk h2).symm
    · rcases hb h2 with h | h
      · exact I.lone j k b a gj hi hne h1 h
      · exact h j b gj h1
    · exact I.lone j k b c gj gk hne h1 h2
  · intro j k b c hj hk hne
    rcases (getElem?_set_iff hi _ j b).1 hj with ⟨rfl, rfl⟩ | ⟨nj, gj⟩ <;> rcases (getElem?_set_iff hi _ k c).1 hk with ⟨rfl, rfl⟩ | ⟨nk, gk⟩
    · exact absurd rfl hne
    · exact I.shared j k a c hi gk hne
    · exact I.shared j k b a gj hi hne
    · exact I.shared j k b c gj gk hne
  · intro j b hj
    rcases (getElem?_set_iff hi _ j b).1 hj with ⟨rfl, rfl⟩ | ⟨nj, hj⟩
    · exact hp
    · exact I.place j b hj

theorem RaceInv.ready {mu : UInt64 → Nat} {D : List Part → UInt8} {s : Race} {l : List TEntry} (I : RaceInv mu D s l) {i : Nat} {a : Adder}
    (hi : s.adds[i]? = some a) (hpc : a.pc = .ready) (hfree : ∀ (j : Nat) (b : Adder), s.adds[j]? = some b → b.busy = true → mu b.topic.hash ≠ mu a.topic.hash) :
    RaceInv mu D ⟨s.trie, s.adds.set i { a with pc := if (s.trie.summary.get a.topic.hash).isSome then .done false else .walk 0 a.parts }⟩ l := by
  refine I.move hi _ (by simp [hpc]) (fun _ => .inr hfree) ?_
  have hs := I.summary a.topic.hash
  cases hf : l.find? (·.hash = a.topic.hash) with
  | none =>
    rw [hf] at hs
    rw [hs]
    simp only [Option.bind_none, Option.isSome_none, Bool.false_eq_true, if_false, Adder.At]
    exact ⟨find?_hash_none.1 hf, [], rfl, rfl⟩
  | some e =>
    have he := List.mem_of_find?_eq_some hf
    have heh : e.hash = a.topic.hash := by simpa using List.find?_some hf
    obtain ⟨n, hn⟩ := I.known e he
    rw [hf, Option.bind_some, hn] at hs
    rw [hs]
    simp only [Option.isSome_some, if_true, Adder.At]
    exact List.mem_map.2 ⟨e, he, heh⟩

theorem RaceInv.walk {mu : UInt64 → Nat} {D : List Part → UInt8} {s : Race} {l : List TEntry} (I : RaceInv mu D s l) {i : Nat} {a : Adder}
    (hi : s.adds[i]? = some a) {n : Nat} {p : Part} {ps : List Part} (hpc : a.pc = .walk n (p :: ps)) :
    RaceInv mu D ⟨s.trie, s.adds.set i { a with pc := match (s.trie.node n).kids.get p with | some c => .walk c ps | none => .make n p ps }⟩ l := by
  have hp := I.place i a hi
  simp only [Adder.At, hpc] at hp
  obtain ⟨h1, pre, h2, h3⟩ := hp
  refine I.move hi _ (by simp [hpc]) (fun _ => .inl (by simp [Adder.busy, hpc])) ?_
  cases hk : (s.trie.node n).kids.get p with
  | none => exact ⟨h1, pre, h2, h3, hk⟩
  | some c => exact ⟨h1, pre ++ [p], by simpa using h2, by rw [HTrie.pathFrom_snoc, h3]; exact hk⟩

theorem mem_addUnique_new {t x : TTopic} {ts : List TTopic} (h : t.hash ∉ ts.map TTopic.hash) : x ∈ addUnique t ts ↔ x = t ∨ x ∈ ts := by
  induction ts with
  | nil => simp [addUnique]
  | cons a ts ih =>
    simp only [List.map_cons, List.mem_cons, not_or] at h
    rw [addUnique, if_neg (fun e => h.1 e.symm)]
    simp only [List.mem_cons, ih h.2]
    tauto

theorem RaceInv.link {mu : UInt64 → Nat} {D : List Part → UInt8} {s : Race} {l : List TEntry} (I : RaceInv mu D s l) {i : Nat} {a : Adder}
    (hi : s.adds[i]? = some a) {n : Nat} (hpc : a.pc = .walk n []) :
    a.topic.hash ∉ l.map TEntry.hash ∧
    RaceInv mu D ⟨{ s.trie.setNode n { s.trie.node n with topics := addUnique a.topic (s.trie.node n).topics } with
      summary := s.trie.summary.set a.topic.hash n }, s.adds.set i { a with pc := .deepen n }⟩ (l ++ [a.entry]) := by
  have hp := I.place i a hi
  simp only [Adder.At, hpc, List.append_nil] at hp
  obtain ⟨h1, pre, rfl, h3⟩ := hp
  have hn := (I.wf.pathFrom_le _ 0 n I.wf.pos h3).2
  refine ⟨h1, ?_⟩
  obtain ⟨h', hh⟩ : ∃ h' : HTrie, h' = { s.trie.setNode n { s.trie.node n with topics := addUnique a.topic (s.trie.node n).topics } with
      summary := s.trie.summary.set a.topic.hash n } := ⟨_, rfl⟩
  rw [← hh]
  have hnode : ∀ m, h'.node m = if m = n then { s.trie.node n with topics := addUnique a.topic (s.trie.node n).topics } else s.trie.node m := by
    intro m
    rw [hh]
    exact HTrie.node_setNode hn _ m
  have hkids : ∀ m, (h'.node m).kids = (s.trie.node m).kids := by
    intro m
    rw [hnode]
    split
    · next e => rw [e]
    · rfl
  have hdep : ∀ m, (h'.node m).depth = (s.trie.node m).depth := by
    intro m
    rw [hnode]
    split
    · next e => rw [e]
    · rfl
  have hlen : h'.nodes.length = s.trie.nodes.length := by rw [hh]; simp [HTrie.setNode]
  have hpath : ∀ q, h'.pathFrom 0 q = s.trie.pathFrom 0 q := fun q => HTrie.pathFrom_congr hkids q 0
  have hsum : ∀ x, h'.summary.get x = if x = a.topic.hash then some n else s.trie.summary.get x := by
    intro x
    rw [hh]
    exact AMap.get_set _ _ _ _
  have hnt : a.topic.hash ∉ (s.trie.node n).topics.map TTopic.hash := by
    intro hc
    obtain ⟨x, hx, he⟩ := List.mem_map.1 hc
    obtain ⟨e, he1, _, rfl⟩ := (I.topics n x).1 hx
    exact h1 (List.mem_map.2 ⟨e, he1, he⟩)
  clear hh
  refine ⟨⟨by rw [hlen]; exact I.wf.pos, ?_, ?_, ?_, ?_⟩, ?_, ?_, ?_, ?_, ?_, ?_, ?_, ?_, ?_, ?_⟩
  · intro m p c; rw [hkids, hlen]; exact I.wf.range m p c
  · intro m p m' p' c; rw [hkids, hkids]; exact I.wf.one m p m' p' c
  · intro m; rw [hkids]; exact I.wf.kids m
  · intro m
    rw [hnode]
    split
    · exact nodup_addUnique _ _ (I.wf.topics n)
    · exact I.wf.topics m
  · rw [List.map_append, List.nodup_append]
    refine ⟨I.nodup, by simp, ?_⟩
    intro x hx y hy
    simp only [List.map_cons, List.map_nil, List.mem_singleton] at hy
    subst hy
    rintro rfl
    exact h1 hx
  · intro x
    simp only [hpath]
    rw [hsum, List.find?_append]
    by_cases e : x = a.topic.hash
    · subst e
      rw [if_pos rfl, find?_hash_none.2 h1]
      simp [Adder.entry, h3]
    · rw [if_neg e, I.summary]
      have : [a.entry].find? (·.hash = x) = none := by simp [Adder.entry, Ne.symm e]
      rw [this, Option.or_none]
  · intro e he
    rw [hpath]
    rcases List.mem_append.1 he with he | he
    · exact I.known e he
    · rw [List.mem_singleton] at he
      subst he
      exact ⟨n, h3⟩
  · intro m x
    simp only [hpath, List.mem_append, List.mem_singleton]
    rw [hnode]
    by_cases e : m = n
    · subst e
      rw [if_pos rfl]
      show x ∈ addUnique a.topic (s.trie.node m).topics ↔ _
      rw [mem_addUnique_new hnt, I.topics]
      constructor
      · rintro (rfl | ⟨e, h4, h5⟩)
        · exact ⟨a.entry, .inr rfl, h3, rfl⟩
        · exact ⟨e, .inl h4, h5⟩
      · rintro ⟨e, h4 | rfl, h5, h6⟩
        · exact .inr ⟨e, h4, h5, h6⟩
        · exact .inl h6
    · rw [if_neg e, I.topics]
      constructor
      · rintro ⟨b, h4, h5⟩
        exact ⟨b, .inl h4, h5⟩
      · rintro ⟨b, h4 | rfl, h5, h6⟩
        · exact ⟨b, h4, h5, h6⟩
        · exfalso
          have h5 : s.trie.pathFrom 0 a.parts = some m := h5
          rw [h3, Option.some.injEq] at h5
          exact e h5.symm
  · intro e he m hm
    rw [hpath] at hm
    rw [hdep]
    rcases List.mem_append.1 he with he | he
    · rcases I.depth e he m hm with h | ⟨j, b, h4, h5⟩
      · exact .inl h
      · refine .inr ⟨j, b, (getElem?_set_iff hi _ j b).2 (.inr ⟨?_, h4⟩), h5⟩
        rintro rfl
        rw [hi, Option.some.injEq] at h4
        subst h4
        rw [hpc] at h5
        simp at h5
    · rw [List.mem_singleton] at he
      subst he
      have hm : s.trie.pathFrom 0 a.parts = some m := hm
      rw [h3, Option.some.injEq] at hm
      subst hm
      exact .inr ⟨i, _, (getElem?_set_iff hi _ i _).2 (.inl ⟨rfl, rfl⟩), rfl⟩
  · intro e he
    rcases List.mem_append.1 he with he | he
    · exact I.ofList e he
    · rw [List.mem_singleton] at he
      subst he
      exact I.ofAdds i a hi
  · intro j b hj
    rcases (getElem?_set_iff hi _ j b).1 hj with ⟨_, rfl⟩ | ⟨_, hj⟩
    · exact I.ofAdds i a hi
    · exact I.ofAdds j b hj
  · intro j k b c hj hk hne g1 g2
    have hab : a.busy = true := by simp [Adder.busy, hpc]
    rcases (getElem?_set_iff hi _ j b).1 hj with ⟨rfl, rfl⟩ | ⟨nj, gj⟩ <;> rcases (getElem?_set_iff hi _ k c).1 hk with ⟨rfl, rfl⟩ | ⟨nk, gk⟩
    · exact absurd rfl hne
    · exact I.lone j k a c hi gk hne hab g2
    · exact I.lone j k b a gj hi hne g1 hab
    · exact I.lone j k b c gj gk hne g1 g2
  · intro j k b c hj hk hne
    simp only [hpath]
    rcases (getElem?_set_iff hi _ j b).1 hj with ⟨rfl, rfl⟩ | ⟨nj, gj⟩ <;> rcases (getElem?_set_iff hi _ k c).1 hk with ⟨rfl, rfl⟩ | ⟨nk, gk⟩
    · exact absurd rfl hne
    · exact I.shared j k a c hi gk hne
    · exact I.shared j k b a gj hi hne
    · exact I.shared j k b c gj gk hne
  · intro j b hj
    rcases (getElem?_set_iff hi _ j b).1 hj with ⟨rfl, rfl⟩ | ⟨nj, hj⟩
    · exact ⟨by rw [hpath]; exact h3, List.mem_append_right _ (List.mem_singleton.2 rfl)⟩
    · have hb := I.place j b hj
      have hnew : b.busy = true → b.topic.hash ∉ l.map TEntry.hash → b.topic.hash ∉ (l ++ [a.entry]).map TEntry.hash := by
        intro g1 g2 g3
        rw [List.map_append, List.mem_append] at g3
        rcases g3 with g3 | g3
        · exact g2 g3
        · simp only [List.map_cons, List.map_nil, List.mem_singleton] at g3
          exact I.lone j i b a hj hi nj g1 (by simp [Adder.busy, hpc]) (by rw [g3]; rfl)
      unfold Adder.At at hb ⊢
      split at hb <;> rename_i hbp
      · trivial
      · exact ⟨hnew (by simp [Adder.busy, hbp]) hb.1, by simpa only [hpath] using hb.2⟩
      · exact ⟨hnew (by simp [Adder.busy, hbp]) hb.1, by simpa only [hpath, hkids] using hb.2⟩
      · exact ⟨by rw [hpath]; exact hb.1, List.mem_append_left _ hb.2⟩
      · rw [List.map_append]; exact List.mem_append_left _ hb

theorem RaceInv.deep {mu : UInt64 → Nat} {D : List Part → UInt8} {s : Race} {l : List TEntry} (I : RaceInv mu D s l) {i : Nat} {a : Adder}
    (hi : s.adds[i]? = some a) {n : Nat} (hpc : a.pc = .deepen n) :
    RaceInv mu D ⟨s.trie.setNode n { s.trie.node n with depth := a.depth }, s.adds.set i { a with pc := .done true }⟩ l := by
  have hp := I.place i a hi
  simp only [Adder.At, hpc] at hp
  obtain ⟨h3, hin⟩ := hp
  have hn := (I.wf.pathFrom_le _ 0 n I.wf.pos h3).2
  obtain ⟨h', hh⟩ : ∃ h' : HTrie, h' = s.trie.setNode n { s.trie.node n with depth := a.depth } := ⟨_, rfl⟩
  rw [← hh]
  have hnode : ∀ m, h'.node m = if m = n then { s.trie.node n with depth := a.depth } else s.trie.node m := by
    intro m
    rw [hh]
    exact HTrie.node_setNode hn _ m
  have hkids : ∀ m, (h'.node m).kids = (s.trie.node m).kids := by
    intro m
    rw [hnode]
    split
    · next e => rw [e]
    · rfl
  have htop : ∀ m, (h'.node m).topics = (s.trie.node m).topics := by
    intro m
    rw [hnode]
    split
    · next e => rw [e]
    · rfl
  have hlen : h'.nodes.length = s.trie.nodes.length := by rw [hh]; simp [HTrie.setNode]
  have hpath : ∀ q, h'.pathFrom 0 q = s.trie.pathFrom 0 q := fun q => HTrie.pathFrom_congr hkids q 0
  have hsum : h'.summary = s.trie.summary := by rw [hh]; rfl
  clear hh
  refine ⟨⟨by rw [hlen]; exact I.wf.pos, ?_, ?_, ?_, ?_⟩, I.nodup, ?_, ?_, ?_, ?_, I.ofList, ?_, ?_, ?_, ?_⟩
  · intro m p c; rw [hkids, hlen]; exact I.wf.range m p c
  · intro m p m' p' c; rw [hkids, hkids]; exact I.wf.one m p m' p' c
  · intro m; rw [hkids]; exact I.wf.kids m
  · intro m; rw [htop]; exact I.wf.topics m
  · intro x
    simp only [hpath, hsum]
    exact I.summary x
  · intro e he
    rw [hpath]
    exact I.known e he
  · intro m x
    simp only [hpath, htop]
    exact I.topics m x
  · intro e he m hm
    rw [hpath] at hm
    rw [hnode]
    by_cases em : m = n
    · subst em
      rw [if_pos rfl]
      left
      have : e.parts = a.parts := I.wf.path_inj _ _ m hm h3
      rw [I.ofList e he, this]
      exact I.ofAdds i a hi
    · rw [if_neg em]
      rcases I.depth e he m hm with h | ⟨j, b, h4, h5⟩
      · exact .inl h
      · refine .inr ⟨j, b, (getElem?_set_iff hi _ j b).2 (.inr ⟨?_, h4⟩), h5⟩
        rintro rfl
        rw [hi, Option.some.injEq] at h4
        subst h4
        rw [hpc] at h5
        simp only [AddPc.deepen.injEq] at h5
        exact em h5.symm
  · intro j b hj
    rcases (getElem?_set_iff hi _ j b).1 hj with ⟨_, rfl⟩ | ⟨_, hj⟩
    · exact I.ofAdds i a hi
    · exact I.ofAdds j b hj
  · intro j k b c hj hk hne g1 g2
    rcases (getElem?_set_iff hi _ j b).1 hj with ⟨rfl, rfl⟩ | ⟨nj, gj⟩ <;> rcases (getElem?_set_iff hi _ k c).1 hk with ⟨rfl, rfl⟩ | ⟨nk, gk⟩
    · exact absurd rfl hne
    · simp [Adder.busy] at g1
    · simp [Adder.busy] at g2
    · exact I.lone j k b c gj gk hne g1 g2
  · intro j k b c hj hk hne
    simp only [hpath]
    rcases (getElem?_set_iff hi _ j b).1 hj with ⟨rfl, rfl⟩ | ⟨nj, gj⟩ <;> rcases (getElem?_set_iff hi _ k c).1 hk with ⟨rfl, rfl⟩ | ⟨nk, gk⟩
    · exact absurd rfl hne
    · exact I.shared j k a c hi gk hne
    · exact I.shared j k b a gj hi hne
    · exact I.shared j k b c gj gk hne
  · intro j b hj
    rcases (getElem?_set_iff hi _ j b).1 hj with ⟨rfl, rfl⟩ | ⟨nj, hj⟩
    · exact List.mem_map.2 ⟨_, hin, rfl⟩
    · have hb := I.place j b hj
      unfold Adder.At at hb ⊢
      simpa only [hpath, hkids] using hb

theorem RaceInv.make {mu : UInt64 → Nat} {D : List Part → UInt8} {s : Race} {l : List TEntry} (I : RaceInv mu D s l) {i : Nat} {a : Adder}
    (hi : s.adds[i]? = some a) {n : Nat} {p : Part} {ps : List Part} (hpc : a.pc = .make n p ps) :
    RaceInv mu D ⟨{ s.trie with nodes := s.trie.nodes.set n { s.trie.node n with kids := (s.trie.node n).kids.set p s.trie.nodes.length } ++ [{}] },
      s.adds.set i { a with pc := .walk s.trie.nodes.length ps }⟩ l := by
  have hp := I.place i a hi
  simp only [Adder.At, hpc] at hp
  obtain ⟨h1, pre, h2, h3, h4⟩ := hp
  have hn := (I.wf.pathFrom_le _ 0 n I.wf.pos h3).2
  obtain ⟨k, hk⟩ : ∃ k, k = s.trie.nodes.length := ⟨_, rfl⟩
  obtain ⟨h', hh⟩ : ∃ h' : HTrie, h' = { s.trie with nodes := s.trie.nodes.set n { s.trie.node n with kids := (s.trie.node n).kids.set p s.trie.nodes.length } ++ [{}] } := ⟨_, rfl⟩
  rw [← hh, ← hk]
  have hnode : ∀ m, h'.node m = if m = n then { s.trie.node n with kids := (s.trie.node n).kids.set p k } else s.trie.node m := by
    intro m
    rw [hh]
    simp only [HTrie.node, List.getD_eq_getElem?_getD, List.getElem?_append, List.length_set, List.getElem?_set, hk]
    by_cases e : m = n
    · simp [e, hn]
    · rw [if_neg (fun h : n = m => e h.symm), if_neg e]
      by_cases hlt : m < s.trie.nodes.length
      · rw [if_pos hlt]
      · rw [if_neg hlt, List.getElem?_eq_none (by omega : s.trie.nodes.length ≤ m)]
        cases m - s.trie.nodes.length <;> simp
  have hkid : ∀ m q, (h'.node m).kids.get q = if m = n ∧ q = p then some k else (s.trie.node m).kids.get q := by
    intro m q
    rw [hnode]
    by_cases e : m = n
    · subst e
      rw [if_pos rfl]
      show AMap.get (AMap.set (s.trie.node m).kids p k) q = _
      rw [AMap.get_set]
      simp
    · simp [e]
  have htop : ∀ m, (h'.node m).topics = (s.trie.node m).topics := by
    intro m
    rw [hnode]
    split
    · next e => rw [e]
    · rfl
  have hdep : ∀ m, (h'.node m).depth = (s.trie.node m).depth := by
    intro m
    rw [hnode]
    split
    · next e => rw [e]
    · rfl
  have hlen : h'.nodes.length = k + 1 := by rw [hh]; simp [hk]
  have hmono : ∀ q c, s.trie.pathFrom 0 q = some c → h'.pathFrom 0 q = some c := by
    intro q c
    refine HTrie.pathFrom_mono ?_ q 0 c
    intro m q c hc
    rw [hkid]
    rw [if_neg]
    · exact hc
    · rintro ⟨rfl, rfl⟩
      rw [h4] at hc
      simp at hc
  have hsum : h'.summary = s.trie.summary := by rw [hh]
  have hkn : ∀ e ∈ l, ∀ m, h'.pathFrom 0 e.parts = some m ↔ s.trie.pathFrom 0 e.parts = some m := by
    intro e he m
    obtain ⟨c, hc⟩ := I.known e he
    rw [hmono _ _ hc, hc]
  clear hh
  refine ⟨⟨by show 0 < h'.nodes.length; omega, ?_, ?_, ?_, ?_⟩, I.nodup, ?_, ?_, ?_, ?_, I.ofList, ?_, ?_, ?_, ?_⟩
  · intro m q c hc
    rw [hkid] at hc
    show m < c ∧ c < h'.nodes.length
    split at hc
    · next e =>
      simp only [Option.some.injEq] at hc
      obtain ⟨rfl, rfl⟩ := e
      omega
    · have := I.wf.range m q c hc
      omega
  · intro m q m' q' c hc hc'
    rw [hkid] at hc hc'
    split at hc <;> split at hc'
    · next e e' => exact ⟨by rw [e.1, e'.1], by rw [e.2, e'.2]⟩
    · have := (I.wf.range _ _ _ hc').2
      simp only [Option.some.injEq] at hc
      omega
    · have := (I.wf.range _ _ _ hc).2
      simp only [Option.some.injEq] at hc'
      omega
    · exact I.wf.one _ _ _ _ _ hc hc'
  · intro m
    rw [hnode]
    split
    · exact (I.wf.kids n).set _ _
    · exact I.wf.kids m
  · intro m; rw [htop]; exact I.wf.topics m
  · intro x
    rw [hsum, I.summary x]
    cases hf : l.find? (·.hash = x) with
    | none => rfl
    | some e =>
      obtain ⟨c, hc⟩ := I.known e (List.mem_of_find?_eq_some hf)
      simp only [Option.bind_some, hmono _ _ hc, hc]
  · intro e he
    obtain ⟨c, hc⟩ := I.known e he
    exact ⟨c, hmono _ _ hc⟩
  · intro m x
    rw [htop, I.topics]
    constructor
    · rintro ⟨e, g1, g2, g3⟩
      exact ⟨e, g1, (hkn e g1 m).2 g2, g3⟩
    · rintro ⟨e, g1, g2, g3⟩
      exact ⟨e, g1, (hkn e g1 m).1 g2, g3⟩
  · intro e he m hm
    rw [hdep]
    rcases I.depth e he m ((hkn e he m).1 hm) with h | ⟨j, b, g1, g2⟩
    · exact .inl h
    · refine .inr ⟨j, b, (getElem?_set_iff hi _ j b).2 (.inr ⟨?_, g1⟩), g2⟩
      rintro rfl
      rw [hi, Option.some.injEq] at g1
      subst g1
      rw [hpc] at g2
      simp at g2
  · intro j b hj
    rcases (getElem?_set_iff hi _ j b).1 hj with ⟨_, rfl⟩ | ⟨_, hj⟩
    · exact I.ofAdds i a hi
    · exact I.ofAdds j b hj
  · intro j k b c hj hk hne g1 g2
    have hab : a.busy = true := by simp [Adder.busy, hpc]
    rcases (getElem?_set_iff hi _ j b).1 hj with ⟨rfl, rfl⟩ | ⟨nj, gj⟩ <;> rcases (getElem?_set_iff hi _ k c).1 hk with ⟨rfl, rfl⟩ | ⟨nk, gk⟩
    · exact absurd rfl hne
    · exact I.lone j k a c hi gk hne hab g2
    · exact I.lone j k b a gj hi hne g1 hab
    · exact I.lone j k b c gj gk hne g1 g2
  · intro j k b c hj hk hne g1 q g2 g3
    have : ∃ m, s.trie.pathFrom 0 q = some m := by
      rcases (getElem?_set_iff hi _ j b).1 hj with ⟨rfl, rfl⟩ | ⟨nj, gj⟩ <;> rcases (getElem?_set_iff hi _ k c).1 hk with ⟨rfl, rfl⟩ | ⟨nk, gk⟩
      · exact absurd rfl hne
      · exact I.shared j k a c hi gk hne g1 q g2 g3
      · exact I.shared j k b a gj hi hne g1 q g2 g3
      · exact I.shared j k b c gj gk hne g1 q g2 g3
    obtain ⟨m, hm⟩ := this
    exact ⟨m, hmono _ _ hm⟩
  · intro j b hj
    rcases (getElem?_set_iff hi _ j b).1 hj with ⟨rfl, rfl⟩ | ⟨nj, hj⟩
    · refine ⟨h1, pre ++ [p], by simpa using h2, ?_⟩
      rw [HTrie.pathFrom_snoc, hmono _ _ h3]
      show (h'.node n).kids.get p = some k
      rw [hkid, if_pos ⟨rfl, rfl⟩]
    · have hb := I.place j b hj
      unfold Adder.At at hb ⊢
      split at hb <;> rename_i hbp
      · trivial
      · obtain ⟨g1, q, g2, g3⟩ := hb
        exact ⟨g1, q, g2, hmono _ _ g3⟩
      · next m p' rest =>
        obtain ⟨g1, q, g2, g3, g4⟩ := hb
        refine ⟨g1, q, g2, hmono _ _ g3, ?_⟩
        rw [hkid, if_neg]
        · exact g4
        · rintro ⟨rfl, rfl⟩
          have := I.wf.path_inj _ _ m g3 h3
          subst this
          have hne : a.topic.hash ≠ b.topic.hash := by
            intro e
            exact I.lone i j a b hi hj (Ne.symm nj) (by simp [Adder.busy, hpc]) (by simp [Adder.busy, hbp]) (by rw [e])
          obtain ⟨c, hc⟩ := I.shared i j a b hi hj (Ne.symm nj) hne (q ++ [p']) ⟨ps, by simpa using h2⟩ ⟨rest, by simpa using g2⟩
          rw [HTrie.pathFrom_snoc, h3] at hc
          have hc : (s.trie.node m).kids.get p' = some c := hc
          rw [h4] at hc
          simp at hc
      · exact ⟨hmono _ _ hb.1, hb.2⟩
      · exact hb

theorem RaceInv.step {mu : UInt64 → Nat} {D : List Part → UInt8} {s : Race} {l : List TEntry} (I : RaceInv mu D s l) (i : Nat) :
    ∃ l', RaceInv mu D (s.step mu i) l' ∧ (l' = l ∨ ∃ (j : Nat) (a : Adder), s.adds[j]? = some a ∧ a.topic.hash ∉ l.map TEntry.hash ∧ l' = l ++ [a.entry]) := by
  unfold Race.step
  split
  · exact ⟨l, I, .inl rfl⟩
  · next a hi =>
    split
    · exact ⟨l, I, .inl rfl⟩
    · next hb =>
      unfold Adder.step
      split
      · next hpc =>
        refine ⟨l, I.ready hi hpc ?_, .inl rfl⟩
        intro j b hj h1 h2
        refine hb ⟨hpc, List.any_eq_true.2 ⟨b, List.mem_of_getElem? hj, ?_⟩⟩
        simp [h1, h2]
      · next n hpc =>
        have := I.link hi hpc
        exact ⟨_, this.2, .inr ⟨i, a, hi, this.1, rfl⟩⟩
      · next n p ps hpc =>
        refine ⟨l, ?_, .inl rfl⟩
        have := I.walk hi hpc
        cases hk : (s.trie.node n).kids.get p with
        | none => simpa only [hk] using this
        | some c => simpa only [hk] using this
      · next n p ps hpc => exact ⟨l, I.make hi hpc, .inl rfl⟩
      · next n hpc => exact ⟨l, I.deep hi hpc, .inl rfl⟩
      · next hpc =>
        refine ⟨l, ?_, .inl rfl⟩
        have : s.adds.set i a = s.adds := by
          obtain ⟨hlt, rfl⟩ := List.getElem?_eq_some_iff.1 hi
          exact List.set_getElem_self hlt
        rw [this]
        exact I


/-! ## Bursts -/

/-- What the adds were given does not change. -/
theorem Race.step_adds (mu : UInt64 → Nat) (s : Race) (i : Nat) : (s.step mu i).adds.map Adder.entry = s.adds.map Adder.entry := by
  unfold Race.step
  split
  · rfl
  · next a hi =>
    split
    · rfl
    · have : (a.step s.trie).2.entry = a.entry := by
        unfold Adder.step
        split
        · rfl
        · rfl
        · split <;> rfl
        · rfl
        · rfl
        · rfl
      simp only [List.map_set, this]
      apply List.ext_getElem?
      intro j
      rw [List.getElem?_set]
      split
      · next e =>
        subst e
        split
        · rw [List.getElem?_map, hi]; rfl
        · next h =>
          rw [List.length_map] at h
          rw [List.getElem?_map, hi] 
          rw [List.getElem?_eq_none (by omega)] at hi
          simp at hi
      · rfl

theorem RaceInv.run {mu : UInt64 → Nat} {D : List Part → UInt8} (sched : List Nat) : ∀ {s : Race} {l : List TEntry}, RaceInv mu D s l →
    ∃ l', RaceInv mu D (s.run mu sched) l' ∧ (∃ new, l' = l ++ new ∧ ∀ e ∈ new, e ∈ s.adds.map Adder.entry) ∧
      (s.run mu sched).adds.map Adder.entry = s.adds.map Adder.entry := by
  induction sched with
  | nil => intro s l I; exact ⟨l, I, ⟨[], by simp, by simp⟩, rfl⟩
  | cons i sched ih =>
    intro s l I
    obtain ⟨l1, I1, h1⟩ := I.step i
    obtain ⟨l2, I2, ⟨new, h2, h3⟩, h4⟩ := ih I1
    have he := Race.step_adds mu s i
    refine ⟨l2, I2, ?_, h4.trans he⟩
    rw [he] at h3
    rcases h1 with rfl | ⟨j, a, hj, _, rfl⟩
    · exact ⟨new, h2, h3⟩
    · refine ⟨a.entry :: new, by rw [h2]; simp, ?_⟩
      intro e hx
      rcases List.mem_cons.1 hx with rfl | hx
      · exact List.mem_map_of_mem (List.mem_of_getElem? hj)
      · exact h3 e hx

/-- A trie nobody works on, with the entries `l`. -/
def HTrie.Good (D : List Part → UInt8) (h : HTrie) (l : List TEntry) : Prop := RaceInv (fun _ => 0) D ⟨h, []⟩ l

theorem HTrie.good_empty (D : List Part → UInt8) : HTrie.Good D {} [] := by
  have hn : ∀ n, HTrie.node {} n = {} := by
    intro n
    cases n <;> rfl
  refine ⟨⟨by simp, ?_, ?_, ?_, ?_⟩, by simp, by simp, by simp, ?_, by simp, by simp, by simp, by simp, by simp, by simp⟩
  · intro n p c h; rw [hn] at h; simp at h
  · intro n p n' p' c h; rw [hn] at h; simp at h
  · intro n; rw [hn]; exact AMap.Nodup.nil
  · intro n; rw [hn]; simp
  · intro n x
    show x ∈ (HTrie.node {} n).topics ↔ _
    rw [hn]; simp

theorem HTrie.Good.start {mu : UInt64 → Nat} {D : List Part → UInt8} {h : HTrie} {l : List TEntry} (G : h.Good D l) (adds : List Adder)
    (hr : ∀ a ∈ adds, a.pc = .ready) (hd : ∀ a ∈ adds, a.depth = D a.parts)
    (hs : ∀ (i j : Nat) (a b : Adder), adds[i]? = some a → adds[j]? = some b → i ≠ j → a.topic.hash ≠ b.topic.hash →
      ∀ pre, pre <+: a.parts → pre <+: b.parts → ∃ n, h.pathFrom 0 pre = some n) : RaceInv mu D ⟨h, adds⟩ l := by
  have hrd : ∀ (j : Nat) (b : Adder), adds[j]? = some b → b.pc = .ready := fun j b hj => hr b (List.mem_of_getElem? hj)
  refine ⟨G.wf, G.nodup, G.summary, G.known, G.topics, ?_, G.ofList, fun j b hj => hd b (List.mem_of_getElem? hj), ?_, hs, ?_⟩
  · intro a ha n hn
    rcases G.depth a ha n hn with h | ⟨j, b, h1, _⟩
    · exact .inl h
    · simp at h1
  · intro i j a b hi hj _ h1
    simp [Adder.busy, hrd i a hi] at h1
  · intro j b hj
    simp [Adder.At, hrd j b hj]

theorem RaceInv.finish {mu : UInt64 → Nat} {D : List Part → UInt8} {s : Race} {l : List TEntry} (I : RaceInv mu D s l)
    (hd : ∀ a ∈ s.adds, ∃ x, a.pc = .done x) : s.trie.Good D l ∧ ∀ a ∈ s.adds, a.topic.hash ∈ l.map TEntry.hash := by
  refine ⟨⟨I.wf, I.nodup, I.summary, I.known, I.topics, ?_, I.ofList, by simp, by simp, by simp, by simp⟩, ?_⟩
  · intro a ha n hn
    rcases I.depth a ha n hn with h | ⟨j, b, h1, h2⟩
    · exact .inl h
    · obtain ⟨x, hx⟩ := hd b (List.mem_of_getElem? h1)
      rw [h2] at hx
      simp at hx
  · intro a ha
    obtain ⟨j, hj⟩ := List.mem_iff_getElem?.1 ha
    obtain ⟨x, hx⟩ := hd a ha
    have := I.place j a hj
    simpa only [Adder.At, hx] using this

theorem lookup_entries (l : List TEntry) (x : UInt64) :
    (l.map fun e => (e.hash, e.parts)).lookup x = (l.find? (·.hash = x)).map TEntry.parts := by
  induction l with
  | nil => rfl
  | cons e l ih =>
    rw [List.map_cons, List.lookup_cons, List.find?_cons]
    by_cases h : e.hash = x
    · simp [h]
    · have : (x == e.hash) = false := by simpa using fun h' : x = e.hash => h h'.symm
      simp [this, h, ih]

/-- As the tree of the sequential model. -/
theorem HTrie.Good.trieInv {D : List Part → UInt8} {h : HTrie} {l : List TEntry} (G : h.Good D l) :
    TrieInv ⟨h.tree, l.map fun e => (e.hash, e.parts)⟩ l := by
  refine ⟨HTrie.wf_tree G.wf, G.nodup, ?_, ?_, ?_, HTrie.part_treeFrom _ _ _ _⟩
  · intro x
    exact lookup_entries l x
  · intro path x
    simp only [HTrie.holds_tree G.wf]
    constructor
    · rintro ⟨e, c, h1, h2, h3⟩
      obtain ⟨a, ha, h4, h5⟩ := (G.topics c x).1 h2
      exact ⟨a, ha, G.wf.path_inj _ _ c h4 h1, h5⟩
    · rintro ⟨a, ha, rfl, rfl⟩
      obtain ⟨n, hn⟩ := G.known a ha
      exact ⟨_, n, hn, (G.topics n _).2 ⟨a, ha, hn, rfl⟩, rfl⟩
  · intro path x e hh
    obtain ⟨c, h1, h2, h3⟩ := (HTrie.holds_tree G.wf path x e).1 hh
    obtain ⟨a, ha, h4, h5⟩ := (G.topics c x).1 h2
    refine ⟨a, ha, G.wf.path_inj _ _ c h4 h1, ?_⟩
    rcases G.depth a ha c h4 with h | ⟨j, b, hj, _⟩
    · rw [← h]; exact h3
    · simp at hj

end Verif
