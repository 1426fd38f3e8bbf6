import Verif.Model.TopicLookup

/-!
# Offsets kept by the trie, and results without repeats
-/

namespace Verif

theorem find?_part {cs : List TNode} {q : Part} {c : TNode} (hn : (cs.map TNode.part).Nodup) (hc : c ∈ cs) (hq : c.part = q) :
    cs.find? (·.part = q) = some c := by
  cases hf : cs.find? (·.part = q) with
  | none =>
    rw [List.find?_eq_none] at hf
    exact absurd hq (by simpa using hf c hc)
  | some d =>
    have hd := List.mem_of_find?_eq_some hf
    have hdq : d.part = q := by simpa using List.find?_some hf
    rw [List.inj_on_of_nodup_map hn hd hc (by rw [hdq, hq])]

/-- The topics a summary pointer leads to. -/
theorem mem_topicsAt (path : List Part) : ∀ (n : TNode), n.WF → ∀ x, x ∈ n.topicsAt path ↔ ∃ e, Holds n path x e := by
  induction path with
  | nil =>
    intro n _ x
    simp only [TNode.topicsAt, holds_nil]
    exact ⟨fun h => ⟨_, h, rfl⟩, fun ⟨_, h, _⟩ => h⟩
  | cons q ps ih =>
    intro n h x
    obtain ⟨p, d, ts, cs⟩ := n
    rw [wf_mk] at h
    simp only [TNode.topicsAt, holds_cons]
    show x ∈ (match cs.find? (·.part = q) with | some c => c.topicsAt ps | none => []) ↔ ∃ e, ∃ c ∈ cs, c.part = q ∧ Holds c ps x e
    constructor
    · cases hf : cs.find? (·.part = q) with
      | none => simp
      | some c =>
        intro hx
        have hc := List.mem_of_find?_eq_some hf
        obtain ⟨e, he⟩ := (ih c (h.2.2 c hc) x).1 hx
        exact ⟨e, c, hc, by simpa using List.find?_some hf, he⟩
    · rintro ⟨e, c, hc, hq, he⟩
      rw [find?_part h.1 hc hq]
      exact (ih c (h.2.2 c hc) x).2 ⟨e, he⟩

/-- The offset of a topic hash is that of its entry. -/
theorem TrieInv.getOffset {s : Trie} {l : List TEntry} (hI : TrieInv s l) (h : UInt64) :
    s.getOffset h = (l.find? (·.hash = h)).map TEntry.offset := by
  rw [Trie.getOffset, hI.summary]
  cases hf : l.find? (·.hash = h) with
  | none => rfl
  | some a =>
    have ha := List.mem_of_find?_eq_some hf
    have hh : a.hash = h := by simpa using List.find?_some hf
    simp only [Option.map_some]
    have hmem : a.topic ∈ s.root.topicsAt a.parts :=
      (mem_topicsAt _ _ hI.wf _).2 ((hI.holds _ _).2 ⟨a, ha, rfl, rfl⟩)
    cases hg : (s.root.topicsAt a.parts).find? (·.hash = h) with
    | none =>
      rw [List.find?_eq_none] at hg
      exact absurd (decide_eq_true (p := a.hash = h) hh) (hg a.topic hmem)
    | some t =>
      have ht := List.mem_of_find?_eq_some hg
      have hth : t.hash = h := by simpa using List.find?_some hg
      obtain ⟨b, hb, _, rfl⟩ := (hI.holds _ _).1 ((mem_topicsAt _ _ hI.wf _).1 ht)
      have : b = a := List.inj_on_of_nodup_map hI.nodup hb ha (by rw [hh]; exact hth)
      rw [this]; rfl

theorem TrieInv.getOffset_isSome {s : Trie} {l : List TEntry} (hI : TrieInv s l) (h : UInt64) :
    (s.getOffset h).isSome ↔ h ∈ l.map TEntry.hash := by
  rw [hI.getOffset, Option.isSome_map]
  cases hf : l.find? (·.hash = h) with
  | none => simpa using find?_hash_none.1 hf
  | some a =>
    simp only [Option.isSome_some, true_iff]
    exact List.mem_map.2 ⟨a, List.mem_of_find?_eq_some hf, by simpa using List.find?_some hf⟩

/-- A topic whose hash is known is not entered again. -/
theorem TrieInv.add_known {s : Trie} {l : List TEntry} (hI : TrieInv s l) (t : TTopic) (ps : List Part) (d : UInt8)
    (h : (s.getOffset t.hash).isSome) : s.add t ps d = s := by
  rw [Trie.add, hI.summary]
  rw [hI.getOffset, Option.isSome_map] at h
  obtain ⟨a, ha⟩ := Option.isSome_iff_exists.mp h
  simp [ha]

/-- Offsets after entering a topic. -/
theorem TrieInv.getOffset_add {s : Trie} {l : List TEntry} (hI : TrieInv s l) (t : TTopic) (ps : List Part) (d : UInt8) (h : UInt64) :
    (s.add t ps d).getOffset h = if h = t.hash ∧ s.getOffset t.hash = none then some t.offset else s.getOffset h := by
  rw [(trieInv_add hI t ps d).getOffset, hI.getOffset, hI.getOffset, Spec.trieStep]
  by_cases hm : t.hash ∈ l.map TEntry.hash
  · rw [if_pos hm, if_neg]
    rintro ⟨_, hn⟩
    rw [Option.map_eq_none_iff] at hn
    exact find?_hash_none.1 hn hm
  · rw [if_neg hm, List.find?_append]
    have hn := find?_hash_none.2 hm
    by_cases hh : h = t.hash
    · subst hh
      simp [hn]
    · rw [if_neg (fun hc => hh hc.1)]
      have : ¬ t.hash = h := fun hc => hh hc.symm
      simp [this]

/-- Offsets after moving one. -/
theorem TrieInv.getOffset_set {s : Trie} {l : List TEntry} (hI : TrieInv s l) (t : TTopic) (h : UInt64) :
    (s.setOffset t).getOffset h = if h = t.hash then (s.getOffset h).map fun _ => t.offset else s.getOffset h := by
  rw [(trieInv_setOffset hI t).getOffset, hI.getOffset, Spec.trieStep, List.find?_map]
  have : ((fun e : TEntry => decide (e.hash = h)) ∘ fun e => if e.hash = t.hash then { e with offset := t.offset } else e)
      = fun e => decide (e.hash = h) := by
    funext e
    simp only [Function.comp]
    split <;> rfl
  rw [this]
  cases hf : l.find? (·.hash = h) with
  | none => simp
  | some a =>
    have hh : a.hash = h := by simpa using List.find?_some hf
    simp only [Option.map_some]
    by_cases hc : h = t.hash
    · rw [if_pos (hh.trans hc), if_pos hc]
    · rw [if_neg (fun e => hc (hh.symm.trans e)), if_neg hc]

theorem nodup_foldl_addUnique (ts : List TTopic) : ∀ (acc : List TTopic), (acc.map TTopic.hash).Nodup →
    ((ts.foldl (fun a t => addUnique t a) acc).map TTopic.hash).Nodup := by
  induction ts with
  | nil => intro acc h; exact h
  | cons t ts ih => intro acc h; exact ih _ (nodup_addUnique t acc h)

mutual
theorem nodup_look (depth : UInt8) (ty : TopicType) : ∀ (n : TNode) (query : List Part) (acc : List TTopic),
    (acc.map TTopic.hash).Nodup → ((n.look depth ty query acc).map TTopic.hash).Nodup
  | .mk p d ts cs, query, acc, h => by
    unfold TNode.look
    have h1 : ((if (d == depth || (ty == .static && p.hash == wildcardHash)) then ts.foldl (fun a t => addUnique t a) acc else acc).map
        TTopic.hash).Nodup := by
      split
      · exact nodup_foldl_addUnique ts acc h
      · exact h
    cases query with
    | nil => exact h1
    | cons q qs => exact nodup_lookChildren depth ty cs q qs _ h1
theorem nodup_lookChildren (depth : UInt8) (ty : TopicType) : ∀ (cs : List TNode) (q : Part) (qs : List Part) (acc : List TTopic),
    (acc.map TTopic.hash).Nodup → ((lookChildren depth ty cs q qs acc).map TTopic.hash).Nodup
  | [], q, qs, acc, h => by unfold lookChildren; exact h
  | .mk p d ts cs :: rest, q, qs, acc, h => by
    unfold lookChildren
    apply nodup_lookChildren depth ty rest q qs
    split
    · exact nodup_look depth ty (.mk p d ts cs) _ _ h
    · split
      · exact nodup_look depth ty (.mk p d ts cs) _ _ h
      · split
        · exact nodup_look depth ty (.mk p d ts cs) _ _ h
        · exact h
end

/-- A lookup lists every topic hash once. -/
theorem Trie.nodup_lookup (s : Trie) (query : List Part) (depth : UInt8) (ty : TopicType) :
    ((s.lookup query depth ty).map TTopic.hash).Nodup := nodup_look depth ty s.root query [] List.nodup_nil

end Verif
