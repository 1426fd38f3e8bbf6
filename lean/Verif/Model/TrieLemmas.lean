import Verif.Model.Trie
import Mathlib.Tactic.Tauto
import Mathlib.Data.List.Nodup

/-!
# Facts about the trie
-/

namespace Verif

/-- `m` is the node reached from `n` along the parts `path`. -/
inductive HasPath : TNode → List Part → TNode → Prop
  | nil (n : TNode) : HasPath n [] n
  | cons {n c m : TNode} {ps : List Part} : c ∈ n.children → HasPath c ps m → HasPath n (c.part :: ps) m

/-- Whether the walk of `ilookup` with query parts `query` visits the node at the end of a path. -/
def reach : List Part → List Part → Prop
  | [], _ => True
  | _ :: _, [] => False
  | p :: ps, q :: qs =>
    if p.hash = q.hash ∧ q.wildchars = p.wildchars then reach ps qs
    else if p.hash = q.hash ∧ UInt8.ofNat (q :: qs).length ≥ p.wildchars + 1 then
      reach ps ((q :: qs).drop (p.wildchars + 1).toNat)
    else if p.hash = wildcardHash then reach ps (q :: qs)
    else False

theorem mem_addUnique {v t : TTopic} {l : List TTopic} (h : t ∈ addUnique v l) : t = v ∨ t ∈ l := by
  induction l with
  | nil => simp [addUnique] at h; exact .inl h
  | cons a l ih =>
    simp only [addUnique] at h
    split at h
    · rename_i e
      rcases List.mem_cons.1 h with rfl | h
      · left; cases a; cases v; simp_all
      · right; simp [h]
    · rcases List.mem_cons.1 h with rfl | h
      · right; simp
      · rcases ih h with h | h
        · exact .inl h
        · exact .inr (by simp [h])

theorem hash_mem_addUnique (v : TTopic) (l : List TTopic) (x : UInt64) :
    x ∈ (addUnique v l).map TTopic.hash ↔ x = v.hash ∨ x ∈ l.map TTopic.hash := by
  induction l with
  | nil => simp [addUnique]
  | cons a l ih =>
    simp only [addUnique]
    split
    · rename_i e; simp [e]
    · simp only [List.map_cons, List.mem_cons, ih]; tauto

theorem mem_foldl_addUnique {ts acc : List TTopic} {t : TTopic} (h : t ∈ ts.foldl (fun a t => addUnique t a) acc) :
    t ∈ acc ∨ t ∈ ts := by
  induction ts generalizing acc with
  | nil => exact .inl h
  | cons a ts ih =>
    rcases ih h with h | h
    · rcases mem_addUnique h with h | h
      · exact .inr (by simp [h])
      · exact .inl h
    · exact .inr (by simp [h])

theorem hash_mem_foldl_addUnique (ts acc : List TTopic) (x : UInt64) :
    x ∈ (ts.foldl (fun a t => addUnique t a) acc).map TTopic.hash ↔ x ∈ acc.map TTopic.hash ∨ x ∈ ts.map TTopic.hash := by
  induction ts generalizing acc with
  | nil => simp
  | cons a ts ih =>
    simp only [List.foldl_cons, ih, hash_mem_addUnique, List.map_cons, List.mem_cons]; tauto

/-- What a walk from `n` may collect. -/
def Collects (depth : UInt8) (ty : TopicType) (n : TNode) (query : List Part) (t : TTopic) : Prop :=
  ∃ path m, HasPath n path m ∧ reach path query ∧ m.hit depth ty = true ∧ t ∈ m.topics

/-- What a walk collects in the subtree below one child, given the current query. -/
def CollectsBelow (depth : UInt8) (ty : TopicType) (cs : List TNode) (q : Part) (qs : List Part) (t : TTopic) : Prop :=
  ∃ c ∈ cs, ∃ path m, HasPath c path m ∧ reach (c.part :: path) (q :: qs) ∧ m.hit depth ty = true ∧ t ∈ m.topics

theorem collects_mk (depth : UInt8) (ty : TopicType) (p : Part) (d : UInt8) (ts : List TTopic) (cs : List TNode)
    (q : Part) (qs : List Part) (t : TTopic) :
    Collects depth ty (.mk p d ts cs) (q :: qs) t ↔
      ((TNode.mk p d ts cs).hit depth ty = true ∧ t ∈ ts) ∨ CollectsBelow depth ty cs q qs t := by
  constructor
  · rintro ⟨path, m, hp, hr, hh, ht⟩
    cases hp with
    | nil => exact .inl ⟨hh, ht⟩
    | cons hc hp => exact .inr ⟨_, hc, _, m, hp, hr, hh, ht⟩
  · rintro (⟨hh, ht⟩ | ⟨c, hc, path, m, hp, hr, hh, ht⟩)
    · exact ⟨[], _, .nil _, trivial, hh, ht⟩
    · exact ⟨c.part :: path, m, .cons hc hp, hr, hh, ht⟩

theorem collects_mk_nil (depth : UInt8) (ty : TopicType) (p : Part) (d : UInt8) (ts : List TTopic) (cs : List TNode)
    (t : TTopic) :
    Collects depth ty (.mk p d ts cs) [] t ↔ ((TNode.mk p d ts cs).hit depth ty = true ∧ t ∈ ts) := by
  constructor
  · rintro ⟨path, m, hp, hr, hh, ht⟩
    cases hp with
    | nil => exact ⟨hh, ht⟩
    | cons hc hp => exact absurd hr (by simp [reach])
  · rintro ⟨hh, ht⟩
    exact ⟨[], _, .nil _, trivial, hh, ht⟩

theorem collectsBelow_cons (depth : UInt8) (ty : TopicType) (c : TNode) (cs : List TNode) (q : Part) (qs : List Part)
    (t : TTopic) :
    CollectsBelow depth ty (c :: cs) q qs t ↔
      (if c.part.hash = q.hash ∧ q.wildchars = c.part.wildchars then Collects depth ty c qs t
       else if c.part.hash = q.hash ∧ UInt8.ofNat (q :: qs).length ≥ c.part.wildchars + 1 then
         Collects depth ty c ((q :: qs).drop (c.part.wildchars + 1).toNat) t
       else if c.part.hash = wildcardHash then Collects depth ty c (q :: qs) t
       else False) ∨ CollectsBelow depth ty cs q qs t := by
  have hd : (∃ path m, HasPath c path m ∧ reach (c.part :: path) (q :: qs) ∧ m.hit depth ty = true ∧ t ∈ m.topics) ↔
      (if c.part.hash = q.hash ∧ q.wildchars = c.part.wildchars then Collects depth ty c qs t
       else if c.part.hash = q.hash ∧ UInt8.ofNat (q :: qs).length ≥ c.part.wildchars + 1 then
         Collects depth ty c ((q :: qs).drop (c.part.wildchars + 1).toNat) t
       else if c.part.hash = wildcardHash then Collects depth ty c (q :: qs) t
       else False) := by
    simp only [reach, Collects]
    split
    · rfl
    · split
      · rfl
      · split
        · rfl
        · simp
  rw [← hd]
  constructor
  · rintro ⟨c', hc, r⟩
    rcases List.mem_cons.1 hc with rfl | hc
    · exact .inl r
    · exact .inr ⟨c', hc, r⟩
  · rintro (r | ⟨c', hc, r⟩)
    · exact ⟨c, by simp, r⟩
    · exact ⟨c', by simp [hc], r⟩

theorem collectsBelow_mk (depth : UInt8) (ty : TopicType) (p : Part) (d : UInt8) (ts : List TTopic) (cs' cs : List TNode)
    (q : Part) (qs : List Part) (t : TTopic) :
    CollectsBelow depth ty (.mk p d ts cs' :: cs) q qs t ↔
      (if p.hash = q.hash ∧ q.wildchars = p.wildchars then Collects depth ty (.mk p d ts cs') qs t
       else if p.hash = q.hash ∧ UInt8.ofNat (q :: qs).length ≥ p.wildchars + 1 then
         Collects depth ty (.mk p d ts cs') ((q :: qs).drop (p.wildchars + 1).toNat) t
       else if p.hash = wildcardHash then Collects depth ty (.mk p d ts cs') (q :: qs) t
       else False) ∨ CollectsBelow depth ty cs q qs t :=
  collectsBelow_cons depth ty (.mk p d ts cs') cs q qs t

mutual
theorem mem_look (depth : UInt8) (ty : TopicType) : ∀ (n : TNode) (query : List Part) (acc : List TTopic) (t : TTopic),
    t ∈ n.look depth ty query acc → t ∈ acc ∨ Collects depth ty n query t
  | .mk p d ts cs, query, acc, t, h => by
    unfold TNode.look at h
    cases query with
    | nil =>
      rw [collects_mk_nil]
      simp only at h
      split at h
      · rename_i e
        rcases mem_foldl_addUnique h with h | h
        · exact .inl h
        · exact .inr ⟨e, h⟩
      · exact .inl h
    | cons q qs =>
      rw [collects_mk]
      simp only at h
      rcases mem_lookChildren depth ty cs q qs _ t h with h | h
      · split at h
        · rename_i e
          rcases mem_foldl_addUnique h with h | h
          · exact .inl h
          · exact .inr (.inl ⟨e, h⟩)
        · exact .inl h
      · exact .inr (.inr h)
theorem mem_lookChildren (depth : UInt8) (ty : TopicType) : ∀ (cs : List TNode) (q : Part) (qs : List Part)
    (acc : List TTopic) (t : TTopic),
    t ∈ lookChildren depth ty cs q qs acc → t ∈ acc ∨ CollectsBelow depth ty cs q qs t
  | [], q, qs, acc, t, h => by
    unfold lookChildren at h; exact .inl h
  | .mk p d ts cs :: rest, q, qs, acc, t, h => by
    unfold lookChildren at h
    rw [collectsBelow_mk]
    rcases mem_lookChildren depth ty rest q qs _ t h with h | h
    · split at h
      · rename_i e
        simp only [if_pos e]
        rcases mem_look depth ty (.mk p d ts cs) _ _ t h with h | h
        · exact .inl h
        · exact .inr (.inl h)
      · rename_i e
        simp only [if_neg e]
        split at h
        · rename_i e
          simp only [if_pos e]
          rcases mem_look depth ty (.mk p d ts cs) _ _ t h with h | h
          · exact .inl h
          · exact .inr (.inl h)
        · rename_i e
          simp only [if_neg e]
          split at h
          · rename_i e
            simp only [if_pos e]
            rcases mem_look depth ty (.mk p d ts cs) _ _ t h with h | h
            · exact .inl h
            · exact .inr (.inl h)
          · exact .inl h
    · exact .inr (.inr h)
end

mutual
theorem hash_mem_look (depth : UInt8) (ty : TopicType) : ∀ (n : TNode) (query : List Part) (acc : List TTopic) (x : UInt64),
    (x ∈ acc.map TTopic.hash ∨ ∃ t, Collects depth ty n query t ∧ t.hash = x) → x ∈ (n.look depth ty query acc).map TTopic.hash
  | .mk p d ts cs, query, acc, x, h => by
    unfold TNode.look
    cases query with
    | nil =>
      simp only [collects_mk_nil] at h
      simp only
      rcases h with h | ⟨t, ⟨e, h⟩, ht⟩
      · split
        · rw [hash_mem_foldl_addUnique]; exact .inl h
        · exact h
      · rw [if_pos (by simpa [TNode.hit, TNode.depth, TNode.part] using e), hash_mem_foldl_addUnique]
        exact .inr (List.mem_map.2 ⟨t, h, ht⟩)
    | cons q qs =>
      simp only [collects_mk] at h
      simp only
      apply hash_mem_lookChildren depth ty cs q qs _ x
      rcases h with h | ⟨t, ⟨e, h⟩ | h, ht⟩
      · left
        split
        · rw [hash_mem_foldl_addUnique]; exact .inl h
        · exact h
      · left
        rw [if_pos (by simpa [TNode.hit, TNode.depth, TNode.part] using e), hash_mem_foldl_addUnique]
        exact .inr (List.mem_map.2 ⟨t, h, ht⟩)
      · exact .inr ⟨t, h, ht⟩
theorem hash_mem_lookChildren (depth : UInt8) (ty : TopicType) : ∀ (cs : List TNode) (q : Part) (qs : List Part)
    (acc : List TTopic) (x : UInt64),
    (x ∈ acc.map TTopic.hash ∨ ∃ t, CollectsBelow depth ty cs q qs t ∧ t.hash = x) →
      x ∈ (lookChildren depth ty cs q qs acc).map TTopic.hash
  | [], q, qs, acc, x, h => by
    unfold lookChildren
    rcases h with h | ⟨t, ⟨c, hc, _⟩, _⟩
    · exact h
    · simp at hc
  | .mk p d ts cs :: rest, q, qs, acc, x, h => by
    unfold lookChildren
    simp only [collectsBelow_mk] at h
    apply hash_mem_lookChildren depth ty rest q qs _ x
    by_cases h2 : ∃ t, CollectsBelow depth ty rest q qs t ∧ t.hash = x
    · exact .inr h2
    · left
      have h : x ∈ acc.map TTopic.hash ∨ ∃ t, (if p.hash = q.hash ∧ q.wildchars = p.wildchars then Collects depth ty (.mk p d ts cs) qs t
       else if p.hash = q.hash ∧ UInt8.ofNat (q :: qs).length ≥ p.wildchars + 1 then
         Collects depth ty (.mk p d ts cs) ((q :: qs).drop (p.wildchars + 1).toNat) t
       else if p.hash = wildcardHash then Collects depth ty (.mk p d ts cs) (q :: qs) t
       else False) ∧ t.hash = x := by
        rcases h with h | ⟨t, h | h, ht⟩
        · exact .inl h
        · exact .inr ⟨t, h, ht⟩
        · exact absurd ⟨t, h, ht⟩ h2
      split
      · rename_i e
        simp only [if_pos e] at h
        exact hash_mem_look depth ty (.mk p d ts cs) _ _ x h
      · rename_i e
        simp only [if_neg e] at h
        split
        · rename_i e
          simp only [if_pos e] at h
          exact hash_mem_look depth ty (.mk p d ts cs) _ _ x h
        · rename_i e
          simp only [if_neg e] at h
          split
          · rename_i e
            simp only [if_pos e] at h
            exact hash_mem_look depth ty (.mk p d ts cs) _ _ x h
          · rename_i e
            simpa only [if_neg e, false_and, exists_false, or_false] using h
end


/-! ## Contents of the tree -/

/-- Topic `x` is kept in a node at `path` whose depth is `e`. -/
def Holds (n : TNode) (path : List Part) (x : TTopic) (e : UInt8) : Prop :=
  ∃ m, HasPath n path m ∧ x ∈ m.topics ∧ m.depth = e

theorem holds_nil (n : TNode) (x : TTopic) (e : UInt8) : Holds n [] x e ↔ x ∈ n.topics ∧ n.depth = e := by
  constructor
  · rintro ⟨m, hp, h⟩; cases hp; exact h
  · intro h; exact ⟨n, .nil n, h⟩

theorem holds_cons (n : TNode) (q : Part) (ps : List Part) (x : TTopic) (e : UInt8) :
    Holds n (q :: ps) x e ↔ ∃ c ∈ n.children, c.part = q ∧ Holds c ps x e := by
  constructor
  · rintro ⟨m, hp, h⟩
    cases hp with
    | cons hc hp => exact ⟨_, hc, rfl, m, hp, h⟩
  · rintro ⟨c, hc, rfl, m, hp, h⟩
    exact ⟨m, .cons hc hp, h⟩

/-- Children have different parts, and no node lists a topic hash twice. -/
def TNode.WF (n : TNode) : Prop :=
  ∀ path m, HasPath n path m → (m.children.map TNode.part).Nodup ∧ (m.topics.map TTopic.hash).Nodup

theorem wf_mk (p : Part) (d : UInt8) (ts : List TTopic) (cs : List TNode) :
    (TNode.mk p d ts cs).WF ↔ (cs.map TNode.part).Nodup ∧ (ts.map TTopic.hash).Nodup ∧ ∀ c ∈ cs, c.WF := by
  constructor
  · intro h
    refine ⟨(h [] _ (.nil _)).1, (h [] _ (.nil _)).2, ?_⟩
    intro c hc path m hp
    exact h _ m (.cons hc hp)
  · rintro ⟨h1, h2, h3⟩ path m hp
    cases hp with
    | nil => exact ⟨h1, h2⟩
    | cons hc hp => exact h3 _ hc _ _ hp

theorem nodup_addUnique (v : TTopic) (l : List TTopic) (h : (l.map TTopic.hash).Nodup) :
    ((addUnique v l).map TTopic.hash).Nodup := by
  induction l with
  | nil => simp [addUnique]
  | cons a l ih =>
    simp only [List.map_cons, List.nodup_cons] at h
    simp only [addUnique]
    split
    · rename_i e
      simpa using h
    · rename_i e
      simp only [List.map_cons, List.nodup_cons, hash_mem_addUnique]
      refine ⟨?_, ih h.2⟩
      rintro (h' | h')
      · exact e h'
      · exact h.1 h'

theorem self_mem_addUnique (v : TTopic) (l : List TTopic) : v ∈ addUnique v l := by
  induction l with
  | nil => simp [addUnique]
  | cons a l ih =>
    simp only [addUnique]
    split
    · rename_i e; cases a; cases v; simp_all
    · simp [ih]

theorem mem_addUnique_of_ne {v x : TTopic} {l : List TTopic} (h : x ∈ l) (hne : x.hash ≠ v.hash) : x ∈ addUnique v l := by
  induction l with
  | nil => simp at h
  | cons a l ih =>
    simp only [addUnique]
    rcases List.mem_cons.1 h with rfl | h
    · rw [if_neg hne]; simp
    · split
      · simp [h]
      · simp [ih h]

/-- In a list without repeated hashes `addUnique` leaves exactly one topic with the hash. -/
theorem eq_of_mem_addUnique {v x : TTopic} {l : List TTopic} (hn : (l.map TTopic.hash).Nodup) (h : x ∈ addUnique v l)
    (hh : x.hash = v.hash) : x = v := by
  induction l with
  | nil => simpa [addUnique] using h
  | cons a l ih =>
    simp only [List.map_cons, List.nodup_cons] at hn
    simp only [addUnique] at h
    split at h
    · rename_i e
      rcases List.mem_cons.1 h with rfl | h
      · cases a; cases v; simp_all
      · exact absurd (List.mem_map.2 ⟨x, h, by rw [hh, e]⟩) hn.1
    · rename_i e
      rcases List.mem_cons.1 h with rfl | h
      · exact absurd hh e
      · exact ih hn.2 h

/-! ### insert -/

theorem part_insert (t : TTopic) (d : UInt8) (ps : List Part) (n : TNode) : (n.insert t d ps).part = n.part := by
  cases n; cases ps <;> rfl

def blank (q : Part) : TNode := .mk q 0 [] []

theorem not_holds_blank (q : Part) (path : List Part) (x : TTopic) (e : UInt8) : ¬ Holds (blank q) path x e := by
  cases path with
  | nil => rw [holds_nil]; simp [blank, TNode.topics]
  | cons => rw [holds_cons]; simp [blank, TNode.children]

/-- `curr.children[q]`, or a fresh node. -/
def getC (q : Part) : List TNode → TNode
  | [] => blank q
  | c :: cs => if c.part = q then c else getC q cs

theorem part_getC (q : Part) (cs : List TNode) : (getC q cs).part = q := by
  induction cs with
  | nil => rfl
  | cons c cs ih => simp only [getC]; split <;> assumption

theorem getC_mem (q : Part) (cs : List TNode) : getC q cs = blank q ∨ getC q cs ∈ cs := by
  induction cs with
  | nil => exact .inl rfl
  | cons c cs ih =>
    simp only [getC]
    split
    · simp
    · rcases ih with h | h
      · exact .inl h
      · exact .inr (by simp [h])

theorem ex_cons (a : TNode) (l : List TNode) (P : TNode → Prop) : (∃ c ∈ a :: l, P c) ↔ P a ∨ ∃ c ∈ l, P c := by simp

theorem exists_updChild {q : Part} {f : TNode → TNode} (hf : ∀ c, (f c).part = c.part) (P : TNode → Prop) (q' : Part)
    {cs : List TNode} (hn : (cs.map TNode.part).Nodup) :
    (∃ c' ∈ updChild q f cs, c'.part = q' ∧ P c') ↔
      if q' = q then P (f (getC q cs)) else ∃ c ∈ cs, c.part = q' ∧ P c := by
  induction cs with
  | nil =>
    have hb : (f (blank q)).part = q := hf (blank q)
    have : updChild q f [] = [f (blank q)] := rfl
    rw [this, ex_cons, hb]
    by_cases e : q' = q
    · simp [e, getC]
    · simp [e, Ne.symm e]
  | cons a cs ih =>
    simp only [List.map_cons, List.nodup_cons] at hn
    have ih := ih hn.2
    by_cases e : a.part = q
    · have h1 : updChild q f (a :: cs) = f a :: cs := by simp only [updChild, if_pos e]
      have h2 : getC q (a :: cs) = a := by simp only [getC, if_pos e]
      rw [h1, h2, ex_cons, ex_cons, hf, e]
      by_cases e' : q' = q
      · rw [if_pos e']
        subst e'
        constructor
        · rintro (⟨_, h⟩ | ⟨c, hc, hp, _⟩)
          · exact h
          · exact absurd (List.mem_map.2 ⟨c, hc, by rw [hp, e]⟩) hn.1
        · intro h; exact .inl ⟨rfl, h⟩
      · rw [if_neg e']
        simp [Ne.symm e']
    · have h1 : updChild q f (a :: cs) = a :: updChild q f cs := by simp only [updChild, if_neg e]
      have h2 : getC q (a :: cs) = getC q cs := by simp only [getC, if_neg e]
      rw [h1, h2, ex_cons, ex_cons, ih]
      by_cases e' : q' = q
      · subst e'; simp [e]
      · simp [e']

theorem exists_part {q : Part} (P : TNode → Prop) (hb : ¬ P (blank q)) {cs : List TNode}
    (hn : (cs.map TNode.part).Nodup) : (∃ c ∈ cs, c.part = q ∧ P c) ↔ P (getC q cs) := by
  induction cs with
  | nil => simp [getC, hb]
  | cons a cs ih =>
    simp only [List.map_cons, List.nodup_cons] at hn
    rw [ex_cons]
    by_cases e : a.part = q
    · have h2 : getC q (a :: cs) = a := by simp only [getC, if_pos e]
      rw [h2]
      constructor
      · rintro (⟨_, h⟩ | ⟨c, hc, hp, _⟩)
        · exact h
        · exact absurd (List.mem_map.2 ⟨c, hc, by rw [hp, e]⟩) hn.1
      · intro h; exact .inl ⟨e, h⟩
    · have h2 : getC q (a :: cs) = getC q cs := by simp only [getC, if_neg e]
      rw [h2, ← ih hn.2]
      simp [e]

theorem wf_blank (q : Part) : (blank q).WF := by
  rw [blank, wf_mk]; simp

theorem wf_getC {q : Part} {cs : List TNode} (h : ∀ c ∈ cs, c.WF) : (getC q cs).WF := by
  rcases getC_mem q cs with e | e
  · rw [e]; exact wf_blank q
  · exact h _ e

theorem map_part_updChild {q : Part} {f : TNode → TNode} (hf : ∀ c, (f c).part = c.part) (cs : List TNode)
    (hn : (cs.map TNode.part).Nodup) : ((updChild q f cs).map TNode.part).Nodup ∧
      ∀ p ∈ (updChild q f cs).map TNode.part, p = q ∨ p ∈ cs.map TNode.part := by
  induction cs with
  | nil =>
    have hb : (f (blank q)).part = q := hf (blank q)
    have : updChild q f [] = [f (blank q)] := rfl
    simp [this, hb]
  | cons a cs ih =>
    simp only [List.map_cons, List.nodup_cons] at hn
    obtain ⟨i1, i2⟩ := ih hn.2
    simp only [updChild]
    split
    · rename_i e
      simp only [List.map_cons, hf, List.nodup_cons]
      exact ⟨hn, fun p hp => .inr hp⟩
    · rename_i e
      simp only [List.map_cons, List.nodup_cons, List.mem_cons]
      refine ⟨⟨?_, i1⟩, ?_⟩
      · intro h
        rcases i2 _ h with h | h
        · exact e h
        · exact hn.1 h
      · rintro p (rfl | h)
        · exact .inr (.inl rfl)
        · rcases i2 _ h with h | h
          · exact .inl h
          · exact .inr (.inr h)

theorem mem_updChild {q : Part} {f : TNode → TNode} {cs : List TNode} {c' : TNode} (h : c' ∈ updChild q f cs) :
    c' ∈ cs ∨ c' = f (getC q cs) := by
  induction cs with
  | nil => simpa [updChild, getC, blank] using h
  | cons a cs ih =>
    simp only [updChild] at h
    simp only [getC]
    split at h
    · rename_i e
      rcases List.mem_cons.1 h with rfl | h
      · exact .inr (by rw [if_pos e])
      · exact .inl (by simp [h])
    · rename_i e
      rcases List.mem_cons.1 h with rfl | h
      · exact .inl (by simp)
      · rcases ih h with h | h
        · exact .inl (by simp [h])
        · exact .inr (by rw [if_neg e]; exact h)

theorem wf_insert (t : TTopic) (d : UInt8) (ps : List Part) (n : TNode) (h : n.WF) : (n.insert t d ps).WF := by
  induction ps generalizing n with
  | nil =>
    cases n
    rw [wf_mk] at h
    rw [TNode.insert, wf_mk]
    exact ⟨h.1, nodup_addUnique _ _ h.2.1, h.2.2⟩
  | cons q qs ih =>
    cases n
    rw [wf_mk] at h
    rw [TNode.insert, wf_mk]
    refine ⟨(map_part_updChild (part_insert t d qs) _ h.1).1, h.2.1, ?_⟩
    intro c hc
    rcases mem_updChild hc with hc | rfl
    · exact h.2.2 c hc
    · exact ih _ (wf_getC h.2.2)

theorem holds_insert (t : TTopic) (d : UInt8) (ps : List Part) (n : TNode) (h : n.WF) (path : List Part) (x : TTopic)
    (e : UInt8) : Holds (n.insert t d ps) path x e ↔
      if path = ps then e = d ∧ (x = t ∨ (x.hash ≠ t.hash ∧ ∃ e', Holds n path x e')) else Holds n path x e := by
  induction ps generalizing n path with
  | nil =>
    obtain ⟨p, d', ts, cs⟩ := n
    rw [wf_mk] at h
    cases path with
    | nil =>
      simp only [TNode.insert, holds_nil, TNode.topics, TNode.depth, if_true, exists_and_left, exists_eq', and_true]
      constructor
      · rintro ⟨hx, rfl⟩
        refine ⟨rfl, ?_⟩
        by_cases hh : x.hash = t.hash
        · exact .inl (eq_of_mem_addUnique h.2.1 hx hh)
        · rcases mem_addUnique hx with rfl | hx
          · exact .inl rfl
          · exact .inr ⟨hh, hx⟩
      · rintro ⟨rfl, rfl | ⟨hh, hx⟩⟩
        · exact ⟨self_mem_addUnique _ _, rfl⟩
        · exact ⟨mem_addUnique_of_ne hx hh, rfl⟩
    | cons q qs => simp [TNode.insert, holds_cons, TNode.children]
  | cons q qs ih =>
    obtain ⟨p, d', ts, cs⟩ := n
    rw [wf_mk] at h
    cases path with
    | nil => simp [TNode.insert, holds_nil, TNode.topics, TNode.depth]
    | cons q' path =>
      simp only [TNode.insert, holds_cons, TNode.children]
      rw [exists_updChild (part_insert t d qs) (fun c => Holds c path x e) q' h.1]
      by_cases hq : q' = q
      · subst hq
        simp only [if_true, ih _ (wf_getC h.2.2), List.cons.injEq, true_and]
        have ex : ∀ e', (∃ c ∈ cs, c.part = q' ∧ Holds c path x e') ↔ Holds (getC q' cs) path x e' := fun e' =>
          exists_part (fun c => Holds c path x e') (not_holds_blank q' path x e') h.1
        simp only [ex]
      · simp [hq]

/-! ### modify -/

theorem part_modify (f : List TTopic → List TTopic) (ps : List Part) (n : TNode) : (n.modify f ps).part = n.part := by
  cases n; cases ps <;> rfl

theorem mem_modChild {q : Part} {f : TNode → TNode} {cs : List TNode} {c' : TNode} (h : c' ∈ modChild q f cs) :
    c' ∈ cs ∨ c' = f (getC q cs) := by
  induction cs with
  | nil => simp [modChild] at h
  | cons a cs ih =>
    simp only [modChild] at h
    simp only [getC]
    split at h
    · rename_i e
      rcases List.mem_cons.1 h with rfl | h
      · exact .inr (by rw [if_pos e])
      · exact .inl (by simp [h])
    · rename_i e
      rcases List.mem_cons.1 h with rfl | h
      · exact .inl (by simp)
      · rcases ih h with h | h
        · exact .inl (by simp [h])
        · exact .inr (by rw [if_neg e]; exact h)

theorem map_part_modChild {q : Part} {f : TNode → TNode} (hf : ∀ c, (f c).part = c.part) (cs : List TNode) :
    (modChild q f cs).map TNode.part = cs.map TNode.part := by
  induction cs with
  | nil => rfl
  | cons a cs ih => simp only [modChild]; split <;> simp [hf, ih]

theorem wf_modify (t : TTopic) (ps : List Part) (n : TNode) (h : n.WF) : (n.modify (addUnique t) ps).WF := by
  induction ps generalizing n with
  | nil =>
    cases n
    rw [wf_mk] at h
    rw [TNode.modify, wf_mk]
    exact ⟨h.1, nodup_addUnique _ _ h.2.1, h.2.2⟩
  | cons q qs ih =>
    cases n
    rw [wf_mk] at h
    rw [TNode.modify, wf_mk, map_part_modChild (part_modify (addUnique t) qs)]
    refine ⟨h.1, h.2.1, ?_⟩
    intro c hc
    rcases mem_modChild hc with hc | rfl
    · exact h.2.2 c hc
    · exact ih _ (wf_getC h.2.2)

theorem exists_modChild {q : Part} {f : TNode → TNode} (hf : ∀ c, (f c).part = c.part) (P : TNode → Prop) (q' : Part)
    {cs : List TNode} (hn : (cs.map TNode.part).Nodup) :
    (∃ c' ∈ modChild q f cs, c'.part = q' ∧ P c') ↔
      if q' = q then (∃ c ∈ cs, c.part = q ∧ P (f c)) else ∃ c ∈ cs, c.part = q' ∧ P c := by
  induction cs with
  | nil => simp [modChild]
  | cons a cs ih =>
    simp only [List.map_cons, List.nodup_cons] at hn
    have ih := ih hn.2
    by_cases e : a.part = q
    · have h1 : modChild q f (a :: cs) = f a :: cs := by simp only [modChild, if_pos e]
      rw [h1, ex_cons, ex_cons, ex_cons, hf, e]
      by_cases e' : q' = q
      · rw [if_pos e']
        subst e'
        have : ∀ Q : TNode → Prop, ¬ ∃ c ∈ cs, c.part = q' ∧ Q c := by
          rintro Q ⟨c, hc, hp, _⟩
          exact hn.1 (List.mem_map.2 ⟨c, hc, by rw [hp, e]⟩)
        simp only [this, or_false]
      · rw [if_neg e']
        simp [Ne.symm e']
    · have h1 : modChild q f (a :: cs) = a :: modChild q f cs := by simp only [modChild, if_neg e]
      rw [h1, ex_cons, ex_cons, ex_cons, ih]
      by_cases e' : q' = q
      · subst e'; simp [e]
      · simp [e']

/-- `setOffset` on the node at `ps`: topics with that hash get the new offset, nothing else changes. -/
theorem holds_modify (t : TTopic) (ps : List Part) (n : TNode) (h : n.WF) (path : List Part) (x : TTopic) (e : UInt8)
    (hin : ∃ y e', Holds n ps y e' ∧ y.hash = t.hash) :
    Holds (n.modify (addUnique t) ps) path x e ↔
      if path = ps then ((x = t ∧ ∃ y, Holds n path y e ∧ y.hash = t.hash) ∨ (x.hash ≠ t.hash ∧ Holds n path x e))
      else Holds n path x e := by
  induction ps generalizing n path with
  | nil =>
    obtain ⟨p, d', ts, cs⟩ := n
    rw [wf_mk] at h
    cases path with
    | nil =>
      simp only [TNode.modify, holds_nil, TNode.topics, TNode.depth, if_true] at hin ⊢
      constructor
      · rintro ⟨hx, rfl⟩
        by_cases hh : x.hash = t.hash
        · obtain ⟨y, _, hy, he⟩ := hin
          exact .inl ⟨eq_of_mem_addUnique h.2.1 hx hh, y, ⟨hy.1, rfl⟩, he⟩
        · rcases mem_addUnique hx with rfl | hx
          · exact absurd rfl hh
          · exact .inr ⟨hh, hx, rfl⟩
      · rintro (⟨rfl, y, ⟨_, rfl⟩, _⟩ | ⟨hh, hx, rfl⟩)
        · exact ⟨self_mem_addUnique _ _, rfl⟩
        · exact ⟨mem_addUnique_of_ne hx hh, rfl⟩
    | cons q qs => simp [TNode.modify, holds_cons, TNode.children]
  | cons q qs ih =>
    obtain ⟨p, d', ts, cs⟩ := n
    rw [wf_mk] at h
    cases path with
    | nil => simp [TNode.modify, holds_nil, TNode.topics, TNode.depth]
    | cons q' path =>
      simp only [TNode.modify, holds_cons, TNode.children] at hin ⊢
      rw [exists_modChild (part_modify (addUnique t) qs) (fun c => Holds c path x e) q' h.1]
      by_cases hq : q' = q
      · subst hq
        obtain ⟨y, e', ⟨c, hc, hcp, hy⟩, hyt⟩ := hin
        have hu : ∀ c' ∈ cs, c'.part = q' → c' = c := by
          intro c' hc' hp
          exact List.inj_on_of_nodup_map h.1 hc' hc (by rw [hp, hcp])
        have ex : ∀ P : TNode → Prop, (∃ c' ∈ cs, c'.part = q' ∧ P c') ↔ P c := by
          intro P
          constructor
          · rintro ⟨c', hc', hp, hP⟩; rw [← hu c' hc' hp]; exact hP
          · intro hP; exact ⟨c, hc, hcp, hP⟩
        simp only [if_true, ex, List.cons.injEq, true_and]
        exact ih c (h.2.2 c hc) path ⟨y, e', hy, hyt⟩
      · simp [hq]

/-! ## The trie as a list of entries -/

/-- Specification state: one entry per stored topic hash. -/
structure TEntry where
  hash : UInt64
  parts : List Part
  depth : UInt8
  offset : Int64

inductive TrieOp where
  | add (t : TTopic) (parts : List Part) (depth : UInt8)
  | setOffset (t : TTopic)

def Trie.step (s : Trie) : TrieOp → Trie
  | .add t ps d => s.add t ps d
  | .setOffset t => s.setOffset t

/-- Specification: a topic is entered by the first `add` of its hash; `setOffset` changes its offset. -/
def Spec.trieStep (l : List TEntry) : TrieOp → List TEntry
  | .add t ps d => if t.hash ∈ l.map TEntry.hash then l else l ++ [⟨t.hash, ps, d, t.offset⟩]
  | .setOffset t => l.map fun e => if e.hash = t.hash then { e with offset := t.offset } else e

def Trie.run (ops : List TrieOp) : Trie := ops.foldl Trie.step Trie.empty
def Spec.trieRun (ops : List TrieOp) : List TEntry := ops.foldl Spec.trieStep []

def TEntry.topic (e : TEntry) : TTopic := ⟨e.hash, e.offset⟩

structure TrieInv (s : Trie) (l : List TEntry) : Prop where
  wf : s.root.WF
  nodup : (l.map TEntry.hash).Nodup
  summary : ∀ h, s.summary.lookup h = (l.find? (·.hash = h)).map TEntry.parts
  holds : ∀ path x, (∃ e, Holds s.root path x e) ↔ ∃ a ∈ l, a.parts = path ∧ x = a.topic
  depth : ∀ path x e, Holds s.root path x e → ∃ a ∈ l, a.parts = path ∧ a.depth = e
  rootPart : s.root.part = ⟨0, 0⟩

theorem find?_hash_none {l : List TEntry} {h : UInt64} : l.find? (·.hash = h) = none ↔ h ∉ l.map TEntry.hash := by
  simp [List.find?_eq_none]; 

theorem trieInv_empty : TrieInv Trie.empty [] := by
  refine ⟨wf_blank _, by simp, by simp [Trie.empty], ?_, ?_, rfl⟩
  · intro path x
    have := not_holds_blank ⟨0, 0⟩ path x
    simp only [blank] at this
    simp [Trie.empty, this]
  · intro path x e h
    exact absurd h (not_holds_blank ⟨0, 0⟩ path x e)

theorem trieInv_add {s : Trie} {l : List TEntry} (hI : TrieInv s l) (t : TTopic) (ps : List Part) (d : UInt8) :
    TrieInv (s.add t ps d) (Spec.trieStep l (.add t ps d)) := by
  unfold Trie.add Spec.trieStep
  rw [hI.summary]
  by_cases hm : t.hash ∈ l.map TEntry.hash
  · obtain ⟨a, ha⟩ : ∃ a, l.find? (·.hash = t.hash) = some a := by
      cases hf : l.find? (·.hash = t.hash) with
      | none => exact absurd hm (find?_hash_none.1 hf)
      | some a => exact ⟨a, rfl⟩
    simp only [ha, Option.map_some, if_pos hm]
    exact hI
  · simp only [find?_hash_none.2 hm, Option.map_none, if_neg hm]
    have hnew : ∀ path e, ∀ x, Holds s.root path x e → x.hash ≠ t.hash := by
      intro path e x hx he
      obtain ⟨a, ha, _, rfl⟩ := (hI.holds path x).1 ⟨e, hx⟩
      exact hm (List.mem_map.2 ⟨a, ha, he⟩)
    refine ⟨wf_insert t d ps _ hI.wf, ?_, ?_, ?_, ?_, ?_⟩
    · simp only [List.map_append, List.map_cons, List.map_nil]
      rw [List.nodup_append]
      refine ⟨hI.nodup, by simp, ?_⟩
      simp only [List.mem_singleton]
      rintro a ha b rfl hab
      exact hm (hab ▸ ha)
    · intro h
      simp only [List.lookup_cons, List.find?_append, hI.summary]
      by_cases hh : h = t.hash
      · subst hh
        simp only [beq_self_eq_true, find?_hash_none.2 hm, List.find?_singleton]
        simp
      · have : (h == t.hash) = false := by simpa using hh
        simp only [this, List.find?_singleton, decide_eq_true_eq, Ne.symm hh, if_false]
        simp
    · intro path x
      simp only [holds_insert t d ps _ hI.wf]
      by_cases hp : path = ps
      · subst hp
        simp only [if_true, exists_and_right, exists_eq, true_and, hI.holds, List.mem_append, List.mem_singleton]
        constructor
        · rintro (rfl | ⟨_, a, ha, h1, h2⟩)
          · exact ⟨⟨x.hash, path, d, x.offset⟩, .inr rfl, rfl, rfl⟩
          · exact ⟨a, .inl ha, h1, h2⟩
        · rintro ⟨a, ha | rfl, h1, h2⟩
          · right
            refine ⟨?_, a, ha, h1, h2⟩
            intro he
            exact hm (List.mem_map.2 ⟨a, ha, by rw [← he, h2]; rfl⟩)
          · left; exact h2
      · simp only [if_neg hp, hI.holds, List.mem_append, List.mem_singleton]
        constructor
        · rintro ⟨a, ha, h⟩; exact ⟨a, .inl ha, h⟩
        · rintro ⟨a, ha | rfl, h1, h2⟩
          · exact ⟨a, ha, h1, h2⟩
          · exact absurd h1.symm hp
    · intro path x e
      rw [holds_insert t d ps _ hI.wf]
      split
      · rename_i hp
        rintro ⟨rfl, _⟩
        exact ⟨⟨t.hash, ps, e, t.offset⟩, by simp, hp.symm, rfl⟩
      · intro h
        obtain ⟨a, ha, r⟩ := hI.depth _ _ _ h
        exact ⟨a, by simp [ha], r⟩
    · rw [part_insert]; exact hI.rootPart

theorem trieInv_setOffset {s : Trie} {l : List TEntry} (hI : TrieInv s l) (t : TTopic) :
    TrieInv (s.setOffset t) (Spec.trieStep l (.setOffset t)) := by
  unfold Trie.setOffset Spec.trieStep
  rw [hI.summary]
  have hmapid : t.hash ∉ l.map TEntry.hash →
      l.map (fun e => if e.hash = t.hash then { e with offset := t.offset } else e) = l := by
    intro hm
    have : ∀ e ∈ l, (if e.hash = t.hash then { e with offset := t.offset } else e) = e := by
      intro e he
      rw [if_neg]
      intro h; exact hm (List.mem_map.2 ⟨e, he, h⟩)
    rw [List.map_congr_left this]; simp
  cases hf : l.find? (·.hash = t.hash) with
  | none =>
    simp only [Option.map_none, hmapid (find?_hash_none.1 hf)]
    exact hI
  | some a0 =>
    have ha0 : a0 ∈ l := List.mem_of_find?_eq_some hf
    have hh0 : a0.hash = t.hash := by simpa using List.find?_some hf
    simp only [Option.map_some]
    have hin : ∃ y e', Holds s.root a0.parts y e' ∧ y.hash = t.hash := by
      obtain ⟨e, he⟩ := (hI.holds a0.parts a0.topic).2 ⟨a0, ha0, rfl, rfl⟩
      exact ⟨a0.topic, e, he, hh0⟩
    have huniq : ∀ a ∈ l, a.hash = t.hash → a = a0 := by
      intro a ha h
      exact List.inj_on_of_nodup_map hI.nodup ha ha0 (by rw [h, hh0])
    refine ⟨wf_modify t a0.parts _ hI.wf, ?_, ?_, ?_, ?_, ?_⟩
    · have : (l.map (fun e => if e.hash = t.hash then { e with offset := t.offset } else e)).map TEntry.hash = l.map TEntry.hash := by
        rw [List.map_map]
        apply List.map_congr_left
        intro e _
        simp only [Function.comp]
        split <;> rfl
      rw [this]; exact hI.nodup
    · intro h
      rw [hI.summary, List.find?_map]
      have : ((fun e : TEntry => decide (e.hash = h)) ∘ fun e => if e.hash = t.hash then { e with offset := t.offset } else e)
          = fun e => decide (e.hash = h) := by
        funext e
        simp only [Function.comp]
        split <;> rfl
      rw [this, Option.map_map]
      congr 1
      funext e
      simp only [Function.comp]
      split <;> rfl
    · intro path x
      simp only [holds_modify t a0.parts _ hI.wf _ _ _ hin]
      by_cases hp : path = a0.parts
      · subst hp
        simp only [if_true]
        constructor
        · rintro ⟨e, ⟨rfl, y, hy, hyh⟩ | ⟨hne, hx⟩⟩
          · refine ⟨{ a0 with offset := x.offset }, List.mem_map.2 ⟨a0, ha0, by rw [if_pos hh0]⟩, rfl, ?_⟩
            simp [TEntry.topic, hh0]
          · obtain ⟨a, ha, h1, h2⟩ := (hI.holds _ _).1 ⟨e, hx⟩
            refine ⟨a, List.mem_map.2 ⟨a, ha, ?_⟩, h1, h2⟩
            rw [if_neg]
            rw [h2] at hne; exact hne
        · rintro ⟨a', ha', h1, h2⟩
          obtain ⟨a, ha, rfl⟩ := List.mem_map.1 ha'
          by_cases hh : a.hash = t.hash
          · have := huniq a ha hh
            subst this
            obtain ⟨y, e, hy, hyh⟩ := hin
            refine ⟨e, .inl ⟨?_, y, hy, hyh⟩⟩
            rw [h2, if_pos hh]
            simp only [TEntry.topic]
            cases t; simp_all
          · rw [if_neg hh] at h1 h2
            obtain ⟨e, he⟩ := (hI.holds a0.parts x).2 ⟨a, ha, h1, h2⟩
            refine ⟨e, .inr ⟨?_, he⟩⟩
            rw [h2]; exact hh
      · simp only [if_neg hp, hI.holds]
        constructor
        · rintro ⟨a, ha, h1, h2⟩
          refine ⟨a, List.mem_map.2 ⟨a, ha, ?_⟩, h1, h2⟩
          rw [if_neg]
          intro hh
          have := huniq a ha hh
          subst this
          exact hp h1.symm
        · rintro ⟨a', ha', h1, h2⟩
          obtain ⟨a, ha, rfl⟩ := List.mem_map.1 ha'
          by_cases hh : a.hash = t.hash
          · have := huniq a ha hh
            subst this
            rw [if_pos hh] at h1
            exact absurd h1.symm hp
          · rw [if_neg hh] at h1 h2
            exact ⟨a, ha, h1, h2⟩
    · intro path x e h
      have key : ∃ y, Holds s.root path y e := by
        rw [holds_modify t a0.parts _ hI.wf _ _ _ hin] at h
        split at h
        · rcases h with ⟨_, y, hy, _⟩ | ⟨_, hx⟩
          · exact ⟨y, hy⟩
          · exact ⟨x, hx⟩
        · exact ⟨x, h⟩
      obtain ⟨y, hy⟩ := key
      obtain ⟨a, ha, h1, h2⟩ := hI.depth _ _ _ hy
      refine ⟨_, List.mem_map.2 ⟨a, ha, rfl⟩, ?_, ?_⟩
      · split <;> exact h1
      · split <;> exact h2
    · rw [part_modify]; exact hI.rootPart

theorem trieInv_run (ops : List TrieOp) : TrieInv (Trie.run ops) (Spec.trieRun ops) := by
  have : ∀ (ops : List TrieOp) s l, TrieInv s l → TrieInv (ops.foldl Trie.step s) (ops.foldl Spec.trieStep l) := by
    intro ops
    induction ops with
    | nil => intro s l h; exact h
    | cons o ops ih =>
      intro s l h
      apply ih
      cases o with
      | add t ps d => exact trieInv_add h t ps d
      | setOffset t => exact trieInv_setOffset h t
  exact this ops _ _ trieInv_empty

theorem hasPath_part {n m : TNode} {path : List Part} (h : HasPath n path m) (p : Part) (hp : path.getLast? = some p) :
    m.part = p := by
  induction h with
  | nil => simp at hp
  | @cons n c m ps hc h ih =>
    cases ps with
    | nil =>
      cases h
      simpa using hp
    | cons q qs =>
      apply ih
      rw [List.getLast?_cons_cons] at hp
      exact hp

end Verif
