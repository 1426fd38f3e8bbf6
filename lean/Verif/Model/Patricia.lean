import Verif.Base.Bytes

/-!
# The protocol matcher

server/internal/net/listener/patricia.go: a tree of byte-string prefixes, immutable once built.
-/

namespace Verif

/-- patricia.go:64-68 `ptNode`; the map `next` is an association list. -/
inductive PtNode where
  | mk (pre : Bytes) (next : List (UInt8 × PtNode)) (terminal : Bool)

def PtNode.pre : PtNode → Bytes | .mk p _ _ => p
def PtNode.next : PtNode → List (UInt8 × PtNode) | .mk _ n _ => n
def PtNode.terminal : PtNode → Bool | .mk _ _ t => t

/-- patricia.go:117-143, the loop of `splitPrefix`: one more byte, while every string has it. -/
def commonPrefix : (first : Bytes) → (others : List Bytes) → Bytes
  | [], _ => []
  | c :: cs, others =>
    if others.all (fun b => b.head? == some c) then c :: commonPrefix cs (others.map List.tail) else []

/-- patricia.go:108-152 `splitPrefix`. -/
def splitPrefix (bss : List Bytes) : Bytes × List Bytes :=
  match bss with
  | [] => ([], [])
  | first :: others =>
    if first = [] then ([], bss)
    else if others = [] then (first, [[]])
    else
      let p := commonPrefix first others
      (p, bss.map (·.drop p.length))

/-- patricia.go:90-97: the strings that begin with `c`, without it, in order (`nexts[c]`). -/
def restsOf (c : UInt8) (strs : List Bytes) : List Bytes :=
  strs.filterMap fun
    | [] => none
    | d :: s => if d = c then some s else none

/-- The keys of the map `nexts`. -/
def firstBytes (strs : List Bytes) : List UInt8 := (strs.filterMap List.head?).eraseDups

/-- patricia.go:70-106 `newNode`, with `fuel` bounding the depth (`build_spec`: more than the total
length of the strings suffices). -/
def newNode : (fuel : Nat) → List Bytes → PtNode
  | 0, _ => .mk [] [] false
  | fuel + 1, strs =>
    match strs with
    | [] => .mk [] [] true
    | [s] => .mk s [] true
    | _ =>
      let (p, rests) := splitPrefix strs
      .mk p ((firstBytes rests).map fun c => (c, newNode fuel (restsOf c rests))) (rests.any (· == []))

/-- patricia.go:154-186 `match`; every step consumes a byte, so `fuel` more than the length suffices. -/
def PtNode.matches : (fuel : Nat) → PtNode → Bytes → (pfx : Bool) → Bool
  | 0, _, _, _ => false
  | fuel + 1, n, b, pfx =>
    let l := if n.pre.length > 0 ∧ n.pre.length > b.length then b.length else n.pre.length
    if n.pre.length > 0 ∧ b.take l ≠ n.pre then false
    else if n.terminal ∧ (pfx ∨ n.pre.length = b.length) then true
    else if l ≥ b.length then false
    else
      match b[l]? with
      | none => false
      | some c =>
        match n.next.find? (·.1 == c) with
        | none => false
        | some (_, nextN) => PtNode.matches fuel nextN (b.drop (l + 1)) pfx

/-- patricia.go:26-47 `newPatriciaTree`: the root and `maxDepth`. -/
structure PtTree where
  root : PtNode
  maxDepth : Nat

@[inherit_doc PtTree] def newPatriciaTree (strs : List Bytes) : PtTree :=
  ⟨newNode (strs.flatten.length + 1) strs, strs.foldl (fun m b => if m < b.length then b.length else m) 0 + 1⟩

/-- patricia.go:49-53 `matchPrefix` on a stream with the given contents. -/
def PtTree.matchPrefix (t : PtTree) (stream : Bytes) : Bool :=
  let buf := stream.take t.maxDepth
  t.root.matches (buf.length + 1) buf true

/-- patricia.go:55-59 `match`. -/
def PtTree.matchExact (t : PtTree) (stream : Bytes) : Bool :=
  let buf := stream.take t.maxDepth
  t.root.matches (buf.length + 1) buf false

/-! ## What the tree accepts -/

theorem commonPrefix_spec (first : Bytes) (others : List Bytes) :
    commonPrefix first others <+: first ∧ ∀ b ∈ others, commonPrefix first others <+: b := by
  induction first generalizing others with
  | nil => exact ⟨List.nil_prefix, fun b _ => List.nil_prefix⟩
  | cons c cs ih =>
    simp only [commonPrefix]
    split
    · next h =>
      obtain ⟨h1, h2⟩ := ih (others.map List.tail)
      refine ⟨List.cons_prefix_cons.mpr ⟨rfl, h1⟩, fun b hb => ?_⟩
      have hh := List.all_eq_true.mp h b hb
      simp only [beq_iff_eq] at hh
      cases b with
      | nil => simp at hh
      | cons d ds =>
        simp only [List.head?_cons, Option.some.injEq] at hh
        subst hh
        exact List.cons_prefix_cons.mpr ⟨rfl, h2 ds (List.mem_map.mpr ⟨_, hb, rfl⟩)⟩
    · exact ⟨List.nil_prefix, fun b _ => List.nil_prefix⟩

theorem splitPrefix_spec (bss : List Bytes) :
    bss = (splitPrefix bss).2.map ((splitPrefix bss).1 ++ ·) := by
  unfold splitPrefix
  split
  · rfl
  · next first others =>
    split
    · simp
    · split
      · next h => simp [h]
      · have hs := commonPrefix_spec first others
        simp only [List.map_map]
        have : ∀ b ∈ first :: others, ((commonPrefix first others ++ ·) ∘ (·.drop (commonPrefix first others).length)) b = b := by
          intro b hb
          have hp : commonPrefix first others <+: b := by
            rcases List.mem_cons.mp hb with rfl | hb
            · exact hs.1
            · exact hs.2 b hb
          obtain ⟨r, rfl⟩ := hp
          simp
        rw [List.map_congr_left this, List.map_id']

theorem mem_restsOf (c : UInt8) (strs : List Bytes) (r : Bytes) : r ∈ restsOf c strs ↔ c :: r ∈ strs := by
  simp only [restsOf, List.mem_filterMap]
  constructor
  · rintro ⟨s, hs, h⟩
    split at h
    · simp at h
    · next d t =>
      split at h
      · next e => simp only [Option.some.injEq] at h; subst h e; exact hs
      · simp at h
  · intro h
    exact ⟨c :: r, h, by simp⟩

theorem mem_firstBytes (strs : List Bytes) (c : UInt8) : c ∈ firstBytes strs ↔ ∃ r, c :: r ∈ strs := by
  simp only [firstBytes, List.mem_eraseDups, List.mem_filterMap]
  constructor
  · rintro ⟨s, hs, h⟩
    cases s with
    | nil => simp at h
    | cons d t => simp only [List.head?_cons, Option.some.injEq] at h; subst h; exact ⟨t, hs⟩
  · rintro ⟨r, hr⟩
    exact ⟨_, hr, rfl⟩

theorem restsOf_length (c : UInt8) (strs : List Bytes) : (restsOf c strs).flatten.length + (restsOf c strs).length ≤ strs.flatten.length := by
  induction strs with
  | nil => simp [restsOf]
  | cons s strs ih =>
    cases s with
    | nil => simpa [restsOf] using ih
    | cons d t =>
      by_cases e : d = c
      · simp only [restsOf, List.filterMap_cons, e, if_true, List.flatten_cons, List.length_append, List.length_cons] at ih ⊢
        omega
      · simp only [restsOf, List.filterMap_cons, e, if_false, List.flatten_cons, List.length_append, List.length_cons] at ih ⊢
        omega

theorem map_append_flatten_length (p : Bytes) (rs : List Bytes) :
    rs.flatten.length ≤ (rs.map (p ++ ·)).flatten.length := by
  induction rs with
  | nil => simp
  | cons r rs ih => simp only [List.map_cons, List.flatten_cons, List.length_append]; omega

theorem PtNode.matches_not_prefix (mf : Nat) (n : PtNode) (b : Bytes) (pfx : Bool) (h : ¬ n.pre <+: b) : n.matches mf b pfx = false := by
  cases mf with
  | zero => rfl
  | succ mf =>
    have h0 : n.pre.length > 0 := by
      rcases Nat.eq_zero_or_pos n.pre.length with h' | h'
      · exact absurd (by rw [List.length_eq_zero_iff.mp h']; exact List.nil_prefix) h
      · exact h'
    have htake : b.take (if n.pre.length > 0 ∧ n.pre.length > b.length then b.length else n.pre.length) ≠ n.pre := by
      intro e
      apply h
      rw [← e]
      exact List.take_prefix _ _
    simp only [PtNode.matches]
    rw [if_pos ⟨h0, htake⟩]

/-- What a tree built from `strs` accepts. -/
theorem newNode_matches (pfx : Bool) (fuel : Nat) (strs : List Bytes) (hne : strs ≠ []) (hf : strs.flatten.length < fuel)
    (mf : Nat) (b : Bytes) (hm : b.length < mf) :
    (newNode fuel strs).matches mf b pfx = true ↔ ∃ s ∈ strs, if pfx then s <+: b else s = b := by
  induction fuel generalizing strs b mf with
  | zero => omega
  | succ fuel ih =>
    cases mf with
    | zero => omega
    | succ mf =>
      -- acceptance at a node with prefix `p`
      match strs, hne with
      | [s], _ =>
        simp only [newNode, PtNode.matches, PtNode.pre, PtNode.terminal, PtNode.next, List.mem_singleton, exists_eq_left, true_and]
        by_cases hs : s <+: b
        · obtain ⟨r, rfl⟩ := hs
          have hl : ¬ s.length > (s ++ r).length := by simp
          simp only [hl, and_false, if_false, List.take_left, ne_eq, not_true_eq_false]
          cases pfx with
          | true => simp
          | false =>
            by_cases hr : r = []
            · simp [hr]
            · have hpos : 0 < r.length := List.length_pos_iff.mpr hr
              have hlen : ¬ s.length = (s ++ r).length := by simp; omega
              have hne' : ¬ s = s ++ r := fun e => hlen (congrArg List.length e)
              simp [hr]
              intro _; split <;> rfl
        · have hne' : s ≠ b := fun e => hs (e ▸ List.prefix_refl _)
          have hs0 : s.length > 0 := by
            rcases Nat.eq_zero_or_pos s.length with h | h
            · exact absurd (by rw [List.length_eq_zero_iff.mp h]; exact List.nil_prefix) hs
            · exact h
          have htake : b.take (if s.length > 0 ∧ s.length > b.length then b.length else s.length) ≠ s := by
            intro e
            apply hs
            rw [← e]
            exact List.take_prefix _ _
          rw [if_pos ⟨hs0, htake⟩]
          cases pfx <;> simp [hs, hne']
      | s1 :: s2 :: rest, _ =>
        have hsp := splitPrefix_spec (s1 :: s2 :: rest)
        generalize hstrs : s1 :: s2 :: rest = strs at *
        have hnode : newNode (fuel + 1) strs = .mk (splitPrefix strs).1
            ((firstBytes (splitPrefix strs).2).map fun c => (c, newNode fuel (restsOf c (splitPrefix strs).2)))
            ((splitPrefix strs).2.any (· == [])) := by
          rw [← hstrs]; rfl
        rw [hnode]
        generalize splitPrefix strs = pr at *
        obtain ⟨p, rs⟩ := pr
        simp only at hsp ⊢
        have hrs : rs.flatten.length ≤ fuel := by
          have := map_append_flatten_length p rs
          rw [← hsp] at this
          omega
        -- strings are `p ++ r`
        have hiff : (∃ s ∈ strs, if pfx then s <+: b else s = b) ↔ ∃ r ∈ rs, if pfx then (p ++ r) <+: b else p ++ r = b := by
          rw [hsp]
          constructor
          · rintro ⟨s, hs, h⟩
            obtain ⟨r, hr, rfl⟩ := List.mem_map.mp hs
            exact ⟨r, hr, h⟩
          · rintro ⟨r, hr, h⟩
            exact ⟨p ++ r, List.mem_map.mpr ⟨r, hr, rfl⟩, h⟩
        rw [hiff]
        by_cases hpb : p <+: b
        · simp only [PtNode.matches, PtNode.pre, PtNode.terminal, PtNode.next]
          obtain ⟨t, rfl⟩ := hpb
          have hl : ¬ p.length > (p ++ t).length := by simp
          simp only [hl, and_false, if_false, List.take_left, ne_eq, not_true_eq_false]
          have hiff2 : (∃ r ∈ rs, if pfx then (p ++ r) <+: (p ++ t) else p ++ r = p ++ t) ↔ ∃ r ∈ rs, if pfx then r <+: t else r = t := by
            cases pfx <;> simp [List.prefix_append_right_inj]
          rw [hiff2]
          have hterm : (rs.any (· == []) = true) ↔ [] ∈ rs := by
            rw [List.any_eq_true]
            constructor
            · rintro ⟨x, hx, he⟩; simp at he; exact he ▸ hx
            · intro h; exact ⟨[], h, by simp⟩
          cases t with
          | nil =>
            simp only [List.append_nil, List.prefix_nil, ge_iff_le, Nat.le_refl, if_true, or_true, and_true, hterm]
            constructor
            · intro h
              split at h
              · next hm => exact ⟨[], hm, by simp⟩
              · simp at h
            · rintro ⟨r, hr, h⟩
              have : r = [] := by cases pfx <;> simpa using h
              subst this
              simp [hr]
          | cons c t =>
            have hlen : ¬ p.length = (p ++ c :: t).length := by simp
            have hlen2 : ¬ p.length ≥ (p ++ c :: t).length := by simp
            simp only [hlen, or_false, hlen2, if_false, hterm]
            have hget : (p ++ c :: t)[p.length]? = some c := by simp
            have hdrop : (p ++ c :: t).drop (p.length + 1) = t := by
              rw [← List.drop_drop]; simp
            simp only [hget, hdrop]
            -- the subtree of `c`
            have hsub : ∀ node, ((firstBytes rs).map fun c => (c, newNode fuel (restsOf c rs))).find? (·.1 == c) = node →
                ((match node with | none => false | some (_, nextN) => PtNode.matches mf nextN t pfx) = true ↔
                ∃ r, c :: r ∈ rs ∧ if pfx then r <+: t else r = t) := by
              intro node hnode
              by_cases hc : c ∈ firstBytes rs
              · have hfind : node = some (c, newNode fuel (restsOf c rs)) := by
                  rw [← hnode, List.find?_map]
                  have : (firstBytes rs).find? ((fun x : UInt8 × PtNode => x.1 == c) ∘ fun c => (c, newNode fuel (restsOf c rs))) = some c := by
                    cases hfd : (firstBytes rs).find? ((fun x : UInt8 × PtNode => x.1 == c) ∘ fun c => (c, newNode fuel (restsOf c rs))) with
                    | none => exact absurd (List.find?_eq_none.mp hfd c hc) (by simp)
                    | some d =>
                      have := List.find?_some hfd
                      simp at this
                      rw [this]
                  rw [this]; rfl
                rw [hfind]
                obtain ⟨r0, hr0⟩ := (mem_firstBytes rs c).mp hc
                have hne : restsOf c rs ≠ [] := List.ne_nil_of_mem ((mem_restsOf c rs r0).mpr hr0)
                have hlen := restsOf_length c rs
                have hpos : 0 < (restsOf c rs).length := List.length_pos_iff.mpr hne
                simp only
                rw [ih (restsOf c rs) hne (by omega) mf t (by simp at hm; omega)]
                constructor
                · rintro ⟨r, hr, h⟩; exact ⟨r, (mem_restsOf c rs r).mp hr, h⟩
                · rintro ⟨r, hr, h⟩; exact ⟨r, (mem_restsOf c rs r).mpr hr, h⟩
              · have hnone : node = none := by
                  rw [← hnode, List.find?_eq_none]
                  intro x hx
                  obtain ⟨d, hd, rfl⟩ := List.mem_map.mp hx
                  simp only [beq_iff_eq]
                  rintro rfl
                  exact hc hd
                rw [hnone]
                simp only [Bool.false_eq_true, false_iff]
                rintro ⟨r, hr, _⟩
                exact hc ((mem_firstBytes rs c).mpr ⟨r, hr⟩)
            have hsub' := hsub _ rfl
            cases pfx with
            | true =>
              by_cases hmem : [] ∈ rs
              · simp only [hmem, and_self, if_true, true_iff]
                exact ⟨[], hmem, List.nil_prefix⟩
              · simp only [hmem, false_and, if_false]
                rw [hsub']
                simp only [if_true]
                constructor
                · rintro ⟨r, hr, h⟩; exact ⟨c :: r, hr, List.cons_prefix_cons.mpr ⟨rfl, h⟩⟩
                · rintro ⟨r, hr, h⟩
                  cases r with
                  | nil => exact absurd hr hmem
                  | cons d r =>
                    obtain ⟨rfl, h'⟩ := List.cons_prefix_cons.mp h
                    exact ⟨r, hr, h'⟩
            | false =>
              simp only [Bool.false_eq_true, and_false, if_false]
              simp only [Bool.false_eq_true, if_false] at hsub'
              rw [hsub']
              constructor
              · rintro ⟨r, hr, rfl⟩; exact ⟨c :: r, hr, rfl⟩
              · rintro ⟨r, hr, h⟩
                subst h
                exact ⟨t, hr, rfl⟩
        · rw [PtNode.matches_not_prefix (h := by simpa [PtNode.pre] using hpb)]
          simp only [Bool.false_eq_true, false_iff]
          rintro ⟨r, _, h⟩
          apply hpb
          cases pfx with
          | true => exact (List.prefix_append p r).trans h
          | false => simp only [Bool.false_eq_true, if_false] at h; rw [← h]; exact List.prefix_append p r

end Verif
