import Verif.Model.Codec
import Verif.Model.Consistent
import Mathlib.Data.List.Perm.Basic
import Mathlib.Data.List.Sort
import Mathlib.Tactic.Tauto
import Mathlib.Algebra.BigOperators.Group.List.Basic

/-!
# Free list of the data file

leasing.go. Offsets (`int64`) are integers and sizes (`uint32`) naturals: the operations only shrink blocks, so nothing wraps for
blocks that lie inside a file; only merging in `defrag` adds sizes, and it is used in witnesses only. The codec converts to the
machine types.
-/

namespace Verif

/-- leasing.go:44-47 `_FreeBlock`. -/
structure FB where
  offset : Int
  size : Nat
deriving DecidableEq, Repr

/-- leasing.go:49-53 `_FreeBlocks`; `cache` holds the offsets whose map value is true. -/
structure Shard where
  fb : List FB
  cache : List Int
deriving DecidableEq, Repr

/-- leasing.go:35-42 `_Lease` (the lease maps are never used). -/
structure Lease where
  shards : List Shard
  size : Int
  min : Int
deriving DecidableEq, Repr

/-- db_internal.go:39. -/
def nShards : Nat := 27

/-- The shard `FindBlock` chooses: by `C13`, the first pick, since no shard is ever removed. -/
def shardOf (x : Int) : Nat := (Flea.init (UInt64.ofInt x)).pick nShards

theorem shardOf_lt (x : Int) : shardOf x < nShards := Anchor.pick_lt _ _ (by decide) (by decide)

/-- `FindBlock` on the database's hash is that pick. -/
theorem shardOf_eq : ∃ s0, Anchor.init nShards nShards = some s0 ∧ ∀ x, s0.Finds (UInt64.ofInt x) (shardOf x) := by
  obtain ⟨s0, h0, I, _, hA⟩ := Anchor.inv_init nShards (by decide) (by decide)
  refine ⟨s0, h0, fun x => ?_⟩
  rw [Anchor.finds_iff, I.size]
  exact .stop _ _ (by rw [I.size]; exact shardOf_lt x) (hA _)

/-- leasing.go:115-119 `search`: `sort.Search`, a binary search for the first index satisfying the predicate. -/
def goSearch (p : Nat → Bool) (i j : Nat) : Nat :=
  if _h : i < j then
    if !p ((i + j) / 2) then goSearch p ((i + j) / 2 + 1) j else goSearch p i ((i + j) / 2)
  else i
termination_by j - i

namespace Lease

/-- leasing.go:56-74 `newLease`. -/
def new (min : Int) : Lease := ⟨List.replicate nShards ⟨[], []⟩, 0, min⟩

/-- All free blocks. -/
def all (l : Lease) : List FB := l.shards.flatMap (·.fb)

/-- leasing.go:160-171 `freeBlock`. -/
def freeBlock (l : Lease) (off : Int) (size : Nat) : Lease :=
  match l.shards[shardOf off]? with
  | none => l
  | some s =>
    if off ∈ s.cache then l
    else { l with shards := l.shards.set (shardOf off) ⟨s.fb ++ [⟨off, size⟩], off :: s.cache⟩, size := l.size + size }

/-- leasing.go:173-178 `free`; freeing zero bytes panics. -/
def free (l : Lease) (off : Int) (size : Nat) : Option Lease := if size = 0 then none else some (l.freeBlock off size)

/-- leasing.go:180-206 `allocate`; allocating zero bytes panics. Returns the offset, -1 when no block is used. -/
def allocate (l : Lease) (size : Nat) : Option (Int × Lease) :=
  if size = 0 then none
  else if l.size < l.min then some (-1, l)
  else match l.shards[shardOf size]? with
    | none => none
    | some s =>
      let i := goSearch (fun i => decide (size ≤ (s.fb[i]?.map (·.size)).getD 0)) 0 s.fb.length
      match s.fb[i]? with
      | none => some (-1, l)
      | some b =>
        let fb := if b.size = size then s.fb.eraseIdx i else s.fb.set i ⟨b.offset + size, b.size - size⟩
        some (b.offset, { l with shards := l.shards.set (shardOf size) ⟨fb, s.cache.filter (· ≠ b.offset)⟩, size := l.size - size })

end Lease

/-- The merge loop of `defrag` (leasing.go:134-146): current block and the rest, in offset order. -/
def defragMerge (cur : FB) : List FB → List FB
  | [] => [cur]
  | b :: bs => if cur.offset + cur.size = b.offset then defragMerge ⟨cur.offset, cur.size + b.size⟩ bs
    else cur :: defragMerge b bs

/-- Offsets merged into the block before them, whose cache entry is deleted (leasing.go:139). -/
def defragGone (cur : FB) : List FB → List Int
  | [] => []
  | b :: bs => if cur.offset + cur.size = b.offset then b.offset :: defragGone ⟨cur.offset, cur.size + b.size⟩ bs
    else defragGone b bs

/-- leasing.go:125-151 `defrag` of one shard. `copy(b.fb[:l], merged)` overwrites the front of the list and leaves the rest.
`sort.Slice` is not stable; offsets are distinct, and the order of equal sizes does not matter for what is proved. -/
def Shard.defrag (s : Shard) : Shard :=
  match s.fb.insertionSort (fun a b => a.offset ≤ b.offset) with
  | [] => s
  | [_] => s
  | b :: bs =>
    let merged := (defragMerge b bs).insertionSort (fun a b => a.size ≤ b.size)
    ⟨merged ++ (b :: bs).drop merged.length, s.cache.filter (fun o => decide (o ∉ defragGone b bs))⟩

/-- leasing.go:153-158. -/
def Lease.defrag (l : Lease) : Lease := { l with shards := l.shards.map Shard.defrag }

/-! ## Codec -/

/-- leasing.go:84-85, one block. -/
def FB.encode (b : FB) : Bytes := putI64 (Int64.ofInt b.offset) ++ put32 (UInt32.ofNat b.size)

/-- leasing.go:77-89 `MarshalBinary`. -/
def marshalFBs (bs : List FB) : Bytes := put32 (UInt32.ofNat bs.length) ++ bs.flatMap FB.encode

/-- leasing.go:95-96. -/
def FB.decode (d : Bytes) : Option FB := do
  let o ← getI64 d 0
  let s ← get32 d 8
  pure ⟨o.toInt, s.toNat⟩

/-- leasing.go:92-103 `UnmarshalBinary`: blocks at offset 0 are dropped. -/
def unmarshalFBs (d : Bytes) (n : Nat) : Option (List FB) :=
  (decodeN FB.decode 12 n d).map fun r => r.1.filter (·.offset ≠ 0)

namespace Lease

/-- leasing.go:233-256 `write`: the file is truncated and rewritten. -/
def write (l : Lease) : Bytes := marshalFBs l.all

/-- leasing.go:208-231 `read` into a lease; `12*size` is computed in uint32. A short file is an error (`none`), an empty one is
accepted. -/
def read (l : Lease) (file : Bytes) : Option Lease :=
  if file.length < 4 then some l
  else do
    let n ← get32 file 0
    let buf ← slice? file 4 (4 + (12 * n).toNat)
    let bs ← unmarshalFBs buf n.toNat
    pure (bs.foldl (fun l b => l.freeBlock b.offset b.size) l)

end Lease

/-! ## Lemmas -/

theorem goSearch_spec (p : Nat → Bool) (i j : Nat) (h : i ≤ j) : i ≤ goSearch p i j ∧ goSearch p i j ≤ j ∧
    (goSearch p i j < j → p (goSearch p i j) = true) := by
  induction hm : j - i using Nat.strongRecOn generalizing i j with
  | _ m ih =>
    rw [goSearch]
    by_cases hlt : i < j
    · rw [dif_pos hlt]
      by_cases hp : p ((i + j) / 2) = true
      · rw [if_neg (by simp [hp])]
        obtain ⟨h1, h2, h3⟩ := ih ((i + j) / 2 - i) (by omega) i ((i + j) / 2) (by omega) rfl
        refine ⟨h1, by omega, fun _ => ?_⟩
        by_cases e : goSearch p i ((i + j) / 2) = (i + j) / 2
        · rw [e]; exact hp
        · exact h3 (by omega)
      · rw [if_pos (by simp [hp])]
        obtain ⟨h1, h2, h3⟩ := ih (j - ((i + j) / 2 + 1)) (by omega) ((i + j) / 2 + 1) j (by omega) rfl
        exact ⟨by omega, h2, h3⟩
    · rw [dif_neg hlt]
      exact ⟨Nat.le_refl _, h, fun h => absurd h hlt⟩

theorem set_split {α : Type} (xs : List α) (i : Nat) (x : α) (h : xs[i]? = some x) :
    ∃ a z, xs = a ++ x :: z ∧ (∀ y, xs.set i y = a ++ y :: z) ∧ xs.eraseIdx i = a ++ z := by
  obtain ⟨hi, he⟩ := List.getElem?_eq_some_iff.1 h
  refine ⟨xs.take i, xs.drop (i + 1), ?_, fun y => ?_, ?_⟩
  · rw [← he]; simp
  · rw [List.set_eq_take_append_cons_drop, if_pos hi]
  · rw [List.eraseIdx_eq_take_drop_succ]

namespace Lease

/-- What is left of a block after taking `n` bytes from its front. -/
def leftover (b : FB) (n : Nat) : List FB := if b.size = n then [] else [⟨b.offset + n, b.size - n⟩]

/-- The shape of an allocation: it takes the front of one free block that is large enough. -/
theorem allocate_cases {l l' : Lease} {n : Nat} {off : Int} (h : l.allocate n = some (off, l')) :
    (off = -1 ∧ l' = l) ∨ (∃ a s z b p q, l.shards = a ++ s :: z ∧ s.fb = p ++ b :: q ∧ n ≤ b.size ∧ off = b.offset ∧
      l' = { l with shards := a ++ ⟨p ++ leftover b n ++ q, s.cache.filter (· ≠ b.offset)⟩ :: z, size := l.size - n }) := by
  unfold allocate at h
  split at h
  · simp at h
  split at h
  · simp only [Option.some.injEq, Prod.mk.injEq] at h
    exact .inl ⟨h.1.symm, h.2.symm⟩
  split at h
  · simp at h
  rename_i s hs
  simp only at h
  split at h
  · simp only [Option.some.injEq, Prod.mk.injEq] at h
    exact .inl ⟨h.1.symm, h.2.symm⟩
  rename_i b hb
  simp only [Option.some.injEq, Prod.mk.injEq] at h
  obtain ⟨rfl, rfl⟩ := h
  right
  obtain ⟨a, z, ha, hset, _⟩ := set_split _ _ _ hs
  set i := goSearch (fun i => decide (n ≤ (s.fb[i]?.map (·.size)).getD 0)) 0 s.fb.length with hi
  obtain ⟨p, q, hpq, hset2, herase⟩ := set_split _ _ _ hb
  have hlt : i < s.fb.length := (List.getElem?_eq_some_iff.1 hb).1
  have hn : n ≤ b.size := by
    have := (goSearch_spec (fun i => decide (n ≤ (s.fb[i]?.map (·.size)).getD 0)) 0 s.fb.length (by omega)).2.2 (by rw [← hi]; exact hlt)
    rw [← hi, hb] at this
    simpa using this
  refine ⟨a, s, z, b, p, q, ha, hpq, hn, rfl, ?_⟩
  rw [hset, leftover]
  split
  · rw [herase, List.append_nil]
  · rw [hset2]; simp

theorem allocate_spec {l l' : Lease} {n : Nat} {off : Int} (h : l.allocate n = some (off, l')) :
    (off = -1 ∧ l' = l) ∨ (∃ b rest, l.all.Perm (b :: rest) ∧ n ≤ b.size ∧ off = b.offset ∧ l'.size = l.size - n ∧ l'.min = l.min ∧
      l'.all.Perm (leftover b n ++ rest)) := by
  rcases allocate_cases h with h | ⟨a, s, z, b, p, q, ha, hs, hn, ho, rfl⟩
  · exact .inl h
  · right
    refine ⟨b, a.flatMap (·.fb) ++ (p ++ q) ++ z.flatMap (·.fb), ?_, hn, ho, rfl, rfl, ?_⟩
    · simp only [all, ha, List.flatMap_append, List.flatMap_cons, hs, List.append_assoc, List.cons_append]
      refine (List.perm_append_left_iff (a.flatMap (·.fb))).2 List.perm_middle |>.trans ?_
      exact List.perm_middle
    · simp only [all, List.flatMap_append, List.flatMap_cons, List.append_assoc]
      have := List.perm_append_comm_assoc (a.flatMap (·.fb) ++ p) (leftover b n) (q ++ z.flatMap (·.fb))
      simpa using this

theorem free_cases (l : Lease) (off : Int) (n : Nat) (hl : l.shards.length = nShards) :
    ∃ a s z, l.shards = a ++ s :: z ∧
      (l.freeBlock off n = if off ∈ s.cache then l else
        { l with shards := a ++ ⟨s.fb ++ [⟨off, n⟩], off :: s.cache⟩ :: z, size := l.size + n }) := by
  have hlt : shardOf off < l.shards.length := by rw [hl]; exact shardOf_lt off
  have hs := List.getElem?_eq_getElem hlt
  obtain ⟨a, z, ha, hset, _⟩ := set_split _ _ _ hs
  refine ⟨a, _, z, ha, ?_⟩
  rw [freeBlock, hs]
  simp only [hset]

/-- Two byte ranges share no byte. -/
def Apart (a b : FB) : Prop := a.offset + a.size ≤ b.offset ∨ b.offset + b.size ≤ a.offset

theorem Apart.symm {a b : FB} (h : Apart a b) : Apart b a := Or.symm h

theorem pairwise_perm {xs ys : List FB} (h : xs.Perm ys) : xs.Pairwise Apart ↔ ys.Pairwise Apart :=
  h.pairwise_iff (fun h => h.symm)

/-- Total size of a list of blocks. -/
def total (bs : List FB) : Int := (bs.map fun b => (b.size : Int)).sum

theorem total_perm {xs ys : List FB} (h : xs.Perm ys) : total xs = total ys := (h.map _).sum_eq

theorem total_append (xs ys : List FB) : total (xs ++ ys) = total xs + total ys := by simp [total]
theorem total_cons (x : FB) (ys : List FB) : total (x :: ys) = x.size + total ys := by simp [total]

/-- State of the free list: well-sharded, remembers only free offsets, and the size counter is right. -/
structure Good (l : Lease) : Prop where
  len : l.shards.length = nShards
  cache : ∀ s ∈ l.shards, ∀ o ∈ s.cache, ∃ b ∈ s.fb, b.offset = o
  size : l.size = total l.all

theorem good_new (m : Int) : Good (new m) ∧ (new m).all = [] := by
  refine ⟨⟨by simp [new], ?_, ?_⟩, ?_⟩
  · intro s hs
    simp only [new, List.mem_replicate] at hs
    rw [hs.2]; simp
  · simp only [new, all]
    rw [List.flatMap_eq_nil_iff.2]; · rfl
    · intro s hs
      rw [List.eq_of_mem_replicate hs]
  · simp only [new, all]
    rw [List.flatMap_eq_nil_iff]
    intro s hs
    rw [List.eq_of_mem_replicate hs]

theorem good_allocate {l l' : Lease} {n : Nat} {off : Int} (g : Good l) (h : l.allocate n = some (off, l')) : Good l' := by
  have hsp := allocate_spec h
  rcases allocate_cases h with h | ⟨a, s, z, b, p, q, ha, hs, hn, ho, rfl⟩
  · rw [h.2]; exact g
  · refine ⟨?_, ?_, ?_⟩
    · have := g.len; rw [ha] at this; simpa using this
    · intro s' hs' o ho'
      simp only [List.mem_append, List.mem_cons] at hs'
      have old : ∀ s' ∈ l.shards, ∀ o ∈ s'.cache, ∃ b ∈ s'.fb, b.offset = o := g.cache
      rw [ha] at old
      rcases hs' with hs' | rfl | hs'
      · exact old s' (by simp [hs']) o ho'
      · simp only [List.mem_filter, decide_eq_true_eq] at ho'
        obtain ⟨b0, hb0, hbo⟩ := old s (by simp) o ho'.1
        rw [hs] at hb0
        refine ⟨b0, ?_, hbo⟩
        simp only [List.mem_append, List.mem_cons] at hb0 ⊢
        rcases hb0 with hb0 | rfl | hb0
        · exact .inl (.inl hb0)
        · exact absurd hbo.symm ho'.2
        · exact .inr hb0
      · exact old s' (by simp [hs']) o ho'
    · rcases hsp with ⟨_, h2⟩ | ⟨b', rest, h1, h2, h3, h4, h5, h6⟩
      · rw [h2]; exact g.size
      · rw [total_perm h6, h4, g.size, total_perm h1, total_cons, total_append, leftover]
        split
        · simp [total]; omega
        · simp [total]; omega

/-- Freeing a range that is apart from all free blocks adds exactly that block. -/
theorem good_free {l : Lease} (g : Good l) (off : Int) (n : Nat) (hn : 0 < n) (hap : ∀ b ∈ l.all, Apart ⟨off, n⟩ b)
    (hpos : ∀ b ∈ l.all, 0 < b.size) :
    Good (l.freeBlock off n) ∧ (l.freeBlock off n).all.Perm (⟨off, n⟩ :: l.all) ∧ (l.freeBlock off n).min = l.min := by
  obtain ⟨a, s, z, ha, he⟩ := free_cases l off n g.len
  have old : ∀ s' ∈ l.shards, ∀ o ∈ s'.cache, ∃ b ∈ s'.fb, b.offset = o := g.cache
  rw [ha] at old
  have hnot : off ∉ s.cache := by
    intro hm
    obtain ⟨b, hb, hbo⟩ := old s (by simp) off hm
    have hball : b ∈ l.all := by
      rw [all, ha]; simp [hb]
    have h1 := hap b hball
    have h2 := hpos b hball
    simp only [Apart] at h1
    omega
  rw [if_neg hnot] at he
  have hperm : (l.freeBlock off n).all.Perm (⟨off, n⟩ :: l.all) := by
    rw [he]
    simp only [all, ha, List.flatMap_append, List.flatMap_cons, List.append_assoc, List.cons_append, List.nil_append]
    refine (List.perm_append_left_iff (a.flatMap (·.fb))).2 List.perm_middle |>.trans ?_
    exact List.perm_middle
  refine ⟨⟨?_, ?_, ?_⟩, hperm, ?_⟩
  · rw [he]
    have := g.len; rw [ha] at this; simpa using this
  · rw [he]
    intro s' hs' o ho'
    simp only [List.mem_append, List.mem_cons] at hs'
    rcases hs' with hs' | rfl | hs'
    · exact old s' (by simp [hs']) o ho'
    · simp only [List.mem_cons] at ho'
      rcases ho' with rfl | ho'
      · exact ⟨⟨o, n⟩, by simp, rfl⟩
      · obtain ⟨b, hb, hbo⟩ := old s (by simp) o ho'
        exact ⟨b, by simp [hb], hbo⟩
    · exact old s' (by simp [hs']) o ho'
  · rw [total_perm hperm, total_cons, he, ← g.size]
    simp only; omega
  · rw [he]

/-- Freeing the same offset twice in a row does nothing the second time. -/
theorem free_twice (l : Lease) (hl : l.shards.length = nShards) (off : Int) (n m : Nat) :
    (l.freeBlock off n).freeBlock off m = l.freeBlock off n := by
  have hlt : shardOf off < l.shards.length := by rw [hl]; exact shardOf_lt off
  have hs := List.getElem?_eq_getElem hlt
  by_cases hc : off ∈ l.shards[shardOf off].cache
  · have e : l.freeBlock off n = l := by rw [freeBlock, hs]; simp [hc]
    rw [e, freeBlock, hs]; simp [hc]
  · have e : l.freeBlock off n = { l with shards := l.shards.set (shardOf off) ⟨l.shards[shardOf off].fb ++ [⟨off, n⟩], off :: l.shards[shardOf off].cache⟩, size := l.size + n } := by
      rw [freeBlock, hs]; simp [hc]
    rw [e, freeBlock]
    simp [hlt]

end Lease

/-! ## Defragmentation when no two blocks touch -/

theorem defragMerge_same (cur : FB) (bs : List FB) (h : ∀ a ∈ cur :: bs, ∀ b ∈ bs, a.offset + a.size ≠ b.offset) :
    defragMerge cur bs = cur :: bs ∧ defragGone cur bs = [] := by
  induction bs generalizing cur with
  | nil => exact ⟨rfl, rfl⟩
  | cons b bs ih =>
    have h1 := h cur (by simp) b (by simp)
    obtain ⟨e1, e2⟩ := ih b (fun a ha c hc => h a (by simp at ha ⊢; tauto) c (by simp [hc]))
    rw [defragMerge, if_neg h1, e1, defragGone, if_neg h1, e2]
    exact ⟨rfl, rfl⟩

/-- A shard in which no block ends where another begins keeps its blocks. -/
theorem Shard.defrag_same (s : Shard) (h : ∀ a ∈ s.fb, ∀ b ∈ s.fb, a.offset + a.size ≠ b.offset) :
    s.defrag.fb.Perm s.fb ∧ s.defrag.cache = s.cache := by
  have hp := List.perm_insertionSort (fun a b : FB => a.offset ≤ b.offset) s.fb
  unfold Shard.defrag
  split
  · exact ⟨List.Perm.refl _, rfl⟩
  · exact ⟨List.Perm.refl _, rfl⟩
  · rename_i b bs _ hb
    rw [hb] at hp
    have hmem : ∀ x, x ∈ b :: bs → x ∈ s.fb := fun x hx => hp.subset hx
    obtain ⟨e1, e2⟩ := defragMerge_same b bs (fun a ha c hc => h a (hmem a ha) c (hmem c (by simp [hc])))
    rw [e1, e2]
    have hp2 := List.perm_insertionSort (fun a b : FB => a.size ≤ b.size) (b :: bs)
    refine ⟨?_, by simp⟩
    simp only
    rw [hp2.length_eq, List.drop_length, List.append_nil]
    exact hp2.trans hp

theorem Lease.good_defrag {l : Lease} (g : Lease.Good l)
    (h : ∀ s ∈ l.shards, ∀ a ∈ s.fb, ∀ b ∈ s.fb, a.offset + a.size ≠ b.offset) :
    Lease.Good l.defrag ∧ l.defrag.all.Perm l.all ∧ l.defrag.min = l.min := by
  have hperm : l.defrag.all.Perm l.all := by
    unfold Lease.defrag Lease.all
    simp only
    have gen : ∀ ss : List Shard, (∀ s ∈ ss, s.defrag.fb.Perm s.fb) →
        ((ss.map Shard.defrag).flatMap (·.fb)).Perm (ss.flatMap (·.fb)) := by
      intro ss
      induction ss with
      | nil => intro _; exact List.Perm.refl _
      | cons s ss ih =>
        intro hs
        simp only [List.map_cons, List.flatMap_cons]
        exact (hs s (by simp)).append (ih fun x hx => hs x (by simp [hx]))
    exact gen _ fun s hs => (s.defrag_same (h s hs)).1
  refine ⟨⟨by simp [Lease.defrag, g.len], ?_, ?_⟩, hperm, rfl⟩
  · intro s' hs' o ho
    simp only [Lease.defrag, List.mem_map] at hs'
    obtain ⟨s, hs, rfl⟩ := hs'
    obtain ⟨h1, h2⟩ := s.defrag_same (h s hs)
    rw [h2] at ho
    obtain ⟨b, hb, hbo⟩ := g.cache s hs o ho
    exact ⟨b, h1.symm.subset hb, hbo⟩
  · rw [Lease.total_perm hperm, ← g.size]; rfl

end Verif
