import Verif.Model.MemDb

/-! # Invariants of the in-memory store -/

namespace Verif

/-! ## Blocks -/

/-- Keys in a map, counted by a test on the key. -/
theorem AMap.filter_del_length {κ ν : Type} [DecidableEq κ] (m : AMap κ ν) (h : AMap.Nodup m) (k : κ) (v : ν) (p : κ → Bool) (hk : m.get k = some v)
    (hp : p k = true) : ((m.del k).filter fun x => p x.1).length + 1 = (m.filter fun x => p x.1).length := by
  induction m with
  | nil => simp at hk
  | cons q m ih =>
    simp only [AMap.Nodup, AMap.keys, List.map_cons, List.nodup_cons] at h
    simp only [AMap.get] at hk
    by_cases hq : q.1 = k
    · have hno : (AMap.del m k) = m := by
        unfold AMap.del
        rw [List.filter_eq_self]
        intro x hx
        simp only [ne_eq, decide_not, Bool.not_eq_eq_eq_not, Bool.not_true, decide_eq_false_iff_not]
        intro he
        exact h.1 (List.mem_map.mpr ⟨x, hx, by rw [he, hq]⟩)
      have : AMap.del (q :: m) k = m := by
        rw [← hno]
        unfold AMap.del
        rw [List.filter_cons, if_neg (by simpa using hq)]
        simp
      rw [this, List.filter_cons, if_pos (by simp [hq, hp])]
      simp
    · rw [if_neg hq] at hk
      have := ih h.2 hk
      have hd : AMap.del (q :: m) k = q :: AMap.del m k := by
        unfold AMap.del
        rw [List.filter_cons, if_pos (by simpa using hq)]
      rw [hd, List.filter_cons, List.filter_cons]
      split
      · simp only [List.length_cons]; omega
      · exact this

theorem AMap.del_of_get_none {κ ν : Type} [DecidableEq κ] (m : AMap κ ν) (k : κ) (h : m.get k = none) : m.del k = m := by
  unfold AMap.del
  rw [List.filter_eq_self]
  intro x hx
  simp only [ne_eq, decide_not, Bool.not_eq_eq_eq_not, Bool.not_true, decide_eq_false_iff_not]
  intro he
  have : k ∈ AMap.keys m := List.mem_map.mpr ⟨x, hx, he⟩
  rw [AMap.mem_keys, h] at this
  simp at this

/-- Number of keys of a block. -/
def MBlock.live (b : MBlock) : Nat := (b.records.filter fun x => !x.1.del).length

/-- A block in order: its buffer holds its records, its counter counts its keys, and offsets stay below the largest
buffer size. -/
structure MBlock.Ok (cap : Nat) (b : MBlock) : Prop where
  wf : b.WF
  nodup : AMap.Nodup b.records
  count : b.count = b.live
  offs : ∀ k v, b.records.get k = some v → v < cap

theorem MBlock.Ok.empty (cap : Nat) : ({} : MBlock).Ok cap :=
  ⟨MBlock.wf_empty, AMap.Nodup.nil, rfl, by simp⟩

theorem MBlock.put_fields {cap : Nat} {b b' : MBlock} {k : MKey} {d : Bytes} (hp : b.put cap k d = some b') :
    b'.records = b.records.set k b.data.length ∧ b'.count = (if k.del then b.count else b.count + 1) ∧ b.data.length < cap := by
  simp only [MBlock.put] at hp
  split at hp
  · simp at hp
  · next h =>
    simp only [Option.some.injEq] at hp
    subst hp
    exact ⟨rfl, rfl, by omega⟩

theorem MBlock.Ok.put {cap : Nat} {b b' : MBlock} (h : b.Ok cap) {k : MKey} {d : Bytes} (hd : d.length + 13 < 2 ^ 32)
    (hp : b.put cap k d = some b') (hnew : k.del = true ∨ b.records.get k = none) : b'.Ok cap := by
  obtain ⟨hr, hc, ho⟩ := MBlock.put_fields hp
  refine ⟨h.wf.put hd hp, hr ▸ h.nodup.set _ _, ?_, ?_⟩
  · rw [hc]
    simp only [MBlock.live, hr, AMap.set]
    cases hkd : k.del with
    | true =>
      simp only [if_true]
      rw [List.filter_cons, if_neg (by simp [hkd]), h.count]
      congr 1
      simp only [MBlock.live, AMap.del]
      rw [List.filter_filter]
      congr 1
      apply List.filter_congr
      intro x _
      by_cases hx : x.1 = k
      · simp [hx, hkd]
      · simp [hx]
    | false =>
      have hn : b.records.get k = none := by
        rcases hnew with h1 | h1
        · rw [hkd] at h1; simp at h1
        · exact h1
      rw [List.filter_cons, AMap.del_of_get_none _ _ hn, h.count]
      simp [MBlock.live, hkd]
  · intro k' v hg
    rw [hr, AMap.get_set] at hg
    split at hg
    · simp only [Option.some.injEq] at hg; omega
    · exact h.offs k' v hg

theorem MBlock.Ok.delete {cap : Nat} {b : MBlock} (h : b.Ok cap) {key : UInt64} (hk : (b.records.get ⟨false, key⟩).isSome) :
    (b.delete key).Ok cap := by
  refine ⟨h.wf.delete hk, h.nodup.del _, ?_, ?_⟩
  · obtain ⟨v, hv⟩ := Option.isSome_iff_exists.mp hk
    have := AMap.filter_del_length b.records h.nodup ⟨false, key⟩ v (fun k => !k.del) hv rfl
    simp only [MBlock.delete, MBlock.live, h.count]
    omega
  · intro k' v hg
    simp only [MBlock.delete, AMap.get_del] at hg
    split at hg
    · simp at hg
    · exact h.offs k' v hg

/-- A block whose counter is zero has no keys left. -/
theorem MBlock.Ok.no_keys {cap : Nat} {b : MBlock} (h : b.Ok cap) (hc : b.count = 0) (key : UInt64) : b.records.get ⟨false, key⟩ = none := by
  cases hg : b.records.get ⟨false, key⟩ with
  | none => rfl
  | some v =>
    have hm := AMap.mem_of_get _ hg
    have : (⟨false, key⟩, v) ∈ b.records.filter fun x => !x.1.del := List.mem_filter.mpr ⟨hm, rfl⟩
    have hl := List.length_pos_of_mem this
    have := h.count
    simp only [MBlock.live] at this
    omega

theorem MBlock.Ok.clear {cap : Nat} {b : MBlock} (h : b.Ok cap) (hc : b.count = 0) : ({ b with records := [] } : MBlock).Ok cap := by
  obtain ⟨rs, hh⟩ := h.wf
  exact ⟨⟨rs, hh.data, hh.sizes, by simp⟩, AMap.Nodup.nil, by simp [MBlock.live, hc], by simp⟩

theorem MBlock.value_isSome (b : MBlock) (k : MKey) : (b.value k).isSome = (b.records.get k).isSome := by simp [MBlock.value]

/-! ## The store -/

/-- The block at `a` holds the key. -/
def MemDb.holds (s : MemDb) (a : Nat) (key : UInt64) : Prop := ((s.at a).records.get ⟨false, key⟩).isSome

/-- The invariant: the live blocks hold exactly the map `m`, every key in one block, and the filters lead to it. -/
structure MInv (e : MEnv) (s : MemDb) (m : UInt64 → Option Bytes) : Prop where
  opened : s.closed = false
  addr : ∀ t a, s.blocks.get t = some a → a < s.heap.length ∧ a ∉ s.freed
  gone : ∀ a, a ∈ s.freed → a < s.heap.length
  inj : ∀ t t' a, s.blocks.get t = some a → s.blocks.get t' = some a → t = t'
  okb : ∀ t a, s.blocks.get t = some a → (s.at a).Ok e.cap
  dead : ∀ t a, s.qblocks.get t = some a → a ∈ s.freed → ∀ key, ¬ s.holds a key
  cur : (e.cap : Int) ≤ s.cur
  late : ∀ t a, s.blocks.get t = some a → (e.cap : Int) ≤ t ∧ t ≤ s.cur
  recsLate : ∀ i t snap, (s.filters i).recs.get t = some snap → t ≤ s.cur
  sound : ∀ t a key r, s.blocks.get t = some a → (s.at a).value ⟨false, key⟩ = some r → ∃ d, r = .ok d ∧ m key = some d
  complete : ∀ key d, m key = some d → ∃ t a, s.blocks.get t = some a ∧ s.holds a key
  uniq : ∀ t a t' a' key, s.blocks.get t = some a → s.blocks.get t' = some a' → s.holds a key → s.holds a' key → t = t'
  filt : ∀ t a key, s.blocks.get t = some a → s.holds a key → ((s.filters (e.shard key)).recs.get t).isSome ∧
    key ∈ (s.filters (e.shard key)).keys ∧ ∀ t' snap, t < t' → (s.filters (e.shard key)).recs.get t' = some snap → key ∈ snap
  query : ∀ t a, s.qblocks.get t = some a → s.blocks.get t = some a ∨ a ∈ s.freed

variable {e : MEnv} {s : MemDb} {m : UInt64 → Option Bytes}

theorem MInv.value (h : MInv e s m) {t : Int} {a : Nat} {key : UInt64} (ht : s.blocks.get t = some a) {off : Int}
    (hk : (s.at a).records.get ⟨false, key⟩ = some off) : ∃ d, m key = some d ∧ s.readAt a off = .value d := by
  have hv : (s.at a).value ⟨false, key⟩ = some ((s.at a).get off) := by simp [MBlock.value, hk]
  obtain ⟨d, hr, hm⟩ := h.sound t a key _ ht hv
  refine ⟨d, hm, ?_⟩
  simp only [MemDb.readAt, if_neg (h.addr t a ht).2, hr]

/-! ### Searching -/

theorem MemDb.search_sound (e : MEnv) (s : MemDb) (key : UInt64) (ts : List Int) {t : Int} {a : Nat} (h : s.search e key ts = some (t, a)) :
    s.blocks.get t = some a ∧ s.holds a key := by
  induction ts with
  | nil => simp [MemDb.search] at h
  | cons t' ts ih =>
    simp only [MemDb.search] at h
    split at h
    · exact ih h
    · next a' ha =>
      split at h
      · next hk =>
        simp only [Option.some.injEq, Prod.mk.injEq] at h
        obtain ⟨rfl, rfl⟩ := h
        exact ⟨ha, hk⟩
      · split at h
        · exact ih h
        · simp at h

theorem MInv.search_complete (htest : ∀ ks k, k ∈ ks → e.test ks k = true) (h : MInv e s m) (key : UInt64) {t : Int} {a : Nat}
    (ht : s.blocks.get t = some a) (hk : s.holds a key) (ts : List Int) (hs : ts.Pairwise (· ≥ ·)) (hmem : t ∈ ts)
    (hsub : ∀ t' ∈ ts, ((s.filters (e.shard key)).recs.get t').isSome) : s.search e key ts = some (t, a) := by
  induction ts with
  | nil => simp at hmem
  | cons t' ts ih =>
    rw [List.pairwise_cons] at hs
    simp only [MemDb.search]
    by_cases htt : t' = t
    · subst htt
      rw [ht]
      simp only
      rw [if_pos (show ((s.at a).records.get ⟨false, key⟩).isSome = true from hk)]
    · have hmem' : t ∈ ts := by
        rcases List.mem_cons.mp hmem with e' | h'
        · exact absurd e'.symm htt
        · exact h'
      have hlt : t < t' := by have := hs.1 t hmem'; omega
      have hrec := ih hs.2 hmem' (fun x hx => hsub x (List.mem_cons_of_mem _ hx))
      cases hb : s.blocks.get t' with
      | none => exact hrec
      | some a' =>
        simp only
        have hno : ¬ ((s.at a').records.get ⟨false, key⟩).isSome = true := fun hk' => htt (h.uniq t' a' t a key hb ht hk' hk)
        rw [if_neg hno]
        obtain ⟨snap, hsnap⟩ := Option.isSome_iff_exists.mp (hsub t' List.mem_cons_self)
        rw [hsnap, Option.getD_some, htest snap key ((h.filt t a key ht hk).2.2 t' snap hlt hsnap), if_pos rfl]
        exact hrec

theorem newestFirst_sorted (ts : List Int) : (newestFirst ts).Pairwise (· ≥ ·) := List.pairwise_insertionSort _ ts

theorem mem_newestFirst (ts : List Int) (t : Int) : t ∈ newestFirst ts ↔ t ∈ ts := (List.perm_insertionSort _ ts).mem_iff

theorem MInv.find_some (htest : ∀ ks k, k ∈ ks → e.test ks k = true) (h : MInv e s m) (key : UInt64) {d : Bytes} (hm : m key = some d) :
    ∃ t a, s.find e key = some (t, a) ∧ s.blocks.get t = some a ∧ s.holds a key := by
  obtain ⟨t, a, ht, hk⟩ := h.complete key d hm
  refine ⟨t, a, ?_, ht, hk⟩
  unfold MemDb.find
  apply h.search_complete htest key ht hk _ (newestFirst_sorted _)
  · rw [mem_newestFirst, AMap.mem_keys]
    exact (h.filt t a key ht hk).1
  · intro t' ht'
    rw [mem_newestFirst, AMap.mem_keys] at ht'
    exact ht'

theorem MInv.find_none (h : MInv e s m) (key : UInt64) (hm : m key = none) : s.find e key = none := by
  cases hf : s.find e key with
  | none => rfl
  | some p =>
    obtain ⟨t, a⟩ := p
    obtain ⟨ht, hk⟩ := s.search_sound e key _ hf
    obtain ⟨off, ho⟩ := Option.isSome_iff_exists.mp hk
    obtain ⟨d, hd, _⟩ := h.value ht ho
    rw [hm] at hd; simp at hd

/-! ### Get -/

/-- The parts of the state `Get` may change. -/
theorem MInv.cache (h : MInv e s m) (qr : Int) (qf : Nat → AMap Int (List UInt64)) (qb : AMap Int Nat)
    (hq : ∀ t a, qb.get t = some a → s.blocks.get t = some a ∨ s.qblocks.get t = some a) :
    MInv e { s with qrec := qr, qfilters := qf, qblocks := qb } m :=
  ⟨h.opened, h.addr, h.gone, h.inj, h.okb, fun t a ht hf => (hq t a ht).elim (fun hb => absurd hf (h.addr t a hb).2) (fun hq => h.dead t a hq hf), h.cur, h.late, h.recsLate, h.sound, h.complete, h.uniq, h.filt, fun t a ht => (hq t a ht).elim Or.inl (h.query t a)⟩

theorem MInv.seek (h : MInv e s m) (key : UInt64) {s' : MemDb} (hs : s.seek e key = some s') : MInv e s' m := by
  simp only [MemDb.seek] at hs
  split at hs
  · simp at hs
  · next t a hf =>
    simp only [Option.some.injEq] at hs
    subst hs
    apply h.cache
    intro t' a' hq
    rw [AMap.get_set] at hq
    split at hq
    · next e' =>
      simp only [Option.some.injEq] at hq
      subst hq e'
      exact Or.inl (s.search_sound e key _ hf).1
    · exact Or.inr hq

theorem MInv.hit (h : MInv e s m) (key : UInt64) {t : Int} {a : Nat} {off : Int} (hq : s.qblocks.get t = some a)
    (hk : (s.at a).records.get ⟨false, key⟩ = some off) : ∃ d, m key = some d ∧ s.readAt a off = .value d := by
  rcases h.query t a hq with hb | hf
  · exact h.value hb hk
  · exact absurd (show s.holds a key by simp [MemDb.holds, hk]) (h.dead t a hq hf key)

theorem MInv.scanCache (h : MInv e s m) (key : UInt64) (ts : List Int) {s' : MemDb} {o : MOut}
    (hs : s.scanCache e key ts = some (s', o)) : MInv e s' m ∧ ∃ d, m key = some d ∧ o = .value d := by
  induction ts with
  | nil => simp [MemDb.scanCache] at hs
  | cons t ts ih =>
    simp only [MemDb.scanCache] at hs
    split at hs
    · exact ih hs
    · next a hq =>
      split at hs
      · next off hk =>
        simp only [Option.some.injEq, Prod.mk.injEq] at hs
        obtain ⟨rfl, rfl⟩ := hs
        exact ⟨h.cache t s.qfilters s.qblocks (fun _ _ => Or.inr), h.hit key hq hk⟩
      · split at hs
        · exact ih hs
        · simp at hs

theorem MInv.tryCache (h : MInv e s m) (key : UInt64) {s' : MemDb} {o : MOut} (hs : s.tryCache e key = some (s', o)) :
    MInv e s' m ∧ ∃ d, m key = some d ∧ o = .value d := by
  simp only [MemDb.tryCache] at hs
  split at hs
  · next a off hb =>
    simp only [Option.some.injEq, Prod.mk.injEq] at hs
    obtain ⟨rfl, rfl⟩ := hs
    simp only [Option.bind_eq_some_iff, Option.map_eq_some_iff, Prod.mk.injEq] at hb
    obtain ⟨a', hq, off', hk, rfl, rfl⟩ := hb
    exact ⟨h, h.hit key hq hk⟩
  · exact h.scanCache key _ hs

/-- After the cache of a shard was cleared, `seek` fills it with what `Get` looks for. -/
theorem MemDb.tryCache_seek (e : MEnv) (s s' : MemDb) (key : UInt64) (hempty : s.qfilters (e.shard key) = []) (hs : s.seek e key = some s') :
    (s'.tryCache e key).isSome := by
  simp only [MemDb.seek] at hs
  split at hs
  · simp at hs
  · next t a hf =>
    have hk := (s.search_sound e key _ hf).2
    obtain ⟨off, ho⟩ := Option.isSome_iff_exists.mp hk
    simp only [Option.some.injEq] at hs
    subst hs
    simp only [MemDb.tryCache]
    split
    · rfl
    · rw [hempty, if_pos trivial]
      change (MemDb.scanCache e _ key [t]).isSome = true
      simp only [MemDb.scanCache, AMap.get_set_self]
      have ho' : (MemDb.at { s with qfilters := fun i => if i = e.shard key then (s.qfilters i).set t (s.filters i).keys else s.qfilters i, qblocks := s.qblocks.set t a } a).records.get ⟨false, key⟩ = some off := ho
      rw [ho']
      rfl

theorem MInv.get (htest : ∀ ks k, k ∈ ks → e.test ks k = true) (h : MInv e s m) (key : UInt64) :
    MInv e (s.get e key).1 m ∧ (s.get e key).2 = (match m key with | some d => .value d | none => .notFound) := by
  have hsecond : ∀ s' : MemDb, MInv e s' m → s'.qfilters (e.shard key) = [] →
      MInv e (MemDb.getFuel e 1 s' key).1 m ∧ (MemDb.getFuel e 1 s' key).2 = (match m key with | some d => .value d | none => .notFound) := by
    intro s' h' hempty
    simp only [MemDb.getFuel, h'.opened, hempty, AMap.keys, List.map_nil, List.isEmpty_nil, if_true]
    cases hs : s'.seek e key with
    | none =>
      refine ⟨h', ?_⟩
      cases hm : m key with
      | none => rfl
      | some d =>
        obtain ⟨t, a, hf, _⟩ := h'.find_some htest key hm
        simp [MemDb.seek, hf] at hs
    | some s'' =>
      obtain ⟨r, hr⟩ := Option.isSome_iff_exists.mp (s'.tryCache_seek e s'' key hempty hs)
      obtain ⟨h1, d, hd, ho⟩ := (h'.seek key hs).tryCache key (s' := r.1) (o := r.2) hr
      simp only [hr]
      exact ⟨h1, by rw [hd]; exact ho⟩
  unfold MemDb.get
  rw [MemDb.getFuel]
  simp only [h.opened]
  have hmiss : ∀ s' : MemDb, MInv e s' m → (match s'.tryCache e key with
      | some r => MInv e r.1 m ∧ r.2 = (match m key with | some d => .value d | none => .notFound)
      | none => True) := by
    intro s' h'
    cases ht : s'.tryCache e key with
    | none => trivial
    | some r =>
      obtain ⟨h1, d, hd, ho⟩ := h'.tryCache key (s' := r.1) (o := r.2) ht
      exact ⟨h1, by rw [hd]; exact ho⟩
  have hgo : ∀ s' : MemDb, MInv e s' m →
      let r := match s'.tryCache e key with
        | some r => r
        | none => MemDb.getFuel e 1 { s' with qfilters := fun i => if i = e.shard key then [] else s'.qfilters i } key
      MInv e r.1 m ∧ r.2 = (match m key with | some d => .value d | none => .notFound) := by
    intro s' h'
    have := hmiss s' h'
    cases ht : s'.tryCache e key with
    | none => exact hsecond _ (h'.cache s'.qrec _ s'.qblocks (fun _ _ => Or.inr)) (by simp)
    | some r => rw [ht] at this; exact this
  by_cases hemp : (s.qfilters (e.shard key)).keys.isEmpty
  · simp only [hemp, if_true]
    cases hs : s.seek e key with
    | none =>
      refine ⟨h, ?_⟩
      cases hm : m key with
      | none => rfl
      | some d =>
        obtain ⟨t, a, hf, _⟩ := h.find_some htest key hm
        simp [MemDb.seek, hf] at hs
    | some s' => exact hgo s' (h.seek key hs)
  · simp only [hemp]
    exact hgo s h

/-! ### Writes -/

theorem MemDb.at_setAt (s : MemDb) (a a' : Nat) (b : MBlock) (ha : a < s.heap.length) : (s.setAt a b).at a' = if a' = a then b else s.at a' := by
  simp only [MemDb.at, MemDb.setAt, List.getD_eq_getElem?_getD]
  by_cases h : a' = a
  · subst h; rw [if_pos rfl, List.getElem?_set_self ha, Option.getD_some]
  · rw [if_neg h, List.getElem?_set_ne (Ne.symm h)]

/-- Changing one live block: `put` of a new key, `delete` of a key, a tombstone, or clearing it. -/
theorem MInv.setAt (h : MInv e s m) {t : Int} {a : Nat} (ht : s.blocks.get t = some a) (b : MBlock) (hb : b.Ok e.cap)
    (m' : UInt64 → Option Bytes) (hold : ∀ key, (b.records.get ⟨false, key⟩).isSome → s.holds a key)
    (hval : ∀ key r, b.value ⟨false, key⟩ = some r → ∃ d, r = .ok d ∧ m' key = some d)
    (hother : ∀ key, ¬ s.holds a key → m' key = m key)
    (hgone : ∀ key, s.holds a key → (b.records.get ⟨false, key⟩).isSome ∨ m' key = none) : MInv e (s.setAt a b) m' := by
  have hat := fun a' => s.at_setAt a a' b (h.addr t a ht).1
  have hholds : ∀ a' key, (s.setAt a b).holds a' key → s.holds a' key := by
    intro a' key hk
    simp only [MemDb.holds, hat] at hk
    split at hk
    · next e' => subst e'; exact hold key hk
    · exact hk
  refine ⟨h.opened, ?_, ?_, h.inj, ?_, ?_, h.cur, h.late, h.recsLate, ?_, ?_, ?_, ?_, h.query⟩
  · intro t' a' h'; simp only [MemDb.setAt, List.length_set]; exact h.addr t' a' h'
  · intro a' h'; simp only [MemDb.setAt, List.length_set]; exact h.gone a' h'
  · intro t' a' h'
    rw [hat]
    split
    · exact hb
    · exact h.okb t' a' h'
  · intro t' a' hq ha' key hk
    exact h.dead t' a' hq ha' key (hholds a' key hk)
  · intro t' a' key r h' hv
    rw [hat] at hv
    split at hv
    · exact hval key r hv
    · next hne =>
      obtain ⟨d, hd, hm⟩ := h.sound t' a' key r h' hv
      refine ⟨d, hd, ?_⟩
      rw [hother key ?_]; exact hm
      intro hk
      have hk' : s.holds a' key := by
        have := MBlock.value_isSome (s.at a') ⟨false, key⟩
        rw [hv] at this
        exact this.symm
      have := h.uniq t a t' a' key ht h' hk hk'
      subst this
      have h2 : s.blocks.get t = some a' := h'
      rw [ht] at h2
      simp only [Option.some.injEq] at h2
      exact hne h2.symm
  · intro key d hm
    by_cases hk : s.holds a key
    · rcases hgone key hk with h1 | h1
      · exact ⟨t, a, ht, by simp only [MemDb.holds, hat, if_true]; exact h1⟩
      · rw [h1] at hm; simp at hm
    · rw [hother key hk] at hm
      obtain ⟨t', a', ht', hk'⟩ := h.complete key d hm
      refine ⟨t', a', ht', ?_⟩
      have hne : a' ≠ a := by rintro rfl; exact hk hk'
      simp only [MemDb.holds, hat, if_neg hne]
      exact hk'
  · intro t1 a1 t2 a2 key h1 h2 k1 k2
    exact h.uniq t1 a1 t2 a2 key h1 h2 (hholds _ _ k1) (hholds _ _ k2)
  · intro t' a' key h' hk
    exact h.filt t' a' key h' (hholds _ _ hk)

/-- A new key in the current block, then its filter entry. -/
theorem MInv.put (h : MInv e s m) (key : UInt64) (d : Bytes) (hd : d.length + 13 < 2 ^ 32) (hnew : m key = none)
    (hready : (s.blocks.get s.cur).isSome) (hroom : (s.put e key d).2 ≠ .full) :
    (s.put e key d).2 = .ok ∧ MInv e (s.put e key d).1 (fun k => if k = key then some d else m k) := by
  obtain ⟨a, ha⟩ := Option.isSome_iff_exists.mp hready
  have halt := (h.addr _ a ha).1
  have hnone : ∀ t' a', s.blocks.get t' = some a' → ¬ s.holds a' key := by
    intro t' a' ht' hk
    obtain ⟨off, ho⟩ := Option.isSome_iff_exists.mp hk
    obtain ⟨d', hd', _⟩ := h.value ht' ho
    rw [hnew] at hd'; simp at hd'
  simp only [MemDb.put, MemDb.putAt, h.opened, ha] at hroom ⊢
  cases hp : (s.at a).put e.cap ⟨false, key⟩ d with
  | none => rw [hp] at hroom; simp at hroom
  | some b =>
    refine ⟨rfl, ?_⟩
    simp only [Bool.false_eq_true, if_false]
    have hgn : (s.at a).records.get ⟨false, key⟩ = none := by
      have := hnone _ _ ha
      simp only [MemDb.holds] at this
      simpa using this
    have hbok := (h.okb _ _ ha).put hd hp (Or.inr hgn)
    have hrec := (MBlock.put_fields hp).1
    have hv := fun k' => (h.okb _ _ ha).wf.value_put hd hp k'
    have hat := fun a' => s.at_setAt a a' b halt
    -- the state after both parts
    have hholds : ∀ a' k, (s.setAt a b).holds a' k → s.holds a' k ∨ (a' = a ∧ k = key) := by
      intro a' k hk
      simp only [MemDb.holds, hat] at hk
      split at hk
      · next e' =>
        rw [hrec, AMap.get_set] at hk
        split at hk
        · next e2 => exact Or.inr ⟨e', by simpa using e2⟩
        · subst e'; exact Or.inl hk
      · exact Or.inl hk
    have hf : ∀ i t' snap, (((s.setAt a b).addTimeFilter e s.cur key).filters i).recs.get t' = some snap →
        (s.filters i).recs.get t' = some snap ∨ (i = e.shard key ∧ t' = s.cur ∧ (s.filters i).recs.get t' = none ∧ snap = (s.filters i).keys) := by
      intro i t' snap hs
      simp only [MemDb.addTimeFilter, MemDb.setAt] at hs
      split at hs
      · next e' =>
        subst e'
        simp only at hs
        split at hs
        · exact Or.inl hs
        · next hnn =>
          rw [AMap.get_set] at hs
          split at hs
          · next e2 =>
            simp only [Option.some.injEq] at hs
            subst e2
            exact Or.inr ⟨rfl, rfl, hnn, hs.symm⟩
          · exact Or.inl hs
      · exact Or.inl hs
    have hmono : ∀ i t', ((s.filters i).recs.get t').isSome → ((((s.setAt a b).addTimeFilter e s.cur key).filters i).recs.get t').isSome := by
      intro i t' hs
      simp only [MemDb.addTimeFilter, MemDb.setAt]
      split
      · next e' =>
        subst e'
        simp only
        split
        · exact hs
        · rw [AMap.get_set]; split
          · rfl
          · exact hs
      · exact hs
    have hkeys : ∀ i k, k ∈ (s.filters i).keys → k ∈ (((s.setAt a b).addTimeFilter e s.cur key).filters i).keys := by
      intro i k hk
      simp only [MemDb.addTimeFilter, MemDb.setAt]
      split
      · next e' => subst e'; exact List.mem_append_left _ hk
      · exact hk
    have hnewrec : ((((s.setAt a b).addTimeFilter e s.cur key).filters (e.shard key)).recs.get s.cur).isSome := by
      simp only [MemDb.addTimeFilter, MemDb.setAt, if_true]
      split
      · next v hv => rw [hv]; rfl
      · rw [AMap.get_set_self]; rfl
    have hnewkey : key ∈ (((s.setAt a b).addTimeFilter e s.cur key).filters (e.shard key)).keys := by
      simp only [MemDb.addTimeFilter, MemDb.setAt, if_true]
      exact List.mem_append_right _ (by simp)
    refine ⟨h.opened, ?_, ?_, h.inj, ?_, ?_, h.cur, h.late, ?_, ?_, ?_, ?_, ?_, h.query⟩
    · intro t' a' h'
      have : ((s.setAt a b).addTimeFilter e s.cur key).heap.length = s.heap.length := by simp [MemDb.addTimeFilter, MemDb.setAt]
      rw [this]; exact h.addr t' a' h'
    · intro a' h'
      have : ((s.setAt a b).addTimeFilter e s.cur key).heap.length = s.heap.length := by simp [MemDb.addTimeFilter, MemDb.setAt]
      rw [this]; exact h.gone a' h'
    · intro t' a' h'
      change ((s.setAt a b).at a').Ok e.cap
      rw [hat]
      split
      · exact hbok
      · exact h.okb t' a' h'
    · intro t' a' hq ha' k hk
      rcases hholds a' k hk with hk | ⟨rfl, _⟩
      · exact h.dead t' a' hq ha' k hk
      · exact (h.addr _ _ ha).2 ha'
    · intro i t' snap hs
      rcases hf i t' snap hs with hs | ⟨_, rfl, _⟩
      · exact h.recsLate i t' snap hs
      · exact Int.le_refl _
    · intro t' a' k r h' hvr
      change ((s.setAt a b).at a').value ⟨false, k⟩ = some r at hvr
      rw [hat] at hvr
      by_cases hkk : k = key
      · subst hkk
        split at hvr
        · rw [hv, if_pos rfl, Option.some.injEq] at hvr
          exact ⟨d, hvr.symm, by simp⟩
        · next hne =>
          exfalso
          apply hnone t' a' h'
          have := MBlock.value_isSome (s.at a') ⟨false, k⟩
          rw [hvr] at this
          exact this.symm
      · rw [if_neg hkk]
        split at hvr
        · next e' =>
          rw [hv, if_neg (by simpa using hkk)] at hvr
          exact h.sound s.cur a k r ha hvr
        · exact h.sound t' a' k r h' hvr
    · intro k d' hm
      by_cases hkk : k = key
      · subst hkk
        refine ⟨s.cur, a, ha, ?_⟩
        change (((s.setAt a b).at a).records.get ⟨false, k⟩).isSome = true
        rw [hat, if_pos rfl, hrec, AMap.get_set_self]; rfl
      · rw [if_neg hkk] at hm
        obtain ⟨t', a', ht', hk'⟩ := h.complete k d' hm
        refine ⟨t', a', ht', ?_⟩
        change (((s.setAt a b).at a').records.get ⟨false, k⟩).isSome = true
        rw [hat]
        split
        · next e' =>
          subst e'
          rw [hrec, AMap.get_set_ne _ _ (by simpa using hkk)]
          exact hk'
        · exact hk'
    · intro t1 a1 t2 a2 k h1 h2 k1 k2
      rcases hholds a1 k k1 with k1 | ⟨e1, e2⟩ <;> rcases hholds a2 k k2 with k2 | ⟨e3, e4⟩
      · exact h.uniq t1 a1 t2 a2 k h1 h2 k1 k2
      · rw [e4] at k1; exact absurd k1 (hnone t1 a1 h1)
      · rw [e2] at k2; exact absurd k2 (hnone t2 a2 h2)
      · rw [e1] at h1; rw [e3] at h2; exact h.inj t1 t2 _ h1 h2
    · intro t' a' k h' hk
      rcases hholds a' k hk with hk | ⟨rfl, rfl⟩
      · obtain ⟨f1, f2, f3⟩ := h.filt t' a' k h' hk
        refine ⟨hmono _ _ f1, hkeys _ _ f2, ?_⟩
        intro t2 snap hlt hs
        rcases hf _ t2 snap hs with hs | ⟨_, _, _, rfl⟩
        · exact f3 t2 snap hlt hs
        · exact f2
      · have htc : t' = s.cur := h.inj t' s.cur a' h' ha
        subst htc
        refine ⟨hnewrec, hnewkey, ?_⟩
        intro t2 snap hlt hs
        exfalso
        rcases hf _ t2 snap hs with hs | ⟨_, rfl, _⟩
        · have := h.recsLate _ t2 snap hs; omega
        · omega

/-- A tombstone in the current block. -/
theorem MInv.move (h : MInv e s m) (t : Int) (key : UInt64) (hready : (s.blocks.get s.cur).isSome) (hroom : (s.move e t key).2 ≠ .full) :
    (s.move e t key).2 = .ok ∧ MInv e (s.move e t key).1 m := by
  obtain ⟨a, ha⟩ := Option.isSome_iff_exists.mp hready
  simp only [MemDb.move, ha] at hroom ⊢
  generalize hb0 : ({ s.at a with records := (s.at a).records.set ⟨true, key⟩ s.cur } : MBlock) = b0 at *
  cases hp : b0.put e.cap ⟨true, key⟩ (put64 (UInt64.ofInt t)) with
  | none => rw [hp] at hroom; simp at hroom
  | some b =>
    refine ⟨rfl, ?_⟩
    have hok := h.okb _ _ ha
    have hd8 : (put64 (UInt64.ofInt t)).length + 13 < 2 ^ 32 := by simp
    -- setting the map entry first makes no difference
    have hp' : ∃ b1, (s.at a).put e.cap ⟨true, key⟩ (put64 (UInt64.ofInt t)) = some b1 ∧ b1.records = b.records ∧ b1 = b := by
      simp only [MBlock.put] at hp ⊢
      have hdata : b0.data = (s.at a).data := by rw [← hb0]
      have hcount : b0.count = (s.at a).count := by rw [← hb0]
      rw [hdata] at hp
      split at hp
      · simp at hp
      · next hn =>
        rw [if_neg hn]
        simp only [Option.some.injEq] at hp
        have hset : b0.records.set ⟨true, key⟩ ((s.at a).data.length : Int) = (s.at a).records.set ⟨true, key⟩ ((s.at a).data.length : Int) := by
          rw [← hb0]
          simp only [AMap.set, AMap.del]
          rw [List.filter_cons, if_neg (by simp), List.filter_filter]
          simp
        refine ⟨_, rfl, ?_, ?_⟩
        · rw [← hp]; simp only; rw [hset]
        · rw [← hp, hset]
          rw [← hb0]
    obtain ⟨b1, hp1, _, rfl⟩ := hp'
    have hrec := (MBlock.put_fields hp1).1
    have hval := fun k' => hok.wf.value_put hd8 hp1 k'
    apply h.setAt ha b1 (hok.put hd8 hp1 (Or.inl rfl)) m
    · intro k hk
      rw [hrec, AMap.get_set_ne _ _ (by simp)] at hk
      exact hk
    · intro k r hr
      rw [hval, if_neg (by simp)] at hr
      exact h.sound _ _ k r ha hr
    · intro k _; rfl
    · intro k hk
      left
      rw [hrec, AMap.get_set_ne _ _ (by simp)]
      exact hk

/-- The key leaves its block. -/
theorem MInv.deleteAt (h : MInv e s m) {t : Int} {a : Nat} (ht : s.blocks.get t = some a) (key : UInt64) (hk : s.holds a key) :
    MInv e (s.setAt a ((s.at a).delete key)) (fun k => if k = key then none else m k) := by
  have hok := h.okb _ _ ht
  have hval := fun k' => hok.wf.value_delete hk k'
  have hrec : ((s.at a).delete key).records = (s.at a).records.del ⟨false, key⟩ := rfl
  apply h.setAt ht _ (hok.delete hk)
  · intro k hk'
    rw [hrec, AMap.get_del] at hk'
    split at hk'
    · simp at hk'
    · exact hk'
  · intro k r hr
    rw [hval] at hr
    split at hr
    · simp at hr
    · next hne =>
      obtain ⟨d, hd, hm⟩ := h.sound t a k r ht hr
      exact ⟨d, hd, by rw [if_neg (by simpa using hne)]; exact hm⟩
  · intro k hk'
    have hne : k ≠ key := by rintro rfl; exact hk' hk
    simp [hne]
  · intro k hk'
    by_cases hne : k = key
    · right; simp [hne]
    · left
      rw [hrec, AMap.get_del_ne _ (by simpa using hne)]
      exact hk'

theorem MInv.drain (h : MInv e s m) (a : Nat) (rs : List (MKey × Int)) (hr : ∀ p ∈ rs, p.2 < e.cap) : s.drain e a rs = (s, .ok) := by
  induction rs with
  | nil => rfl
  | cons p rs ih =>
    obtain ⟨k, v⟩ := p
    simp only [MemDb.drain]
    have hv : v < e.cap := hr (k, v) List.mem_cons_self
    cases hb : s.blocks.get v with
    | none => exact ih (fun p hp => hr p (List.mem_cons_of_mem _ hp))
    | some a' => have := (h.late v a' hb).1; omega

/-- Releasing a block takes its keys out of the map, if the block is empty or the query cache does not point to it. -/
theorem MInv.release (h : MInv e s m) {t : Int} {a : Nat} (ht : s.blocks.get t = some a) (m' : UInt64 → Option Bytes)
    (hq : s.qblocks.get t = some a → ∀ key, ¬ s.holds a key) (hin : ∀ key, s.holds a key → m' key = none)
    (hout : ∀ key, ¬ s.holds a key → m' key = m key) : (s.release t).2 = .ok ∧ MInv e (s.release t).1 m' := by
  simp only [MemDb.release, ht]
  refine ⟨trivial, ?_⟩
  have hdel : ∀ t' a', (s.blocks.del t).get t' = some a' → s.blocks.get t' = some a' ∧ t' ≠ t := by
    intro t' a' h'
    rw [AMap.get_del] at h'
    split at h'
    · simp at h'
    · next hn => exact ⟨h', hn⟩
  refine ⟨h.opened, ?_, ?_, ?_, ?_, ?_, ?_, ?_, h.recsLate, ?_, ?_, ?_, ?_, ?_⟩
  · intro t' a' h'
    obtain ⟨h1, h2⟩ := hdel t' a' h'
    refine ⟨(h.addr t' a' h1).1, ?_⟩
    simp only [List.mem_cons, not_or]
    refine ⟨?_, (h.addr t' a' h1).2⟩
    rintro rfl
    exact h2 (h.inj _ _ _ h1 ht)
  · intro a' h'
    rcases List.mem_cons.mp h' with rfl | h'
    · exact (h.addr _ _ ht).1
    · exact h.gone a' h'
  · intro t1 t2 a' h1 h2
    exact h.inj _ _ _ (hdel _ _ h1).1 (hdel _ _ h2).1
  · intro t' a' h'
    exact h.okb t' a' (hdel _ _ h').1
  · intro t' a' hq' h' key hk
    rcases List.mem_cons.mp h' with rfl | h'
    · rcases h.query t' _ hq' with hb | hf
      · have := h.inj t' t _ hb ht
        subst this
        exact hq hq' key hk
      · exact (h.addr t _ ht).2 hf
    · exact h.dead t' a' hq' h' key hk
  · exact h.cur
  · intro t' a' h'
    exact h.late t' a' (hdel _ _ h').1
  · intro t' a' key r h' hv
    obtain ⟨h1, h2⟩ := hdel t' a' h'
    obtain ⟨d, hd, hm⟩ := h.sound t' a' key r h1 hv
    refine ⟨d, hd, ?_⟩
    rw [hout key ?_]; exact hm
    intro hk
    have hk' : s.holds a' key := by
      have := MBlock.value_isSome (s.at a') ⟨false, key⟩
      rw [show (s.at a').value ⟨false, key⟩ = some r from hv] at this
      exact this.symm
    exact h2 (h.uniq t' a' t a key h1 ht hk' hk)
  · intro key d hm
    have hna : ¬ s.holds a key := fun hk => by rw [hin key hk] at hm; simp at hm
    rw [hout key hna] at hm
    obtain ⟨t', a', h1, h2⟩ := h.complete key d hm
    have hn : t' ≠ t := by
      rintro rfl
      rw [ht] at h1
      simp only [Option.some.injEq] at h1
      subst h1
      exact hna h2
    exact ⟨t', a', by simp only; rw [AMap.get_del_ne _ hn]; exact h1, h2⟩
  · intro t1 a1 t2 a2 key h1 h2
    exact h.uniq t1 a1 t2 a2 key (hdel _ _ h1).1 (hdel _ _ h2).1
  · intro t' a' key h' hk
    exact h.filt t' a' key (hdel _ _ h').1 hk
  · intro t' a' hq'
    rcases h.query t' a' hq' with hb | hf
    · by_cases hn : t' = t
      · subst hn
        rw [ht] at hb
        simp only [Option.some.injEq] at hb
        subst hb
        exact Or.inr List.mem_cons_self
      · left; simp only; rw [AMap.get_del_ne _ hn]; exact hb
    · exact Or.inr (List.mem_cons_of_mem _ hf)

theorem MInv.releaseEmpty (h : MInv e s m) {t : Int} {a : Nat} (ht : s.blocks.get t = some a) (hne : ∀ key, ¬ s.holds a key) :
    (s.release t).2 = .ok ∧ MInv e (s.release t).1 m :=
  h.release ht m (fun _ => hne) (fun key hk => absurd hk (hne key)) (fun _ _ => rfl)

theorem MInv.delete (htest : ∀ ks k, k ∈ ks → e.test ks k = true) (h : MInv e s m) (key : UInt64)
    (hready : (s.blocks.get s.cur).isSome) (hroom : (s.delete e key).2 ≠ .full) :
    (s.delete e key).2 = (if (m key).isSome then .ok else .notFound) ∧
      MInv e (s.delete e key).1 (fun k => if k = key then none else m k) := by
  cases hm : m key with
  | none =>
    have hf := h.find_none key hm
    simp only [MemDb.delete, h.opened, hf]
    refine ⟨rfl, ?_⟩
    have : (fun k => if k = key then none else m k) = m := by
      funext k; split
      · next e' => rw [e', hm]
      · rfl
    rw [this]; exact h
  | some d =>
    obtain ⟨t, a, hf, ht, hk⟩ := h.find_some htest key hm
    simp only [MemDb.delete, h.opened, hf, Bool.false_eq_true, if_false, Option.isSome_some, if_true] at hroom ⊢
    have h1 := h.deleteAt ht key hk
    have halt := (h.addr _ _ ht).1
    have hat1 : (s.setAt a ((s.at a).delete key)).at a = (s.at a).delete key := by rw [s.at_setAt a a _ halt, if_pos rfl]
    have ht1 : (s.setAt a ((s.at a).delete key)).blocks.get t = some a := ht
    have hr1 : ((s.setAt a ((s.at a).delete key)).blocks.get (s.setAt a ((s.at a).delete key)).cur).isSome := hready
    generalize hs1 : s.setAt a ((s.at a).delete key) = s1 at *
    have hok1 := h1.okb t a ht1
    rw [hat1] at hok1
    generalize hb : (s.at a).delete key = b at *
    by_cases hc : b.count = 0
    · simp only [hc, if_true] at hroom ⊢
      have hdr : s1.drain e a b.records = (s1, .ok) := by
        apply h1.drain
        intro p hp
        exact hok1.offs p.1 p.2 (hok1.nodup.get_of_mem hp)
      simp only [hdr] at hroom ⊢
      have hnk := hok1.no_keys hc
      have h2 : MInv e (s1.setAt a { s1.at a with records := [] }) (fun k => if k = key then none else m k) := by
        rw [hat1]
        apply h1.setAt ht1 _ (hok1.clear hc)
        · intro k hk'; simp at hk'
        · intro k r hr; simp [MBlock.value] at hr
        · intro k _; rfl
        · intro k hk'
          simp only [MemDb.holds, hat1, hnk] at hk'
          simp at hk'
      have ht2 : (s1.setAt a { s1.at a with records := [] }).blocks.get t = some a := ht1
      have hlen : a < s1.heap.length := (h1.addr t a ht1).1
      have hempty : ∀ k, ¬ (s1.setAt a { s1.at a with records := [] }).holds a k := by
        intro k hk'
        simp only [MemDb.holds, s1.at_setAt a a _ hlen, if_true] at hk'
        simp at hk'
      have hr2 : ((s1.setAt a { s1.at a with records := [] }).blocks.get (s1.setAt a { s1.at a with records := [] }).cur).isSome := hr1
      generalize s1.setAt a { s1.at a with records := [] } = s2 at *
      split at hroom
      · next hlt =>
        rw [if_pos hlt]
        exact h2.releaseEmpty ht2 hempty
      · next hlt =>
        rw [if_neg hlt]
        exact h2.move t key hr2 hroom
    · simp only [hc, if_false] at hroom ⊢
      exact h1.move t key hr1 hroom

/-- An operation of the store keeps the block of the current tiny log. -/
theorem MemDb.put_blocks (e : MEnv) (s : MemDb) (t : Int) (key : UInt64) (d : Bytes) : (s.putAt e t key d).1.blocks = s.blocks := by
  simp only [MemDb.putAt]
  split
  · rfl
  · split
    · rfl
    · split <;> rfl

theorem MemDb.putAt_cur (e : MEnv) (s : MemDb) (t : Int) (key : UInt64) (d : Bytes) : (s.putAt e t key d).1.cur = s.cur := by
  simp only [MemDb.putAt]
  split
  · rfl
  · split
    · rfl
    · split <;> rfl

theorem MemDb.move_same (e : MEnv) (s : MemDb) (t : Int) (key : UInt64) : (s.move e t key).1.cur = s.cur ∧ (s.move e t key).1.blocks = s.blocks := by
  simp only [MemDb.move]
  split
  · exact ⟨rfl, rfl⟩
  · split <;> exact ⟨rfl, rfl⟩

theorem MemDb.drain_same (e : MEnv) (a : Nat) (rs : List (MKey × Int)) (s : MemDb) :
    (s.drain e a rs).1.cur = s.cur ∧ (s.drain e a rs).1.blocks = s.blocks := by
  induction rs generalizing s with
  | nil => exact ⟨rfl, rfl⟩
  | cons p rs ih =>
    obtain ⟨k, v⟩ := p
    simp only [MemDb.drain]
    split
    · exact ih s
    · split
      · exact ⟨rfl, rfl⟩
      · rw [(ih _).1, (ih _).2]; exact s.move_same e v k.key

theorem MemDb.release_same (s : MemDb) (t : Int) : (s.release t).1.cur = s.cur ∧ ∀ t', t' ≠ t → (s.release t).1.blocks.get t' = s.blocks.get t' := by
  simp only [MemDb.release]
  split
  · exact ⟨rfl, fun _ _ => rfl⟩
  · exact ⟨rfl, fun t' h => AMap.get_del_ne _ h⟩

theorem MemDb.delete_same (e : MEnv) (s : MemDb) (key : UInt64) :
    (s.delete e key).1.cur = s.cur ∧ (s.delete e key).1.blocks.get s.cur = s.blocks.get s.cur := by
  simp only [MemDb.delete]
  split
  · exact ⟨rfl, rfl⟩
  · split
    · exact ⟨rfl, rfl⟩
    · next t a hf =>
      split
      · have hd := MemDb.drain_same e a ((s.at a).delete key).records (s.setAt a ((s.at a).delete key))
        split
        · next s' h' =>
          rw [h'] at hd
          obtain ⟨d1, d2⟩ := hd
          have d1' : s'.cur = s.cur := d1
          have d2' : s'.blocks = s.blocks := d2
          split
          · next hlt =>
            have hlt' : t < s'.cur := hlt
            obtain ⟨r1, r2⟩ := MemDb.release_same (s'.setAt a { s'.at a with records := [] }) t
            refine ⟨r1.trans d1', ?_⟩
            rw [r2 _ (by omega)]
            exact congrArg (AMap.get · s.cur) d2'
          · obtain ⟨r1, r2⟩ := MemDb.move_same e (s'.setAt a { s'.at a with records := [] }) t key
            exact ⟨r1.trans d1', by rw [r2]; exact congrArg (AMap.get · s.cur) d2'⟩
        · exact ⟨hd.1, by rw [hd.2]; rfl⟩
      · obtain ⟨r1, r2⟩ := MemDb.move_same e (s.setAt a ((s.at a).delete key)) t key
        exact ⟨r1, by rw [r2]; rfl⟩

theorem MemDb.seek_same (e : MEnv) (s s' : MemDb) (key : UInt64) (h : s.seek e key = some s') : s'.cur = s.cur ∧ s'.blocks = s.blocks := by
  simp only [MemDb.seek] at h
  split at h
  · simp at h
  · simp only [Option.some.injEq] at h; subst h; exact ⟨rfl, rfl⟩

theorem MemDb.scanCache_same (e : MEnv) (s : MemDb) (key : UInt64) (ts : List Int) (r : MemDb × MOut) (h : s.scanCache e key ts = some r) :
    r.1.cur = s.cur ∧ r.1.blocks = s.blocks := by
  induction ts with
  | nil => simp [MemDb.scanCache] at h
  | cons t ts ih =>
    simp only [MemDb.scanCache] at h
    split at h
    · exact ih h
    · split at h
      · simp only [Option.some.injEq] at h; subst h; exact ⟨rfl, rfl⟩
      · split at h
        · exact ih h
        · simp at h

theorem MemDb.tryCache_same (e : MEnv) (s : MemDb) (key : UInt64) (r : MemDb × MOut) (h : s.tryCache e key = some r) :
    r.1.cur = s.cur ∧ r.1.blocks = s.blocks := by
  simp only [MemDb.tryCache] at h
  split at h
  · simp only [Option.some.injEq] at h; subst h; exact ⟨rfl, rfl⟩
  · exact s.scanCache_same e key _ r h

theorem MemDb.getFuel_same (e : MEnv) (n : Nat) (s : MemDb) (key : UInt64) :
    (MemDb.getFuel e n s key).1.cur = s.cur ∧ (MemDb.getFuel e n s key).1.blocks = s.blocks := by
  induction n generalizing s with
  | zero => exact ⟨rfl, rfl⟩
  | succ n ih =>
    simp only [MemDb.getFuel]
    split
    · exact ⟨rfl, rfl⟩
    · split
      · exact ⟨rfl, rfl⟩
      · next s' hs =>
        have hc : s'.cur = s.cur ∧ s'.blocks = s.blocks := by
          split at hs
          · exact s.seek_same e s' key hs
          · simp only [Option.some.injEq] at hs; rw [hs]; exact ⟨rfl, rfl⟩
        split
        · next r hr =>
          obtain ⟨r1, r2⟩ := MemDb.tryCache_same e s' key r hr
          exact ⟨r1.trans hc.1, r2.trans hc.2⟩
        · exact ⟨(ih _).1.trans hc.1, (ih _).2.trans hc.2⟩

theorem MemDb.write_same (s : MemDb) (id t : Int) (managed : Bool) : (s.write id t managed).cur = s.cur ∧ (s.write id t managed).blocks = s.blocks := by
  simp only [MemDb.write]
  split <;> split <;> (try split) <;> exact ⟨rfl, rfl⟩

theorem MemDb.rotate_ready (s : MemDb) (t : Int) : ((s.rotate t).blocks.get (s.rotate t).cur).isSome := by
  simp only [MemDb.rotate, MemDb.addTimeBlock]
  split
  · next a h => rw [h]; rfl
  · simp only [AMap.get_set_self]; rfl

theorem MInv.rotate (h : MInv e s m) (t : Int) (ht : s.cur ≤ t) : MInv e (s.rotate t) m := by
  simp only [MemDb.rotate, MemDb.addTimeBlock]
  cases hb : s.blocks.get t with
  | some a =>
    have htc : t = s.cur := by have := (h.late t a hb).2; omega
    subst htc
    exact ⟨h.opened, h.addr, h.gone, h.inj, h.okb, h.dead, h.cur, h.late, h.recsLate, h.sound, h.complete, h.uniq, h.filt, h.query⟩
  | none =>
    simp only
    have hat : ∀ a, a < s.heap.length → MemDb.at { s with heap := s.heap ++ [{}], blocks := s.blocks.set t s.heap.length, mark := s.mark.add t, cur := t } a = s.at a := by
      intro a ha
      simp only [MemDb.at, List.getD_eq_getElem?_getD]
      rw [List.getElem?_append_left ha]
    have hatn : MemDb.at { s with heap := s.heap ++ [{}], blocks := s.blocks.set t s.heap.length, mark := s.mark.add t, cur := t } s.heap.length = {} := by
      simp [MemDb.at]
    have hget : ∀ t' a', (s.blocks.set t s.heap.length).get t' = some a' → (t' = t ∧ a' = s.heap.length) ∨ s.blocks.get t' = some a' := by
      intro t' a' h'
      rw [AMap.get_set] at h'
      split at h'
      · next e' => simp only [Option.some.injEq] at h'; exact Or.inl ⟨e', h'.symm⟩
      · exact Or.inr h'
    have hold : ∀ t' a', s.blocks.get t' = some a' → (s.blocks.set t s.heap.length).get t' = some a' := by
      intro t' a' h'
      rw [AMap.get_set_ne]; exact h'
      rintro rfl; rw [hb] at h'; simp at h'
    have hcap : (e.cap : Int) ≤ t := by have := h.cur; omega
    have hno : ∀ k, ¬ MemDb.holds { s with heap := s.heap ++ [{}], blocks := s.blocks.set t s.heap.length, mark := s.mark.add t, cur := t } s.heap.length k := by
      intro k hk
      simp only [MemDb.holds, hatn] at hk
      simp at hk
    refine ⟨h.opened, ?_, ?_, ?_, ?_, ?_, ?_, ?_, ?_, ?_, ?_, ?_, ?_, ?_⟩
    · intro t' a' h'
      simp only [List.length_append, List.length_singleton]
      rcases hget t' a' h' with ⟨_, rfl⟩ | h'
      · exact ⟨by omega, fun hf => by have := h.gone _ hf; omega⟩
      · have := h.addr t' a' h'; exact ⟨by omega, this.2⟩
    · intro a' h'
      simp only [List.length_append, List.length_singleton]
      have := h.gone a' h'; omega
    · intro t1 t2 a' h1 h2
      rcases hget _ _ h1 with ⟨e1, e2⟩ | h1 <;> rcases hget _ _ h2 with ⟨e3, e4⟩ | h2
      · rw [e1, e3]
      · have := (h.addr _ _ h2).1; omega
      · have := (h.addr _ _ h1).1; omega
      · exact h.inj _ _ _ h1 h2
    · intro t' a' h'
      rcases hget t' a' h' with ⟨_, rfl⟩ | h'
      · rw [hatn]; exact MBlock.Ok.empty _
      · rw [hat _ (h.addr _ _ h').1]; exact h.okb _ _ h'
    · intro t' a' hq h' key hk
      simp only [MemDb.holds] at hk
      rw [hat _ (h.gone _ h')] at hk
      exact h.dead t' a' hq h' key hk
    · exact hcap
    · intro t' a' h'
      rcases hget t' a' h' with ⟨rfl, _⟩ | h'
      · exact ⟨hcap, Int.le_refl _⟩
      · have := h.late _ _ h'; exact ⟨this.1, by simp only; omega⟩
    · intro i t' snap hs
      have := h.recsLate i t' snap hs
      simp only; omega
    · intro t' a' key r h' hv
      rcases hget t' a' h' with ⟨_, rfl⟩ | h'
      · rw [hatn] at hv; simp [MBlock.value] at hv
      · rw [hat _ (h.addr _ _ h').1] at hv; exact h.sound t' a' key r h' hv
    · intro key d hm
      obtain ⟨t', a', h1, h2⟩ := h.complete key d hm
      refine ⟨t', a', hold _ _ h1, ?_⟩
      simp only [MemDb.holds]
      rw [hat _ (h.addr _ _ h1).1]; exact h2
    · intro t1 a1 t2 a2 key h1 h2 k1 k2
      rcases hget _ _ h1 with ⟨_, rfl⟩ | h1
      · exact absurd k1 (hno key)
      · rcases hget _ _ h2 with ⟨_, rfl⟩ | h2
        · exact absurd k2 (hno key)
        · simp only [MemDb.holds] at k1 k2
          rw [hat _ (h.addr _ _ h1).1] at k1
          rw [hat _ (h.addr _ _ h2).1] at k2
          exact h.uniq _ _ _ _ key h1 h2 k1 k2
    · intro t' a' key h' hk
      rcases hget _ _ h' with ⟨_, rfl⟩ | h'
      · exact absurd hk (hno key)
      · simp only [MemDb.holds] at hk
        rw [hat _ (h.addr _ _ h').1] at hk
        exact h.filt t' a' key h' hk
    · intro t' a' hq
      rcases h.query t' a' hq with hb' | hf
      · exact Or.inl (hold _ _ hb')
      · exact Or.inr hf

theorem MInv.write (h : MInv e s m) (id t : Int) (managed : Bool) : MInv e (s.write id t managed) m := by
  have hmark : ∀ s' : MemDb, MInv e s' m → ∀ mk w, MInv e { s' with mark := mk, wal := w } m := fun s' h' mk w =>
    ⟨h'.opened, h'.addr, h'.gone, h'.inj, h'.okb, h'.dead, h'.cur, h'.late, h'.recsLate, h'.sound, h'.complete, h'.uniq, h'.filt, h'.query⟩
  have hw : MInv e (match s.blocks.get t with
    | none => s
    | some a =>
      if (s.at a).data.drop (s.at a).lastOffset = [] then s else
      { s.setAt a { s.at a with lastOffset := (s.at a).data.length, timeRefs := (s.at a).timeRefs ++ [id] } with
        wal := s.wal.filter (·.1 ≠ id) ++ [(id, (s.at a).data.drop (s.at a).lastOffset)] }) m := by
    cases hb : s.blocks.get t with
    | none => exact h
    | some a =>
      simp only
      split
      · exact h
      · have hok := h.okb _ _ hb
        have := h.setAt hb { s.at a with lastOffset := (s.at a).data.length, timeRefs := (s.at a).timeRefs ++ [id] }
          ⟨by obtain ⟨rs, hh⟩ := hok.wf; exact ⟨rs, hh.data, hh.sizes, hh.points⟩, hok.nodup, hok.count, hok.offs⟩ m
          (fun k hk => hk) (fun k r hr => h.sound t a k r hb hr) (fun _ _ => rfl) (fun k hk => Or.inl hk)
        exact hmark _ this _ _
  simp only [MemDb.write]
  cases managed with
  | true => exact hw
  | false => exact hmark _ hw _ _

theorem MInv.new (e : MEnv) (t : Int) (ht : (e.cap : Int) ≤ t) : MInv e (MemDb.new t) (fun _ => none) := by
  have hg : ∀ t' a', (MemDb.new t).blocks.get t' = some a' → t' = t ∧ a' = 0 := by
    intro t' a' h'
    have : (MemDb.new t).blocks = [(t, 0)] := rfl
    rw [this] at h'
    simp only [AMap.get] at h'
    split at h'
    · next e' => simp only [Option.some.injEq] at h'; exact ⟨e'.symm, h'.symm⟩
    · simp at h'
  have hat : (MemDb.new t).at 0 = {} := rfl
  refine ⟨rfl, ?_, ?_, ?_, ?_, ?_, ?_, ?_, ?_, ?_, ?_, ?_, ?_, ?_⟩
  · intro t' a' h'; obtain ⟨_, rfl⟩ := hg t' a' h'; exact ⟨Nat.zero_lt_one, by simp [MemDb.new, MemDb.rotate, MemDb.addTimeBlock]⟩
  · intro a' h'; simp [MemDb.new, MemDb.rotate, MemDb.addTimeBlock] at h'
  · intro t1 t2 a' h1 h2; rw [(hg _ _ h1).1, (hg _ _ h2).1]
  · intro t' a' h'; obtain ⟨_, rfl⟩ := hg t' a' h'; rw [hat]; exact MBlock.Ok.empty _
  · intro t' a' hq h'; simp [MemDb.new, MemDb.rotate, MemDb.addTimeBlock] at h'
  · exact ht
  · intro t' a' h'; obtain ⟨rfl, _⟩ := hg t' a' h'; exact ⟨ht, Int.le_refl _⟩
  · intro i t' snap hs; simp [MemDb.new, MemDb.rotate, MemDb.addTimeBlock] at hs
  · intro t' a' key r h' hv; obtain ⟨_, rfl⟩ := hg t' a' h'; rw [hat] at hv; simp [MBlock.value] at hv
  · intro key d hm; simp at hm
  · intro t1 a1 t2 a2 key h1 h2 _ _; rw [(hg _ _ h1).1, (hg _ _ h2).1]
  · intro t' a' key h' hk; obtain ⟨_, rfl⟩ := hg t' a' h'; simp only [MemDb.holds, hat] at hk; simp at hk
  · intro t' a' hq; simp [MemDb.new, MemDb.rotate, MemDb.addTimeBlock] at hq

end Verif
