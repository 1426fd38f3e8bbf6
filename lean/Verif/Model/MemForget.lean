import Verif.Model.DbSince

/-!
# The query cache of the in-memory store

A Get leaves pointers to time blocks in a cache that nothing clears. A block given back to the pool may still be found through it. Here: what
the operations do to a store whatever is in its cache, and what reading through a cache gives that may hold such blocks.
-/

namespace Verif

/-- The store with an empty query cache. -/
def MemDb.forget (s : MemDb) : MemDb := { s with qrec := 0, qfilters := fun _ => [], qblocks := [] }

theorem MemDb.SameData.forget {s s' : MemDb} (h : s.SameData s') : s'.forget = s.forget := by
  obtain ⟨_, _, _, rfl⟩ := h
  rfl

theorem MemDb.search_forget (e : MEnv) (s : MemDb) (key : UInt64) (ts : List Int) : s.forget.search e key ts = s.search e key ts := by
  induction ts with
  | nil => rfl
  | cons t ts ih =>
    simp only [MemDb.search]
    rw [show s.forget.blocks = s.blocks from rfl, show s.forget.filters = s.filters from rfl, ih]
    rfl

theorem MemDb.find_forget (e : MEnv) (s : MemDb) (key : UInt64) : s.forget.find e key = s.find e key := by
  unfold MemDb.find
  rw [MemDb.search_forget]
  rfl

/-- The live blocks hold exactly the map `m`; a cached block is alive, or given back and then holds only keys of `bad`, which are not in `m`. -/
structure Loose (e : MEnv) (s : MemDb) (m : UInt64 → Option Bytes) (bad : UInt64 → Prop) : Prop where
  inv : MInv e s.forget m
  cached : ∀ t a, s.qblocks.get t = some a → s.blocks.get t = some a ∨ (a ∈ s.freed ∧ ∀ key, s.holds a key → bad key)
  gone : ∀ key, bad key → m key = none

/-- What reading a key may give: its value, or, for a key of `bad`, what a block given back holds. -/
def LooseAnswer (m : UInt64 → Option Bytes) (bad : UInt64 → Prop) (key : UInt64) (o : MOut) : Prop :=
  o = (match m key with | some d => .value d | none => .notFound) ∨ (bad key ∧ o = .stale)

variable {e : MEnv} {s : MemDb} {m : UInt64 → Option Bytes} {bad : UInt64 → Prop}

theorem Loose.cache (h : Loose e s m bad) (qr : Int) (qf : Nat → AMap Int (List UInt64)) (qb : AMap Int Nat)
    (hq : ∀ t a, qb.get t = some a → s.blocks.get t = some a ∨ s.qblocks.get t = some a) :
    Loose e { s with qrec := qr, qfilters := qf, qblocks := qb } m bad :=
  ⟨h.inv, fun t a ht => (hq t a ht).elim Or.inl (h.cached t a), h.gone⟩

theorem Loose.seek (h : Loose e s m bad) (key : UInt64) {s' : MemDb} (hs : s.seek e key = some s') : Loose e s' m bad := by
  simp only [MemDb.seek] at hs
  split at hs
  · simp at hs
  · next t a hf =>
    simp only [Option.some.injEq] at hs
    subst hs
    apply h.cache
    intro t' a' hq
    rw [AMap.get_set] at hq
    split at hq
    · next e' =>
      simp only [Option.some.injEq] at hq
      subst hq e'
      exact Or.inl (s.search_sound e key _ hf).1
    · exact Or.inr hq

theorem Loose.hit (h : Loose e s m bad) (key : UInt64) {t : Int} {a : Nat} {off : Int} (hq : s.qblocks.get t = some a)
    (hk : (s.at a).records.get ⟨false, key⟩ = some off) : LooseAnswer m bad key (s.readAt a off) := by
  rcases h.cached t a hq with hb | ⟨hf, hbad⟩
  · obtain ⟨d, h1, h2⟩ := h.inv.value (t := t) (a := a) (key := key) hb (off := off) hk
    left
    rw [h1]
    exact h2
  · right
    refine ⟨hbad key (by simp [MemDb.holds, hk]), ?_⟩
    simp only [MemDb.readAt, if_pos hf]

theorem Loose.scanCache (h : Loose e s m bad) (key : UInt64) (ts : List Int) {s' : MemDb} {o : MOut}
    (hs : s.scanCache e key ts = some (s', o)) : Loose e s' m bad ∧ LooseAnswer m bad key o := by
  induction ts with
  | nil => simp [MemDb.scanCache] at hs
  | cons t ts ih =>
    simp only [MemDb.scanCache] at hs
    split at hs
    · exact ih hs
    · next a hq =>
      split at hs
      · next off hk =>
        simp only [Option.some.injEq, Prod.mk.injEq] at hs
        obtain ⟨rfl, rfl⟩ := hs
        exact ⟨h.cache t s.qfilters s.qblocks (fun _ _ => Or.inr), h.hit key hq hk⟩
      · split at hs
        · exact ih hs
        · simp at hs

theorem Loose.tryCache (h : Loose e s m bad) (key : UInt64) {s' : MemDb} {o : MOut} (hs : s.tryCache e key = some (s', o)) :
    Loose e s' m bad ∧ LooseAnswer m bad key o := by
  simp only [MemDb.tryCache] at hs
  split at hs
  · next a off hb =>
    simp only [Option.some.injEq, Prod.mk.injEq] at hs
    obtain ⟨rfl, rfl⟩ := hs
    simp only [Option.bind_eq_some_iff, Option.map_eq_some_iff, Prod.mk.injEq] at hb
    obtain ⟨a', hq, off', hk, rfl, rfl⟩ := hb
    exact ⟨h, h.hit key hq hk⟩
  · exact h.scanCache key _ hs

theorem Loose.seek_none (htest : ∀ ks k, k ∈ ks → e.test ks k = true) (h : Loose e s m bad) (key : UInt64) (hs : s.seek e key = none) :
    LooseAnswer m bad key .notFound := by
  left
  cases hm : m key with
  | none => rfl
  | some d =>
    obtain ⟨t, a, hf, _⟩ := h.inv.find_some htest key hm
    rw [MemDb.find_forget] at hf
    simp [MemDb.seek, hf] at hs

/-- Reading a key through a cache that may hold blocks given back. -/
theorem Loose.get (htest : ∀ ks k, k ∈ ks → e.test ks k = true) (h : Loose e s m bad) (key : UInt64) :
    Loose e (s.get e key).1 m bad ∧ LooseAnswer m bad key (s.get e key).2 := by
  have hop : ∀ s' : MemDb, Loose e s' m bad → s'.closed = false := fun s' h' => h'.inv.opened
  have hsecond : ∀ s' : MemDb, Loose e s' m bad → s'.qfilters (e.shard key) = [] →
      Loose e (MemDb.getFuel e 1 s' key).1 m bad ∧ LooseAnswer m bad key (MemDb.getFuel e 1 s' key).2 := by
    intro s' h' hempty
    simp only [MemDb.getFuel, hop s' h', hempty, AMap.keys, List.map_nil, List.isEmpty_nil, if_true]
    cases hs : s'.seek e key with
    | none => exact ⟨h', h'.seek_none htest key hs⟩
    | some s'' =>
      obtain ⟨r, hr⟩ := Option.isSome_iff_exists.mp (s'.tryCache_seek e s'' key hempty hs)
      have := (h'.seek key hs).tryCache key (s' := r.1) (o := r.2) hr
      simp only [hr]
      exact this
  unfold MemDb.get
  rw [MemDb.getFuel]
  simp only [hop s h]
  have hgo : ∀ s' : MemDb, Loose e s' m bad →
      let r := match s'.tryCache e key with
        | some r => r
        | none => MemDb.getFuel e 1 { s' with qfilters := fun i => if i = e.shard key then [] else s'.qfilters i } key
      Loose e r.1 m bad ∧ LooseAnswer m bad key r.2 := by
    intro s' h'
    cases ht : s'.tryCache e key with
    | none => exact hsecond _ (h'.cache s'.qrec _ s'.qblocks (fun _ _ => Or.inr)) (by simp)
    | some r => exact h'.tryCache key (s' := r.1) (o := r.2) ht
  by_cases hemp : (s.qfilters (e.shard key)).keys.isEmpty
  · simp only [hemp, if_true]
    cases hs : s.seek e key with
    | none => exact ⟨h, h.seek_none htest key hs⟩
    | some s' => exact hgo s' (h.seek key hs)
  · simp only [hemp]
    exact hgo s h

/-- If no key is in memory, a Get caches nothing new. -/
theorem MemDb.get_empty (e : MEnv) (s : MemDb) (key : UInt64) (hf : s.find e key = none) : (s.get e key).1.qblocks = s.qblocks := by
  have hscan : ∀ (s : MemDb) ts r, s.scanCache e key ts = some r → r.1.qblocks = s.qblocks := by
    intro s ts
    induction ts with
    | nil => intro r h; simp [MemDb.scanCache] at h
    | cons t ts ih =>
      intro r h
      simp only [MemDb.scanCache] at h
      split at h
      · exact ih r h
      · split at h
        · simp only [Option.some.injEq] at h; subst h; rfl
        · split at h
          · exact ih r h
          · simp at h
  have htry : ∀ (s : MemDb) r, s.tryCache e key = some r → r.1.qblocks = s.qblocks := by
    intro s r h
    simp only [MemDb.tryCache] at h
    split at h
    · simp only [Option.some.injEq] at h; subst h; rfl
    · exact hscan _ _ _ h
  have hfuel : ∀ n (s : MemDb), s.find e key = none → (MemDb.getFuel e n s key).1.qblocks = s.qblocks := by
    intro n
    induction n with
    | zero => intro s _; rfl
    | succ n ih =>
      intro s hf
      rw [MemDb.getFuel]
      split
      · rfl
      · have hsk : s.seek e key = none := by simp [MemDb.seek, hf]
        by_cases hemp : (s.qfilters (e.shard key)).keys.isEmpty
        · simp only [hemp, if_true, hsk]
        · simp only [hemp, Bool.false_eq_true, if_false]
          cases ht : s.tryCache e key with
          | none =>
            refine (ih _ ?_).trans rfl
            rw [← MemDb.find_forget]
            exact (MemDb.find_forget e s key).trans hf
          | some r => exact htry s r ht
  exact hfuel 2 s hf

/-! ## Operations do not look at the cache -/

/-- The database with an empty query cache. -/
def Db.forget (s : Db) : Db := { s with mem := s.mem.forget }

theorem MemDb.put_forget (e : MEnv) (s : MemDb) (key : UInt64) (d : Bytes) : s.forget.put e key d = ((s.put e key d).1.forget, (s.put e key d).2) := by
  simp only [MemDb.put, MemDb.putAt]
  rw [show s.forget.closed = s.closed from rfl, show s.forget.blocks = s.blocks from rfl, show s.forget.cur = s.cur from rfl]
  split
  · rfl
  · split
    · rfl
    · next a _ =>
      rw [show s.forget.at a = s.at a from rfl]
      split <;> rfl

theorem MemDb.write_forget (s : MemDb) (id t : Int) (managed : Bool) : s.forget.write id t managed = (s.write id t managed).forget := by
  simp only [MemDb.write]
  rw [show s.forget.blocks = s.blocks from rfl]
  cases hb : s.blocks.get t with
  | none => cases managed <;> rfl
  | some a =>
    simp only [show s.forget.at a = s.at a from rfl]
    by_cases hl : (s.at a).data.drop (s.at a).lastOffset = []
    · simp only [hl, if_true]; cases managed <;> rfl
    · simp only [hl, if_false]; cases managed <;> rfl

theorem MemDb.rotate_forget (s : MemDb) (t : Int) : s.forget.rotate t = (s.rotate t).forget := by
  simp only [MemDb.rotate, MemDb.addTimeBlock]
  rw [show s.forget.blocks = s.blocks from rfl]
  cases s.blocks.get t <;> rfl

theorem MemDb.release_forget (s : MemDb) (t : Int) : s.forget.release t = ((s.release t).1.forget, (s.release t).2) := by
  simp only [MemDb.release]
  rw [show s.forget.blocks = s.blocks from rfl]
  cases s.blocks.get t <;> rfl

theorem Db.setEntry_forget (v : DbEnv) (now : Int) (s : Db) (o : Obj) : s.forget.setEntry v now o = (s.setEntry v now o).map fun x => (x.1.forget, x.2) := by
  simp only [Db.setEntry, Db.packEntry, Option.map_map]
  rw [show s.forget.parseEntry v now o = s.parseEntry v now o from rfl]
  obtain ⟨o', raw⟩ := s.parseEntry v now o
  simp only [Db.drawId]
  rw [show s.forget.secret o' = s.secret o' from rfl, show s.forget.seq = s.seq from rfl]
  cases o'.id with
  | none =>
    simp only [Option.bind_some]
    split
    · rfl
    · cases idPrefix (setContract (newID (unixSec now) (s.seq + 1)) o'.contract) with
      | none => rfl
      | some pre => cases v.sealValue (s.secret o') o'.payload <;> rfl
  | some id =>
    simp only
    cases idSequence id with
    | none => rfl
    | some q =>
      simp only [Option.map_some, Option.bind_some]
      split
      · rfl
      · cases idPrefix (setContract id o'.contract) with
        | none => rfl
        | some pre => cases v.sealValue (s.secret o') o'.payload <;> rfl

theorem Db.putEntry_forget (v : DbEnv) (now : Int) (s : Db) (o : Obj) :
    s.forget.putEntry v now o = ((s.putEntry v now o).1.forget, (s.putEntry v now o).2) := by
  simp only [Db.putEntry]
  rw [show s.forget.closed = s.closed from rfl, Db.setEntry_forget]
  split
  · rfl
  · split
    · rfl
    · cases s.setEntry v now o with
      | none => rfl
      | some x =>
        obtain ⟨s1, o1, h, rec⟩ := x
        simp only [Option.map_some]
        rw [show s1.forget.mem = s1.mem.forget from rfl, MemDb.put_forget]
        generalize s1.mem.put v.mem h.seq rec = r
        obtain ⟨m, out⟩ := r
        cases out with
        | ok =>
          simp only
          rw [show (Db.forget s1).trie = s1.trie from rfl]
          cases addTopic s1.trie h rec <;> rfl
        | _ => rfl

theorem Db.flush_forget (s : Db) (h : Handle) (rs : List Rec) (n : Nat) : s.forget.flush h rs n = (s.flush h rs n).map fun x => (x.1.forget, x.2) := by
  simp only [Db.flush, Option.bind_eq_bind]
  rw [show s.forget.winFile = s.winFile from rfl, show s.forget.store = s.store from rfl]
  cases h.ww.write s.winFile with
  | none => rfl
  | some x =>
    simp only [Option.bind_some]
    cases h.w.write { s.store with index := extendIndex s.store.index (upperSeq rs) } <;> rfl

theorem Db.syncBlock_forget (e : SyncEnv) (s : Db) (h : Handle) (t : Int) :
    s.forget.syncBlock e h t = (s.syncBlock e h t).map fun x => (x.1.forget, x.2) := by
  simp only [Db.syncBlock, Option.bind_eq_bind]
  rw [show s.forget.mem.blockRecs t = s.mem.blockRecs t from rfl]
  cases s.mem.blockRecs t with
  | none => rfl
  | some rs =>
    simp only [Option.bind_some]
    split
    · rfl
    · rw [show s.forget.store = s.store from rfl]
      cases appendNew s.store h.w rs with
      | none => rfl
      | some x =>
        obtain ⟨store, w, new⟩ := x
        simp only [Option.bind_some]
        rw [show s.forget.winFile = s.winFile from rfl, show s.forget.trie = s.trie from rfl]
        cases appendWins e.now s.winFile (e.order (groupWin new)) s.trie h.ww with
        | none => rfl
        | some y =>
          obtain ⟨trie, ww⟩ := y
          simp only [Option.bind_some]
          change Option.bind (Db.flush (Db.forget { s with store := store, trie := trie }) ⟨w, ww⟩ (rs.map (·.2)) new.length) _ = _
          rw [Db.flush_forget]
          cases Db.flush { s with store := store, trie := trie } ⟨w, ww⟩ (rs.map (·.2)) new.length with
          | none => rfl
          | some z =>
            obtain ⟨s2, h2⟩ := z
            simp only [Option.map_some, Option.bind_some]
            rw [show s2.forget.win = s2.win from rfl]
            cases releaseWindow s2.win t with
            | none => rfl
            | some win =>
              simp only [Option.bind_some, pure, Option.map_some]
              rw [show s2.forget.mem = s2.mem.forget from rfl, MemDb.release_forget]
              rfl

theorem Db.syncBlocks_forget (e : SyncEnv) (ts : List Int) : ∀ (s : Db) (h : Handle),
    Db.syncBlocks e ts s.forget h = (Db.syncBlocks e ts s h).map fun x => (x.1.forget, x.2) := by
  induction ts with
  | nil => intro s h; rfl
  | cons t ts ih =>
    intro s h
    simp only [Db.syncBlocks, Db.syncBlock_forget]
    cases s.syncBlock e h t with
    | none => rfl
    | some x =>
      simp only [Option.map_some, Option.bind_some]
      exact ih x.1 x.2

theorem Db.sync_forget (e : SyncEnv) (s : Db) : s.forget.sync e = (s.sync e).map fun x => (x.1.forget, x.2) := by
  simp only [Db.sync, Option.bind_eq_bind]
  rw [show s.forget.closed = s.closed from rfl, show s.forget.lastSync = s.lastSync from rfl, show s.forget.seq = s.seq from rfl]
  split
  · rfl
  · split
    · rfl
    · rw [show s.forget.store = s.store from rfl, show s.forget.mem.mark = s.mem.mark from rfl, show s.forget.mem.cur = s.mem.cur from rfl,
        show s.forget.winFile = s.winFile from rfl]
      cases newBlockWriter s.store with
      | none => rfl
      | some w =>
        simp only [Option.bind_some]
        rw [Db.syncBlocks_forget]
        cases Db.syncBlocks e (s.mem.mark.timeRefs s.mem.cur) s ⟨w, newWindowWriter s.winFile⟩ <;> rfl

/-- A Get changes the cache only. -/
theorem Db.get_same (v : DbEnv) (g : GetEnv) (s : Db) (q : Query) (old : List UInt64) :
    ∃ m, (s.get v g q old).1 = { s with mem := m } ∧ s.mem.SameData m := by
  have hrefl : ∃ m, s = { s with mem := m } ∧ s.mem.SameData m := ⟨s.mem, rfl, .refl _⟩
  simp only [Db.get]
  split
  · exact hrefl
  · split
    · exact hrefl
    · split
      · exact hrefl
      · split
        · exact hrefl
        · refine ⟨_, rfl, ?_⟩
          have hstep : ∀ m c, s.mem.SameData m → s.mem.SameData (s.candStepS v (q.ask v.dur g.now v.q) m c).1 := by
            intro m c h2
            unfold Db.candStepS
            split
            · exact h2
            · have h4 := h2.trans (MemDb.get_data v.mem m c)
              dsimp only
              split <;> exact h4
          unfold getItemsS
          split
          · exact .refl _
          · exact getLoopS_keeps (P := fun m => s.mem.SameData m) hstep _ _ _ _ _ _ _ _ (.refl _)

/-! ## Blocks given back and the cache -/

/-- A cached block is alive, or given back and then holds only keys of `gone`, which no live block holds. In a quiet store no live cached block holds a key, nor
is it the block that is written to. -/
structure Shaken (s : MemDb) (gone : UInt64 → Prop) (quiet : Bool) : Prop where
  cached : ∀ t a, s.qblocks.get t = some a → s.blocks.get t = some a ∨ (a ∈ s.freed ∧ ∀ key, s.holds a key → gone key)
  lost : ∀ key, gone key → ∀ t, ¬ s.Where t key
  calm : quiet = true → ∀ t a, s.qblocks.get t = some a → s.blocks.get s.cur ≠ some a ∧ (s.blocks.get t = some a → ∀ key, ¬ s.holds a key)

variable {s s' : MemDb} {gone : UInt64 → Prop} {quiet : Bool}

theorem Shaken.start (h : s.qblocks = []) : Shaken s (fun _ => False) true :=
  ⟨fun t a hq => (by rw [h] at hq; cases hq), fun _ h => h.elim, fun _ t a hq => (by rw [h] at hq; cases hq)⟩

theorem Shaken.loose (H : Shaken s gone quiet) (I : MInv e s.forget m) : Loose e s m gone := by
  refine ⟨I, H.cached, ?_⟩
  intro key hk
  cases hm : m key with
  | none => rfl
  | some d =>
    obtain ⟨t, a, h1, h2⟩ := I.complete key d hm
    exact absurd ⟨a, h1, h2⟩ (H.lost key hk t)

/-- After a Get. -/
theorem Shaken.same (H : Shaken s gone quiet) (hd : s.SameData s') (L : Loose e s' m gone) : Shaken s' gone false := by
  refine ⟨L.cached, ?_, by simp⟩
  intro key hk t hw
  exact H.lost key hk t ((hd.where_iff t key).1 hw)

/-- After a Get that cached nothing new. -/
theorem Shaken.still (H : Shaken s gone quiet) (hd : s.SameData s') (hq : s'.qblocks = s.qblocks) : Shaken s' gone quiet := by
  obtain ⟨_, _, _, rfl⟩ := hd
  simp only at hq
  subst hq
  exact ⟨H.cached, H.lost, H.calm⟩

theorem MemDb.put_ok {key : UInt64} {d : Bytes} (h : s.put e key d = (s', .ok)) :
    ∃ a b, s.blocks.get s.cur = some a ∧ (s.at a).put e.cap ⟨false, key⟩ d = some b ∧ s' = (s.setAt a b).addTimeFilter e s.cur key := by
  simp only [MemDb.put, MemDb.putAt] at h
  split at h
  · simp at h
  · split at h
    · simp at h
    · next a ha =>
      split at h
      · simp at h
      · next b hb =>
        simp only [Prod.mk.injEq, and_true] at h
        exact ⟨a, b, ha, hb, h.symm⟩

theorem Shaken.put (H : Shaken s gone quiet) (I : MInv e s.forget m) {key : UInt64} {d : Bytes} (h : s.put e key d = (s', .ok)) (hk : ¬ gone key) :
    Shaken s' gone quiet ∧ ∀ t k, s'.Where t k → s.Where t k ∨ k = key := by
  obtain ⟨a, b, ha, hb, rfl⟩ := MemDb.put_ok h
  obtain ⟨hlt, hnf⟩ := I.addr _ _ ha
  have hholds : ∀ a' k, ((s.setAt a b).addTimeFilter e s.cur key).holds a' k → s.holds a' k ∨ (a' = a ∧ k = key) := by
    intro a' k hh
    have hh' : (((s.setAt a b).at a').records.get ⟨false, k⟩).isSome := hh
    rw [s.at_setAt a a' b hlt] at hh'
    split at hh'
    · next e' =>
      subst e'
      rw [(MBlock.put_fields hb).1, AMap.get_set] at hh'
      split at hh'
      · next e' =>
        right
        exact ⟨rfl, by cases e'; rfl⟩
      · left; exact hh'
    · left; exact hh'
  have hwhere : ∀ t k, ((s.setAt a b).addTimeFilter e s.cur key).Where t k → s.Where t k ∨ k = key := by
    rintro t k ⟨a', h1, h2⟩
    rcases hholds a' k h2 with h3 | ⟨_, h3⟩
    · exact .inl ⟨a', h1, h3⟩
    · exact .inr h3
  refine ⟨⟨?_, ?_, ?_⟩, hwhere⟩
  · intro t a' hq
    rcases H.cached t a' hq with h1 | ⟨h1, h2⟩
    · exact .inl h1
    · refine .inr ⟨h1, fun k hh => ?_⟩
      rcases hholds a' k hh with h3 | ⟨h3, _⟩
      · exact h2 k h3
      · subst h3; exact absurd h1 hnf
  · intro k hg t hw
    rcases hwhere t k hw with h1 | h1
    · exact H.lost k hg t h1
    · subst h1; exact hk hg
  · intro hx t a' hq
    obtain ⟨h1, h2⟩ := H.calm hx t a' hq
    refine ⟨h1, fun hb' k hh => ?_⟩
    rcases hholds a' k hh with h3 | ⟨h3, _⟩
    · exact h2 hb' k h3
    · subst h3; exact h1 ha

theorem Shaken.rotate {q' : Bool} (H : Shaken s gone quiet) (I : MInv e s.forget m) (t : Int) (ht : s.cur ≤ t)
    (hq' : q' = true → quiet = true ∨ (s.cur < t ∧ ∀ t' k, ¬ s.Where t' k)) :
    Shaken (s.rotate t) gone q' := by
  cases hb : s.blocks.get t with
  | some a =>
    have htc : t = s.cur := by have := (I.late t a hb).2; have : t ≤ s.cur := this; omega
    subst htc
    have e1 : s.rotate s.cur = { s with mark := s.mark.add s.cur } := by
      simp only [MemDb.rotate, MemDb.addTimeBlock, hb]
    rw [e1]
    refine ⟨H.cached, H.lost, ?_⟩
    intro hx
    rcases hq' hx with hx | ⟨hx, _⟩
    · exact H.calm hx
    · exact absurd hx (Int.lt_irrefl _)
  | none =>
    have e1 : s.rotate t = { s with heap := s.heap ++ [{}], blocks := s.blocks.set t s.heap.length, mark := s.mark.add t, cur := t } := by
      simp only [MemDb.rotate, MemDb.addTimeBlock, hb]
    have hold : ∀ t' a, s.qblocks.get t' = some a → a < s.heap.length := by
      intro t' a hq
      rcases H.cached t' a hq with h1 | ⟨h1, _⟩
      · exact (I.addr t' a h1).1
      · exact I.gone a h1
    have hat : ∀ a, a < s.heap.length → (s.rotate t).at a = s.at a := by
      intro a ha
      rw [e1]
      simp only [MemDb.at, List.getD_eq_getElem?_getD]
      rw [List.getElem?_append_left ha]
    have hholds : ∀ a, a < s.heap.length → ∀ k, (s.rotate t).holds a k ↔ s.holds a k := by
      intro a ha k
      simp only [MemDb.holds, hat a ha]
    have hne : ∀ t' a, s.qblocks.get t' = some a → (s.rotate t).blocks.get (s.rotate t).cur ≠ some a := by
      intro t' a hq hc
      have := hold t' a hq
      rw [e1] at hc
      simp only [AMap.get_set_self, Option.some.injEq] at hc
      omega
    have hblk : ∀ t' a, a < s.heap.length → ((s.rotate t).blocks.get t' = some a ↔ s.blocks.get t' = some a) := by
      intro t' a ha
      rw [e1]
      simp only [AMap.get_set]
      split
      · next e' =>
        subst e'
        rw [hb]
        simp only [Option.some.injEq, reduceCtorEq, iff_false]
        omega
      · exact Iff.rfl
    have hqb : (s.rotate t).qblocks = s.qblocks := by rw [e1]
    have hfr : (s.rotate t).freed = s.freed := by rw [e1]
    refine ⟨?_, ?_, ?_⟩
    · intro t' a hq
      rw [hqb] at hq
      have ha := hold t' a hq
      rcases H.cached t' a hq with h1 | ⟨h1, h2⟩
      · exact .inl ((hblk t' a ha).2 h1)
      · rw [hfr]
        exact .inr ⟨h1, fun k hk => h2 k ((hholds a ha k).1 hk)⟩
    · intro k hg t' hw
      exact H.lost k hg t' ((I.where_rotate t t' k).1 (by rw [MemDb.rotate_forget]; exact hw))
    · intro hx t' a hq
      rw [hqb] at hq
      have ha := hold t' a hq
      refine ⟨hne t' a hq, fun h1 k hk => ?_⟩
      have h1' := (hblk t' a ha).1 h1
      have hk' := (hholds a ha k).1 hk
      rcases hq' hx with hx | ⟨_, hx⟩
      · exact (H.calm hx t' a hq).2 h1' k hk'
      · exact hx t' k ⟨a, h1', hk'⟩

theorem MemDb.write_holds (s : MemDb) (id t : Int) (managed : Bool) (ha : ∀ a, s.blocks.get t = some a → a < s.heap.length) (a : Nat) (k : UInt64) :
    (s.write id t managed).holds a k ↔ s.holds a k := by
  have hrec : ((s.write id t managed).at a).records = (s.at a).records := by
    simp only [MemDb.write]
    cases hb : s.blocks.get t with
    | none => cases managed <;> rfl
    | some a' =>
      simp only
      by_cases hl : (s.at a').data.drop (s.at a').lastOffset = []
      · simp only [hl, if_true]; cases managed <;> rfl
      · simp only [hl, if_false]
        have h2 := s.at_setAt a' a { s.at a' with lastOffset := (s.at a').data.length, timeRefs := (s.at a').timeRefs ++ [id] } (ha a' hb)
        have h3 : ((s.setAt a' { s.at a' with lastOffset := (s.at a').data.length, timeRefs := (s.at a').timeRefs ++ [id] }).at a).records = (s.at a).records := by
          rw [h2]; split
          · next e' => subst e'; rfl
          · rfl
        cases managed <;> exact h3
  simp only [MemDb.holds, hrec]

theorem MemDb.write_cache (s : MemDb) (id t : Int) (managed : Bool) :
    (s.write id t managed).qblocks = s.qblocks ∧ (s.write id t managed).freed = s.freed := by
  simp only [MemDb.write]
  split <;> split <;> (try split) <;> exact ⟨rfl, rfl⟩

theorem Shaken.write (H : Shaken s gone quiet) (I : MInv e s.forget m) (id t : Int) (managed : Bool) : Shaken (s.write id t managed) gone quiet := by
  have h1 := s.write_holds id t managed fun a ha => (I.addr t a ha).1
  obtain ⟨h2, h3⟩ := s.write_same id t managed
  obtain ⟨h4, h5⟩ := s.write_cache id t managed
  refine ⟨?_, ?_, ?_⟩
  · intro t' a hq
    rw [h4] at hq
    rw [h3, h5]
    rcases H.cached t' a hq with h | ⟨h, h'⟩
    · exact .inl h
    · exact .inr ⟨h, fun k hk => h' k ((h1 a k).1 hk)⟩
  · rintro k hg t' ⟨a, ha, hk⟩
    rw [h3] at ha
    exact H.lost k hg t' ⟨a, ha, (h1 a k).1 hk⟩
  · intro hx t' a hq
    rw [h4] at hq
    rw [h2, h3]
    obtain ⟨c1, c2⟩ := H.calm hx t' a hq
    exact ⟨c1, fun hb k hk => c2 hb k ((h1 a k).1 hk)⟩

/-! ## Blocks given back by a sync -/

/-- `s'` is `s` with some blocks given back. -/
structure GivesBack (s s' : MemDb) : Prop where
  heap : s'.heap = s.heap
  cache : s'.qblocks = s.qblocks
  cur : s'.cur = s.cur
  sub : ∀ t a, s'.blocks.get t = some a → s.blocks.get t = some a
  kept : ∀ t a, s.blocks.get t = some a → s'.blocks.get t = some a ∨ a ∈ s'.freed
  freed : ∀ a, a ∈ s.freed → a ∈ s'.freed

theorem GivesBack.refl (s : MemDb) : GivesBack s s := ⟨rfl, rfl, rfl, fun _ _ h => h, fun _ _ h => .inl h, fun _ h => h⟩

theorem GivesBack.trans {s1 s2 s3 : MemDb} (h : GivesBack s1 s2) (h' : GivesBack s2 s3) : GivesBack s1 s3 :=
  ⟨h'.heap.trans h.heap, h'.cache.trans h.cache, h'.cur.trans h.cur, fun t a x => h.sub t a (h'.sub t a x),
    fun t a x => (h.kept t a x).elim (h'.kept t a) fun y => .inr (h'.freed a y), fun a x => h'.freed a (h.freed a x)⟩

theorem GivesBack.release (s : MemDb) (t : Int) : GivesBack s (s.release t).1 := by
  simp only [MemDb.release]
  cases hb : s.blocks.get t with
  | none => exact .refl s
  | some a =>
    refine ⟨rfl, rfl, rfl, ?_, ?_, fun a' h => List.mem_cons_of_mem _ h⟩
    · intro t' a' h
      simp only [AMap.get_del] at h
      split at h
      · simp at h
      · exact h
    · intro t' a' h
      simp only [AMap.get_del]
      split
      · next e' =>
        subst e'
        rw [hb] at h
        simp only [Option.some.injEq] at h
        subst h
        exact .inr List.mem_cons_self
      · exact .inl h

theorem GivesBack.holds (h : GivesBack s s') (a : Nat) (k : UInt64) : s'.holds a k ↔ s.holds a k := by
  simp only [MemDb.holds, MemDb.at, h.heap]

theorem GivesBack.where_sub (h : GivesBack s s') {t : Int} {k : UInt64} (hw : s'.Where t k) : s.Where t k := by
  obtain ⟨a, h1, h2⟩ := hw
  exact ⟨a, h.sub t a h1, (h.holds a k).1 h2⟩

/-- Blocks given back while the store is quiet hold nothing that a cached block holds. -/
theorem Shaken.giveQuiet (H : Shaken s gone true) (h : GivesBack s s') : Shaken s' gone true := by
  refine ⟨?_, ?_, ?_⟩
  · intro t a hq
    rw [h.cache] at hq
    rcases H.cached t a hq with h1 | ⟨h1, h2⟩
    · rcases h.kept t a h1 with h3 | h3
      · exact .inl h3
      · refine .inr ⟨h3, fun k hk => ?_⟩
        exact absurd ((h.holds a k).1 hk) ((H.calm rfl t a hq).2 h1 k)
    · exact .inr ⟨h.freed a h1, fun k hk => h2 k ((h.holds a k).1 hk)⟩
  · intro k hg t hw
    exact H.lost k hg t (h.where_sub hw)
  · intro hx t a hq
    rw [h.cache] at hq
    obtain ⟨c1, c2⟩ := H.calm hx t a hq
    refine ⟨?_, fun hb k hk => c2 (h.sub t a hb) k ((h.holds a k).1 hk)⟩
    rw [h.cur]
    exact fun hc => c1 (h.sub _ a hc)

/-- Otherwise what they hold may still be found through the cache. -/
theorem Shaken.give (H : Shaken s gone quiet) (I : MInv e s.forget m) (h : GivesBack s s') :
    Shaken s' (fun k => gone k ∨ ((∃ t, s.Where t k) ∧ ∀ t, ¬ s'.Where t k)) false := by
  refine ⟨?_, ?_, by simp⟩
  · intro t a hq
    rw [h.cache] at hq
    rcases H.cached t a hq with h1 | ⟨h1, h2⟩
    · by_cases hl : s'.blocks.get t = some a
      · exact .inl hl
      · refine .inr ⟨(h.kept t a h1).resolve_left hl, fun k hk => .inr ?_⟩
        have hk' := (h.holds a k).1 hk
        refine ⟨⟨t, a, h1, hk'⟩, ?_⟩
        rintro t' ⟨a', ha', hk2⟩
        have ha2 := h.sub t' a' ha'
        have : t' = t := I.uniq t' a' t a k ha2 h1 ((h.holds a' k).1 hk2) hk'
        subst this
        rw [ha2] at h1
        simp only [Option.some.injEq] at h1
        subst h1
        exact hl ha'
    · exact .inr ⟨h.freed a h1, fun k hk => .inl (h2 k ((h.holds a k).1 hk))⟩
  · rintro k (hg | ⟨_, hg⟩) t hw
    · exact H.lost k hg t (h.where_sub hw)
    · exact hg t hw

theorem Db.flush_mem {s s' : Db} {h h' : Handle} {rs : List Rec} {n : Nat} (hf : s.flush h rs n = some (s', h')) : s'.mem = s.mem := by
  simp only [Db.flush, Option.bind_eq_bind, Option.bind_eq_some_iff, pure, Option.some.injEq, Prod.mk.injEq] at hf
  obtain ⟨_, _, _, _, rfl, _⟩ := hf
  rfl

theorem Db.syncBlock_gives {e : SyncEnv} {s s' : Db} {h h' : Handle} {t : Int} (hs : s.syncBlock e h t = some (s', h')) : GivesBack s.mem s'.mem := by
  simp only [Db.syncBlock, Option.bind_eq_bind, Option.bind_eq_some_iff] at hs
  obtain ⟨rs, _, hs⟩ := hs
  split at hs
  · simp only [pure, Option.some.injEq, Prod.mk.injEq] at hs
    obtain ⟨rfl, _⟩ := hs
    exact .refl _
  · simp only [Option.bind_eq_some_iff, pure, Option.some.injEq, Prod.mk.injEq] at hs
    obtain ⟨x, _, y, _, ⟨s2, h2⟩, hf, win, _, rfl, _⟩ := hs
    have := Db.flush_mem hf
    simp only at this
    show GivesBack s.mem (s2.mem.release t).1
    rw [this]
    exact GivesBack.release _ t

theorem Db.syncBlocks_gives {e : SyncEnv} (ts : List Int) : ∀ {s s' : Db} {h h' : Handle}, Db.syncBlocks e ts s h = some (s', h') → GivesBack s.mem s'.mem := by
  induction ts with
  | nil =>
    intro s s' h h' hs
    simp only [Db.syncBlocks, Option.some.injEq, Prod.mk.injEq] at hs
    obtain ⟨rfl, _⟩ := hs
    exact .refl _
  | cons t ts ih =>
    intro s s' h h' hs
    simp only [Db.syncBlocks, Option.bind_eq_some_iff] at hs
    obtain ⟨⟨s1, h1⟩, a, b⟩ := hs
    exact (Db.syncBlock_gives a).trans (ih b)

theorem Db.sync_gives {e : SyncEnv} {s s' : Db} {r : DOut} (hs : s.sync e = some (s', r)) : GivesBack s.mem s'.mem := by
  simp only [Db.sync] at hs
  split at hs
  · simp only [Option.some.injEq, Prod.mk.injEq] at hs
    obtain ⟨rfl, _⟩ := hs
    exact .refl _
  · split at hs
    · simp only [Option.some.injEq, Prod.mk.injEq] at hs
      obtain ⟨rfl, _⟩ := hs
      exact .refl _
    · simp only [Option.bind_eq_bind, Option.bind_eq_some_iff, pure, Option.some.injEq, Prod.mk.injEq] at hs
      obtain ⟨w, _, ⟨s1, h1⟩, a, rfl, _⟩ := hs
      exact Db.syncBlocks_gives _ a

end Verif
