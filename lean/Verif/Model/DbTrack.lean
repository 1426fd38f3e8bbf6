import Verif.Model.DbLog
import Verif.Model.MemRecoverOk

/-!
# A running database and its files

What the files hold of the messages put so far, from opening to the next opening.
-/

namespace Verif

variable {v : DbEnv} {s : Db} {U D : List Item} {L : Loc} {led : List (UInt64 × List WinEntry)} {m : MemDb} {cid : Int} {queue : List (Int × Int)}
  {G : List ItemLog} {R : List Item}

theorem filter_cons_notMem (l : List Item) (t : Int) (ts : List Int) :
    (l.filter fun i => i.blk ∉ t :: ts) = (l.filter fun i => i.blk ≠ t).filter fun i => i.blk ∉ ts := by
  rw [List.filter_filter]
  apply List.filter_congr
  intro i _
  by_cases e1 : i.blk = t <;> by_cases e2 : i.blk ∈ ts <;> simp [e1, e2]

/-- Blocks are given back one after the other. -/
theorem Logs.relAll (ts : List Int) : ∀ {m : MemDb} {U : List Item} {G : List ItemLog} {R : List Item}, Logs m U cid queue G R → (∀ t ∈ ts, t ≠ m.cur) →
    (∀ t ∈ ts, m.blockKeys t = [] → ∀ i ∈ U, i.blk ≠ t) →
    ∃ G', Logs (relAll m ts) (U.filter fun i => i.blk ∉ ts) cid queue G' (R.filter fun i => i.blk ∉ ts) := by
  induction ts with
  | nil => intro m U G R H _ _; exact ⟨G, by simpa [Verif.relAll] using H⟩
  | cons t ts ih =>
    intro m U G R H hc hk
    rw [Verif.relAll, filter_cons_notMem, filter_cons_notMem]
    by_cases hb : m.blockKeys t = []
    · rw [if_pos hb]
      have hU := hk t List.mem_cons_self hb
      have e1 : (U.filter fun i => i.blk ≠ t) = U := List.filter_eq_self.2 fun i hi => by simpa using hU i hi
      have e2 : (R.filter fun i => i.blk ≠ t) = R := List.filter_eq_self.2 fun i hi => by simpa using hU i (H.mem_rest hi)
      rw [e1, e2]
      exact ih H (fun t' ht' => hc t' (List.mem_cons_of_mem _ ht')) fun t' ht' => hk t' (List.mem_cons_of_mem _ ht')
    · rw [if_neg hb]
      have hcur : (m.release t).1.cur = m.cur := by
        simp only [MemDb.release]
        split <;> rfl
      refine ih (H.release (hc t List.mem_cons_self)) (by rw [hcur]; exact fun t' ht' => hc t' (List.mem_cons_of_mem _ ht')) ?_
      intro t' ht' h0 i hi
      rw [List.mem_filter, decide_eq_true_eq] at hi
      by_cases e : t' = t
      · rw [e]; exact hi.2
      · rw [m.release_key t t' e] at h0
        exact hk t' (List.mem_cons_of_mem _ ht') h0 i hi.1

/-- What else a sync of blocks changes. -/
theorem Db.syncBlocks_rest {e : SyncEnv} (ts : List Int) : ∀ {s s' : Db} {h h' : Handle}, s.syncBlocks e ts h = some (s', h') →
    s'.mem = relAll s.mem ts ∧ (s.store.lease.all = [] → s'.store.lease = s.store.lease) ∧ s'.leaseFile = s.leaseFile ∧ s'.seq = s.seq ∧
      s'.immutable = s.immutable ∧ (s' = s ∨ s'.info = s'.infoBytes) := by
  induction ts with
  | nil =>
    intro s s' h h' hx
    simp only [Db.syncBlocks, Option.some.injEq, Prod.mk.injEq] at hx
    obtain ⟨rfl, _⟩ := hx
    exact ⟨rfl, fun _ => rfl, rfl, rfl, rfl, .inl rfl⟩
  | cons t ts ih =>
    intro s s' h h' hx
    simp only [Db.syncBlocks, Option.bind_eq_some_iff] at hx
    obtain ⟨⟨s1, h1⟩, ha, hb⟩ := hx
    obtain ⟨a1, a2, _, a4, a5, _, a7, a8⟩ := Db.syncBlock_rest ha
    obtain ⟨b1, b2, b3, b4, b5, b6⟩ := ih hb
    simp only at b1 b2 b3 b4 b5 b6
    refine ⟨?_, fun h0 => ?_, b3.trans a5, b4.trans a7, b5.trans a4, ?_⟩
    · rw [b1, a1, ← relAll_append]; rfl
    · rw [b2 (by rw [a2 h0]; exact h0), a2 h0]
    · rcases b6 with b6 | b6
      · rcases a8 with a8 | a8
        · exact .inl (b6.trans a8)
        · exact .inr (by rw [b6]; exact a8)
      · exact .inr b6

/-- A put changes no file. -/
theorem Db.putEntry_files (v : DbEnv) (now : Int) (s : Db) (o : Obj) : (s.putEntry v now o).1.info = s.info ∧ (s.putEntry v now o).1.count = s.count ∧
    (s.putEntry v now o).1.leaseFile = s.leaseFile ∧ (s.putEntry v now o).1.store = s.store ∧ (s.putEntry v now o).1.winFile = s.winFile := by
  simp only [Db.putEntry]
  split
  · exact ⟨rfl, rfl, rfl, rfl, rfl⟩
  · split
    · exact ⟨rfl, rfl, rfl, rfl, rfl⟩
    · split
      · exact ⟨rfl, rfl, rfl, rfl, rfl⟩
      · next s1 o1 h rec hse =>
        simp only [Db.setEntry, Option.map_eq_some_iff, Prod.mk.injEq] at hse
        obtain ⟨⟨s2, h2, c2⟩, hp, rfl, _, _, _⟩ := hse
        obtain ⟨rfl, _⟩ := Db.packEntry_fields hp
        split
        · split <;> exact ⟨rfl, rfl, rfl, rfl, rfl⟩
        · exact ⟨rfl, rfl, rfl, rfl, rfl⟩

/-- A store without messages. -/
theorem Logs.fresh (hop : m.closed = false) (hr : (m.blocks.get m.cur).isSome) (haddr : ∀ t a, m.blocks.get t = some a → a < m.heap.length)
    (hw : m.wal = []) (hrel : m.mark.released = []) (h1 : ∀ t n, m.mark.records.get t = some n → n = 1) (h2 : (m.mark.records.get m.cur).isSome)
    (hb : ∀ t a, m.blocks.get t = some a → t = m.cur ∧ m.at a = {}) (cid : Int) : Logs m [] cid [] [] [] where
  split := rfl
  log := ⟨cid - 1, {
    opened := hop
    cur := rfl
    ready := hr
    addr := haddr
    inj := by
      intro t t' a h h'
      rw [(hb t a h).1, (hb t' a h').1]
    tail := by
      intro t a h
      rw [(hb t a h).2]
      exact ⟨Nat.le_refl _, rfl⟩
    block := by intro p hp; cases hp
    wal := hw
    ids := by intro l hl; cases hl
    mono := List.Pairwise.nil }, by simp⟩
  gne := by simp
  one := by simp
  refs := by
    intro t a h id
    rw [(hb t a h).2]
    simp
  ids := List.Pairwise.nil
  qids := by simp
  times := by simp
  waiting := by simp
  released := by rw [hrel]; simp
  nodup := by rw [hrel]; exact AMap.Nodup.nil
  marked := by
    intro p hp
    rw [hrel] at hp
    cases hp
  ones := h1
  known := by simp
  done := by simp
  curMark := .inr h2
  sorted := List.Pairwise.nil
  mono := by simp
  le := by simp
  live := by simp

/-- The database and its files: the messages `D` are in the files, those of `G` in the logs, those of `R` only in memory. -/
structure Track (s : Db) (U D : List Item) (cid : Int) (queue : List (Int × Int)) (G : List ItemLog) (R : List Item) : Prop where
  logs : Logs s.mem U cid queue G R
  order : (D ++ U).Pairwise fun a b => a.seq < b.seq
  raw : ∀ i ∈ D ++ U, i.Raw
  headed : Headed (D ++ U)
  lease : ∃ n, s.store.lease = Lease.new n
  leaseFile : NoFree s.leaseFile
  info : ∃ q, InfoOK s.info q s.count
  pos : 0 < s.mem.cur
  blks : ∀ i ∈ U, 0 < i.blk

theorem Track.mem_same (T : Track s U D cid queue G R) {m : MemDb} (h : s.mem.SameData m) : Track { s with mem := m } U D cid queue G R :=
  ⟨T.logs.same h, T.order, T.raw, T.headed, T.lease, T.leaseFile, T.info, by obtain ⟨_, _, _, rfl⟩ := h; exact T.pos, T.blks⟩

theorem Track.rotate (T : Track s U D cid queue G R) {t now : Int} (ht : s.mem.cur ≤ t) (hn : cid < now) :
    Track { s with mem := s.mem.rotate t } U D now (queue ++ [(cid, s.mem.cur)]) G R := by
  refine ⟨T.logs.rotate ht hn, T.order, T.raw, T.headed, T.lease, T.leaseFile, T.info, ?_, T.blks⟩
  show 0 < t
  have := T.pos
  omega

theorem Track.write {id t : Int} (T : Track s U D cid ((id, t) :: queue) G R) :
    Track { s with mem := s.mem.write id t false } U D cid queue (G ++ newLog id t R) (R.filter fun i => i.blk ≠ t) :=
  ⟨T.logs.write, T.order, T.raw, T.headed, T.lease, T.leaseFile, T.info, by rw [(s.mem.write_same id t false).1]; exact T.pos, T.blks⟩

theorem Track.newId (T : Track s U D cid queue G R) (now : Int) : Track (s.newId now).1 U D cid queue G R :=
  ⟨T.logs, T.order, T.raw, T.headed, T.lease, T.leaseFile, T.info, T.pos, T.blks⟩

/-- Adding to a list in which every topic is introduced. -/
theorem Headed.snoc {A : List Item} (h : Headed A) {i : Item} (hi : i.raw = [] → ∃ j ∈ A, j.hash = i.hash) : Headed (A ++ [i]) := by
  intro k x hx
  rw [List.filter_append, List.head?_append] at hx
  cases ha : (A.filter fun i => i.hash = k).head? with
  | some y =>
    rw [ha, Option.some_or, Option.some.injEq] at hx
    rw [← hx]; exact h k y ha
  | none =>
    rw [ha, Option.none_or] at hx
    have hxi : x = i ∧ i.hash = k := by
      rw [List.filter_cons] at hx
      split at hx
      · next e => simp at hx e; exact ⟨hx.symm, e⟩
      · simp at hx
    obtain ⟨rfl, rfl⟩ := hxi
    intro hr
    obtain ⟨j, hj, he⟩ := hi hr
    rw [List.head?_eq_none_iff, List.filter_eq_nil_iff] at ha
    exact ha j hj (by simpa using he)

theorem known_hash (ops : List TopicOp) {h : UInt64} (hk : ((Trie.ofTopics ops).getOffset h).isSome) :
    ∃ c key off, TopicOp.add c key off ∈ ops ∧ topicHash c key = h := by
  have hI := trieInv_run (ops.map TopicOp.toTrie)
  obtain ⟨a, ha, he⟩ := List.mem_map.1 ((TrieInv.getOffset_isSome (s := Trie.ofTopics ops) hI h).1 hk)
  obtain ⟨off, ho⟩ := mem_trieRun _ _ ha
  obtain ⟨x, hx, hxe⟩ := List.mem_map.1 ho
  cases x with
  | setOffset t => cases hxe
  | add c key o =>
    simp only [TopicOp.toTrie, TrieOp.add.injEq, TTopic.mk.injEq] at hxe
    exact ⟨c, key, o, hx, hxe.1.1.trans he⟩

/-- A put without an id. -/
theorem Track.put (I : DbInv v s U D L led) (T : Track s U D cid queue G R) {now : Int} {o : Obj} {i : Item} (hblk : i.blk = s.mem.cur)
    (hq : i.seq = s.seq + 1) (hseq : s.seq.toNat < 255 * 524287) (hc : i.Carries s.trie)
    (hp : s.mem.put v.mem i.seq i.record = ((s.putEntry v now o).1.mem, .ok)) : Track (s.putEntry v now o).1 (U ++ [i]) D cid queue G (R ++ [i]) := by
  obtain ⟨f1, f2, f3, f4, f5⟩ := Db.putEntry_files v now s o
  have hlt : ∀ j ∈ U ++ D, j.seq < i.seq := by
    intro j hj
    have := I.seqs j hj
    rw [UInt64.lt_iff_toNat_lt, hq, toNat_succ hseq]
    omega
  have hcur : (s.putEntry v now o).1.mem.cur = s.mem.cur := by
    have := congrArg (fun x => x.1.cur) hp
    simp only at this
    rw [← this, MemDb.put]
    exact MemDb.putAt_cur ..
  exact {
    logs := T.logs.put hp hblk fun j hj => hlt j (List.mem_append_left _ hj)
    order := by
      rw [← List.append_assoc, List.pairwise_append]
      refine ⟨T.order, by simp, ?_⟩
      intro a ha b hb
      rw [List.mem_singleton] at hb
      rw [hb]
      exact hlt a (by rw [List.mem_append] at ha ⊢; exact ha.symm)
    raw := by
      intro j hj
      rw [← List.append_assoc, List.mem_append, List.mem_singleton] at hj
      rcases hj with hj | hj
      · exact T.raw j hj
      · rw [hj]
        rcases hc with ⟨h, _⟩ | h
        · exact .inl h
        · exact .inr h
    headed := by
      rw [← List.append_assoc]
      refine T.headed.snoc fun hr => ?_
      rcases hc with ⟨_, h⟩ | h
      · obtain ⟨ops, h1, _, h3⟩ := I.trie
        rw [h1] at h
        obtain ⟨c, key, off, k1, k2⟩ := known_hash ops h
        obtain ⟨j, hj, e1, e2⟩ := h3 c key off k1
        refine ⟨j, by rw [List.mem_append] at hj ⊢; exact hj.symm, ?_⟩
        rw [Item.hash, e1, e2, k2]
      · exfalso
        rw [h] at hr
        simp [Topic.marshal] at hr
    lease := by rw [f4]; exact T.lease
    leaseFile := by rw [f3]; exact T.leaseFile
    info := by rw [f1, f2]; exact T.info
    pos := by rw [hcur]; exact T.pos
    blks := by
      intro j hj
      rw [List.mem_append, List.mem_singleton] at hj
      rcases hj with hj | hj
      · exact T.blks j hj
      · rw [hj, hblk]; exact T.pos }

theorem timeRefs_sorted {k : TimeMark} (hn : AMap.Nodup k.released) (cur : Int) : (k.timeRefs cur).Pairwise (· < ·) := by
  have h1 : (k.timeRefs cur).Pairwise (· ≤ ·) := List.pairwise_insertionSort _ _
  have h2 : (k.timeRefs cur).Nodup := by
    refine ((List.perm_insertionSort _ _).nodup_iff).2 ?_
    exact (List.filter_sublist.map _).nodup hn
  exact (h1.and h2).imp fun h => by omega

theorem mem_timeRefs {k : TimeMark} (hm : ∀ p ∈ k.released, p.2 = p.1) {cur t : Int} :
    t ∈ k.timeRefs cur ↔ t ∈ k.released.keys ∧ 0 < t ∧ t < cur := by
  simp only [TimeMark.timeRefs, List.mem_insertionSort, AMap.keys, List.mem_map, List.mem_filter, decide_eq_true_eq]
  constructor
  · rintro ⟨p, ⟨hp, h1, h2⟩, rfl⟩
    rw [hm p hp] at h1 h2
    exact ⟨⟨p, hp, rfl⟩, h1, h2⟩
  · rintro ⟨⟨p, hp, rfl⟩, h1, h2⟩
    exact ⟨p, ⟨hp, by rw [hm p hp]; exact ⟨h1, h2⟩⟩, rfl⟩

theorem openDb_lastSync {v : DbEnv} {o : OpenOpts} {r : RecEnv} {e : SyncEnv} {now : Int} {d : Disk} {s : Db} (h : openDb v o r e now d = .ok s) :
    s.lastSync = 0 := by
  have hrec : ∀ (s0 : Db) (s1 : Db) (ok : Bool), s0.lastSync = 0 → s0.recoverLog e = some (s1, ok) → s1.lastSync = 0 := by
    intro s0 s1 ok h0 h1
    unfold Db.recoverLog at h1
    split at h1
    · simp only [Option.some.injEq, Prod.mk.injEq] at h1
      rw [← h1.1]; exact h0
    · simp only [Option.bind_eq_bind, Option.bind_eq_some_iff] at h1
      obtain ⟨w, _, ⟨s2, h2, p2⟩, _, h3⟩ := h1
      simp only at h3
      split at h3
      all_goals
        simp only [pure, Option.some.injEq, Prod.mk.injEq] at h3
        rw [← h3.1]
  simp only [openDb] at h
  repeat' split at h
  all_goals try cases h
  next hr => exact hrec _ _ _ rfl hr

theorem upperSeq_of (rs : List Rec) (h : rs ≠ []) (hz : ∀ r ∈ rs, r.seq ≠ 0) : ∃ r ∈ rs, r.seq = upperSeq rs := by
  suffices ∀ (rs : List Rec) (m : UInt64), (∃ r ∈ rs, r.seq = rs.foldl (fun m r => if m < r.seq then r.seq else m) m) ∨
      (rs.foldl (fun m r => if m < r.seq then r.seq else m) m = m ∧ ∀ r ∈ rs, r.seq ≤ m) by
    rcases this rs 0 with h1 | ⟨_, h2⟩
    · exact h1
    · obtain ⟨r, hr⟩ := List.exists_mem_of_ne_nil _ h
      exact absurd (UInt64.le_antisymm (h2 r hr) (UInt64.le_iff_toNat_le.2 (Nat.zero_le _))) (hz r hr)
  clear h hz rs
  intro rs
  induction rs with
  | nil => intro m; right; simp
  | cons r rs ih =>
    intro m
    rw [List.foldl_cons]
    by_cases hm : m < r.seq
    · rw [if_pos hm]
      rcases ih r.seq with ⟨x, hx, h1⟩ | ⟨h1, _⟩
      · exact .inl ⟨x, List.mem_cons_of_mem _ hx, h1⟩
      · exact .inl ⟨r, List.mem_cons_self, h1.symm⟩
    · rw [if_neg hm]
      rcases ih m with ⟨x, hx, h1⟩ | ⟨h1, h2⟩
      · exact .inl ⟨x, List.mem_cons_of_mem _ hx, h1⟩
      · refine .inr ⟨h1, ?_⟩
        intro x hx
        rcases List.mem_cons.1 hx with rfl | hx
        · exact UInt64.not_lt.1 hm
        · exact h2 x hx

theorem DbKnown.syncBlock_last {K : Item → Prop} (I : DbKnown K v s U D L led) {e : SyncEnv} {h h' : Handle} {t : Int} {s' : Db}
    (hx : s.syncBlock e h t = some (s', h')) : s'.lastSync = s.lastSync ∨ ∃ i ∈ itemsOf U t, s'.lastSync = i.seq := by
  simp only [Db.syncBlock, I.recs t, Option.bind_eq_bind, Option.bind_some] at hx
  split at hx
  · cases hx; exact .inl rfl
  · next hne =>
    simp only [Option.bind_eq_some_iff] at hx
    obtain ⟨⟨st, w, new⟩, _, ⟨tr, ww⟩, _, ⟨s1, h1⟩, hf, win, _, hx⟩ := hx
    cases hx
    simp only [Db.flush, Option.bind_eq_bind, Option.bind_eq_some_iff] at hf
    obtain ⟨⟨f, ww'⟩, _, ⟨st', w'⟩, _, hf⟩ := hf
    cases hf
    right
    obtain ⟨r, hr, he⟩ := upperSeq_of (List.map (fun x => x.2) (List.map (fun i => (i.hdr, i.stored)) (itemsOf U t))) (by simpa using hne) (by
      intro r hr
      simp only [List.map_map, List.mem_map, Function.comp] at hr
      obtain ⟨i, hi, rfl⟩ := hr
      have h1 := (Item.storable (I.ok i (List.mem_append_left _ (mem_itemsOf.1 hi).1))).ok.lo
      intro hc
      rw [hc] at h1
      exact absurd h1 (by decide))
    simp only [List.map_map, List.mem_map, Function.comp] at hr
    obtain ⟨i, hi, rfl⟩ := hr
    exact ⟨i, hi, he.symm⟩

theorem DbInv.syncBlocks_last {e : SyncEnv} (hnow : 0 ≤ e.now.toInt) (hord : ∀ m, (e.order m).Perm m) (ts : List Int) :
    ∀ {s : Db} {h : Handle} {U D : List Item} {L : Loc} {led : List (UInt64 × List WinEntry)}, DbInv v s U D L led → Syncing s h L led →
    (∀ t ∈ ts, t ≠ s.mem.cur) → h.ww.windowIdx + 2 * (U.length : Nat) ≤ 524286 → ∀ {x : Db × Handle}, s.syncBlocks e ts h = some x →
    x.1.lastSync = s.lastSync ∨ ∃ i ∈ syncItems U ts, x.1.lastSync = i.seq := by
  induction ts with
  | nil => intro s h U D L led I S _ _ x hx; cases hx; exact .inl rfl
  | cons t ts ih =>
    intro s h U D L led I S hts hroom x hx
    have hlen : (itemsOf U t).length + (U.filter fun i => i.blk ≠ t).length = U.length := by
      have h1 := (split_perm U [] t).length_eq
      simp only [List.nil_append, List.append_nil, List.length_append] at h1
      omega
    obtain ⟨s1, h1, L1, b1, a1, a2, a3, a4, a5, a6, a7⟩ := I.syncBlock S hnow hord (hts t List.mem_cons_self) (fun _ _ => trivial) (by omega)
    rw [Db.syncBlocks, a1, Option.bind_some] at hx
    have h2 := I.syncBlock_last a1
    simp only [syncItems, List.mem_append]
    rcases ih a2 a3 (by rw [a4]; exact fun t' ht' => hts t' (List.mem_cons_of_mem _ ht')) (by omega) hx with h3 | ⟨i, hi, h3⟩
    · rw [h3]
      rcases h2 with h2 | ⟨i, hi, h2⟩
      · exact .inl h2
      · exact .inr ⟨i, .inl hi, h2⟩
    · exact .inr ⟨i, .inr hi, h3⟩

/-- A sync remembers the highest sequence of the last block it stored. -/
theorem DbInv.sync_last (I : DbInv v s U D L led) (hq : s.mem.qblocks = []) {e : SyncEnv} (hnow : 0 ≤ e.now.toInt)
    (hord : ∀ m, (e.order m).Perm m) (hmark : ∀ p ∈ s.mem.mark.released, p.2 = p.1)
    (hroom : s.winFile.length + 8192 * s.pending + 8192 ≤ 2 ^ 31) {x : Db × DOut} (hx : s.sync e = some x) :
    x.1.lastSync = s.lastSync ∨ ∃ i ∈ syncItems U (s.mem.mark.timeRefs s.mem.cur), x.1.lastSync = i.seq := by
  simp only [Db.sync, I.opened, Bool.false_eq_true, if_false] at hx
  split at hx
  · cases hx; exact .inl rfl
  · obtain ⟨w, w1, w2, w3⟩ := newBlockWriter_spec I.store
    obtain ⟨ww, hW⟩ := I.hist
    have hidx : (newWindowWriter s.winFile).windowIdx + 2 * (U.length : Nat) ≤ 524286 := by
      rw [I.pending] at hroom
      simp only [newWindowWriter, blockSize]
      split <;> omega
    simp only [w1, Option.bind_eq_bind, Option.bind_some, Option.bind_eq_some_iff] at hx
    obtain ⟨y, h1, h2⟩ := hx
    cases h2
    exact I.syncBlocks_last (h := ⟨w, newWindowWriter s.winFile⟩) hnow hord
      (s.mem.mark.timeRefs s.mem.cur) ⟨w2, w3, WinOK.start hW, hq⟩ (by
        intro t ht
        simp only [TimeMark.timeRefs, List.mem_insertionSort, AMap.keys, List.mem_map, List.mem_filter, decide_eq_true_eq] at ht
        obtain ⟨p, ⟨hp, _, h2⟩, rfl⟩ := ht
        rw [hmark p hp] at h2
        omega) hidx h1

/-- A sync stores the oldest messages and keeps their order. -/
theorem Track.sync (I : DbInv v s U D L led) (T : Track s U D cid queue G R) (hq : s.mem.qblocks = []) {e : SyncEnv} (hnow : 0 ≤ e.now.toInt)
    (hord : ∀ m, (e.order m).Perm m) (hroom : s.winFile.length + 8192 * s.pending + 8192 ≤ 2 ^ 31) :
    ∃ s' U' D' L' led' G' R', s.sync e = some (s', .ok) ∧ DbInv v s' U' D' L' led' ∧ Track s' U' D' cid queue G' R' ∧ D' ++ U' = D ++ U ∧
      (D ++ G.flatMap (·.2)).length ≤ (D' ++ G'.flatMap (·.2)).length ∧ s'.mem.qblocks = [] ∧ s'.seq = s.seq ∧ s'.mem.cur = s.mem.cur ∧ (∀ i ∈ R', i ∈ R) ∧ (∀ i ∈ U', i ∈ U) ∧
      (s'.lastSync = s.lastSync ∨ ∃ i ∈ D', s'.lastSync = i.seq) := by
  obtain ⟨s', U', D', L', led', h1, h2, _, h4, h5, _, h7, h8, h9⟩ := I.sync hq hnow hord T.logs.marked hroom
  by_cases hs : s.lastSync = s.seq
  · obtain ⟨rfl, rfl, rfl⟩ := h9 hs
    exact ⟨s', U', D', L', led', G, R, h1, h2, T, rfl, le_refl _, h4, h7, h5, fun _ h => h, fun _ h => h, .inl rfl⟩
  · obtain ⟨rfl, rfl⟩ := h8 hs
    obtain ⟨ts, hts⟩ : ∃ ts, ts = s.mem.mark.timeRefs s.mem.cur := ⟨_, rfl⟩
    rw [← hts] at h2
    have hx := h1
    simp only [Db.sync, I.opened, Bool.false_eq_true, if_false, if_neg hs, Option.bind_eq_bind, Option.bind_eq_some_iff, pure, Option.some.injEq,
      Prod.mk.injEq, and_true] at hx
    obtain ⟨w, _, ⟨s2, h'⟩, hx, rfl⟩ := hx
    rw [← hts] at hx
    obtain ⟨r1, r2, r3, r4, _, r6⟩ := Db.syncBlocks_rest ts hx
    have hmem : ∀ t ∈ ts, t ∈ s.mem.mark.released.keys ∧ 0 < t ∧ t < s.mem.cur := fun t ht => (mem_timeRefs T.logs.marked).1 (hts ▸ ht)
    obtain ⟨G', hG'⟩ := T.logs.relAll ts (fun t ht => by have := (hmem t ht).2.2; omega) (by
      intro t ht h0 i hi hc
      rw [I.keys t, List.map_eq_nil_iff] at h0
      have := mem_itemsOf.2 ⟨hi, hc⟩
      rw [h0] at this
      cases this)
    have hdown : ∀ i ∈ U, ∀ t ∈ ts, i.blk ≤ t → i.blk ∈ ts := by
      intro i hi t ht hle
      obtain ⟨k1, k2, k3⟩ := hmem t ht
      rw [T.logs.split, List.mem_append, List.mem_flatMap] at hi
      rcases hi with ⟨l, hl, hi⟩ | hi
      · rw [hts, mem_timeRefs T.logs.marked]
        exact ⟨T.logs.done l hl i hi, T.blks i (T.logs.mem_log hl hi), by omega⟩
      · obtain ⟨p, hp, he⟩ := List.mem_map.1 k1
        have := T.logs.released p hp _ (T.logs.waiting i hi)
        rw [he] at this
        have : i.blk = t := by omega
        rw [this]; exact ht
    have hall : D ++ syncItems U ts ++ (U.filter fun i => i.blk ∉ ts) = D ++ U := by
      rw [List.append_assoc, syncItems_order ts T.logs.sorted T.logs.mono (by rw [hts]; exact timeRefs_sorted T.logs.nodup _) hdown]
    refine ⟨s2, _, _, L', led', G', R.filter fun i => i.blk ∉ ts, h1, h2, ?_, hall, ?_, h4, h7, h5, fun i hi => List.mem_of_mem_filter hi, fun i hi => List.mem_of_mem_filter hi, ?_⟩
    · exact {
        logs := by rw [r1]; exact hG'
        order := by rw [hall]; exact T.order
        raw := by rw [hall]; exact T.raw
        headed := by rw [hall]; exact T.headed
        lease := by
          obtain ⟨n, hn⟩ := T.lease
          exact ⟨n, by rw [r2 (by rw [hn]; exact (Lease.good_new n).2), hn]⟩
        leaseFile := by rw [r3]; exact T.leaseFile
        info := by
          rcases r6 with r6 | r6
          · rw [r6]; exact T.info
          · exact ⟨s2.seq, s2.enc, r6⟩
        pos := by rw [h5]; exact T.pos
        blks := fun i hi => T.blks i (List.mem_of_mem_filter hi) }
    · have e1 := congrArg List.length hall
      have e2 := congrArg List.length T.logs.split
      have e3 := congrArg List.length hG'.split
      have e4 : (R.filter fun i => i.blk ∉ ts).length ≤ R.length := List.length_filter_le _ _
      simp only [List.length_append] at e1 e2 e3 ⊢
      omega
    · rcases I.sync_last hq hnow hord T.logs.marked hroom h1 with h | ⟨i, hi, h⟩
      · exact .inl h
      · exact .inr ⟨i, List.mem_append_right _ (hts ▸ hi), h⟩

/-- What opening needs of the logs, the clock and the sizes of the files. `now` is the time id of the first tiny log. -/
structure Reopens (v : DbEnv) (r : RecEnv) (e : SyncEnv) (now : Int) (d : Disk) (n : Nat) : Prop where
  data : d.data.length < 2 ^ 63
  win : d.win.length + 8192 * n + 8192 ≤ 2 ^ 31
  logs : ∀ l, (r.orderLog l).Perm l
  dels : ∀ l, (r.orderDel l).Perm l
  pos : 0 < now
  cap : (v.mem.cap : Int) ≤ now
  late : ∀ l ∈ d.logs, (v.mem.cap : Int) ≤ truncTime r.interval l.1
  past : ∀ l ∈ d.logs, truncTime r.interval l.1 < now
  fits : ∀ l ∈ d.logs, logBytes r d.logs (truncTime r.interval l.1) ≤ v.mem.cap
  clock : 0 ≤ e.now.toInt
  order : ∀ m, (e.order m).Perm m

theorem Reopens.mono {r : RecEnv} {e : SyncEnv} {now : Int} {d : Disk} {n k : Nat} (H : Reopens v r e now d n) (h : k ≤ n) : Reopens v r e now d k :=
  ⟨H.data, by have := H.win; omega, H.logs, H.dels, H.pos, H.cap, H.late, H.past, H.fits, H.clock, H.order⟩

/-- Opening the files of a running database. -/
theorem Track.openDb (I : DbInv v s U D L led) (T : Track s U D cid queue G R) {q : UInt64} (hinf : InfoOK s.info q s.count) (hq : q ≠ 0 ∨ G = [])
    (h335 : ∀ h, (D.filter fun i => i.hash = h).length ≤ 335) {r : RecEnv} {e : SyncEnv} {now : Int}
    (H : Reopens v r e now s.disk (G.flatMap (·.2)).length) (o : OpenOpts) (cid' : Int) :
    ∃ s' L' b, openDb v o r e now s.disk = .ok s' ∧ DbInv v { s' with seq := s.seq } [] (D ++ G.flatMap (ItemLog.recovered r)) (L ++ L') (led ++ b) ∧
      Track s' [] (D ++ G.flatMap (ItemLog.recovered r)) cid' [] [] [] ∧ s'.seq = q ∧ s'.mem.qblocks = [] ∧ s'.mem.cur = now ∧ s'.lastSync = 0 := by
  obtain ⟨last, hl, _⟩ := T.logs.log
  have hwal : s.disk.logs = (G.map ItemLog.recs).map encLog := hl.wal
  have hin : ∀ l ∈ G, encLog l.recs ∈ s.disk.logs := by
    intro l h
    rw [hwal, List.map_map]
    exact List.mem_map.2 ⟨l, h, rfl⟩
  have hsub : ∀ i ∈ D ++ G.flatMap (·.2), i ∈ D ++ U := by
    intro i hi
    rw [T.logs.split, ← List.append_assoc]
    exact List.mem_append_left _ hi
  have hhead : Headed (D ++ G.flatMap (·.2)) := by
    have := T.headed
    rw [T.logs.split, ← List.append_assoc] at this
    exact this.append_left
  have hsort : (D ++ G.flatMap (·.2)).Pairwise fun a b => a.seq < b.seq := by
    have := T.order
    rw [T.logs.split, ← List.append_assoc, List.pairwise_append] at this
    exact this.1
  obtain ⟨m, hm⟩ := MemDb.recover_ok (e := v.mem) H.logs (G.map ItemLog.recs) (by
    intro l hl x hx
    obtain ⟨l', h1, rfl⟩ := List.mem_map.1 hl
    simp only [ItemLog.recs, List.mem_map] at hx
    obtain ⟨i, hi, rfl⟩ := hx
    have hok := I.ok i (List.mem_append_left _ (T.logs.mem_log h1 hi))
    have h2 := hok.val
    simp only [LogRec.fits, Item.length_record hok]
    omega) now (by
    intro l hl
    obtain ⟨l', h1, rfl⟩ := List.mem_map.1 hl
    rw [← hwal]
    exact H.fits _ (hin l' h1))
  rw [← hwal] at hm
  obtain ⟨s', L', b, a1, a2, a3, a4, a5, a6, a7, a8, a9, a10, a11, a12, a13, a14, a15⟩ := openDb_ok I (d := s.disk) rfl rfl rfl T.leaseFile hinf (Q := G)
    (by rw [hwal, List.map_map]; rfl) (fun l hl i hi => T.logs.mem_log hl hi) (by rw [List.pairwise_append] at hsort; exact hsort.2.1) T.logs.ids T.logs.gne hq
    (fun i hi => T.raw i (hsub i hi)) hhead (fun h _ => h335 h) H.data H.win H.logs H.dels (fun l hl => H.late _ (hin l hl)) H.cap
    (fun l hl => H.past _ (hin l hl)) hm H.clock H.order o
  refine ⟨s', L', b, a1, a2, ?_, a3, a5, a6, a8⟩
  have hmap : ∀ {β : Type} (f : Item → β), (∀ i t, f { i with blk := t } = f i) → (G.flatMap (ItemLog.recovered r)).map f = (G.flatMap (·.2)).map f := by
    intro β f hf
    rw [List.map_flatMap, List.map_flatMap]
    congr 1
    funext l
    rw [ItemLog.recovered, List.map_map]
    exact List.map_congr_left fun i _ => hf i _
  exact {
    logs := by
      refine Logs.fresh a2.mem.opened a2.ready (fun t a h => (a2.mem.addr t a h).1) a4 a7 a13 (by rw [a6]; exact a14) ?_ cid'
      intro t a h
      rw [a6]; exact a15 t a h
    order := by
      rw [List.append_nil]
      have h1 : ((D ++ G.flatMap (ItemLog.recovered r)).map Item.seq).Pairwise (· < ·) := by
        rw [List.map_append, hmap Item.seq fun _ _ => rfl, ← List.map_append, List.pairwise_map]
        exact hsort
      rw [List.pairwise_map] at h1
      exact h1
    raw := by
      intro i hi
      rw [List.append_nil, List.mem_append, List.mem_flatMap] at hi
      rcases hi with hi | ⟨l, hl, hi⟩
      · exact T.raw i (List.mem_append_left _ hi)
      · simp only [ItemLog.recovered, List.mem_map] at hi
        obtain ⟨j, hj, rfl⟩ := hi
        exact T.raw j (List.mem_append_right _ (T.logs.mem_log hl hj))
    headed := by
      rw [List.append_nil]
      intro h i hi
      have h1 : ((D ++ G.flatMap (ItemLog.recovered r)).map fun i => (i.hash, i.raw)) = (D ++ G.flatMap (·.2)).map fun i => (i.hash, i.raw) := by
        rw [List.map_append, hmap (fun i => (i.hash, i.raw)) fun _ _ => rfl, ← List.map_append]
      have h2 : ∀ A : List Item, ((A.map fun i => (i.hash, i.raw)).filter fun p => p.1 = h).head? =
          ((A.filter fun i => i.hash = h).head?).map fun i => (i.hash, i.raw) := by
        intro A
        rw [List.filter_map, List.head?_map]
        rfl
      have h3 := h2 (D ++ G.flatMap (ItemLog.recovered r))
      rw [h1, h2, hi, Option.map_some, Option.map_eq_some_iff] at h3
      obtain ⟨j, hj, he⟩ := h3
      have := hhead h j hj
      simp only [Prod.mk.injEq] at he
      rw [← he.2]; exact this
    lease := ⟨_, a9⟩
    leaseFile := by rw [a10]; exact T.leaseFile
    info := ⟨q, a12⟩
    pos := by rw [a6]; exact H.pos
    blks := by simp }

theorem new_defrag_write (n : Int) : (Lease.new n).defrag.write = [0, 0, 0, 0] := by
  simp only [Lease.new, Lease.defrag, Lease.write, List.map_replicate]
  have : Shard.defrag ⟨[], []⟩ = ⟨[], []⟩ := by simp [Shard.defrag, List.insertionSort]
  rw [this]
  have h : (⟨List.replicate nShards ⟨[], []⟩, 0, n⟩ : Lease).all = [] := by
    simp [Lease.all]
  rw [h]
  rfl

theorem write_wal {m : MemDb} {a : Nat} (id t : Int) (h : m.blocks.get t = some a) : (m.write id t false).wal =
    if (m.at a).data.drop (m.at a).lastOffset = [] then m.wal else m.wal.filter (·.1 ≠ id) ++ [(id, (m.at a).data.drop (m.at a).lastOffset)] := by
  simp only [MemDb.write, h, Bool.false_eq_true, if_false]
  split <;> rfl

/-- A clean close and the next open: every message is in the files. -/
theorem Track.reopen (I : DbInv v s U D L led) (T : Track s U D cid [] G R)
    (h335 : ∀ h, (D.filter fun i => i.hash = h).length ≤ 335) {r : RecEnv} {e : SyncEnv} {now : Int}
    (H : Reopens v r e now (s.close cid).1.disk U.length) (o : OpenOpts) (cid' : Int) :
    ∃ s' D' L' b, Verif.openDb v o r e now (s.close cid).1.disk = .ok s' ∧ DbInv v s' [] D' (L ++ L') (led ++ b) ∧
      Track s' [] D' cid' [] [] [] ∧ (∀ {β : Type} (f : Item → β), (∀ i t, f { i with blk := t } = f i) → D'.map f = (D ++ U).map f) ∧
      s'.seq = s.seq ∧ s'.mem.qblocks = [] := by
  obtain ⟨n, hn⟩ := T.lease
  obtain ⟨a, ha⟩ := Option.isSome_iff_exists.1 I.ready
  obtain ⟨M, hM⟩ : ∃ M, M = (s.mem.rotate s.mem.cur).write cid s.mem.cur false := ⟨_, rfl⟩
  have hwal : M.wal = (s.mem.write cid s.mem.cur false).wal := by
    rw [hM]
    have hr : s.mem.rotate s.mem.cur = { s.mem with mark := s.mem.mark.add s.mem.cur } := by
      simp only [MemDb.rotate, MemDb.addTimeBlock, ha]
    rw [hr, write_wal (m := { s.mem with mark := s.mem.mark.add s.mem.cur }) (a := a) _ _ ha, write_wal _ _ ha]
    rfl
  obtain ⟨F, hF⟩ : ∃ F, F = s.store.lease.defrag.write := ⟨_, rfl⟩
  have hdisk : (s.close cid).1.disk = Db.disk { s with mem := M, info := s.infoBytes, leaseFile := F } := by
    simp only [Db.close, I.opened, Bool.false_eq_true, if_false, Db.disk, hwal, hF]
  rw [hdisk] at H ⊢
  have J : DbInv v { s with mem := M, info := s.infoBytes, leaseFile := F } U D L led := by
    have := (I.rotate s.mem.cur (le_refl _)).write cid s.mem.cur
    rw [hM]
    exact DbKnown.frame this rfl rfl rfl rfl rfl rfl rfl rfl
  have hR : (R.filter fun i => i.blk ≠ s.mem.cur) = [] := by
    rw [List.filter_eq_nil_iff]
    intro i hi
    have := T.logs.waiting i hi
    simp only [List.map_nil, List.nil_append, List.mem_singleton] at this
    simp [this]
  have T1 := (T.rotate (t := s.mem.cur) (now := cid + 1) (le_refl _) (by omega)).write
  rw [hR] at T1
  have T2 : Track { s with mem := M, info := s.infoBytes, leaseFile := F } U D (cid + 1) [] (G ++ newLog cid s.mem.cur R) [] := by
    refine ⟨?_, T1.order, T1.raw, T1.headed, T1.lease, ?_, ⟨s.seq, s.enc, rfl⟩, ?_, T1.blks⟩
    · have := T1.logs
      rw [hM]; exact this
    · rw [hF, hn]
      exact .inr (new_defrag_write n)
    · have := T1.pos
      rw [hM]; exact this
  have hU : U = (G ++ newLog cid s.mem.cur R).flatMap (·.2) := by
    have := T2.logs.split
    rw [List.append_nil] at this
    exact this
  obtain ⟨s', L', b, a1, a2, a3, a4, a5, _⟩ := T2.openDb J (q := s.seq) ⟨s.enc, rfl⟩ (by
    by_cases h0 : s.seq = 0
    · right
      have : U = [] := by
        rw [List.eq_nil_iff_forall_not_mem]
        intro i hi
        have h1 := I.seqs i (List.mem_append_left _ hi)
        have h2 := (I.ok i (List.mem_append_left _ hi)).lo
        rw [h0] at h1
        have : (0 : UInt64).toNat = 0 := rfl
        omega
      rw [hU] at this
      rw [List.eq_nil_iff_forall_not_mem]
      intro l hl
      have h1 := T2.logs.gne l hl
      rw [List.flatMap_eq_nil_iff] at this
      exact h1 (this l hl)
    · exact .inl h0) h335 (by rw [← hU]; exact H) o cid'
  have hs : ({ s' with seq := s.seq } : Db) = s' := by rw [← a4]
  refine ⟨s', _, L', b, a1, by rw [← hs]; exact a2, a3, ?_, a4, a5⟩
  intro β f hf
  rw [List.map_append, List.map_append]
  congr 1
  rw [hU, List.map_flatMap, List.map_flatMap]
  congr 1
  funext l
  rw [ItemLog.recovered, List.map_map]
  exact List.map_congr_left fun i _ => hf i _

end Verif
