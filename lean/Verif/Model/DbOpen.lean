import Verif.Model.DbRecover

/-!
# Opening a database over the files of another one
-/

namespace Verif

variable {v : DbEnv} {s : Db} {U D : List Item} {L : Loc} {led : List (UInt64 × List WinEntry)}

/-! ## Releasing blocks -/

theorem MemDb.release_at (m : MemDb) (t : Int) (a : Nat) : (m.release t).1.at a = m.at a := by
  simp only [MemDb.release]
  split <;> rfl

theorem MemDb.release_key (m : MemDb) (t t' : Int) (h : t' ≠ t) : (m.release t).1.blockKeys t' = m.blockKeys t' := by
  have h1 := (m.release_same t).2 t' h
  simp only [MemDb.blockKeys, h1, MemDb.release_at]

theorem relAll_wal (ts : List Int) : ∀ (m : MemDb) (l : Int × Bytes), l ∈ (relAll m ts).wal →
    l ∈ m.wal ∧ ∀ t ∈ ts, m.blockKeys t ≠ [] → ∀ a, m.blocks.get t = some a → l.1 ∉ (m.at a).timeRefs := by
  induction ts with
  | nil => intro m l h; exact ⟨h, by simp⟩
  | cons t ts ih =>
    intro m l h
    rw [relAll] at h
    by_cases hk : m.blockKeys t = []
    · rw [if_pos hk] at h
      obtain ⟨h1, h2⟩ := ih m l h
      refine ⟨h1, ?_⟩
      intro t' ht' hne a ha
      rcases List.mem_cons.1 ht' with rfl | ht'
      · exact absurd hk hne
      · exact h2 t' ht' hne a ha
    · rw [if_neg hk] at h
      obtain ⟨h1, h2⟩ := ih _ l h
      have hw : l ∈ m.wal ∧ ∀ a, m.blocks.get t = some a → l.1 ∉ (m.at a).timeRefs := by
        simp only [MemDb.release] at h1
        split at h1
        · next hb => exact ⟨h1, fun a ha => by rw [hb] at ha; cases ha⟩
        · next a hb =>
          simp only [List.mem_filter, decide_eq_true_eq] at h1
          exact ⟨h1.1, fun a' ha' => by rw [hb] at ha'; cases ha'; exact h1.2⟩
      refine ⟨hw.1, ?_⟩
      intro t' ht' hne a ha
      by_cases e : t' = t
      · subst e; exact hw.2 a ha
      · rcases List.mem_cons.1 ht' with rfl | ht'
        · exact absurd rfl e
        · have := h2 t' ht' (by rw [m.release_key t t' e]; exact hne) a (by rw [(m.release_same t).2 t' e]; exact ha)
          rw [m.release_at] at this
          exact this

theorem relAll_released (ts : List Int) : ∀ (m : MemDb), (∀ t ∈ ts, m.blockKeys t ≠ [] → (m.blocks.get t).isSome) → ∀ p ∈ (relAll m ts).mark.released,
    p ∈ m.mark.released ∧ ∀ t ∈ ts, m.blockKeys t ≠ [] → p.1 ≠ t := by
  induction ts with
  | nil => intro m _ p h; exact ⟨h, by simp⟩
  | cons t ts ih =>
    intro m hb p h
    rw [relAll] at h
    by_cases hk : m.blockKeys t = []
    · rw [if_pos hk] at h
      obtain ⟨h1, h2⟩ := ih m (fun t ht => hb t (List.mem_cons_of_mem _ ht)) p h
      refine ⟨h1, ?_⟩
      intro t' ht' hne
      rcases List.mem_cons.1 ht' with rfl | ht'
      · exact absurd hk hne
      · exact h2 t' ht' hne
    · rw [if_neg hk] at h
      obtain ⟨a, ha⟩ := Option.isSome_iff_exists.mp (hb t List.mem_cons_self hk)
      obtain ⟨h1, h2⟩ := ih _ (by
        intro t' ht' hne
        by_cases e : t' = t
        · subst e
          exfalso
          apply hne
          simp only [MemDb.blockKeys, MemDb.release, ha, AMap.get_del_self]
        · rw [m.release_key t t' e] at hne
          rw [(m.release_same t).2 t' e]
          exact hb t' (List.mem_cons_of_mem _ ht') hne) p h
      have hw : p ∈ m.mark.released ∧ p.1 ≠ t := by
        simp only [MemDb.release, ha, TimeMark.unref, AMap.del, List.mem_filter, decide_eq_true_eq] at h1
        exact h1
      refine ⟨hw.1, ?_⟩
      intro t' ht' hne
      by_cases e : t' = t
      · subst e; exact hw.2
      · rcases List.mem_cons.1 ht' with rfl | ht'
        · exact absurd rfl e
        · exact h2 t' ht' (by rw [m.release_key t t' e]; exact hne)

theorem relAll_blocks (ts : List Int) : ∀ (m : MemDb),
    (relAll m ts).mark.records = m.mark.records ∧ (∀ a, (relAll m ts).at a = m.at a) ∧ ∀ t a, (relAll m ts).blocks.get t = some a →
      m.blocks.get t = some a ∧ (t ∈ ts → m.blockKeys t = []) := by
  induction ts with
  | nil => intro m; exact ⟨rfl, fun _ => rfl, fun t a h => ⟨h, by simp⟩⟩
  | cons t0 ts ih =>
    intro m
    rw [relAll]
    by_cases hk : m.blockKeys t0 = []
    · rw [if_pos hk]
      obtain ⟨h1, h2, h3⟩ := ih m
      refine ⟨h1, h2, fun t a h => ⟨(h3 t a h).1, fun ht => ?_⟩⟩
      rcases List.mem_cons.1 ht with rfl | ht
      · exact hk
      · exact (h3 t a h).2 ht
    · rw [if_neg hk]
      obtain ⟨h1, h2, h3⟩ := ih (m.release t0).1
      refine ⟨?_, fun a => (h2 a).trans (m.release_at t0 a), ?_⟩
      · rw [h1]
        simp only [MemDb.release]
        split <;> rfl
      · intro t a h
        obtain ⟨g1, g2⟩ := h3 t a h
        by_cases e : t = t0
        · subst e
          exfalso
          simp only [MemDb.release] at g1
          split at g1
          · next hb => rw [hb] at g1; cases g1
          · simp only [AMap.get_del_self] at g1; cases g1
        · rw [(m.release_same t0).2 t e] at g1
          rw [m.release_key t0 t e] at g2
          refine ⟨g1, fun ht => ?_⟩
          rcases List.mem_cons.1 ht with rfl | ht
          · exact absurd rfl e
          · exact g2 ht

/-! ## Logged messages -/

/-- A log of messages: its id and the messages. -/
abbrev ItemLog := Int × List Item

/-- The records of a log. -/
def ItemLog.recs (l : ItemLog) : Int × List LogRec := (l.1, l.2.map fun i => LogRec.put i.seq i.record)

/-- The messages of a log, in the time block recovery puts them into. -/
def ItemLog.recovered (r : RecEnv) (l : ItemLog) : List Item := l.2.map fun i => { i with blk := truncTime r.interval l.1 }

theorem lastPut_items (A : List Item) (hn : (A.map Item.seq).Nodup) (q : UInt64) :
    Spec.lastPut (A.map fun i => LogRec.put i.seq i.record) q = memMap A q := by
  induction A with
  | nil => rfl
  | cons i A ih =>
    rw [List.map_cons, List.nodup_cons] at hn
    rw [List.map_cons, Spec.lastPut_cons, ih hn.2]
    simp only [memMap, List.find?_cons]
    by_cases e : i.seq = q
    · subst e
      have : (A.find? fun j => j.seq = i.seq) = none := by
        rw [List.find?_eq_none]
        intro j hj hc
        exact hn.1 (List.mem_map.2 ⟨j, hj, by simpa using hc⟩)
      simp [this]
    · simp [e]

theorem MInv.congr_wal {e : MEnv} {m : MemDb} {f : UInt64 → Option Bytes} (h : MInv e m f) (w : List (Int × Bytes)) : MInv e { m with wal := w } f where
  opened := h.opened
  addr := h.addr
  gone := h.gone
  inj := h.inj
  okb := h.okb
  dead := h.dead
  cur := h.cur
  late := h.late
  recsLate := h.recsLate
  sound := h.sound
  complete := h.complete
  uniq := h.uniq
  filt := h.filt
  query := h.query

theorem DbKnown.full (J : DbKnown (fun i => i ∈ D) v s [] D L led) : DbInv v s [] D L led := by
  obtain ⟨j1, j2, j3, j4, j5, j6, j7, j8, j9, j10, j11, j12, j13, j14, j15, ops, h1, h2, h3⟩ := J
  exact ⟨j1, j2, j3, j4, j5, j6, j7, j8, j9, j10, j11, j12, j13, j14, j15, ops, h1, fun i hi _ => h2 i hi (by simpa using hi), h3⟩

/-- The free space file tells of no free space. -/
def NoFree (f : Bytes) : Prop := f = [] ∨ f = [0, 0, 0, 0]

theorem NoFree.read {f : Bytes} (h : NoFree f) (m : Int) : (Lease.new m).read f = some (Lease.new m) := by
  rcases h with rfl | rfl <;> rfl

/-- The header tells the number of messages in the files, and some sequence not above `n`. -/
def InfoOK (info : Bytes) (q : UInt64) (cnt : UInt64) : Prop :=
  ∃ enc, info = DBInfo.marshal { signature := dbSignature, version := 1, encryption := enc, sequence := q, count := cnt }

/-- Opening finds the messages in the files and those in the logs. -/
theorem openDb_ok (I : DbInv v s U D L led) {d : Disk} (hix : d.index = s.store.index) (hda : d.data = s.store.data) (hwi : d.win = s.winFile)
    (hle : NoFree d.lease) {q : UInt64} (hinf : InfoOK d.info q s.count) {Q : List ItemLog} (hlogs : d.logs = Q.map fun l => encLog l.recs)
    (hQU : ∀ l ∈ Q, ∀ i ∈ l.2, i ∈ U) (hsort : (Q.flatMap (·.2)).Pairwise fun a b => a.seq < b.seq)
    (hids : Q.Pairwise fun a b => a.1 < b.1) (hqne : ∀ l ∈ Q, l.2 ≠ []) (hq : q ≠ 0 ∨ Q = [])
    (hraw : ∀ i ∈ D ++ Q.flatMap (·.2), i.Raw) (hhead : Headed (D ++ Q.flatMap (·.2)))
    (h335 : ∀ h, led.head?.map (·.1) ≠ some h → (D.filter fun i => i.hash = h).length ≤ 335)
    (hlen : s.store.data.length < 2 ^ 63) (hroom : s.winFile.length + 8192 * (Q.flatMap (·.2)).length + 8192 ≤ 2 ^ 31)
    {r : RecEnv} (hlog : ∀ l, (r.orderLog l).Perm l) (hdel : ∀ l, (r.orderDel l).Perm l) {now : Int}
    (hcap : ∀ l ∈ Q, (v.mem.cap : Int) ≤ truncTime r.interval l.1) (hcn : (v.mem.cap : Int) ≤ now) (hnow : ∀ l ∈ Q, truncTime r.interval l.1 < now)
    {m : MemDb} (hm : MemDb.recover v.mem r d.logs now = some (m, .ok)) {e : SyncEnv} (henow : 0 ≤ e.now.toInt) (hord : ∀ m, (e.order m).Perm m)
    (o : OpenOpts) :
    ∃ s' L' b, openDb v o r e now d = .ok s' ∧ DbInv v { s' with seq := s.seq } [] (D ++ Q.flatMap (ItemLog.recovered r)) (L ++ L') (led ++ b) ∧ s'.seq = q ∧
      s'.mem.wal = [] ∧ s'.mem.qblocks = [] ∧ s'.mem.cur = now ∧ s'.mem.mark.released = [] ∧ s'.lastSync = 0 ∧ s'.store.lease = Lease.new o.minFree ∧
      s'.leaseFile = d.lease ∧ s'.immutable = o.immutable ∧ InfoOK s'.info q s'.count ∧
      (∀ t n, s'.mem.mark.records.get t = some n → n = 1) ∧ (s'.mem.mark.records.get now).isSome ∧
      ∀ t a, s'.mem.blocks.get t = some a → t = now ∧ s'.mem.at a = {} := by
  -- the logs
  obtain ⟨G, hG⟩ : ∃ G, G = Q.map ItemLog.recs := ⟨_, rfl⟩
  have hlogs' : d.logs = G.map encLog := by rw [hlogs, hG, List.map_map]; rfl
  have hQ : ∀ l ∈ Q, ∀ i ∈ l.2, i.OK v := fun l hl i hi => I.ok i (List.mem_append_left _ (hQU l hl i hi))
  have hflat : G.flatMap (·.2) = (Q.flatMap (·.2)).map fun i => LogRec.put i.seq i.record := by
    rw [hG, List.flatMap_map, List.map_flatMap]; rfl
  have hGmem : ∀ l ∈ G, ∃ l' ∈ Q, l = l'.recs := fun l hl => by
    rw [hG, List.mem_map] at hl
    obtain ⟨l', h1, h2⟩ := hl
    exact ⟨l', h1, h2.symm⟩
  have hnods : ((Q.flatMap (·.2)).map Item.seq).Nodup := by
    rw [List.Nodup, List.pairwise_map]
    refine hsort.imp ?_
    intro a b h hc
    rw [hc] at h
    exact absurd h (UInt64.lt_irrefl _)
  rw [hlogs'] at hm
  obtain ⟨m1, m2, m3, m4, m5, m6, m7, m8⟩ := MemDb.recover_puts hlog hdel (logs := G) (now := now) (by
      intro l hl x hx
      obtain ⟨l', h1, rfl⟩ := hGmem l hl
      simp only [ItemLog.recs, List.mem_map] at hx
      obtain ⟨i, hi, rfl⟩ := hx
      have h2 := (hQ l' h1 i hi).val
      simp only [LogRec.fits, Item.length_record (hQ l' h1 i hi)]
      omega) (by
      intro l hl x hx
      obtain ⟨l', h1, rfl⟩ := hGmem l hl
      simp only [ItemLog.recs, List.mem_map] at hx
      obtain ⟨i, hi, rfl⟩ := hx
      exact ⟨_, _, rfl⟩) (by
      rw [hG, List.pairwise_map]
      exact hids.imp fun h => Int.le_of_lt h) (by
      rw [hG, List.pairwise_map]
      rw [List.pairwise_flatMap] at hsort
      refine hsort.2.imp ?_
      intro a b hab k d1 d2 h1 h2
      simp only [ItemLog.recs, List.mem_map, LogRec.put.injEq] at h1 h2
      obtain ⟨i, hi, rfl, rfl⟩ := h1
      obtain ⟨j, hj, hji, rfl⟩ := h2
      have := hab i hi j hj
      rw [hji] at this
      exact absurd this (UInt64.lt_irrefl _)) (by
      intro l hl
      obtain ⟨l', h1, rfl⟩ := hGmem l hl
      exact hcap l' h1) hcn (by
      intro l hl
      obtain ⟨l', h1, rfl⟩ := hGmem l hl
      exact hnow l' h1) hm
  rw [← hlogs'] at hm
  rw [hflat] at m1
  -- the recovered messages
  obtain ⟨V, hV⟩ : ∃ V, V = Q.flatMap (ItemLog.recovered r) := ⟨_, rfl⟩
  have hVmem : ∀ j, j ∈ V ↔ ∃ l ∈ Q, ∃ i ∈ l.2, j = { i with blk := truncTime r.interval l.1 } := by
    intro j
    rw [hV, List.mem_flatMap]
    constructor
    · rintro ⟨l, hl, hj⟩
      simp only [ItemLog.recovered, List.mem_map] at hj
      obtain ⟨i, hi, rfl⟩ := hj
      exact ⟨l, hl, i, hi, rfl⟩
    · rintro ⟨l, hl, i, hi, rfl⟩
      exact ⟨l, hl, List.mem_map.2 ⟨i, hi, rfl⟩⟩
  have hVmap : ∀ {β : Type} (f : Item → β), (∀ i t, f { i with blk := t } = f i) → V.map f = (Q.flatMap (·.2)).map f := by
    intro β f hf
    rw [hV, List.map_flatMap, List.map_flatMap]
    congr 1
    funext l
    rw [ItemLog.recovered, List.map_map]
    exact List.map_congr_left fun i _ => hf i _
  have hVseq : V.map Item.seq = (Q.flatMap (·.2)).map Item.seq := hVmap _ fun _ _ => rfl
  have hVrec : V.map (fun i => LogRec.put i.seq i.record) = (Q.flatMap (·.2)).map fun i => LogRec.put i.seq i.record := hVmap _ fun _ _ => rfl
  have hVn : (V.map Item.seq).Nodup := by rw [hVseq]; exact hnods
  have hVok : ∀ j ∈ V, j.OK v := by
    intro j hj
    obtain ⟨l, hl, i, hi, rfl⟩ := (hVmem j).1 hj
    have h := hQ l hl i hi
    exact ⟨h.pre, h.contract, h.raw, h.val, h.opens, h.lo, h.hi, h.plain, h.levels⟩
  have hVsort : V.Pairwise fun a b => a.seq < b.seq := by
    have h1 : (V.map Item.seq).Pairwise (· < ·) := by rw [hVseq, List.pairwise_map]; exact hsort
    rw [List.pairwise_map] at h1
    exact h1
  have hVin : ∀ j ∈ V, ∃ i ∈ U, i.seq = j.seq := by
    intro j hj
    obtain ⟨l, hl, i, hi, rfl⟩ := (hVmem j).1 hj
    exact ⟨i, hQU l hl i hi, rfl⟩
  have hVlen : V.length = (Q.flatMap (·.2)).length := by
    have := congrArg List.length hVseq
    simpa using this
  -- the trie
  obtain ⟨ops, ho1, ho2, ho3, ho4⟩ := I.load hlen (fun i hi => hraw i (List.mem_append_left _ hi)) hhead.append_left h335
  -- the header
  obtain ⟨enc, henc⟩ := hinf
  obtain ⟨j, hj1, hj2, hj3, hj4, hj5⟩ := C01_header_roundtrip { signature := dbSignature, version := 1, encryption := enc, sequence := q, count := s.count } rfl
  rw [← henc] at hj1
  have hinfne : d.info ≠ [] := by
    intro hc
    rw [hc] at hj1
    simp [DBInfo.unmarshal, slice?] at hj1
  obtain ⟨s0, hs0⟩ : ∃ s0 : Db, s0 = {
      immutable := o.immutable, enc := if o.enc then 1 else j.encryption, seq := j.sequence, count := j.count
      mem := { m with wal := d.logs }, trie := Trie.ofTopics ops, store := ⟨d.index, d.data, Lease.new o.minFree⟩, winFile := d.win, info := d.info, leaseFile := d.lease } := ⟨_, rfl⟩
  have hopen : openDb v o r e now d = match s0.recoverLog e with
      | none => .unmodelled
      | some (s, true) => .ok s
      | some (s, false) => .failed s.disk := by
    simp only [openDb, if_neg hinfne, hj1]
    rw [if_neg (by rw [hj2]; simp)]
    simp only [hm, hix, hda, hwi, ho1, hle.read o.minFree]
    rw [hs0, hix, hda, hwi]
    rfl
  -- the state before recovery of the log
  have hSI : SInv ⟨s.store.index, s.store.data, Lease.new o.minFree⟩ L [] := by
    obtain ⟨g0, e0⟩ := Lease.good_new o.minFree
    have hS := I.store
    refine ⟨hS.file, ⟨by simp, g0, ⟨?_, ?_, g0.size⟩, ?_, hS.data.bytes⟩, hS.loc, hS.sub⟩
    · rw [show (Lease.new o.minFree).all = [] from e0, List.append_nil]
      exact (List.pairwise_append.1 hS.data.sound.apart).1
    · intro b hb
      rw [show (Lease.new o.minFree).all = [] from e0, List.append_nil] at hb
      exact hS.data.sound.pos b (List.mem_append_left _ hb)
    · intro b hb
      rw [show (Lease.new o.minFree).all = [] from e0] at hb
      cases hb
  have hmm : ∀ x, Spec.lastPut ((Q.flatMap (·.2)).map fun i => LogRec.put i.seq i.record) x = memMap V x := by
    intro x
    rw [← hVrec, lastPut_items V hVn]
  have hmemeq : Spec.lastPut ((Q.flatMap (·.2)).map fun i => LogRec.put i.seq i.record) = memMap V := funext hmm
  rw [hmemeq] at m1
  have hDn : (D.map Item.seq).Nodup := by
    have := I.nodup; rw [List.map_append] at this; exact (List.nodup_append.1 this).2.1
  have J : Recovering v s.seq s0 V D L led := by
    rw [hs0, hix, hda, hwi]
    exact {
      opened := rfl
      ok := by
        intro i hi
        rcases List.mem_append.1 hi with h | h
        · exact hVok i h
        · exact I.ok i (List.mem_append_right _ h)
      nodup := by
        rw [List.map_append, List.nodup_append]
        refine ⟨hVn, hDn, ?_⟩
        rintro a ha b hb rfl
        obtain ⟨x, hx, rfl⟩ := List.mem_map.1 ha
        obtain ⟨i, hi, hix⟩ := hVin x hx
        have hn := I.nodup
        rw [List.map_append, List.nodup_append] at hn
        exact hn.2.2 _ (List.mem_map_of_mem hi) _ hb hix
      seqs := by
        intro i hi
        rcases List.mem_append.1 hi with h | h
        · obtain ⟨x, hx, e⟩ := hVin i h
          rw [← e]
          exact I.seqs x (List.mem_append_left _ hx)
        · exact I.seqs i (List.mem_append_right _ h)
      mem := m1.congr_wal _
      ready := m2
      blk := by
        intro t k
        have h1 : ({ m with wal := d.logs } : MemDb).Where t k ↔ m.Where t k := Iff.rfl
        show ({ m with wal := d.logs } : MemDb).Where t k ↔ _
        rw [h1, m4 t k]
        constructor
        · rintro ⟨l, hl, rfl, x, hx⟩
          obtain ⟨l', h2, rfl⟩ := hGmem l hl
          simp only [ItemLog.recs, List.mem_map, LogRec.put.injEq] at hx
          obtain ⟨i, hi, rfl, rfl⟩ := hx
          exact ⟨{ i with blk := truncTime r.interval l'.1 }, (hVmem _).2 ⟨l', h2, i, hi, rfl⟩, rfl, rfl⟩
        · rintro ⟨x, hx, rfl, rfl⟩
          obtain ⟨l, hl, i, hi, rfl⟩ := (hVmem x).1 hx
          refine ⟨l.recs, by rw [hG]; exact List.mem_map_of_mem hl, rfl, i.record, ?_⟩
          exact List.mem_map.2 ⟨i, hi, rfl⟩
      winNodup := (winOf_spec V).1
      win := (winOf_spec V).2.1
      winNe := (winOf_spec V).2.2
      store := hSI
      stored := I.stored
      count := by show j.count = _; rw [hj5]; exact I.count
      hist := ⟨_, ho2⟩
      synced := I.synced
      trie := by
        refine ⟨ops, rfl, fun i _ hi => ho3 i hi, ?_⟩
        intro c key off hop
        obtain ⟨i, hi, h⟩ := ho4 c key off hop
        exact ⟨i, List.mem_append_right _ hi, h⟩ }
  have hinf0 : InfoOK s0.info q s0.count := ⟨enc, by rw [hs0]; show d.info = _; rw [henc, hj5]⟩
  have hseq0 : s0.seq = q := by rw [hs0]; exact hj4
  rw [hopen]
  by_cases hz : q = 0
  · -- no log
    have hQ0 : Q = [] := hq.resolve_left (fun h => h hz)
    have hV0 : V = [] := by rw [hV, hQ0]; rfl
    rw [hV0] at J
    have hrl : s0.recoverLog e = some (s0, true) := by
      rw [Db.recoverLog, if_pos (by rw [hseq0, hz])]
    rw [hrl]
    refine ⟨s0, [], [], rfl, ?_, hseq0, ?_, ?_, ?_, ?_, ?_, ?_, ?_, ?_, hinf0, by rw [hs0]; exact m6, by rw [hs0]; exact m7, ?_⟩
    · rw [← hV, hV0, List.append_nil, List.append_nil, List.append_nil]
      have J' := J.frame (s' := { s0 with seq := s.seq }) rfl rfl rfl (by rw [hs0]; rfl) rfl rfl rfl rfl
      exact J'.full
    · rw [hs0]; show d.logs = []; rw [hlogs, hQ0]; rfl
    · rw [hs0]; exact m5.unread
    · rw [hs0]; exact m3
    · rw [hs0]
      show m.mark.released = []
      rw [List.eq_nil_iff_forall_not_mem]
      intro p hp
      obtain ⟨id, hid, _⟩ := m5.only p hp
      rw [hG, hQ0] at hid
      cases hid
    · rw [hs0]
    · rw [hs0]
    · rw [hs0]
    · rw [hs0]
    · intro t a h
      rw [hs0] at h ⊢
      rcases m8 t a h with h | ⟨l, hl, _⟩
      · exact h
      · rw [hG, hQ0] at hl; cases hl
  · -- the log is recovered
    obtain ⟨w, w1, w2, w3⟩ := newBlockWriter_spec (show SInv s0.store L [] from J.store)
    have hS0 : Syncing s0 ⟨w, newWindowWriter s0.winFile⟩ L led :=
      ⟨w2, w3, by rw [hs0, hwi]; exact ho2, by rw [hs0]; exact m5.unread⟩
    have hrels : s0.mem.mark.released = m.mark.released := by rw [hs0]
    have hts : ∀ t, t ∈ s0.mem.mark.allRefs ↔ ∃ l ∈ Q, truncTime r.interval l.1 = t := by
      intro t
      rw [TimeMark.allRefs, List.mem_insertionSort, hrels]
      constructor
      · intro h
        obtain ⟨p, hp, rfl⟩ := List.mem_map.1 h
        obtain ⟨id, hid, h2⟩ := m5.only p hp
        rw [hG, List.map_map, List.mem_map] at hid
        obtain ⟨l, hl, rfl⟩ := hid
        exact ⟨l, hl, h2⟩
      · rintro ⟨l, hl, rfl⟩
        exact m5.done l.1 (by rw [hG, List.map_map]; exact List.mem_map.2 ⟨l, hl, rfl⟩)
    have hcur0 : s0.mem.cur = now := by rw [hs0]; exact m3
    have hVblk : ∀ i ∈ V, i.blk ∈ s0.mem.mark.allRefs := by
      intro i hi
      obtain ⟨l, hl, x, hx, rfl⟩ := (hVmem i).1 hi
      exact (hts _).2 ⟨l, hl, rfl⟩
    have hsorted : s0.mem.mark.allRefs.Pairwise (· < ·) := by
      have h1 : s0.mem.mark.allRefs.Pairwise (· ≤ ·) := List.pairwise_insertionSort _ _
      have h2 : s0.mem.mark.allRefs.Nodup := by
        rw [TimeMark.allRefs, (List.perm_insertionSort _ _).nodup_iff, hrels]
        exact m5.nodup
      exact (h1.and h2).imp fun h => by omega
    have hmono : ∀ i ∈ V, ∀ j ∈ V, i.blk < j.blk → i.seq < j.seq := by
      intro i hi j hj hlt
      obtain ⟨l, hl, x, hx, rfl⟩ := (hVmem i).1 hi
      obtain ⟨l', hl', y, hy, rfl⟩ := (hVmem j).1 hj
      simp only at hlt ⊢
      have hll : l.1 < l'.1 := by
        by_contra hc
        have := truncTime_mono r.interval (show l'.1 ≤ l.1 by omega)
        omega
      -- the logs are in order
      rw [List.pairwise_flatMap] at hsort
      have key : ∀ (Q : List ItemLog), Q.Pairwise (fun a b => a.1 < b.1) → Q.Pairwise (fun a b => ∀ x ∈ a.2, ∀ y ∈ b.2, x.seq < y.seq) →
          l ∈ Q → l' ∈ Q → x.seq < y.seq := by
        intro Q
        induction Q with
        | nil => intro _ _ h; cases h
        | cons a Q ih =>
          intro p1 p2 h1 h2
          rw [List.pairwise_cons] at p1 p2
          rcases List.mem_cons.1 h1 with g1 | g1
          · rcases List.mem_cons.1 h2 with g2 | g2
            · rw [g1, g2] at hll; omega
            · rw [← g1] at p2; exact p2.1 l' g2 x hx y hy
          · rcases List.mem_cons.1 h2 with g2 | g2
            · have := p1.1 l g1; rw [← g2] at this; omega
            · exact ih p1.2 p2.2 g1 g2
      exact key Q hids hsort.2 hl hl'
    have hsi : syncItems V s0.mem.mark.allRefs = V := by
      have h1 := syncItems_order s0.mem.mark.allRefs hVsort hmono hsorted (fun i hi _ _ _ => hVblk i hi)
      have h2 : (V.filter fun i => i.blk ∉ s0.mem.mark.allRefs) = [] := by
        rw [List.filter_eq_nil_iff]
        intro i hi
        simp [hVblk i hi]
      rw [h2, List.append_nil] at h1
      exact h1
    have hVraw : ∀ i ∈ V, i.Raw := by
      intro i hi
      obtain ⟨l, hl, x, hx, rfl⟩ := (hVmem i).1 hi
      exact hraw x (List.mem_append_right _ (List.mem_flatMap.2 ⟨l, hl, hx⟩))
    have hVhead : Headed (D ++ V) := by
      intro h i hi
      have e : ((D ++ V).filter fun i => i.hash = h).map Item.raw = ((D ++ Q.flatMap (·.2)).filter fun i => i.hash = h).map Item.raw := by
        have h1 : (V.filter fun i => i.hash = h).map Item.raw = ((Q.flatMap (·.2)).filter fun i => i.hash = h).map Item.raw := by
          have h2 : ∀ A : List Item, (A.filter fun i => i.hash = h).map Item.raw = (A.map fun i => (i.hash, i.raw)).filterMap fun p => if p.1 = h then some p.2 else none := by
            intro A
            induction A with
            | nil => rfl
            | cons a A ih =>
              rw [List.filter_cons, List.map_cons, List.filterMap_cons]
              by_cases e : a.hash = h
              · rw [if_pos (by simpa using e), if_pos e, List.map_cons, ih]
              · rw [if_neg (by simpa using e), if_neg e, ih]
          rw [h2, h2, hVmap (fun i => (i.hash, i.raw)) fun _ _ => rfl]
        rw [List.filter_append, List.filter_append, List.map_append, List.map_append, h1]
      have h3 : (((D ++ Q.flatMap (·.2)).filter fun i => i.hash = h).map Item.raw).head? = some i.raw := by
        rw [← e, List.head?_map, hi]; rfl
      rw [List.head?_map, Option.map_eq_some_iff] at h3
      obtain ⟨x, hx, hxr⟩ := h3
      rw [← hxr]
      exact hhead h x hx
    have hidx : (newWindowWriter s0.winFile).windowIdx + 2 * (V.length : Nat) ≤ 524286 := by
      rw [hVlen]
      have : s0.winFile = s.winFile := by rw [hs0, hwi]
      rw [this]
      simp only [newWindowWriter, blockSize]
      split <;> omega
    obtain ⟨s1, h1, L', b, c1, c2, c3, c4, c5, c6, c7, c8, c9, c10, c11, c12⟩ := J.blocks henow hord s0.mem.mark.allRefs hS0 (by
      intro t ht
      obtain ⟨l, hl, rfl⟩ := (hts t).1 ht
      have := hnow l hl
      rw [hcur0]; omega) hVraw (by rw [hsi]; exact hVhead) hidx []
    have hV' : (V.filter fun i => i.blk ∉ s0.mem.mark.allRefs) = [] := by
      rw [List.filter_eq_nil_iff]
      intro i hi
      simp [hVblk i hi]
    rw [hV', hsi] at c2
    have hord0 : e.order [] = [] := List.perm_nil.1 (hord [])
    have hrl : s0.recoverLog e = some ({ s1 with lastSync := 0 }, true) := by
      rw [Db.recoverLog, if_neg (by rw [hseq0]; exact hz)]
      simp only [w1, Option.bind_eq_bind, Option.bind_some, c1, hord0, appendWins, pure]
    rw [hrl]
    have hkeys : ∀ t, s0.mem.blockKeys t = (itemsOf V t).map Item.seq := fun t => DbKnown.keys J t
    have hkne : ∀ l ∈ Q, s0.mem.blockKeys (truncTime r.interval l.1) ≠ [] := by
      intro l hl
      obtain ⟨i, hi⟩ := List.exists_mem_of_ne_nil _ (hqne l hl)
      rw [hkeys]
      intro hc
      have : ({ i with blk := truncTime r.interval l.1 } : Item) ∈ itemsOf V (truncTime r.interval l.1) :=
        mem_itemsOf.2 ⟨(hVmem _).2 ⟨l, hl, i, hi, rfl⟩, rfl⟩
      rw [List.map_eq_nil_iff.1 hc] at this
      cases this
    obtain ⟨b1, b2, b3⟩ := relAll_blocks s0.mem.mark.allRefs s0.mem
    rw [← c5] at b1 b2 b3
    have hm8 : ∀ t a, s1.mem.blocks.get t = some a → t = now ∧ s1.mem.at a = {} := by
      intro t a h
      obtain ⟨g1, g2⟩ := b3 t a h
      rw [b2]
      have g1' : m.blocks.get t = some a := by rw [hs0] at g1; exact g1
      rcases m8 t a g1' with h | ⟨l, hl, h⟩
      · rw [hs0]; exact h
      · exfalso
        obtain ⟨l', h1, rfl⟩ := hGmem l hl
        have h : truncTime r.interval l'.1 = t := h
        exact hkne l' h1 (by rw [h]; exact g2 ((hts t).2 ⟨l', h1, h⟩))
    refine ⟨_, L', b, rfl, ?_, ?_, ?_, ?_, ?_, ?_, rfl, ?_, ?_, ?_, ?_, (by show ∀ t n, s1.mem.mark.records.get t = some n → n = 1; rw [b1, hs0]; exact m6),
      (by show (s1.mem.mark.records.get now).isSome; rw [b1, hs0]; exact m7), hm8⟩
    · rw [← hV]
      have J' := DbKnown.frame c2 (s' := { s1 with lastSync := 0, seq := s.seq }) rfl rfl rfl (by show s1.win = winOf []; rw [c11, hs0]; rfl) rfl rfl rfl rfl
      exact J'.full
    · show s1.seq = q; rw [c10, hseq0]
    · show s1.mem.wal = []
      rw [c5, List.eq_nil_iff_forall_not_mem]
      intro l hl
      obtain ⟨g1, g2⟩ := relAll_wal _ _ l hl
      have g1 : l ∈ d.logs := by rw [hs0] at g1; exact g1
      rw [hlogs, List.mem_map] at g1
      obtain ⟨l', hl', rfl⟩ := g1
      obtain ⟨a, ha, hr⟩ := m5.refs l'.1 (by rw [hG, List.map_map]; exact List.mem_map.2 ⟨l', hl', rfl⟩)
      exact g2 _ ((hts _).2 ⟨l', hl', rfl⟩) (hkne l' hl') a (by rw [hs0]; exact ha) (by rw [hs0]; exact hr)
    · exact c3.unread
    · show s1.mem.cur = now; rw [c4, hcur0]
    · show s1.mem.mark.released = []
      rw [c5, List.eq_nil_iff_forall_not_mem]
      intro p hp
      obtain ⟨g1, g2⟩ := relAll_released _ _ (by
        intro t ht _
        obtain ⟨l, hl, rfl⟩ := (hts t).1 ht
        obtain ⟨a, ha, _⟩ := m5.refs l.1 (by rw [hG, List.map_map]; exact List.mem_map.2 ⟨l, hl, rfl⟩)
        rw [hs0]
        show (m.blocks.get _).isSome
        rw [ha]; rfl) p hp
      obtain ⟨id, hid, h2⟩ := m5.only p (by rw [hs0] at g1; exact g1)
      rw [hG, List.map_map, List.mem_map] at hid
      obtain ⟨l, hl, rfl⟩ := hid
      exact g2 p.1 ((hts _).2 ⟨l, hl, h2⟩) (by rw [← h2]; exact hkne l hl) rfl
    · show s1.store.lease = _
      rw [c6 (by rw [hs0]; exact (Lease.good_new o.minFree).2), hs0]
    · show s1.leaseFile = _; rw [c9, hs0]
    · show s1.immutable = _; rw [c8, hs0]
    · show InfoOK s1.info q s1.count
      rcases c12 with rfl | h
      · exact hinf0
      · exact ⟨s1.enc, by rw [h, Db.infoBytes, c10, hseq0]⟩

end Verif
