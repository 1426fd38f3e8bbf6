import Verif.Model.DbBatch

/-!
# The invariant of a database with a batch

While a batch is open its time block is the newest one. The state in which that block is the current one satisfies the invariant
of a running database.
-/

namespace Verif

/-- The store with another current time. -/
def MemDb.atTime (m : MemDb) (t : Int) : MemDb := { m with cur := t }

def Db.atTime (s : Db) (t : Int) : Db := { s with mem := s.mem.atTime t }

theorem MInv.mark {e : MEnv} {s : MemDb} {m : UInt64 → Option Bytes} (h : MInv e s m) (k : TimeMark) : MInv e { s with mark := k } m :=
  ⟨h.opened, h.addr, h.gone, h.inj, h.okb, h.dead, h.cur, h.late, h.recsLate, h.sound, h.complete, h.uniq, h.filt, h.query⟩

theorem MemDb.atTime_putAt (e : MEnv) (s : MemDb) (t : Int) (k : UInt64) (d : Bytes) :
    (s.atTime t).put e k d = ((s.putAt e t k d).1.atTime t, (s.putAt e t k d).2) := by
  have e1 : (s.atTime t).closed = s.closed := rfl
  have e2 : (s.atTime t).blocks = s.blocks := rfl
  have e3 : (s.atTime t).cur = t := rfl
  have e4 : ∀ a, (s.atTime t).at a = s.at a := fun _ => rfl
  simp only [MemDb.put, MemDb.putAt, e1, e2, e3, e4]
  cases hc : s.closed with
  | true => simp
  | false =>
    simp only [Bool.false_eq_true, if_false]
    cases hb : s.blocks.get t with
    | none => rfl
    | some a =>
      simp only
      cases hp : (s.at a).put e.cap ⟨false, k⟩ d with
      | none => rfl
      | some b => rfl

theorem MemDb.atTime_addTimeBlock (s : MemDb) (t : Int) : (s.addTimeBlock t).atTime t = { s.rotate t with mark := s.mark } := by
  simp only [MemDb.atTime, MemDb.rotate, MemDb.addTimeBlock]
  split <;> rfl

theorem MemDb.atTime_rotate (s : MemDb) (t t' : Int) : (s.atTime t).rotate t' = s.rotate t' := by
  simp only [MemDb.atTime, MemDb.rotate, MemDb.addTimeBlock]
  split <;> rfl

theorem MemDb.atTime_mark (s : MemDb) (t : Int) (k : TimeMark) : ({ s with mark := k } : MemDb).atTime t = { s.atTime t with mark := k } := rfl

theorem MemDb.atTime_write (s : MemDb) (u id t : Int) (b : Bool) : (s.write id t b).atTime u = (s.atTime u).write id t b := by
  cases hb : s.blocks.get t with
  | none => cases b <;> simp [MemDb.write, MemDb.atTime, hb]
  | some a =>
    have hat : MemDb.at { s with cur := u } a = s.at a := rfl
    by_cases hl : (s.at a).data.drop (s.at a).lastOffset = []
    · cases b <;> simp only [MemDb.write, MemDb.atTime, hb, hat, if_pos hl, Bool.false_eq_true, if_false, if_true]
    · cases b <;> simp only [MemDb.write, MemDb.atTime, hb, hat, if_neg hl, Bool.false_eq_true, if_false, if_true] <;> rfl

variable {v : DbEnv} {s : Db} {U D : List Item} {L : Loc} {led : List (UInt64 × List WinEntry)}

theorem DbInv.mark (I : DbInv v s U D L led) (k : TimeMark) : DbInv v { s with mem := { s.mem with mark := k } } U D L led :=
  I.frame (n := s.seq) (le_refl _) (I.mem.mark k) I.ready fun _ _ => Iff.rfl

/-- A new block for the batch. -/
theorem DbInv.block (I : DbInv v s U D L led) (t : Int) (h : s.mem.cur ≤ t) :
    DbInv v (({ s with mem := s.mem.addTimeBlock t } : Db).atTime t) U D L led := by
  have := (I.rotate t h).mark s.mem.mark
  rw [← MemDb.atTime_addTimeBlock] at this
  exact this

/-! ## The buffer -/

theorem slice?_mono {b s : Bytes} {lo hi : Nat} (h : slice? b lo hi = some s) (z : Bytes) : slice? (b ++ z) lo hi = some s := by
  have hle := slice?_le h
  rw [slice?, if_pos hle, Option.some.injEq] at h
  rw [slice?, if_pos ⟨hle.1, by rw [List.length_append]; omega⟩]
  rw [← h, List.drop_append_of_le_length (by omega), List.take_append_of_le_length (by rw [List.length_drop]; omega)]

theorem get32_mono {b : Bytes} {off : Nat} {x : UInt32} (h : get32 b off = some x) (z : Bytes) : get32 (b ++ z) off = some x := by
  simp only [get32, Option.map_eq_some_iff] at h ⊢
  obtain ⟨y, h1, h2⟩ := h
  exact ⟨y, slice?_mono h1 z, h2⟩

/-- What was in the buffer stays in it. -/
theorem DBatch.entryAt_append {b : DBatch} {off : Nat} {x : EntryHdr × Bytes} (h : b.entryAt off = some x) (del : Bool) (rec : Bytes) :
    (b.append del rec).entryAt off = some x := by
  simp only [DBatch.entryAt, Option.bind_eq_some_iff, Option.map_eq_some_iff] at h ⊢
  obtain ⟨n, h1, hd, ⟨y, h2, h3⟩, d, h4, rfl⟩ := h
  simp only [DBatch.append, List.append_assoc]
  exact ⟨n, get32_mono h1 _, hd, ⟨y, slice?_mono h2 _, h3⟩, d, slice?_mono h4 _, rfl⟩

/-- What goes into the buffer can be read. -/
theorem DBatch.entryAt_new (b : DBatch) (del : Bool) {i : Item} (hok : i.OK v) :
    (b.append del i.record).entryAt b.buf.length = some (i.hdr, i.record) := by
  have hl := Item.length_record hok
  have hv := hok.val
  have hn : (UInt32.ofNat (i.record.length + 4)).toNat = i.record.length + 4 := by
    simp only [UInt32.toNat_ofNat']; omega
  simp only [DBatch.entryAt, Option.bind_eq_some_iff, Option.map_eq_some_iff]
  refine ⟨UInt32.ofNat (i.record.length + 4), ?_, i.hdr, ⟨i.hdr.marshal, ?_, ?_⟩, i.record, ?_, rfl⟩
  · exact get32_mid _ _ _ _ rfl
  · simp only [DBatch.append, Item.record]
    rw [show b.buf ++ put32 (UInt32.ofNat ((i.hdr.marshal ++ i.body).length + 4)) ++ (i.hdr.marshal ++ i.body) =
      (b.buf ++ put32 (UInt32.ofNat ((i.hdr.marshal ++ i.body).length + 4))) ++ i.hdr.marshal ++ i.body by simp]
    exact slice?_mid _ _ _ _ _ (by simp) (by simp [EntryHdr.length_marshal, entrySize])
  · have := C06_entry_header_roundtrip i.hdr []
    simpa using this
  · simp only [DBatch.append]
    have := slice?_mid (b.buf ++ put32 (UInt32.ofNat (i.record.length + 4))) i.record [] (b.buf.length + 4)
      (b.buf.length + (UInt32.ofNat (i.record.length + 4)).toNat) (by simp) (by rw [hn]; simp; omega)
    simpa using this

/-! ## The trie -/

theorem Item.Carries.mono {i : Item} {t t' : Trie} (h : i.Carries t) (hm : ∀ x, (t.getOffset x).isSome → (t'.getOffset x).isSome) : i.Carries t' := by
  rcases h with ⟨a, b⟩ | h
  · exact .inl ⟨a, hm _ b⟩
  · exact .inr h

/-- The same item in another block. -/
def Item.on (i : Item) (t : Int) : Item := { i with blk := t }

theorem Item.OK.on {i : Item} (h : i.OK v) (t : Int) : (i.on t).OK v := ⟨h.pre, h.contract, h.raw, h.val, h.opens, h.lo, h.hi, h.plain, h.levels⟩

/-- One step of a `Write` on the trie. -/
theorem batchTopic_step {i : Item} (hok : i.OK v) {t t' : Trie} {topics topics' : AMap UInt64 Topic} (hc : i.Carries t)
    (hk : ∀ h p, topics.get h = some p → (t.getOffset h).isSome) (h : batchTopic topics t i.hdr i.record = some (topics', t')) {ops : List TopicOp}
    (ht : t = Trie.ofTopics ops) :
    (t' = Trie.ofTopics (ops ++ [.add i.contract i.topic 0]) ∧ offsOf t' = offsOf t) ∧
    (∀ x, (t.getOffset x).isSome → (t'.getOffset x).isSome) ∧ ∀ h p, topics'.get h = some p → (t'.getOffset h).isSome := by
  have hI := trieInv_run (ops.map TopicOp.toTrie)
  have hmono : ∀ ps d x, (t.getOffset x).isSome → ((t.add ⟨i.hash, 0⟩ ps d).getOffset x).isSome := by
    intro ps d x hx
    rw [ht, TrieInv.getOffset_add (s := Trie.ofTopics ops) hI]
    split
    · rfl
    · rw [← ht]; exact hx
  obtain ⟨hT1, hT2, hT3⟩ := parseTopic_fits i.contract i.topic hok.plain hok.levels
  simp only [batchTopic] at h
  split at h
  · next h0 =>
    simp only [Option.some.injEq, Prod.mk.injEq] at h
    obtain ⟨rfl, rfl⟩ := h
    refine ⟨?_, fun _ h => h, hk⟩
    rcases hc with ⟨_, hx⟩ | hr
    · exact ⟨addTopic_known ht i.contract i.topic hx, rfl⟩
    · have := congrArg UInt16.toNat h0
      rw [show i.hdr.topicSize = i.topicSize from rfl, Item.topicSize_toNat hok, hr] at this
      simp only [UInt16.toNat_ofNat] at this
      omega
  · next h0 =>
    have hr : i.raw = (parseTopic i.contract i.topic).1.marshal := by
      rcases hc with ⟨hx, _⟩ | hr
      · exact absurd (show UInt16.ofNat i.raw.length = 0 by rw [hx]; rfl) h0
      · exact hr
    split at h
    · next p hp =>
      simp only [Option.some.injEq, Prod.mk.injEq] at h
      obtain ⟨rfl, rfl⟩ := h
      have hkn := hk _ _ hp
      have e : t.add ⟨i.hash, 0⟩ p.parts p.depth = t := by
        subst ht
        exact TrieInv.add_known hI ⟨i.hash, 0⟩ _ _ hkn
      show (t.add ⟨i.hash, 0⟩ p.parts p.depth = _ ∧ offsOf (t.add ⟨i.hash, 0⟩ p.parts p.depth) = _) ∧
        (∀ x, _ → ((t.add ⟨i.hash, 0⟩ p.parts p.depth).getOffset x).isSome) ∧ ∀ h q, _ → ((t.add ⟨i.hash, 0⟩ p.parts p.depth).getOffset h).isSome
      rw [e]
      exact ⟨⟨addTopic_known ht i.contract i.topic hkn, rfl⟩, fun _ h => h, hk⟩
    · next hp =>
      have hsl := Item.rawTopic hok (by rw [hr]; exact hT3)
      rw [show i.hdr.topicSize = i.topicSize from rfl, hsl, hr, Option.bind_some, hT1, Option.map_some] at h
      simp only [Option.some.injEq, Prod.mk.injEq] at h
      obtain ⟨rfl, rfl⟩ := h
      refine ⟨addTopic_fresh ht i.contract i.topic, hmono _ _, ?_⟩
      intro h' p' hg
      rw [AMap.get_set] at hg
      split at hg
      · next e' =>
        rw [e']
        show ((t.add ⟨i.hash, 0⟩ _ _).getOffset i.hash).isSome
        rw [ht, TrieInv.getOffset_add (s := Trie.ofTopics ops) hI]
        cases hx : (Trie.ofTopics ops).getOffset i.hash with
        | none => rw [if_pos ⟨rfl, rfl⟩]; rfl
        | some o => rw [if_neg (by rintro ⟨_, h⟩; cases h)]; rfl
      · exact hmono _ _ _ (hk _ _ hg)

/-! ## Write -/

/-- The entries of a batch in progress. -/
def DBatch.Holds (b : DBatch) (P : List Item) : Prop := List.Forall₂ (fun x i => x.1 = false ∧ b.entryAt x.2 = some (i.hdr, i.record)) b.index P

/-- The entries of a batch go into memory. -/
theorem DbInv.storeBatch (b : DBatch) : ∀ (index : List (Bool × Nat)) (P : List Item) (s s' : Db) (U : List Item) (topics : AMap UInt64 Topic),
    List.Forall₂ (fun x i => x.1 = false ∧ b.entryAt x.2 = some (i.hdr, i.record)) index P →
    DbInv v (s.atTime b.mem.tid) U D L led → (∀ i ∈ P, i.OK v ∧ i.seq.toNat ≤ s.seq.toNat ∧ i.Carries s.trie) →
    ((U ++ D ++ P).map Item.seq).Nodup → (∀ h p, topics.get h = some p → (s.trie.getOffset h).isSome) →
    DBatch.store v b index topics s = (s', .ok, false) →
    DbInv v (s'.atTime b.mem.tid) (U ++ P.map (·.on b.mem.tid)) D L led ∧ s'.mem.qblocks = s.mem.qblocks ∧ s'.mem.mark = s.mem.mark ∧ s'.seq = s.seq := by
  intro index
  induction index with
  | nil =>
    intro P s s' U topics hf I _ _ _ h
    cases hf
    simp only [DBatch.store, Prod.mk.injEq, and_true] at h
    subst h
    simpa using I
  | cons x rest ih =>
    intro P s s' U topics hf I hP hn hk h
    cases hf with
    | cons hx hrest =>
    next i P =>
    obtain ⟨hdel, hent⟩ := hx
    obtain ⟨hok, hle, hcar⟩ := hP i (by simp)
    obtain ⟨ops, htr, _⟩ := I.trie
    have htr : s.trie = Trie.ofTopics ops := htr
    simp only [DBatch.store, hent, hdel, Bool.false_eq_true, false_and, if_false] at h
    split at h
    · simp at h
    · next topics' t hbt =>
      obtain ⟨hT, hmono, hk'⟩ := batchTopic_step hok hcar hk hbt htr
      split at h
      · next m hm =>
        have hput : (s.atTime b.mem.tid).mem.put v.mem i.seq (i.on b.mem.tid).record = (m.atTime b.mem.tid, .ok) := by
          have := MemDb.atTime_putAt v.mem s.mem b.mem.tid i.seq i.record
          rw [show s.mem.putAt v.mem b.mem.tid i.seq i.record = (m, .ok) from hm] at this
          exact this
        have hperm : (U ++ D ++ i :: P).Perm (i :: (U ++ D ++ P)) := List.perm_middle
        have hn' := ((hperm.map Item.seq).nodup_iff).1 hn
        rw [List.map_cons, List.nodup_cons] at hn'
        obtain ⟨I', hq⟩ := I.add (i := i.on b.mem.tid) (hok.on _) rfl (by
          intro j hj e
          exact hn'.1 (List.mem_map.2 ⟨j, List.mem_append_left _ hj, e⟩)) hle hput (by
          intro ops' ht'
          exact (batchTopic_step hok hcar hk hbt ht').1)
        have hpm : (s.mem.putAt v.mem b.mem.tid i.seq i.record).1.mark = s.mem.mark := by
          simp only [MemDb.putAt]
          repeat' split
          all_goals rfl
        rw [show s.mem.putAt v.mem b.mem.tid i.seq i.record = (m, .ok) from hm] at hpm
        obtain ⟨r1, r2, r3, r4⟩ := ih P _ s' (U ++ [i.on b.mem.tid]) topics' hrest I' (by
          intro j hj
          obtain ⟨a, b', c⟩ := hP j (by simp [hj])
          exact ⟨a, b', c.mono hmono⟩) (by
          have hp2 : ((U ++ [i.on b.mem.tid] ++ D ++ P).map Item.seq).Perm (i.seq :: (U ++ D ++ P).map Item.seq) := by
            have : (U ++ [i.on b.mem.tid] ++ D ++ P).Perm ((i.on b.mem.tid) :: (U ++ D ++ P)) := by
              simp only [List.append_assoc]; exact List.perm_middle
            exact this.map Item.seq
          rw [hp2.nodup_iff, List.nodup_cons]
          exact hn') hk' h
        refine ⟨by simpa using r1, r2.trans hq, r3.trans hpm, r4⟩
      · simp at h

/-- A database with a batch in progress, whose pending entries are `P`. -/
structure BatchInv (v : DbEnv) (s : Db) (b : DBatch) (U D : List Item) (L : Loc) (led : List (UInt64 × List WinEntry)) (P : List Item) : Prop where
  db : DbInv v (s.atTime b.mem.tid) U D L led
  holds : b.Holds P
  items : ∀ i ∈ P, i.OK v ∧ i.seq.toNat ≤ s.seq.toNat ∧ i.Carries s.trie
  nodup : ((U ++ D ++ P).map Item.seq).Nodup

variable {P : List Item} {b : DBatch}

/-- A new batch. -/
theorem DbInv.newBatch (I : DbInv v s U D L led) {t : Int} (ht : s.mem.cur ≤ t) {s' : Db} (h : s.newBatch t = some (s', b)) :
    BatchInv v s' b U D L led [] ∧ s'.mem.qblocks = s.mem.qblocks ∧ s'.mem.mark = s.mem.mark ∧ b.mem.tid = t ∧ b.managed = false ∧ b.mem.managed = false := by
  rw [Db.newBatch, if_neg (by rw [I.opened]; simp), Option.some.injEq, Prod.mk.injEq] at h
  obtain ⟨rfl, rfl⟩ := h
  refine ⟨⟨I.block t ht, List.Forall₂.nil, by simp, by simpa using I.nodup⟩, ?_, ?_, rfl, rfl, rfl⟩
  · simp only [MemDb.addTimeBlock]; split <;> rfl
  · simp only [MemDb.addTimeBlock]; split <;> rfl

/-- A put of a batch that succeeds. -/
theorem BatchInv.put (B : BatchInv v s b U D L led P) (hs : v.mac.cipher.Sound) (hde : ∀ x, v.decode (v.encode x) = some x) {now : Int} {o o' : Obj}
    {s' : Db} {b' : DBatch} (hsane : Spec.Sane v o) (hp : o.parsed = false) (hts : o.topicSize = 0)
    (hplain : Spec.startsWithStar (Spec.topicText o.topic) = false) (hlev : (Spec.levels (Spec.topicText o.topic)).length ≤ 254)
    (hseq : s.seq.toNat < 255 * 524287)
    (hid : ∀ id q, o.id = some id → idSequence id = some q → q.toNat ≤ s.seq.toNat ∧ ∀ i ∈ U ++ D ++ P, i.seq ≠ q)
    (h : b.putEntry v now s o = (s', b', o', .ok)) :
    ∃ i, BatchInv v s' b' U D L led (P ++ [i]) ∧ i.contract = Spec.contractOf o ∧ i.topic = o.topic ∧ i.payload = o.payload ∧
      i.exp = storedExpiry v.dur now o.topic o.expiresAt ∧
      (o.id = none ∧ i.seq = s.seq + 1 ∨ ∃ id, o.id = some id ∧ idSequence id = some i.seq) ∧ s'.mem = s.mem ∧
      b'.mem = b.mem ∧ b'.managed = b.managed ∧ b'.lost = b.lost := by
  simp only [DBatch.putEntry] at h
  split at h
  · simp at h
  · split at h
    · simp at h
    · next s1 o1 hd rec hse =>
      simp only [Prod.mk.injEq, and_true] at h
      obtain ⟨rfl, rfl, rfl⟩ := h
      simp only [Db.setEntry, Option.map_eq_some_iff, Prod.mk.injEq] at hse
      obtain ⟨⟨s2, hd2, rec2⟩, hse, rfl, rfl, rfl, rfl⟩ := hse
      obtain ⟨i, n, rfl, hsn, hnb, hok, rfl, rfl, hblk, hct, htp, hpl, hex, hqn, hids, hcar⟩ :=
        Db.packed_item (o := { o with encryption := o.encryption || b.enc }) hs hde hse s.mem.cur ⟨hsane.id, hsane.val⟩ hp hts hplain hlev hseq
          fun id q a b => (hid id q a b).1
      refine ⟨i, ?_, hct, htp, hpl, hex, hids, rfl, rfl, rfl, rfl⟩
      refine ⟨?_, ?_, ?_, ?_⟩
      · exact B.db.frame hsn B.db.mem B.db.ready fun _ _ => Iff.rfl
      · simp only [DBatch.Holds, DBatch.append]
        refine List.rel_append ?_ (.cons ⟨rfl, DBatch.entryAt_new b false hok⟩ .nil)
        exact B.holds.imp fun x j h => ⟨h.1, DBatch.entryAt_append h.2 false _⟩
      · intro j hj
        rcases List.mem_append.1 hj with hj | hj
        · obtain ⟨a1, a2, a3⟩ := B.items j hj
          exact ⟨a1, le_trans a2 hsn, a3⟩
        · rw [List.mem_singleton] at hj
          subst hj
          exact ⟨hok, hqn, hcar⟩
      · rw [← List.append_assoc]
        have hperm : (U ++ D ++ P ++ [i]).Perm (i :: (U ++ D ++ P)) := List.perm_append_comm (l₂ := [i])
        rw [(hperm.map Item.seq).nodup_iff, List.map_cons, List.nodup_cons]
        refine ⟨?_, B.nodup⟩
        intro hin
        obtain ⟨j, hj, e⟩ := List.mem_map.1 hin
        rcases hids with ⟨_, hi⟩ | ⟨id, h1, h2⟩
        · have hj' : j.seq.toNat ≤ s.seq.toNat := by
            rcases List.mem_append.1 hj with hj | hj
            · exact B.db.seqs j hj
            · exact (B.items j hj).2.1
          rw [e, hi, toNat_succ hseq] at hj'
          omega
        · exact (hid id _ h1 h2).2 j hj e

/-- A put of a batch that is refused. -/
theorem DBatch.putEntry_err {now : Int} {o o' : Obj} {s' : Db} {b' : DBatch} {e : DErr} (h : b.putEntry v now s o = (s', b', o', .err e)) :
    s' = s ∧ b' = b := by
  simp only [DBatch.putEntry] at h
  split at h
  · simp only [Prod.mk.injEq] at h
    exact ⟨h.1.symm, h.2.1.symm⟩
  · split at h <;> simp at h

/-- Writing the time block of a batch and opening the next one. -/
theorem DbInv.flush (I : DbInv v (s.atTime b.mem.tid) U D L led) {next : Int} (ht : b.mem.tid ≤ next) :
    DbInv v (({ s with mem := (MBatch.step v.mem s.mem b.mem (.write next)).1 } : Db).atTime next) U D L led ∧
    (MBatch.step v.mem s.mem b.mem (.write next)).1.qblocks = s.mem.qblocks ∧ (MBatch.step v.mem s.mem b.mem (.write next)).1.mark = s.mem.mark := by
  have h1 := I.mem.write b.mem.tid b.mem.tid true
  have hw := I.mem.where_write b.mem.tid b.mem.tid true
  have hsame := (s.atTime b.mem.tid).mem.write_same b.mem.tid b.mem.tid true
  have I1 := I.frame (n := s.seq) (le_refl _) h1 (by rw [hsame.1, hsame.2]; exact I.ready) hw
  have I2 := I1.block next (by rw [hsame.1]; exact ht)
  have e : ∀ m : MemDb, (m.atTime b.mem.tid).addTimeBlock next = (m.addTimeBlock next).atTime b.mem.tid := by
    intro m
    simp only [MemDb.addTimeBlock, MemDb.atTime]
    split <;> rfl
  refine ⟨?_, ?_, ?_⟩
  · have : (((s.atTime b.mem.tid).mem.write b.mem.tid b.mem.tid true).addTimeBlock next).atTime next =
        ((s.mem.write b.mem.tid b.mem.tid true).addTimeBlock next).atTime next := by
      rw [show (s.atTime b.mem.tid).mem.write b.mem.tid b.mem.tid true = (s.mem.write b.mem.tid b.mem.tid true).atTime b.mem.tid from
        (MemDb.atTime_write s.mem _ _ _ _).symm, e]
      rfl
    simp only [Db.atTime] at I2 ⊢
    simp only [Db.atTime] at this
    rw [this] at I2
    exact I2
  · simp only [MBatch.step, MemDb.addTimeBlock]
    split
    · exact MemDb.write_qblocks _ _ _ _
    · exact MemDb.write_qblocks _ _ _ _
  · have hm : (s.mem.write b.mem.tid b.mem.tid true).mark = s.mem.mark := by
      simp only [MemDb.write, if_true]
      repeat' split
      all_goals rfl
    simp only [MBatch.step, MemDb.addTimeBlock]
    split
    · exact hm
    · exact hm

/-- A write of a batch. -/
theorem BatchInv.write (B : BatchInv v s b U D L led P) {next : Int} (ht : b.mem.tid ≤ next) {s' : Db} {b' : DBatch}
    (h : b.write v next s = (s', b', .ok)) (hl : b'.lost = false) :
    ∃ P1 P2, BatchInv v s' b' (U ++ P1) D L led P2 ∧ P.map (·.on 0) = (P1 ++ P2).map (·.on 0) ∧ s'.mem.qblocks = s.mem.qblocks ∧ s'.mem.mark = s.mem.mark ∧
      b'.mem.tid ≤ next ∧ b'.managed = b.managed ∧ b'.mem.managed = b.mem.managed ∧ (b.index = [] ∧ b'.mem = b.mem ∨ b.index ≠ [] ∧ P2 = [] ∧ b'.mem.tid = next) := by
  simp only [DBatch.write] at h
  split at h
  · next h0 =>
    simp only [Prod.mk.injEq, and_true] at h
    obtain ⟨rfl, rfl⟩ := h
    exact ⟨[], P, by simpa using B, rfl, rfl, rfl, ht, rfl, rfl, .inl ⟨h0, rfl⟩⟩
  · next h0 =>
    split at h
    · simp at h
    · split at h
      · next s1 lost hst =>
        simp only [Prod.mk.injEq, and_true] at h
        obtain ⟨rfl, rfl⟩ := h
        have hlost : lost = false := by
          simp only [Bool.or_eq_false_iff] at hl
          exact hl.2
        subst hlost
        obtain ⟨r1, r2, r3, r4⟩ := DbInv.storeBatch b b.index P s s1 U [] B.holds B.db B.items B.nodup (by simp) hst
        obtain ⟨f1, f2, f3⟩ := r1.flush ht
        have hB : BatchInv v ({ s1 with mem := (MBatch.step v.mem s1.mem b.mem (.write next)).1 } : Db)
            { b with index := [], buf := [], mem := (MBatch.step v.mem s1.mem b.mem (.write next)).2, lost := b.lost || false }
            (U ++ P.map (·.on b.mem.tid)) D L led [] :=
          ⟨f1, List.Forall₂.nil, by simp, by simpa using f1.nodup⟩
        refine ⟨_, _, hB, ?_, f2.trans r2, f3.trans r3, le_refl _, rfl, rfl, .inr ⟨h0, rfl, rfl⟩⟩
        rw [List.append_nil, List.map_map]
        rfl
      · next hne _ =>
        simp only [Prod.mk.injEq] at h
        exact absurd h.2.2 (by intro h; exact hne h)

/-- Released marks carry their own time. -/
def Marked (m : MemDb) : Prop := ∀ p ∈ m.mark.released, p.2 = p.1

theorem TimeMark.marked_release {k : TimeMark} (h : ∀ p ∈ k.released, p.2 = p.1) (t : Int) : ∀ p ∈ (k.release t).released, p.2 = p.1 := by
  intro p hp
  simp only [TimeMark.release] at hp
  split at hp
  · exact h p hp
  · split at hp
    · exact h p hp
    · simp only [AMap.set, AMap.del, List.mem_cons, List.mem_filter] at hp
      rcases hp with rfl | hp
      · rfl
      · exact h p hp.1

theorem TimeMark.marked_group {k : TimeMark} (h : ∀ p ∈ k.released, p.2 = p.1) (ts : List Int) :
    ∀ p ∈ (ts.foldl (fun m t => (m.add t).release t) k).released, p.2 = p.1 := by
  induction ts generalizing k with
  | nil => exact h
  | cons t ts ih => exact ih (TimeMark.marked_release (k := k.add t) h t)

/-- A committed batch, and the next rotation of the tiny log. -/
theorem BatchInv.commit (B : BatchInv v s b U D L led P) {next next' t : Int} (h1 : b.mem.tid ≤ next) (h2 : next ≤ next') (h3 : next' ≤ t)
    {s' : Db} {b' : DBatch} (h : b.commit v next next' s = (s', b', .ok)) (hl : b'.lost = false) (hmark : Marked s.mem) :
    ∃ P1, DbInv v ({ s' with mem := s'.mem.rotate t } : Db) (U ++ P1) D L led ∧ P.map (·.on 0) = P1.map (·.on 0) ∧
      (s'.mem.rotate t).qblocks = s.mem.qblocks ∧ Marked (s'.mem.rotate t) := by
  simp only [DBatch.commit] at h
  split at h
  · simp at h
  · split at h
    · next s1 b1 hw =>
      simp only [Prod.mk.injEq] at h
      obtain ⟨rfl, rfl, ho⟩ := h
      obtain ⟨P1, P2, B1, hp, hq, hm, htid, _, hmm, hx⟩ := B.write h1 hw hl
      have hP2 : P2 = [] := by
        rcases hx with ⟨h0, _⟩ | ⟨_, h, _⟩
        · have := B1.holds
          simp only [DBatch.write, if_pos h0, Prod.mk.injEq, and_true] at hw
          obtain ⟨_, rfl⟩ := hw
          rw [DBatch.Holds, h0] at this
          cases this
          rfl
        · exact h
      subst hP2
      have hman : b1.mem.managed = false := by
        cases hb : b1.mem.managed with
        | false => rfl
        | true => simp [MBatch.commit, hb, DOut.ofMem] at ho
      obtain ⟨f1, f2, f3⟩ := B1.db.flush (le_trans htid h2)
      obtain ⟨m2, hm2⟩ : ∃ m2, m2 = (MBatch.step v.mem s1.mem b1.mem (.write next')).1 := ⟨_, rfl⟩
      obtain ⟨grp, hgrp⟩ : ∃ grp, grp = (MBatch.step v.mem s1.mem b1.mem (.write next')).2.group := ⟨_, rfl⟩
      have hc : (MBatch.commit v.mem s1.mem b1.mem next').1 = { m2 with mark := grp.foldl (fun m t => (m.add t).release t) m2.mark } := by
        simp only [MBatch.commit, hman, Bool.false_eq_true, if_false, MBatch.abort, MBatch.step, MBatch.abortGroup] at hm2 hgrp ⊢
        rw [hm2, hgrp]
      rw [← hm2] at f1 f2 f3
      have f4 := (f1.mark (grp.foldl (fun m t => (m.add t).release t) m2.mark)).rotate t (by exact h3)
      refine ⟨P1, ?_, by simpa using hp, ?_, ?_⟩
      · show DbInv v { s1 with mem := (MBatch.commit v.mem s1.mem b1.mem next').1.rotate t } _ _ _ _
        rw [hc]
        have : ({ (m2.atTime next') with mark := grp.foldl (fun m t => (m.add t).release t) m2.mark } : MemDb).rotate t =
            ({ m2 with mark := grp.foldl (fun m t => (m.add t).release t) m2.mark } : MemDb).rotate t := by
          rw [← MemDb.atTime_mark, MemDb.atTime_rotate]
        have f5 : DbInv v ({ s1 with mem := ({ (m2.atTime next') with mark := grp.foldl (fun m t => (m.add t).release t) m2.mark } : MemDb).rotate t } : Db)
          (U ++ P1) D L led := f4
        rw [this] at f5
        exact f5
      · show ((MBatch.commit v.mem s1.mem b1.mem next').1.rotate t).qblocks = _
        rw [hc, ← hq, ← f2]
        exact (MemDb.rotate_same _ t).2
      · show Marked ((MBatch.commit v.mem s1.mem b1.mem next').1.rotate t)
        rw [hc]
        intro p hp
        have : (({ m2 with mark := grp.foldl (fun m t => (m.add t).release t) m2.mark } : MemDb).rotate t).mark.released =
            (grp.foldl (fun m t => (m.add t).release t) m2.mark).released := by
          simp only [MemDb.rotate, MemDb.addTimeBlock]; split <;> rfl
        rw [this] at hp
        exact TimeMark.marked_group (by rw [f3, hm]; exact hmark) grp p hp
    · next hne =>
      exfalso
      exact hne s' b' h

end Verif
