import Verif.Props.DbGet

/-!
What operations of the database do to messages they are not about: C30, C68, C69, C70, C71.
-/

namespace Verif

/-! ## C70: deleting one message leaves the others -/

/-- A series of deletes of the sequences `ks`, starting in `s`, for each of which the buffer of the in-memory store has room. -/
inductive Spec.Deletes (v : DbEnv) : Db → List UInt64 → Db → Prop
  | none {s} : Spec.Deletes v s [] s
  | one {s s' ks} (o : Obj) (k : UInt64) : Spec.Deletes v s ks s' → idSequence (o.id.getD []) = some k →
      (s'.mem.delete v.mem k).2 ≠ .full → Spec.Deletes v s (k :: ks) (s'.deleteEntry v o).1

theorem deletes_inv {v : DbEnv} (htest : ∀ ks k, k ∈ ks → v.mem.test ks k = true) {s s' : Db} {ks : List UInt64} (hc : s.closed = false)
    (hr : (s.mem.blocks.get s.mem.cur).isSome) (H : Spec.Deletes v s ks s') {M : UInt64 → Option Bytes} (hM : MInv v.mem s.mem M) :
    ∃ m lease cnt M', s' = { s with mem := m, store := { s.store with lease := lease }, count := cnt } ∧ MInv v.mem m M' ∧
      (∀ k, k ∉ ks → M' k = M k) ∧ (m.blocks.get m.cur).isSome := by
  induction H with
  | none => exact ⟨s.mem, s.store.lease, s.count, M, rfl, hM, fun _ _ => rfl, hr⟩
  | @one s'' ks o k _ hk hf ih =>
    obtain ⟨m, lease, cnt, M', rfl, h1, h2, h3⟩ := ih
    have keep : ∃ m' lease' cnt' M'', ({ s with mem := m, store := { s.store with lease := lease }, count := cnt } : Db) =
        { s with mem := m', store := { s.store with lease := lease' }, count := cnt' } ∧ MInv v.mem m' M'' ∧
        (∀ k', k' ∉ k :: ks → M'' k' = M k') ∧ (m'.blocks.get m'.cur).isSome :=
      ⟨m, lease, cnt, M', rfl, h1, fun k' hk' => h2 k' fun hc => hk' (List.mem_cons_of_mem _ hc), h3⟩
    simp only [Db.deleteEntry, hk]
    split
    · exact keep
    split
    · exact keep
    split
    · exact keep
    split
    · exact keep
    obtain ⟨d1, d2⟩ := h1.delete htest k h3 hf
    obtain ⟨d3, d4⟩ := MemDb.delete_same v.mem m k
    have d5 : ((m.delete v.mem k).1.blocks.get (m.delete v.mem k).1.cur).isSome := by rw [d3, d4]; exact h3
    have d6 : ∀ k', k' ∉ k :: ks → (if k' = k then Option.none else M' k') = M k' := by
      intro k' hk'
      rw [List.mem_cons, not_or] at hk'
      rw [if_neg hk'.1]; exact h2 k' hk'.2
    simp only [Db.delete, hc, Bool.false_eq_true, if_false]
    generalize m.delete v.mem k = r at *
    obtain ⟨m', out⟩ := r
    have hout : out ≠ .deadlock := by
      have d1' : out = _ := d1
      rw [d1']; split <;> simp
    cases out <;> first
      | exact absurd rfl hout
      | (simp only
         split
         · exact ⟨m', lease, cnt, _, rfl, d2, d6, d5⟩
         · exact ⟨m', _, _, _, rfl, d2, d6, d5⟩)

/-- C70 (partial: histories as in C68, and the deleted messages belong to topics the Get does not ask for). After any deletes a Get
returns all messages of its topic, as before. -/
theorem C70_others_partial (v : DbEnv) (hs : v.mac.cipher.Sound) (hde : ∀ x, v.decode (v.encode x) = some x)
    (htest : ∀ ks k, k ∈ ks → v.mem.test ks k = true) (s : Db) (ms : List Spec.Message) (quiet : Bool) (H : Spec.Story v s ms quiet)
    (s' : Db) (ks : List UInt64) (HD : Spec.Deletes v s ks s')
    (g : GetEnv) (q : Query) (hlen : s.store.data.length < 2 ^ 63) (ht0 : q.topic ≠ []) (ht1 : q.topic.length ≤ 65536)
    (hcut : (q.ask v.dur g.now v.q).cutoff ≤ 0) (hlim : ((Spec.addressed ms (q.ask v.dur g.now v.q).contract q.topic 0).length : Int) ≤ (q.ask v.dur g.now v.q).limit)
    (how : ∀ w, (g.orderWin w).Perm w) (hot : ∀ ts, (g.orderTopics ts).Perm ts)
    (hst : Spec.isStatic (Spec.topicText q.topic) = true) (hlq : (Spec.levels (Spec.topicText q.topic)).length ≤ 255)
    (hown : ∀ m ∈ ms, ∀ m' ∈ ms, topicHash m.contract m.topic = topicHash m'.contract m'.topic →
      (parseTopic m.contract m.topic).1.parts = (parseTopic m'.contract m'.topic).1.parts)
    (hcw : ∀ m ∈ ms, m.contract ≠ wildcardHash)
    (hh : ∀ m ∈ ms, ∀ p ∈ Spec.levels (Spec.topicText m.topic), Spec.isStar p = false → Hash.withSalt p m.contract ≠ wildcardHash ∧
      ∀ t ∈ Spec.levels (Spec.topicText q.topic), Hash.withSalt p m.contract = Hash.withSalt t m.contract → p = t)
    (hfirst : ∀ m ∈ Spec.addressed ms (q.ask v.dur g.now v.q).contract q.topic 0,
      (readWindowBlock s.winFile 0).map (·.topicHash) ≠ some (topicHash m.contract m.topic))
    (hks : ∀ m ∈ Spec.addressed ms (q.ask v.dur g.now v.q).contract q.topic 0, m.seq ∉ ks)
    (hcap : (Spec.addressed ms (q.ask v.dur g.now v.q).contract q.topic (toU32 (unixSec g.now))).length ≤ g.cap) :
    ∃ out : List Spec.Message, (s'.get v g q []).2 = .out (.ok (out.map (·.payload))) ∧
      out.Perm (Spec.addressed ms (q.ask v.dur g.now v.q).contract q.topic (toU32 (unixSec g.now))) ∧ out.Pairwise (fun a b => a.seq > b.seq) := by
  obtain ⟨U, D, L, led, I, _⟩ := story_inv hs hde htest H
  obtain ⟨m, lease, cnt, M', rfl, h1, h2, _⟩ := deletes_inv htest I.opened I.ready HD I.mem
  refine story_get v hs hde htest s ms quiet H g q hlen ht0 ht1 hcut hlim how hot hst hlq hown hcw hh hfirst ks m hks ?_ lease cnt hcap
  intro M hM
  obtain ⟨m2, lease2, cnt2, M2, he, h3, h4, _⟩ := deletes_inv htest I.opened I.ready HD hM
  have : m = m2 := congrArg Db.mem he
  rw [this]
  exact ⟨M2, h3, h4⟩

/-- Two of the five messages of `toyTale` are deleted, both for topics other than `b.c`; the Get for `b.c` asks for none of them. -/
example : ∃ (s s' : Db) (ms : List Spec.Message) (quiet : Bool), Spec.Story .toy s ms quiet ∧ Spec.Deletes .toy s [3, 99] s' ∧
    toyAsk s ms .toy (newQuery [98, 46, 99]) ∧ (∀ m ∈ Spec.addressed ms 3376684800 [98, 46, 99] 0, m.seq ∉ [3, 99]) ∧
    (s'.get .toy .toy (newQuery [98, 46, 99]) []).2 = .out (.ok [[5, 5, 5, 5], [4, 4, 4, 4], [2, 2, 2, 2], [1, 1, 1, 1]]) ∧ s'.count = 1 := by
  have h : ((toyStory toyTale).map fun x => decide ((x.1.mem.delete DbEnv.toy.mem 99).2 ≠ .full ∧
      (((x.1.deleteEntry .toy (toyKill 99)).1).mem.delete DbEnv.toy.mem 3).2 ≠ .full ∧ toyAsk x.1 x.2.1 .toy (newQuery [98, 46, 99]) ∧
      (∀ m ∈ Spec.addressed x.2.1 3376684800 [98, 46, 99] 0, m.seq ∉ [3, 99]) ∧
      ((((x.1.deleteEntry .toy (toyKill 99)).1).deleteEntry .toy (toyKill 3)).1.get .toy .toy (newQuery [98, 46, 99]) []).2 =
        .out (.ok [[5, 5, 5, 5], [4, 4, 4, 4], [2, 2, 2, 2], [1, 1, 1, 1]]) ∧
      (((x.1.deleteEntry .toy (toyKill 99)).1).deleteEntry .toy (toyKill 3)).1.count = 1)) = some true := by decide +kernel
  rw [Option.map_eq_some_iff] at h
  obtain ⟨x, h1, h2⟩ := h
  obtain ⟨a1, a2, a3, a4, a5, a6⟩ := of_decide_eq_true h2
  exact ⟨x.1, _, x.2.1, x.2.2, toyStory_story h1, .one (toyKill 3) 3 (.one (toyKill 99) 99 .none (by decide +kernel) a1) (by decide +kernel) a2, a3, a4, a5, a6⟩

/-- C70 is false: of two messages of a topic, neither synced, the first is deleted. A Get of the topic now returns an error. -/
theorem C70_unsynced_violated : (toyRun [toyPut [97] 1, toyPut [97] 2, .delete (toyKill 1), .get .toy (newQuery [97]) []]).map
      (fun x => x.2.map Spec.outcome) =
    some [.out .ok, .out .ok, .out .ok, .got (.out (.err [[2, 2, 2, 2]]))] := by decide +kernel

/-- A message of `n` bytes. -/
def toyPutN (topic : Bytes) (n : Nat) (x : UInt8) : DbOp := .put toyNow { topic := topic, payload := List.replicate n x }

/-- C30 and C70 are false: messages for topics `a` and `b` are synced and the one for `b` is deleted. Its space is filed as free at
offset -1. Two messages for `c` whose sizes fall into the same shard of the free list are put and synced: the first is appended, the
second is written over the message of `a`, which a Get can no longer read. -/
theorem C30_delete_corrupts_violated : (toyRun [toyPutN [97] 200 1, toyPutN [98] 320 2, .write 5001 5000, .rotate 6000, .sync .toy,
      .get .toy (newQuery [97]) [], .delete { topic := [98], payload := [], id := some (newID 1600000000 2) }, .get .toy (newQuery [97]) [],
      toyPutN [99] 133 3, toyPutN [99] 144 4, .write 6001 6000, .rotate 7000, .sync .toy, .get .toy (newQuery [97]) []]).map
      (fun x => (x.2.map Spec.outcome).drop 4) =
    some [.out .ok, .got (.out (.ok [List.replicate 200 1])), .out .ok, .got (.out (.ok [List.replicate 200 1])), .out .ok, .out .ok, .done, .done,
      .out .ok, .got (.out (.err []))] := by decide +kernel

/-! ## C68 -/

/-- C68 is false for the topic that is synced first. Its window block has offset 0, which the trie takes for "no block yet": the next
sync starts a new chain for the topic, and a Get returns only what is in that chain. -/
theorem C68_first_topic_violated : (toyRun [toyPut [97] 1, .write 5001 5000, .rotate 6000, .sync .toy, toyPut [97] 2, .write 6001 6000, .rotate 7000, .sync .toy,
      .get .toy (newQuery [97]) []]).map (fun x => ((x.2.map Spec.outcome).drop 7, x.1.count)) =
    some ([.out .ok, .got (.out (.ok [[2, 2, 2, 2]]))], 2) := by decide +kernel

/-! ## C69: a crash -/

/-- What a Get of topic `a` returns after the process is killed and the database opened again. -/
def toyCrash (ops : List DbOp) : Option (DGet × UInt64) :=
  (toyRun ops).bind fun x => (toyOpen {} 9000 x.1.disk).map fun s => ((s.get .toy .toy (newQuery [97]) []).2, s.count)

/-- C69 holds of this history: a message whose log was written, after an earlier sync. -/
example : toyCrash [toyPut [98] 1, .write 5001 5000, .rotate 6000, .sync .toy, toyPut [97] 2, .write 6001 6000] =
    some (.out (.ok [[2, 2, 2, 2]]), 2) := by decide +kernel

/-- C69 is false before the first sync: the header on disk still has sequence zero, and Open then skips the recovery of the log. The
message is not found. -/
theorem C69_before_sync_violated : toyCrash [toyPut [97] 1, .write 5001 5000] = some (.out (.ok []), 0) := by decide +kernel

/-- C69 is false if a topic's first message is deleted before its sync: only that message carried the topic. After the sync of the
second message and a restart that message is not found, though it is counted. -/
theorem C69_deleted_first_violated : toyCrash [toyPut [98] 1, .write 5001 5000, .rotate 6000, .sync .toy, toyPut [97] 2, toyPut [97] 3,
      .delete (toyKill 2), .write 6001 6000, .rotate 7000, .sync .toy] = some (.out (.ok []), 1) := by decide +kernel

/-- Did `Open` panic because recovery failed. -/
def OpenOut.failed? : OpenOut → Bool
  | .failed _ => true
  | _ => false

/-- C69 is false: the same without the sync. The second message is recovered from the log, its topic is not known, and `Open`
panics. -/
theorem C69_open_panics_violated : (toyRun [toyPut [98] 1, .write 5001 5000, .rotate 6000, .sync .toy, toyPut [97] 2, toyPut [97] 3,
      .delete (toyKill 2), .write 6001 6000]).map (fun x => (openDb .toy {} .toy .toy 9000 x.1.disk).failed?) = some true := by decide +kernel

/-! ## C71: no Put stops the program -/

/-- C71 (partial: entry objects not used before, 16-byte ids, topics of at most 254 levels that do not start with a wildcard). Exactly
when a Put panics: the database is open, the sizes are accepted, and the sequence is zero or a value to be encrypted is shorter than
four bytes once compressed. -/
theorem C71_put_panics_partial (v : DbEnv) (now : Int) (s : Db) (o : Obj) (hsane : Spec.Sane v o) (hp : o.parsed = false) (hts : o.topicSize = 0)
    (hplain : Spec.startsWithStar (Spec.topicText o.topic) = false) (hlev : (Spec.levels (Spec.topicText o.topic)).length ≤ 254) :
    (s.putEntry v now o).2.2 = .panic ↔ s.closed = false ∧ o.refused = none ∧
      (Spec.seqOf s o = 0 ∨ ((s.enc = 1 ∨ o.encryption = true) ∧ (v.encode o.payload).length < 4)) := by
  let c := Spec.contractOf o
  let T := (parseTopic c o.topic).1
  obtain ⟨known, hkn⟩ : ∃ k, k = (s.trie.getOffset (topicHash c o.topic)).isSome := ⟨_, rfl⟩
  obtain ⟨raw, hrw⟩ : ∃ raw : Bytes, raw = if known then [] else T.marshal := ⟨_, rfl⟩
  have hpe : (s.parseEntry v now o).1.contract = c ∧ (s.parseEntry v now o).1.payload = o.payload ∧
      (s.parseEntry v now o).1.topicSize = UInt16.ofNat raw.length ∧ (s.parseEntry v now o).1.encryption = o.encryption ∧
      (s.parseEntry v now o).1.id = o.id ∧ (s.parseEntry v now o).2 = raw := by
    simp only [Db.parseEntry, hp, Bool.false_eq_true, if_false]
    refine ⟨rfl, trivial, ?_, trivial, trivial, ?_⟩
    · show (if (s.trie.getOffset (topicHash c o.topic)).isSome = true then o.topicSize else
        UInt16.ofNat (if (s.trie.getOffset (topicHash c o.topic)).isSome = true then [] else T.marshal : Bytes).length) = UInt16.ofNat raw.length
      rw [← hkn, hrw]
      cases known
      · rfl
      · simp [hts]
    · rw [hrw, hkn]; rfl
  obtain ⟨hT1, hT2, hT3⟩ := parseTopic_fits c o.topic hplain hlev
  have hraw : raw.length ≤ 1300 := by
    rw [hrw]; split
    · simp
    · exact hT3
  generalize hx : s.parseEntry v now o = x at hpe
  obtain ⟨x1, x2⟩ := x
  obtain ⟨e1, e2, e3, e4, e5, e6⟩ := hpe
  simp only at e1 e2 e3 e4 e5 e6
  subst e6
  -- the id
  obtain ⟨n, id, hdr, hlen⟩ : ∃ n id, s.drawId now x1 = some (n, Spec.seqOf s o, id) ∧ id.length = 16 := by
    simp only [Db.drawId, e5, Spec.seqOf]
    cases hid : o.id with
    | none => exact ⟨_, _, rfl, length_newID _ _⟩
    | some b =>
      have hb := hsane.id b hid
      obtain ⟨q, hq⟩ : ∃ q, idSequence b = some q := by
        simp [idSequence, get64, slice?, hb]
      exact ⟨s, b, by simp [hq], hb⟩
  obtain ⟨pre, hpre, hpl⟩ := idPrefix_some id c hlen
  have hsec : s.secret x1 = true ↔ (s.enc = 1 ∨ o.encryption = true) := by simp [Db.secret, e4]
  have hseal : v.sealValue (s.secret x1) o.payload = none ↔ ((s.enc = 1 ∨ o.encryption = true) ∧ (v.encode o.payload).length < 4) := by
    rw [← hsec]
    simp only [DbEnv.sealValue, Mac.encrypt]
    split
    · next h => simp [h]
    · next h => simp [h]
  have hpack : s.packEntry v now x1 x2 = none ↔ (Spec.seqOf s o = 0 ∨ ((s.enc = 1 ∨ o.encryption = true) ∧ (v.encode o.payload).length < 4)) := by
    rw [← hseal]
    simp only [Db.packEntry, hdr, Option.bind_some, e1, hpre, e2]
    split
    · next h => simp [h]
    · next h => cases v.sealValue (s.secret x1) o.payload <;> simp [h]
  rw [← hpack]
  cases hc : s.closed with
  | true => simp [Db.putEntry, hc]
  | false =>
    cases hr : o.refused with
    | some e => simp [Db.putEntry, hc, hr]
    | none =>
      cases hk : s.packEntry v now x1 x2 with
      | none => simp [Db.putEntry, hc, hr, Db.setEntry, hx, hk]
      | some y =>
        obtain ⟨s1, hd, rec⟩ := y
        simp only [Db.putEntry, hc, hr, Db.setEntry, hx, hk, Option.map_some, Bool.false_eq_true, if_false, reduceCtorEq, and_false, iff_false]
        obtain ⟨q, id', pre', val, hdr', hq, hpre', hval, rfl, rfl⟩ := Db.packEntry_some hk
        rw [hdr] at hdr'
        cases hdr'
        rw [e1, hpre] at hpre'
        cases hpre'
        rw [e2] at hval
        have hvl := hsane.val _ _ hval
        obtain ⟨⟨n', rfl⟩, _⟩ := Db.drawId_some hdr
        split
        · next m hm =>
          simp only
          have hat : addTopic s.trie ⟨Spec.seqOf s o, x1.topicSize, UInt32.ofNat val.length, x1.expiresAt, x1.hash⟩
              (packRecord ⟨Spec.seqOf s o, x1.topicSize, UInt32.ofNat val.length, x1.expiresAt, x1.hash⟩ pre (if s.secret x1 then 1 else 0) x2 val) ≠ none := by
            simp only [addTopic]
            split
            · simp
            · next hn0 =>
              have hkf : known = false := by
                cases hkk : known with
                | false => rfl
                | true => rw [e3, hrw, hkk] at hn0; exact absurd rfl hn0
              have hx2 : x2 = T.marshal := by rw [hrw, hkf]; rfl
              have hl : (x1.topicSize).toNat = x2.length := by
                rw [e3, UInt16.toNat_ofNat']; omega
              have hsl : slice? (packRecord ⟨Spec.seqOf s o, x1.topicSize, UInt32.ofNat val.length, x1.expiresAt, x1.hash⟩ pre
                  (if s.secret x1 then 1 else 0) x2 val) 35 (35 + x1.topicSize).toNat = some x2 := by
                rw [packRecord_eq _ _ _ _ _ hpl hl (by simp only [UInt32.toNat_ofNat']; omega) (by omega)]
                have e9 : ∀ (h : EntryHdr) (f : UInt8), h.marshal ++ (pre ++ [f] ++ x2 ++ val) = (h.marshal ++ (pre ++ [f])) ++ x2 ++ val := by
                  intro h f; simp
                rw [e9]
                refine slice?_mid _ x2 val _ _ ?_ ?_
                · simp only [List.length_append, EntryHdr.length_marshal, entrySize, hpl, List.length_singleton]
                · simp only [UInt16.toNat_add, hl, UInt16.toNat_ofNat, List.length_append, EntryHdr.length_marshal, entrySize, hpl, List.length_singleton]
                  omega
              rw [hsl, hx2]
              simp only [Option.bind_eq_bind, Option.bind_some]
              rw [show Topic.unmarshal T.marshal = some T from hT1]
              simp
          split
          · next h => exact absurd h hat
          · simp
        · simp

/-- C71: the hypotheses hold of an ordinary entry, on a database opened anew. -/
example : ∃ s : Db, toyOpen {} 5000 {} = some s ∧ Spec.Sane .toy toyEntry ∧ toyEntry.parsed = false ∧ toyEntry.topicSize = 0 ∧
    Spec.startsWithStar (Spec.topicText toyEntry.topic) = false ∧ (Spec.levels (Spec.topicText toyEntry.topic)).length ≤ 254 ∧
    (s.putEntry .toy toyNow toyEntry).2.2 = .ok := by
  have h : ((toyOpen {} 5000 {}).map fun s => (s.putEntry .toy toyNow toyEntry).2.2) = some .ok := by decide +kernel
  rw [Option.map_eq_some_iff] at h
  obtain ⟨s, hs, h⟩ := h
  exact ⟨s, hs, saneToy _ (by simp [toyEntry]) (by decide), rfl, rfl, by decide +kernel, by decide +kernel, h⟩

/-- C71 is false: a Put of a value that is three bytes after compression panics on a database opened a second time, whose header
says encrypted. -/
theorem C71_short_violated : ((toyRun [toyPut [97] 1, .close 5001]).bind fun x => (toyOpen {} 9000 x.1.disk).map fun s =>
      ((s.putEntry .toy toyNow { topic := [97], payload := [1, 1, 1] }).2.2, (s.putEntry .toy toyNow toyEntry).2.2)) = some (.panic, .ok) := by decide +kernel

/-- C71 is false: an id whose sequence is zero. -/
theorem C71_zero_violated : (toyRun [.put toyNow { toyEntry with id := some (newID 1600000000 0) }]).map (fun x => x.2.map Spec.outcome) = some [.out .panic] := by
  decide +kernel

/-- C71 is false: an id of fifteen bytes. -/
theorem C71_id_violated : (toyRun [.put toyNow { toyEntry with id := some (List.replicate 15 1) }]).map (fun x => x.2.map Spec.outcome) = some [.out .panic] := by
  decide +kernel

end Verif
