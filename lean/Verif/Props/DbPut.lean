import Verif.Props.Db

/-!
# C06, C19, C34, C35: what a put stores, what a delete removes
-/

namespace Verif

/-! ## C06 -/

/-- C06, read from memory. A record built from an id, a flag, a topic and a value whose sizes fit their fields gives back the
header, the id with the flag, and the value. -/
theorem C06_record_partial (h : EntryHdr) (id : Bytes) (flag : UInt8) (raw val : Bytes) (hid : id.length = 8)
    (hraw : h.topicSize.toNat = raw.length) (hval : h.valueSize.toNat = val.length) (hsmall : raw.length + 9 < 65536)
    (hfit : 35 + raw.length + val.length < 2 ^ 32) (v : View) (hm : v.mem h.seq = some (packRecord h id flag raw val)) :
    EntryHdr.unmarshal (packRecord h id flag raw val) = some h ∧ fetch v h.seq = .ok (id ++ [flag]) val := by
  have e := packRecord_eq h id flag raw val hid hraw hval hfit
  have hu : EntryHdr.unmarshal (packRecord h id flag raw val) = some h := by rw [e]; exact C06_entry_header_roundtrip h _
  refine ⟨hu, ?_⟩
  simp only [fetch, hm, hu]
  rw [e, List.drop_left' (by rw [h.length_marshal])]
  exact splitMessage_eq id raw val flag h.topicSize hid hraw hsmall

/-- C06, read from the files: if the data file holds the body of the record where the index entry says, reading gives back the id
with the flag, the value and the topic. -/
theorem C06_record_file_partial (h : EntryHdr) (id : Bytes) (flag : UInt8) (raw val : Bytes) (hid : id.length = 8)
    (hraw : h.topicSize.toNat = raw.length) (hval : h.valueSize.toNat = val.length) (hsmall : raw.length + 9 < 65536)
    (hfit : 35 + raw.length + val.length < 2 ^ 32) (a z : Bytes) (off : Int64) (hoff : off.toInt = a.length) :
    let data := a ++ (packRecord h id flag raw val).drop entrySize ++ z
    let e : IndexEntry := ⟨h.seq, h.topicSize, h.valueSize, off⟩
    readMessage data e = some (id ++ [flag], val) ∧ readTopic data e = some raw := by
  intro data e
  have ep := packRecord_eq h id flag raw val hid hraw hval hfit
  have hd : (packRecord h id flag raw val).drop entrySize = id ++ [flag] ++ raw ++ val := by
    rw [ep, List.drop_left' (by rw [h.length_marshal])]
  have hms : e.mSize.toNat = (id ++ [flag] ++ raw ++ val).length := by
    show (9 + h.topicSize.toUInt32 + h.valueSize).toNat = _
    simp only [UInt32.toNat_add, UInt16.toNat_toUInt32, hraw, hval, UInt32.toNat_ofNat, List.length_append, List.length_singleton, hid]
    omega
  have hr : readAt data e.msgOffset.toInt e.mSize.toNat = some (id ++ [flag] ++ raw ++ val) := by
    show readAt (a ++ _ ++ z) off.toInt e.mSize.toNat = _
    rw [hd, hms, hoff]
    simp only [readAt, Int.natCast_nonneg, if_true, Int.toNat_natCast]
    exact slice?_mid a _ z _ _ rfl rfl
  constructor
  · have h1 : slice? (id ++ [flag] ++ raw ++ val) 0 9 = some (id ++ [flag]) := by
      rw [List.append_assoc (id ++ [flag])]
      exact slice?_mid [] (id ++ [flag]) (raw ++ val) 0 9 rfl (by simp [hid])
    have h2 : slice? (id ++ [flag] ++ raw ++ val) (h.topicSize + 9).toNat (id ++ [flag] ++ raw ++ val).length = some val := by
      have e : (h.topicSize + 9).toNat = (id ++ [flag] ++ raw).length := by
        simp only [UInt16.toNat_add, hraw, List.length_append, hid, List.length_singleton, UInt16.toNat_ofNat]
        omega
      have := slice?_mid (id ++ [flag] ++ raw) val [] (h.topicSize + 9).toNat (id ++ [flag] ++ raw ++ val).length e (by simp; omega)
      simpa using this
    simp only [readMessage, hr, Option.bind_eq_bind, Option.bind_some, h1, e, h2, pure]
  · show readAt (a ++ _ ++ z) (off.toInt + 9) h.topicSize.toNat = some raw
    rw [hd, hoff, hraw]
    have : (a.length : Int) + 9 = ((a ++ (id ++ [flag])).length : Nat) := by simp [hid]
    rw [this]
    simp only [readAt, Int.natCast_nonneg, if_true, Int.toNat_natCast]
    have := slice?_mid (a ++ (id ++ [flag])) raw (val ++ z) _ _ rfl rfl
    simpa using this

example : fetch ⟨fun _ => some (packRecord ⟨5, 6, 3, 0, 77⟩ [1, 2, 3, 4, 5, 6, 7, 8] 1 [1, 0, 9, 9, 9, 9] [7, 7, 7]), [], [], some, some⟩ 5 =
    .ok [1, 2, 3, 4, 5, 6, 7, 8, 1] [7, 7, 7] := by decide +kernel

/-- C06 is false for long topics: a topic without wildcards of 13106 levels takes 65536 bytes, which the 16-bit size keeps as zero.
The put succeeds, but the record has no topic and the topic is not entered in the trie. -/
theorem C06_long_topic_violated (v : DbEnv) (now : Int) (s s' : Db) (o o' : Obj) (hp : o.parsed = false)
    (hstat : Spec.isStatic (Spec.topicText o.topic) = true) (hlev : (Spec.levels (Spec.topicText o.topic)).length = 13106)
    (hnew : s.trie.getOffset (topicHash (if o.contract = 0 then masterContract else o.contract) o.topic) = none)
    (h : s.putEntry v now o = (s', o', .ok)) :
    s'.trie = s.trie ∧ s'.trie.getOffset (topicHash (if o.contract = 0 then masterContract else o.contract) o.topic) = none := by
  obtain ⟨hc, hr, n, hd, rec, m, t, h1, h2, h3, rfl, rfl⟩ := Db.putEntry_ok h
  obtain ⟨q, id, pre, val, _, _, _, _, rfl, _⟩ := Db.packEntry_some h1
  generalize hcc : (if o.contract = 0 then masterContract else o.contract) = c at hnew ⊢
  have hts : (s.parseEntry v now o).1.topicSize = 0 := by
    simp only [Db.parseEntry, hp, hcc]
    simp only [topicHash] at hnew
    have hm : ((parseTopic c o.topic).1.marshal).length = 65536 := by
      simp only [parseTopic_static c o.topic hstat, Topic.marshal, List.length_append, List.length_singleton, List.length_flatMap]
      rw [List.map_congr_left (g := fun _ => 5) (fun p _ => by simp [Part.encode])]
      simp only [List.map_const', List.sum_replicate_nat, List.length_cons, litParts, List.length_map, hlev]
    simp only [hnew, Option.isSome_none, Bool.false_eq_true, if_false, hm]
    rfl
  simp only [addTopic, hts, if_true, Option.some.injEq] at h3
  exact ⟨h3.symm, by rw [← h3]; exact hnew⟩

/-- A topic of `n + 1` levels. -/
def longTopic (n : Nat) : Bytes := (List.replicate n [97, 46]).flatten ++ [97]

theorem length_longTopic (n : Nat) : (longTopic n).length = 2 * n + 1 := by simp [longTopic, Nat.mul_comm]

theorem splitOn_longTopic (n : Nat) : (longTopic n).splitOn 46 = List.replicate (n + 1) [97] := by
  induction n with
  | zero => decide
  | succ n ih =>
    have e : longTopic (n + 1) = 97 :: 46 :: longTopic n := rfl
    rw [e]
    simp only [List.splitOn, List.splitOnP_cons_eq_if_modifyHead] at ih ⊢
    rw [ih]
    rfl

theorem topicText_longTopic (n : Nat) : Spec.topicText (longTopic n) = longTopic n := by
  have hq : ∀ b ∈ longTopic n, b ≠ 63 := by
    intro b hb
    simp only [longTopic, List.mem_append, List.mem_flatten, List.mem_replicate] at hb
    rcases hb with ⟨l, ⟨_, rfl⟩, hb⟩ | hb
    · simp at hb; rcases hb with rfl | rfl <;> decide
    · simp at hb; subst hb; decide
  have hs : (longTopic n).splitOn 63 = [longTopic n] := by
    rw [List.splitOn, List.splitOnP_eq_singleton]
    intro b hb
    simpa using hq b hb
  have hne : longTopic n ≠ [] := by simp [longTopic]
  simp [Spec.topicText, hs, hne]

theorem levels_longTopic (n : Nat) : Spec.levels (Spec.topicText (longTopic n)) = List.replicate (n + 1) [97] := by
  rw [topicText_longTopic, Spec.levels, splitOn_longTopic, List.filter_eq_self]
  simp

theorem static_longTopic (n : Nat) : Spec.isStatic (Spec.topicText (longTopic n)) = true := by
  have hm : Spec.isMulti (longTopic n) = false := by
    rw [Spec.isMulti, Bool.eq_false_iff]
    intro h
    rw [List.isSuffixOf_iff_suffix] at h
    have := h.getLast (by simp)
    simp [longTopic] at this
  simp only [Spec.isStatic, levels_longTopic, Bool.and_eq_true, Bool.not_eq_true']
  refine ⟨by rw [topicText_longTopic]; exact hm, ?_⟩
  simp [List.all_replicate]
  decide

/-- Such a put, on an empty database. -/
example : ∃ (s s' : Db) (o o' : Obj), o.parsed = false ∧ Spec.isStatic (Spec.topicText o.topic) = true ∧
    (Spec.levels (Spec.topicText o.topic)).length = 13106 ∧
    s.trie.getOffset (topicHash (if o.contract = 0 then masterContract else o.contract) o.topic) = none ∧
    s.putEntry .toy toyNow o = (s', o', DOut.ok) := by
  let s : Db := { mem := MemDb.new 5000, store := ⟨[], [], Lease.new 0⟩ }
  let o : Obj := { topic := longTopic 13105, payload := [1, 1, 1, 1] }
  have hst : Spec.isStatic (Spec.topicText o.topic) = true := static_longTopic _
  have hlev : (Spec.levels (Spec.topicText o.topic)).length = 13106 := by
    show (Spec.levels (Spec.topicText (longTopic 13105))).length = _
    rw [levels_longTopic, List.length_replicate]
  have hm : ((parseTopic masterContract o.topic).1.marshal).length = 65536 := by
    simp only [parseTopic_static masterContract o.topic hst, Topic.marshal, List.length_append, List.length_singleton, List.length_flatMap]
    rw [List.map_congr_left (g := fun _ => 5) (fun p _ => by simp [Part.encode])]
    simp only [List.map_const', List.sum_replicate_nat, List.length_cons, litParts, List.length_map, hlev]
  have hr : o.refused = none := by
    have hl : o.topic.length = 26211 := by
      exact length_longTopic 13105
    have hp : o.payload.length = 4 := rfl
    simp only [Obj.refused, hl, hp]
    decide
  have hnone : ∀ h, s.trie.getOffset h = none := fun h => rfl
  have hts : (s.parseEntry .toy toyNow o).1.topicSize = 0 := by
    simp only [Db.parseEntry, hnone]
    show UInt16.ofNat ((parseTopic masterContract o.topic).1.marshal).length = 0
    rw [hm]; rfl
  have hpl : (s.parseEntry .toy toyNow o).1.payload = [1, 1, 1, 1] ∧ (s.parseEntry .toy toyNow o).1.id = none := ⟨rfl, rfl⟩
  generalize hx : s.parseEntry .toy toyNow o = x at hts hpl
  have hval : DbEnv.toy.sealValue (s.secret x.1) x.1.payload = some [1, 1, 1, 1] := by
    have he : s.secret x.1 = false := by
      rw [← hx]; rfl
    rw [he, hpl.1]; rfl
  obtain ⟨pre, hpre, hlen⟩ := idPrefix_some (newID (unixSec toyNow) 1) x.1.contract (length_newID _ _)
  have hdr : s.drawId toyNow x.1 = some ({ s with seq := 1 }, 1, newID (unixSec toyNow) 1) := by
    simp only [Db.drawId, hpl.2]; rfl
  have hpk : ∃ hd rec, s.packEntry .toy toyNow x.1 x.2 = some ({ s with seq := 1 }, hd, rec) ∧ hd.seq = 1 ∧ hd.topicSize = 0 ∧ rec.length ≤ 100 := by
    refine ⟨_, _, by simp only [Db.packEntry, hdr, Option.bind_some, hpre, hval, if_neg (by decide : ¬ (1 : UInt64) = 0)]; rfl, rfl, hts, ?_⟩
    have e : ∀ (h : EntryHdr) (f : UInt8) (raw : Bytes), h.topicSize = 0 → packRecord h pre f raw [1, 1, 1, 1] = packRecord h pre f [] [1, 1, 1, 1] := by
      intro h f raw h0; simp [packRecord, h0]
    rw [e _ _ _ hts, packRecord_eq _ _ _ _ _ hlen (by simp [hts]) rfl (by simp)]
    simp [EntryHdr.length_marshal, entrySize, hlen]
  obtain ⟨hd, rec, hpk, hs1, hts1, hl⟩ := hpk
  have hput : ∃ m, s.mem.put DbEnv.toy.mem hd.seq rec = (m, .ok) := by
    have hg : s.mem.blocks.get s.mem.cur = some 0 := by decide +kernel
    have hd0 : (s.mem.at 0).data = [] := by decide +kernel
    have hcl : s.mem.closed = false := by decide +kernel
    have h2 : (s.mem.put DbEnv.toy.mem hd.seq rec).2 = .ok := by
      simp only [MemDb.put, MemDb.putAt, hcl, hg, MBlock.put, hd0, List.length_nil]
      rw [if_neg (by simp), if_neg (by show ¬ 4000 < _; omega)]
    exact ⟨_, by rw [← h2]⟩
  obtain ⟨m, hput⟩ := hput
  have ht : addTopic s.trie hd rec = some s.trie := by simp only [addTopic, hts1, if_true]
  subst hx
  exact ⟨s, _, o, _, rfl, hst, hlev, rfl, Db.putEntry_succeeds rfl hr hpk hput ht⟩

/-! ## C19 -/

/-- The contract an entry is stored for. -/
def Spec.contractOf (o : Obj) : UInt32 := if o.contract = 0 then 3376684800 else o.contract

/-- The message is filed under the topic hash `t`: one window entry is added under that hash, and the record put into the in-memory
store under the sequence of that entry names that hash. -/
def Spec.FiledUnder (v : DbEnv) (t : UInt64) (s s' : Db) : Prop :=
  ∃ e rec ts vs, s'.win = addWindow s.win s.mem.cur t e ∧ s.mem.put v.mem e.seq rec = (s'.mem, .ok) ∧
    EntryHdr.unmarshal rec = some ⟨e.seq, ts, vs, e.expiresAt, t⟩

theorem unmarshal_packRecord (h : EntryHdr) (id : Bytes) (flag : UInt8) (raw val : Bytes) 
    (hfit : 35 + h.topicSize.toNat + h.valueSize.toNat < 2 ^ 32) : EntryHdr.unmarshal (packRecord h id flag raw val) = some h := by
  have hm : (26 + 9 + h.topicSize.toUInt32 + h.valueSize).toNat = 26 + (9 + h.topicSize.toNat + h.valueSize.toNat) := by
    simp only [UInt32.toNat_add, UInt16.toNat_toUInt32, UInt32.toNat_ofNat]
    omega
  have hl : h.marshal.length = 26 := h.length_marshal
  have s1 : goCopy (List.replicate (26 + (9 + h.topicSize.toNat + h.valueSize.toNat)) 0) 0 h.marshal =
      h.marshal ++ List.replicate (9 + h.topicSize.toNat + h.valueSize.toNat) 0 := by
    have := goCopy_zeros [] h.marshal (9 + h.topicSize.toNat + h.valueSize.toNat)
    simpa [hl] using this
  have key : ∀ (z : Bytes) (off : Nat) (d : Bytes), 26 ≤ off → ∃ z', patch (h.marshal ++ z) off d = h.marshal ++ z' := by
    intro z off d ho
    refine ⟨z.take (off - 26) ++ d ++ (h.marshal ++ z).drop (off + d.length), ?_⟩
    simp only [patch, List.take_append, hl, List.take_of_length_le (by omega : h.marshal.length ≤ off), List.append_assoc]
  obtain ⟨z1, e1⟩ := key (List.replicate (9 + h.topicSize.toNat + h.valueSize.toNat) 0) 26
    (id.take ((h.marshal ++ List.replicate (9 + h.topicSize.toNat + h.valueSize.toNat) 0).length - 26)) (by omega)
  obtain ⟨z2, e2⟩ := key z1 34 [flag] (by omega)
  have e3 : ∃ z3, (if h.topicSize ≠ 0 then goCopy (h.marshal ++ z2) 35 raw else h.marshal ++ z2) = h.marshal ++ z3 := by
    split
    · exact key _ _ _ (by omega)
    · exact ⟨_, rfl⟩
  obtain ⟨z3, e3⟩ := e3
  obtain ⟨z4, e4⟩ := key z3 (35 + h.topicSize.toNat) (val.take ((h.marshal ++ z3).length - (35 + h.topicSize.toNat))) (by omega)
  have : packRecord h id flag raw val = h.marshal ++ z4 := by
    simp only [packRecord, hm, s1]
    rw [show goCopy (h.marshal ++ List.replicate (9 + h.topicSize.toNat + h.valueSize.toNat) 0) 26 id = h.marshal ++ z1 from e1, e2, e3]
    exact e4
  rw [this]
  exact C06_entry_header_roundtrip h _

/-- Ids have sixteen bytes, values are not too long once sealed. -/
structure Spec.Sane (v : DbEnv) (o : Obj) : Prop where
  id : ∀ b, o.id = some b → b.length = 16
  val : ∀ b x, v.sealValue b o.payload = some x → x.length < 2 ^ 32 - 2 ^ 17

theorem filed (v : DbEnv) (now : Int) (s s' : Db) (o o' : Obj) (hs : Spec.Sane v o) (h : s.putEntry v now o = (s', o', .ok)) :
    Spec.FiledUnder v (if o.parsed then o.hash else topicHash (Spec.contractOf o) o.topic) s s' ∧ o'.parsed = true ∧
    o'.hash = (if o.parsed then o.hash else topicHash (Spec.contractOf o) o.topic) := by
  obtain ⟨hc, hr, n, hd, rec, m, t, h1, h2, h3, rfl, rfl⟩ := Db.putEntry_ok h
  obtain ⟨q, id, pre, val, hdr, _, hpre, hval, rfl, hrec⟩ := Db.packEntry_some h1
  have hh : (s.parseEntry v now o).1.hash = (if o.parsed then o.hash else topicHash (Spec.contractOf o) o.topic) := by
    simp only [Db.parseEntry, Spec.contractOf, topicHash, masterContract]
    split <;> rfl
  have hpar : (s.parseEntry v now o).1.parsed = true := by
    simp only [Db.parseEntry]
    split
    · assumption
    · rfl
  have hpl : (s.parseEntry v now o).1.payload = o.payload ∧ (s.parseEntry v now o).1.id = o.id := by
    simp only [Db.parseEntry]
    split <;> exact ⟨rfl, rfl⟩
  refine ⟨⟨⟨q, (s.parseEntry v now o).1.expiresAt⟩, rec, (s.parseEntry v now o).1.topicSize, UInt32.ofNat val.length, ?_, h2, ?_⟩, hpar, hh⟩
  · rw [hh]
  · rw [hrec, ← hh]
    have hlen : id.length = 16 := by
      obtain ⟨_, _, hx⟩ := Db.drawId_some hdr
      rcases hx with ⟨hx, _⟩ | ⟨_, _, _, rfl⟩
      · exact hs.id id (hpl.2 ▸ hx)
      · exact length_newID _ _
    obtain ⟨p, hp1, hp2⟩ := idPrefix_some id (s.parseEntry v now o).1.contract hlen
    rw [hpre] at hp1
    cases hp1
    apply unmarshal_packRecord
    have hv := hs.val _ _ (hpl.1 ▸ hval)
    have ht := (s.parseEntry v now o).1.topicSize.toNat_lt
    simp only [UInt32.toNat_ofNat']
    omega

/-- C19 (partial: only for an entry object that was not put before). The message is filed under the hash of the topic the entry
names, for the contract it names. -/
theorem C19_fresh_partial (v : DbEnv) (now : Int) (s s' : Db) (o o' : Obj) (hs : Spec.Sane v o) (hp : o.parsed = false)
    (h : s.putEntry v now o = (s', o', .ok)) : Spec.FiledUnder v (topicHash (Spec.contractOf o) o.topic) s s' := by
  have := (filed v now s s' o o' hs h).1
  simpa [hp] using this

/-- C19 fails for every reuse: once an object was put, each later put files its message under the topic of the first put, whatever
the caller writes into the object and however much happened in between. -/
theorem C19_first_topic (v : DbEnv) (now now2 : Int) (s s' s2 s2' : Db) (o o' o2' : Obj) (hs : Spec.Sane v o) (hp : o.parsed = false)
    (h : s.putEntry v now o = (s', o', .ok)) (topic payload : Bytes) (id : Option Bytes) (exp contract : UInt32) (enc : Bool)
    (hs2 : Spec.Sane v { o' with topic := topic, payload := payload, id := id, expiresAt := exp, contract := contract, encryption := enc })
    (h2 : s2.putEntry v now2 { o' with topic := topic, payload := payload, id := id, expiresAt := exp, contract := contract, encryption := enc } =
      (s2', o2', .ok)) : Spec.FiledUnder v (topicHash (Spec.contractOf o) o.topic) s2 s2' := by
  obtain ⟨_, a1, a2⟩ := filed v now s s' o o' hs h
  have b := (filed v now2 s2 s2' _ o2' hs2 h2).1
  simp only [a1, if_true, a2, hp, Bool.false_eq_true, if_false] at b
  exact b

theorem saneToy (o : Obj) (h1 : ∀ b, o.id = some b → b.length = 16) (h2 : o.payload.length < 1000) : Spec.Sane .toy o where
  id := h1
  val := by
    intro b x h
    have : x.length ≤ o.payload.length + 20 := DbEnv.length_sealValue (v := .toy) toyAead_sound h
    omega

example : ∃ (s s' : Db) (o' : Obj), Spec.Sane .toy toyEntry ∧ s.putEntry .toy toyNow toyEntry = (s', o', DOut.ok) ∧ toyEntry.parsed = false := by
  have h : ((toyOpen {} 5000 {}).map fun s => (s.putEntry .toy toyNow toyEntry).2.2) = some .ok := by decide +kernel
  rw [Option.map_eq_some_iff] at h
  obtain ⟨s, _, h⟩ := h
  exact ⟨s, _, _, saneToy _ (by simp [toyEntry]) (by decide), by rw [← h], rfl⟩

/-- An answer without the entry object. -/
def Spec.outcome : DbRes → DbRes
  | .entry _ d => .out d
  | r => r

/-- C19 violated. The object of a first put to topic `a` is used again for topic `b`: the put succeeds, a Get of `b` finds nothing
and a Get of `a` finds both messages. -/
theorem C19_reuse_violated : ((toyOpen {} 5000 {}).bind fun s => (s.putEntry .toy toyNow toyEntry).1.run .toy
      [.put toyNow { (s.putEntry .toy toyNow toyEntry).2.1 with topic := [98], payload := [2, 2, 2, 2] }, .get .toy (newQuery [98]) [],
       .get .toy (newQuery [97]) []]).map (fun x => x.2.map Spec.outcome) =
    some [.out .ok, .got (.out (.ok [])), .got (.out (.ok [[2, 2, 2, 2], [1, 1, 1, 1]]))] := by decide +kernel

/-! ## C34 -/

/-- C34 violated: a message that was put and not yet synced is readable but not counted. -/
theorem C34_unsynced_violated : (toyRun [.put toyNow toyEntry, .get .toy (newQuery [97]) []]).map (fun x => (x.1.count, x.2.map Spec.outcome)) =
    some (0, [.out .ok, .got (.out (.ok [[1, 1, 1, 1]]))]) := by decide +kernel

/-- C34 violated: deleting a message that was never stored succeeds and takes the count below zero. -/
theorem C34_delete_missing_violated : (toyRun [.delete (toyKill 1)]).map (fun x => (x.1.count, x.2)) =
    some (18446744073709551615, [.out .ok]) := by decide +kernel

/-- C34 violated: deleting an unsynced message and syncing leaves two messages stored and a count of one. -/
theorem C34_delete_unsynced_violated : (toyRun [.put toyNow toyEntry, .put toyNow { toyEntry with payload := [2, 2, 2, 2] }, .put toyNow { toyEntry with payload := [3, 3, 3, 3] },
      .delete (toyKill 3), .write 5001 5000, .rotate 6000, .sync .toy, .get .toy (newQuery [97]) []]).map (fun x => (x.1.count, x.2.map Spec.outcome |>.drop 3)) =
    some (1, [.out .ok, .done, .done, .out .ok, .got (.out (.ok [[2, 2, 2, 2], [1, 1, 1, 1]]))]) := by decide +kernel

/-! ## C35 -/

/-- C35 violated: a message that was synced is deleted, the delete succeeds, and a later Get still returns the message. -/
theorem C35_synced_violated : (toyRun [.put toyNow toyEntry, .write 5001 5000, .rotate 6000, .sync .toy, .delete (toyKill 1),
      .get .toy (newQuery [97]) []]).map (fun x => (x.2.map Spec.outcome).drop 4) =
    some [.out .ok, .got (.out (.ok [[1, 1, 1, 1]]))] := by decide +kernel

end Verif
