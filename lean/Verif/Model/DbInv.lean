import Verif.Model.DbLemmas
import Verif.Model.DbLookup
import Verif.Model.MemWhere
import Verif.Model.TrieOffsets
import Verif.Props.Engine
import Verif.Props.Topic

/-!
# The invariant of a running database

What the parts of a database hold after messages were put and synced.
-/

namespace Verif

/-- A message with its stored form: `contract` to `seq` describe the message, `blk` is the time block it was put into, the rest are
the parts of its record. -/
structure Item where
  contract : UInt32
  topic : Bytes
  payload : Bytes
  exp : UInt32
  seq : UInt64
  blk : Int
  pre : Bytes
  flag : UInt8
  raw : Bytes
  val : Bytes

namespace Item

def hash (i : Item) : UInt64 := topicHash i.contract i.topic
def topicSize (i : Item) : UInt16 := UInt16.ofNat i.raw.length
def valueSize (i : Item) : UInt32 := UInt32.ofNat i.val.length
def hdr (i : Item) : EntryHdr := ⟨i.seq, i.topicSize, i.valueSize, i.exp, i.hash⟩
def body (i : Item) : Bytes := i.pre ++ [i.flag] ++ i.raw ++ i.val
def record (i : Item) : Bytes := i.hdr.marshal ++ i.body
def win (i : Item) : WinEntry := ⟨i.seq, i.exp⟩
def stored (i : Item) : Rec := ⟨i.seq, i.topicSize, i.valueSize, i.body⟩

/-- The record can be read back. -/
structure OK (v : DbEnv) (i : Item) : Prop where
  pre : i.pre.length = 8
  contract : idContract i.pre = some i.contract
  raw : i.raw.length + 9 < 65536
  val : 35 + i.raw.length + i.val.length + 13 < 2 ^ 32
  opens : ((if i.flag = 1 then (v.mac.decrypt i.val).1 else some i.val).bind v.decode) = some i.payload
  lo : 1 ≤ i.seq.toNat
  hi : i.seq.toNat ≤ 255 * 524287
  plain : Spec.startsWithStar (Spec.topicText i.topic) = false
  levels : (Spec.levels (Spec.topicText i.topic)).length ≤ 254

theorem topicSize_toNat {v : DbEnv} {i : Item} (h : i.OK v) : i.topicSize.toNat = i.raw.length := by
  have := h.raw
  simp only [topicSize, UInt16.toNat_ofNat']; omega

theorem valueSize_toNat {v : DbEnv} {i : Item} (h : i.OK v) : i.valueSize.toNat = i.val.length := by
  have := h.val
  simp only [valueSize, UInt32.toNat_ofNat']; omega

theorem length_body {v : DbEnv} {i : Item} (h : i.OK v) : i.body.length = 9 + i.raw.length + i.val.length := by
  simp only [body, List.length_append, h.pre, List.length_singleton]

theorem length_record {v : DbEnv} {i : Item} (h : i.OK v) : i.record.length = 35 + i.raw.length + i.val.length := by
  simp only [record, List.length_append, length_body h, EntryHdr.length_marshal, entrySize]; omega

theorem storable {v : DbEnv} {i : Item} (h : i.OK v) : Spec.Storable i.stored where
  lo := h.lo
  hi := h.hi
  sized := by simp only [stored, length_body h, topicSize_toNat h, valueSize_toNat h]
  small := by
    have := h.val
    simp only [stored, length_body h]; omega
  topic := by
    have := h.raw
    simp only [stored, topicSize_toNat h]; omega

theorem split {v : DbEnv} {i : Item} (h : i.OK v) : splitMessage i.body i.topicSize = .ok (i.pre ++ [i.flag]) i.val :=
  splitMessage_eq i.pre i.raw i.val i.flag i.topicSize h.pre (topicSize_toNat h) h.raw

theorem mrec {i : Item} : MRec i.record = some (i.hdr, i.stored) := by
  have hu : EntryHdr.unmarshal i.record = some i.hdr := C06_entry_header_roundtrip i.hdr _
  have hd : i.record.drop entrySize = i.body := by
    rw [record, List.drop_left' (by rw [EntryHdr.length_marshal])]
  rw [MRec, hu, Option.map_some, hd]
  rfl

/-- Reading an item that is in memory, or whose record the files hold. -/
theorem candStep {v : DbEnv} {i : Item} (h : i.OK v) {vw : View} (hd : ∀ x, vw.decrypt x = (v.mac.decrypt x).1) (hc : vw.decode = v.decode)
    (hf : fetch vw i.seq = .ok (i.pre ++ [i.flag]) i.val) (contract : UInt32) (hct : contract = i.contract) (cutoff : Int) (hcut : cutoff ≤ 0) :
    candStep vw contract cutoff i.seq = .item i.payload := by
  have h0 : i.seq ≠ 0 := by
    intro hz; have := h.lo; rw [hz] at this; simp at this
  have hco : idContract (i.pre ++ [i.flag]) = some i.contract := by
    have hpre := h.pre
    have := h.contract
    simp only [idContract, get32, Option.map_eq_some_iff] at this ⊢
    obtain ⟨x, hx, he⟩ := this
    refine ⟨x, ?_, he⟩
    simp only [slice?] at hx ⊢
    split at hx
    · next hl =>
      rw [if_pos (by simp only [List.length_append, List.length_singleton]; omega)]
      rw [← hx]
      rw [List.drop_append_of_le_length (by omega), List.take_append_of_le_length (by rw [List.length_drop]; omega)]
    · simp at hx
  have hev : evalPrefix (i.pre ++ [i.flag]) contract cutoff = some true := by
    simp only [evalPrefix, hco, Option.bind_eq_bind, Option.bind_some]
    rw [if_neg (by omega), hct]
    simp
  have h8 : (i.pre ++ [i.flag])[8]? = some i.flag := by
    rw [List.getElem?_append_right (by rw [h.pre]), h.pre]; rfl
  have hop := h.opens
  rw [Option.bind_eq_some_iff] at hop
  obtain ⟨y, hy1, hy2⟩ := hop
  have hy : (if i.flag = 1 then vw.decrypt i.val else some i.val) = some y := by rw [hd]; exact hy1
  rw [Verif.candStep, if_neg h0, hf]
  simp only [hev, h8, Option.some.injEq, hy, hc, hy2]

end Item

/-- What the in-memory store holds. -/
def memMap (U : List Item) (q : UInt64) : Option Bytes := (U.find? fun i => i.seq = q).map Item.record

/-- The offsets of window blocks, as the trie keeps them. -/
def offsOf (t : Trie) (h : UInt64) : Int := ((t.getOffset h).getD 0).toInt

/-- The database holds the unsynced messages `U` (in the order of their puts) and the synced messages `D`, whose records are at `L`;
`led` is what was written to the window file. The trie knows the topics of the messages in `K`. -/
structure DbKnown (K : Item → Prop) (v : DbEnv) (s : Db) (U D : List Item) (L : Loc) (led : List (UInt64 × List WinEntry)) : Prop where
  opened : s.closed = false
  ok : ∀ i ∈ U ++ D, i.OK v
  nodup : ((U ++ D).map Item.seq).Nodup
  seqs : ∀ i ∈ U ++ D, i.seq.toNat ≤ s.seq.toNat
  mem : MInv v.mem s.mem (memMap U)
  ready : (s.mem.blocks.get s.mem.cur).isSome
  blk : ∀ t q, s.mem.Where t q ↔ ∃ i ∈ U, i.blk = t ∧ i.seq = q
  winNodup : AMap.Nodup s.win
  win : ∀ t h, (s.win.get (t, h)).getD [] = (U.filter fun i => i.blk = t ∧ i.hash = h).map Item.win
  winNe : ∀ k es, s.win.get k = some es → es ≠ []
  store : SInv s.store L []
  stored : L.map (·.1) = D.map Item.stored
  count : s.count = UInt64.ofNat D.length
  hist : ∃ w, WinOK ⟨s.winFile, offsOf s.trie, w⟩ led
  synced : ∀ h, syncedFor led h = (D.filter fun i => i.hash = h).map Item.win
  trie : ∃ ops, s.trie = Trie.ofTopics ops ∧ (∀ i ∈ U ++ D, K i → ∃ off, TopicOp.add i.contract i.topic off ∈ ops) ∧
    ∀ c key off, TopicOp.add c key off ∈ ops → ∃ i ∈ U ++ D, i.contract = c ∧ i.topic = key

/-- The trie knows all topics. -/
abbrev DbInv (v : DbEnv) (s : Db) (U D : List Item) (L : Loc) (led : List (UInt64 × List WinEntry)) : Prop :=
  DbKnown (fun _ => True) v s U D L led

/-! ## Get -/

/-- What a Get needs: the windows have the messages `U`, the files the messages `D`, and the topics of the trie are topics of `X`. -/
structure DbServes (v : DbEnv) (s : Db) (U D X : List Item) (L : Loc) (led : List (UInt64 × List WinEntry)) : Prop where
  opened : s.closed = false
  sub : ∀ i ∈ U ++ D, i ∈ X
  ok : ∀ i ∈ X, i.OK v
  nodup : ((U ++ D).map Item.seq).Nodup
  winNodup : AMap.Nodup s.win
  win : ∀ t h, (s.win.get (t, h)).getD [] = (U.filter fun i => i.blk = t ∧ i.hash = h).map Item.win
  store : SInv s.store L []
  stored : L.map (·.1) = D.map Item.stored
  hist : ∃ w, WinOK ⟨s.winFile, offsOf s.trie, w⟩ led
  synced : ∀ h, syncedFor led h = (D.filter fun i => i.hash = h).map Item.win
  trie : ∃ ops, s.trie = Trie.ofTopics ops ∧ ∀ c key off, TopicOp.add c key off ∈ ops → ∃ i ∈ X, i.contract = c ∧ i.topic = key

theorem DbKnown.serves {K : Item → Prop} {v : DbEnv} {s : Db} {U D : List Item} {L : Loc} {led : List (UInt64 × List WinEntry)}
    (I : DbKnown K v s U D L led) : DbServes v s U D (U ++ D) L led where
  opened := I.opened
  sub := fun _ h => h
  ok := I.ok
  nodup := I.nodup
  winNodup := I.winNodup
  win := I.win
  store := I.store
  stored := I.stored
  hist := I.hist
  synced := I.synced
  trie := by
    obtain ⟨ops, h1, _, h2⟩ := I.trie
    exact ⟨ops, h1, h2⟩

theorem seq_inj {l : List Item} (h : (l.map Item.seq).Nodup) {i j : Item} (hi : i ∈ l) (hj : j ∈ l) (e : i.seq = j.seq) : i = j :=
  List.inj_on_of_nodup_map h hi hj e

theorem find_seq {l : List Item} (h : (l.map Item.seq).Nodup) {i : Item} (hi : i ∈ l) : (l.find? fun j => j.seq = i.seq) = some i := by
  cases hf : l.find? fun j => j.seq = i.seq with
  | none =>
    rw [List.find?_eq_none] at hf
    exact absurd (decide_eq_true (p := i.seq = i.seq) rfl) (hf i hi)
  | some j =>
    have h1 := List.mem_of_find?_eq_some hf
    have h2 : j.seq = i.seq := by simpa using List.find?_some hf
    rw [seq_inj h h1 hi h2]

/-- Splitting a list by distinct hashes. -/
theorem filter_hashes {α : Type} (f : α → UInt64) (l : List α) (hs : List UInt64) (hn : hs.Nodup) :
    (hs.flatMap fun h => l.filter fun i => f i = h).Perm (l.filter fun i => f i ∈ hs) := by
  induction hs with
  | nil => simp
  | cons h hs ih =>
    rw [List.nodup_cons] at hn
    rw [List.flatMap_cons]
    refine (List.Perm.append_left _ (ih hn.2)).trans ?_
    have hp := List.filter_append_perm (fun i => decide (f i = h)) (l.filter fun i => f i ∈ h :: hs)
    have e1 : (l.filter fun i => f i ∈ h :: hs).filter (fun i => decide (f i = h)) = l.filter fun i => f i = h := by
      rw [List.filter_filter]
      apply List.filter_congr
      intro i _
      by_cases e : f i = h <;> simp [e]
    have e2 : (l.filter fun i => f i ∈ h :: hs).filter (fun i => !decide (f i = h)) = l.filter fun i => f i ∈ hs := by
      rw [List.filter_filter]
      apply List.filter_congr
      intro i _
      by_cases e : f i = h
      · simp [e, hn.1]
      · simp [e]
    rw [e1, e2] at hp
    exact hp

theorem live_flat_perm (now : UInt32) (lists : List (List WinEntry)) :
    (lists.flatMap fun es => live now es.reverse).Perm (live now lists.flatten) := by
  induction lists with
  | nil => simp [live]
  | cons es rest ih =>
    rw [List.flatMap_cons, List.flatten_cons, live_append]
    exact List.Perm.append ((List.reverse_perm es).filter _) ih

/-- The entries in memory of one topic. -/
theorem DbServes.lists_perm {v : DbEnv} {s : Db} {U D X : List Item} {L : Loc} {led : List (UInt64 × List WinEntry)} (I : DbServes v s U D X L led)
    (order : AMap (Int × UInt64) (List WinEntry) → AMap (Int × UInt64) (List WinEntry)) (ho : (order s.win).Perm s.win) (h : UInt64) :
    (winLists order s.win h).flatten.Perm ((U.filter fun i => i.hash = h).map Item.win) := by
  have hU : (U.map Item.seq).Nodup := by
    have := I.nodup; rw [List.map_append] at this; exact (List.nodup_append.1 this).1
  have hp : (winLists order s.win h).flatten.Perm ((s.win.filter fun p => p.1.2 = h).map (·.2)).flatten :=
    ((ho.filter _).map _).flatten
  refine hp.trans ?_
  -- entries of one list
  have hget : ∀ p ∈ s.win, p.2 = (U.filter fun i => i.blk = p.1.1 ∧ i.hash = p.1.2).map Item.win := by
    intro p hp
    have := I.win p.1.1 p.1.2
    rw [I.winNodup.get_of_mem (k := (p.1.1, p.1.2)) (v := p.2) hp] at this
    exact this
  have hmem : ∀ e, e ∈ ((s.win.filter fun p => p.1.2 = h).map (·.2)).flatten ↔ e ∈ (U.filter fun i => i.hash = h).map Item.win := by
    intro e
    simp only [List.mem_flatten, List.mem_map, List.mem_filter, decide_eq_true_eq]
    constructor
    · rintro ⟨es, ⟨p, ⟨hpm, rfl⟩, rfl⟩, he⟩
      rw [hget p hpm] at he
      simp only [List.mem_map, List.mem_filter, decide_eq_true_eq] at he
      obtain ⟨i, ⟨hi, _, h2⟩, rfl⟩ := he
      exact ⟨i, ⟨hi, h2⟩, rfl⟩
    · rintro ⟨i, ⟨hi, rfl⟩, rfl⟩
      have hw := I.win i.blk i.hash
      have hin : i.win ∈ (U.filter fun j => j.blk = i.blk ∧ j.hash = i.hash).map Item.win :=
        List.mem_map.2 ⟨i, List.mem_filter.2 ⟨hi, by simp⟩, rfl⟩
      rw [← hw] at hin
      cases hg : s.win.get (i.blk, i.hash) with
      | none => rw [hg] at hin; simp at hin
      | some es =>
        rw [hg] at hin
        exact ⟨es, ⟨((i.blk, i.hash), es), ⟨AMap.mem_of_get _ hg, rfl⟩, rfl⟩, hin⟩
  have hinj : ∀ x ∈ U, ∀ y ∈ U, x.win = y.win → x = y := fun x hx y hy e => seq_inj hU hx hy (congrArg WinEntry.seq e)
  have hUn : U.Nodup := List.Nodup.of_map _ hU
  have hn2 : ((U.filter fun i => i.hash = h).map Item.win).Nodup := by
    rw [List.nodup_map_iff_inj_on (hUn.filter _)]
    intro x hx y hy e
    exact hinj x (List.mem_of_mem_filter hx) y (List.mem_of_mem_filter hy) e
  refine (List.perm_ext_iff_of_nodup ?_ hn2).2 hmem
  rw [List.nodup_flatten]
  constructor
  · intro es hes
    obtain ⟨p, hp, rfl⟩ := List.mem_map.1 hes
    rw [hget p (List.mem_of_mem_filter hp), List.nodup_map_iff_inj_on (hUn.filter _)]
    intro x hx y hy e
    exact hinj x (List.mem_of_mem_filter hx) y (List.mem_of_mem_filter hy) e
  · rw [List.pairwise_map]
    have hkeys : s.win.Pairwise fun p p' => p.1 ≠ p'.1 := by
      have := I.winNodup
      simp only [AMap.Nodup, AMap.keys, List.Nodup, List.pairwise_map] at this
      exact this
    have hall : (s.win.filter fun p => p.1.2 = h).Pairwise fun p p' => p.1 ≠ p'.1 ∧ p ∈ s.win ∧ p' ∈ s.win ∧ p.1.2 = p'.1.2 := by
      have h1 := hkeys.filter (fun p => decide (p.1.2 = h))
      refine h1.imp_of_mem ?_
      intro a b ha hb hab
      rw [List.mem_filter, decide_eq_true_eq] at ha hb
      exact ⟨hab, ha.1, hb.1, ha.2.trans hb.2.symm⟩
    refine hall.imp ?_
    rintro p p' ⟨hne, h1, h2, h3⟩ e he he'
    rw [hget p h1] at he
    rw [hget p' h2] at he'
    simp only [List.mem_map, List.mem_filter, decide_eq_true_eq] at he he'
    obtain ⟨i, ⟨hi, hb, _⟩, rfl⟩ := he
    obtain ⟨j, ⟨hj, hb', _⟩, e'⟩ := he'
    have : j = i := hinj j hj i hi e'
    subst this
    exact hne (Prod.ext (hb.symm.trans hb') h3)

/-- Reading one message of the database. -/
theorem DbServes.step {v : DbEnv} {s : Db} {U D X : List Item} {L : Loc} {led : List (UInt64 × List WinEntry)} (I : DbServes v s U D X L led)
    (htest : ∀ ks k, k ∈ ks → v.mem.test ks k = true) (hlen : s.store.data.length < 2 ^ 63) (a : Ask) (hcut : a.cutoff ≤ 0)
    {i : Item} (hi : i ∈ U ++ D) (hct : i.contract = a.contract) {m : MemDb} {M : UInt64 → Option Bytes} (hm : MInv v.mem m M)
    (hag : M i.seq = memMap U i.seq) :
    MInv v.mem (s.candStepS v a m i.seq).1 M ∧ (s.candStepS v a m i.seq).2 = .item i.payload := by
  have hok := I.ok i (I.sub i hi)
  have h0 : i.seq ≠ 0 := by
    intro hz; have := hok.lo; rw [hz] at this; simp at this
  obtain ⟨g1, g2⟩ := MInv.get htest hm i.seq
  have hn := I.nodup
  rw [List.map_append, List.nodup_append] at hn
  rcases List.mem_append.1 hi with hU | hD
  · have hmm : memMap U i.seq = some i.record := by rw [memMap, find_seq hn.1 hU]; rfl
    rw [hag, hmm] at g2
    simp only [Db.candStepS, if_neg h0, g2]
    refine ⟨g1, i.candStep hok (fun _ => rfl) rfl ?_ _ hct.symm _ hcut⟩
    have hu : EntryHdr.unmarshal i.record = some i.hdr := C06_entry_header_roundtrip i.hdr _
    have hd : i.record.drop entrySize = i.body := by
      rw [Item.record, List.drop_left' (by rw [EntryHdr.length_marshal])]
    simp only [fetch, Db.view, memData]
    rw [hu]
    simp only [hd]
    exact Item.split hok
  · have hmm : memMap U i.seq = none := by
      rw [memMap, Option.map_eq_none_iff, List.find?_eq_none]
      intro j hj hc
      exact hn.2.2 _ (List.mem_map_of_mem hj) _ (List.mem_map_of_mem hD) (by simpa using hc)
    rw [hag, hmm] at g2
    simp only [Db.candStepS, if_neg h0, g2]
    refine ⟨g1, i.candStep hok (fun _ => rfl) rfl ?_ _ hct.symm _ hcut⟩
    have hin : i.stored ∈ L.map (·.1) := by rw [I.stored]; exact List.mem_map_of_mem hD
    obtain ⟨p, hp, he⟩ := List.mem_map.1 hin
    have hst := Item.storable hok
    have hb := I.store.data.bytes p hp (by simp)
    simp only [List.append_nil] at hb
    have hle := slice?_le hb
    have hpo : p.2 < 2 ^ 63 := by
      have hpos : 0 < p.1.cache.length := by
        have := hst.sized
        rw [← he] at this; omega
      omega
    have e1 : (Int64.ofInt (p.2 : Int)).toInt = p.2 := Int64.toInt_ofInt_of_le (by omega) (by omega)
    have hre := I.store.readEntry hp hpo
    have e2 : (toEntry p).mSize.toNat = p.1.cache.length := mSize_eq (r := p.1) (by rw [he]; exact hst) p.2
    have e4 : readAt s.store.data (toEntry p).msgOffset.toInt (toEntry p).mSize.toNat = some p.1.cache := by
      rw [e2]
      simp only [toEntry, e1, readAt]
      rw [if_pos (by omega)]
      exact hb
    have hseq : i.seq = p.1.seq := by rw [he]; rfl
    simp only [fetch, Db.view, memData]
    rw [hseq, hre]
    simp only [e4]
    have : (toEntry p).topicSize = i.topicSize := by
      show p.1.topicSize = _
      rw [he]; rfl
    rw [this, he]
    exact Item.split hok

/-- The offset a lookup reports is the one the trie keeps. -/
theorem offset_of_find {ops : List TopicOp} {c : UInt32} {q : Bytes} {t : TTopic} (D : List Part → UInt8)
    (hD : ∀ a ∈ Spec.trieRun (ops.map TopicOp.toTrie), a.depth = D a.parts) (ht : t ∈ (Trie.ofTopics ops).find c q) :
    (Trie.ofTopics ops).getOffset t.hash = some t.offset ∧ ∃ c' key off, TopicOp.add c' key off ∈ ops ∧ topicHash c' key = t.hash := by
  have hI := trieInv_run (ops.map TopicOp.toTrie)
  obtain ⟨a, ha, rfl, _⟩ := (lookup_iff hI D hD _ _ _ t).1 ht
  constructor
  · have := hI.getOffset a.topic.hash
    rw [show Trie.ofTopics ops = Trie.run (ops.map TopicOp.toTrie) from rfl, this]
    have hf : ((Spec.trieRun (ops.map TopicOp.toTrie)).find? fun x => x.hash = a.topic.hash) = some a := by
      cases hf : (Spec.trieRun (ops.map TopicOp.toTrie)).find? fun x => x.hash = a.topic.hash with
      | none =>
        rw [List.find?_eq_none] at hf
        exact absurd (decide_eq_true (p := a.hash = a.topic.hash) rfl) (hf a ha)
      | some b =>
        have h2 : b.hash = a.topic.hash := by simpa using List.find?_some hf
        rw [List.inj_on_of_nodup_map hI.nodup (List.mem_of_find?_eq_some hf) ha h2]
    rw [hf]; rfl
  · obtain ⟨off, h⟩ := mem_trieRun _ a ha
    obtain ⟨op, hop, e⟩ := List.mem_map.1 h
    cases op with
    | setOffset t => simp [TopicOp.toTrie] at e
    | add c' key' off' =>
      simp only [TopicOp.toTrie, TrieOp.add.injEq, TTopic.mk.injEq] at e
      exact ⟨c', key', off', hop, e.1.1⟩

/-- Highest sequence first. -/
def byseq (l : List Item) : List Item := l.insertionSort fun a b => b.seq ≤ a.seq

theorem byseq_perm (l : List Item) : (byseq l).Perm l := List.perm_insertionSort _ l

theorem byseq_sorted (l : List Item) : (byseq l).Pairwise fun a b => b.seq ≤ a.seq := by
  have ht : Std.Total (fun a b : Item => b.seq ≤ a.seq) := ⟨fun a b => by
    rcases UInt64.le_total a.seq b.seq with h | h
    · exact .inr h
    · exact .inl h⟩
  have hr : IsTrans Item (fun a b : Item => b.seq ≤ a.seq) := ⟨fun a b c h1 h2 => UInt64.le_trans h2 h1⟩
  exact List.pairwise_insertionSort _ l

theorem sortDesc_byseq {l : List Item} {c : List UInt64} (h : c.Perm (l.map Item.seq)) : sortDesc c = (byseq l).map Item.seq := by
  have ht : Std.Total (fun a b : UInt64 => b ≤ a) := ⟨fun a b => UInt64.le_total b a⟩
  have hr : IsTrans UInt64 (fun a b => b ≤ a) := ⟨fun a b c h1 h2 => UInt64.le_trans h2 h1⟩
  have h1 : (sortDesc c).Pairwise fun a b => b ≤ a := List.pairwise_insertionSort _ c
  have h2 : ((byseq l).map Item.seq).Pairwise fun a b => b ≤ a := by
    rw [List.pairwise_map]; exact byseq_sorted l
  refine List.Perm.eq_of_pairwise ?_ h1 h2 (((List.perm_insertionSort _ c).trans h).trans ((byseq_perm l).map _).symm)
  intro a b _ _ hab hba
  exact UInt64.le_antisymm hba hab

theorem payloads_map {f : UInt64 → Step} {l : List Item} (h : ∀ i ∈ l, f i.seq = .item i.payload) :
    payloads f (l.map Item.seq) = l.map Item.payload := by
  induction l with
  | nil => rfl
  | cons i l ih =>
    have := ih fun j hj => h j (List.mem_cons_of_mem _ hj)
    simp only [payloads, List.map_cons, List.filterMap_cons, h i List.mem_cons_self] at this ⊢
    rw [this]

/-- A Get below its limit returns the payloads of all live messages of the topics it finds, newest sequence first, also if messages
of other topics are gone from memory and the free space and the count are different ones. -/
theorem DbServes.get {v : DbEnv} {s : Db} {U D X : List Item} {L : Loc} {led : List (UInt64 × List WinEntry)} (I : DbServes v s U D X L led)
    (htest : ∀ ks k, k ∈ ks → v.mem.test ks k = true) (hlen : s.store.data.length < 2 ^ 63) (g : GetEnv) (q : Query)
    (ht0 : q.topic ≠ []) (ht1 : q.topic.length ≤ 65536) (hcut : (q.ask v.dur g.now v.q).cutoff ≤ 0)
    (how : ∀ w, (g.orderWin w).Perm w) (hot : ∀ ts, (g.orderTopics ts).Perm ts) (sel : Item → Bool)
    (hlim : (((U ++ D).filter sel).length : Int) ≤ (q.ask v.dur g.now v.q).limit)
    (hsel : ∀ i ∈ X, i.hash ∈ (s.trie.find (q.ask v.dur g.now v.q).contract q.topic).map TTopic.hash ↔ sel i = true)
    (hct : ∀ i ∈ U ++ D, sel i = true → i.contract = (q.ask v.dur g.now v.q).contract)
    (hfirst : ∀ i ∈ X, sel i = true → led.head?.map (·.1) ≠ some i.hash)
    (hcap : ((U ++ D).filter fun i => sel i && !i.win.isExpired (toU32 (unixSec g.now))).length ≤ g.cap)
    (m0 : MemDb) (M : UInt64 → Option Bytes) (hM : MInv v.mem m0 M) (hag : ∀ i ∈ U ++ D, sel i = true → M i.seq = memMap U i.seq)
    (lease : Lease) (cnt : UInt64) :
    ∃ m, MInv v.mem m M ∧ ({ s with mem := m0, store := { s.store with lease := lease }, count := cnt } : Db).get v g q [] =
      ({ s with mem := m, store := { s.store with lease := lease }, count := cnt },
      .out (.ok ((byseq ((U ++ D).filter fun i => sel i && !i.win.isExpired (toU32 (unixSec g.now)))).map Item.payload))) := by
  generalize hask : q.ask v.dur g.now v.q = a at *
  generalize hnow : toU32 (unixSec g.now) = now at *
  obtain ⟨ops, htr, hops2⟩ := I.trie
  obtain ⟨w, H⟩ := I.hist
  have hdep := depth_consistent ops (by
    intro c key off hin
    obtain ⟨i, hi, _, rfl⟩ := hops2 c key off hin
    exact (I.ok i hi).plain)
  -- the topics found
  let find := s.trie.find a.contract q.topic
  obtain ⟨ts, hts⟩ : ∃ ts, ts = (g.orderTopics find).map fun t => (t.hash, t.offset.toInt) := ⟨_, rfl⟩
  have htsperm : (ts.map (·.1)).Perm (find.map TTopic.hash) := by
    have : ts.map (·.1) = (g.orderTopics find).map TTopic.hash := by simp [hts]
    rw [this]; exact (hot find).map _
  have hhs : (ts.map (·.1)).Nodup := htsperm.nodup_iff.2 (Trie.nodup_lookup _ _ _ _)
  have htopic : ∀ t ∈ ts, t.2 = offsOf s.trie t.1 ∧ led.head?.map (·.1) ≠ some t.1 := by
    intro t htm
    rw [hts] at htm
    obtain ⟨x, hx, rfl⟩ := List.mem_map.1 htm
    have hx' : x ∈ find := (hot find).mem_iff.1 hx
    have hxf : x ∈ (Trie.ofTopics ops).find a.contract q.topic := by rw [← htr]; exact hx'
    obtain ⟨h1, c', key, off, h2, h3⟩ := offset_of_find depthOf hdep hxf
    refine ⟨by simp only [offsOf, htr, h1, Option.getD_some], ?_⟩
    obtain ⟨i, hi, rfl, rfl⟩ := hops2 c' key off h2
    have hih : i.hash = x.hash := h3
    have : sel i = true := (hsel i hi).1 (by rw [hih]; exact List.mem_map_of_mem hx')
    rw [← hih]
    exact hfirst i hi this
  -- one topic
  let R : UInt64 × Int → List WinEntry := fun t =>
    ((winLists g.orderWin s.win t.1).flatMap fun es => live now es.reverse) ++ live now (syncedFor led t.1).reverse
  let N : UInt64 × Int → Nat := fun t => ((U ++ D).filter fun i => i.hash = t.1).length
  have hsum : ∀ h, ((winLists g.orderWin s.win h).map List.length).sum + (syncedFor led h).length = ((U ++ D).filter fun i => i.hash = h).length := by
    intro h
    have := (I.lists_perm g.orderWin (how _) h).length_eq
    rw [List.length_flatten] at this
    rw [this, I.synced h, List.filter_append]
    simp
  have hRp : ∀ t : UInt64 × Int, ((R t).map (·.seq)).Perm (((U ++ D).filter fun i => i.hash = t.1 ∧ i.win.isExpired now = false).map Item.seq) := by
    intro t
    have h1 : (R t).Perm (live now (((U ++ D).filter fun i => i.hash = t.1).map Item.win)) := by
      simp only [R]
      rw [List.filter_append, List.map_append, live_append, ← I.synced]
      refine List.Perm.append ?_ ((List.reverse_perm _).filter _)
      exact (live_flat_perm now _).trans ((I.lists_perm g.orderWin (how _) t.1).filter _)
    refine (h1.map _).trans ?_
    rw [live, List.filter_map, List.map_map, List.filter_filter]
    have e : ((U ++ D).filter fun i => decide (i.hash = t.1 ∧ i.win.isExpired now = false)) =
        (U ++ D).filter fun a => ((fun e : WinEntry => !e.isExpired now) ∘ Item.win) a && decide (a.hash = t.1) := by
      apply List.filter_congr
      intro i _
      by_cases e1 : i.hash = t.1 <;> cases e2 : i.win.isExpired now <;> simp [e1, e2]
    rw [e]
    exact List.Perm.refl _
  have hlook : dbLookup now (winLists g.orderWin s.win) s.winFile a.cutoff a.limit ts [] =
      some ([] ++ ts.flatMap fun t => (R t).map (·.seq)) := by
    refine dbLookup_all R N ts ?_ [] ?_
    · intro t htm
      obtain ⟨hto, htf⟩ := htopic t htm
      have hs := hsum t.1
      constructor
      · simp only [R, N, List.length_append]
        have h1 := length_live_flat now (winLists g.orderWin s.win t.1)
        have h2 := length_live_le now (syncedFor led t.1).reverse
        rw [List.length_reverse] at h2
        omega
      · intro lim hl
        have hl' : ((((U ++ D).filter fun i => i.hash = t.1).length : Nat) : Int) ≤ lim := hl
        have := windowLookup_all H now (winLists g.orderWin s.win t.1) t.1 htf a.cutoff lim hcut (by omega)
        simp only at this
        rw [hto, this]
    · have h1 : (ts.map N).sum = (ts.map (·.1)|>.flatMap fun h => (U ++ D).filter fun i => i.hash = h).length := by
        rw [List.length_flatMap, List.map_map]; rfl
      have h2 := (filter_hashes Item.hash (U ++ D) (ts.map (·.1)) hhs).length_eq
      have h3 : ((U ++ D).filter fun i : Item => decide (i.hash ∈ ts.map (·.1))) = (U ++ D).filter sel := by
        apply List.filter_congr
        intro i hi
        have h4 : i.hash ∈ ts.map (·.1) ↔ sel i = true := htsperm.mem_iff.trans (hsel i (I.sub i hi))
        by_cases e1 : sel i = true
        · simp [h4.2 e1, e1]
        · have : ¬ i.hash ∈ ts.map (·.1) := fun hc => e1 (h4.1 hc)
          simp [this, e1]
      rw [h3] at h2
      simp only [List.length_nil]
      omega
  rw [List.nil_append] at hlook
  -- all candidates
  let S := (U ++ D).filter fun i => sel i && !i.win.isExpired now
  have hcands : (ts.flatMap fun t => (R t).map (·.seq)).Perm (S.map Item.seq) := by
    have h1 : (ts.flatMap fun t => (R t).map (·.seq)).Perm
        (ts.flatMap fun t => ((U ++ D).filter fun i => i.hash = t.1 ∧ i.win.isExpired now = false).map Item.seq) :=
      List.Perm.flatMap_left ts fun t _ => hRp t
    refine h1.trans ?_
    have h2 : (ts.flatMap fun t => ((U ++ D).filter fun i => i.hash = t.1 ∧ i.win.isExpired now = false).map Item.seq) =
        (((ts.map (·.1)).flatMap fun h => ((U ++ D).filter fun i => i.win.isExpired now = false).filter fun i => i.hash = h)).map Item.seq := by
      rw [List.map_flatMap, List.flatMap_map]
      congr 1
      funext t
      rw [List.filter_filter]
      congr 1
      apply List.filter_congr
      intro i _
      by_cases e1 : i.hash = t.1 <;> cases e2 : i.win.isExpired now <;> simp [e1]
    rw [h2]
    refine (List.Perm.map _ (filter_hashes Item.hash _ _ hhs)).trans ?_
    rw [List.filter_filter]
    apply List.Perm.of_eq
    congr 1
    apply List.filter_congr
    intro i hi
    have h3 : i.hash ∈ ts.map (·.1) ↔ sel i = true := htsperm.mem_iff.trans (hsel i (I.sub i hi))
    by_cases e1 : sel i = true
    · simp [h3.2 e1, e1]
    · have : ¬ i.hash ∈ ts.map (·.1) := fun hc => e1 (h3.1 hc)
      simp [this, e1]
  have hsort := sortDesc_byseq hcands
  let f : UInt64 → Step := fun c => match (U ++ D).find? (fun i => i.seq = c) with | some i => .item i.payload | none => .skip
  have hmemS : ∀ c ∈ (byseq S).map Item.seq, ∃ i ∈ U ++ D, sel i = true ∧ i.seq = c := by
    intro c hc
    obtain ⟨i, hi, rfl⟩ := List.mem_map.1 hc
    have hiS : i ∈ S := (byseq_perm S).mem_iff.1 hi
    rw [List.mem_filter, Bool.and_eq_true] at hiS
    exact ⟨i, hiS.1, hiS.2.1, rfl⟩
  have hfi : ∀ i ∈ U ++ D, f i.seq = .item i.payload := by
    intro i hi
    simp only [f, find_seq I.nodup hi]
  have hSl : ((byseq S).map Item.seq).length = S.length := by rw [List.length_map, (byseq_perm S).length_eq]
  have hSle : S.length ≤ ((U ++ D).filter sel).length :=
    (List.monotone_filter_right (U ++ D) fun i hi => ((Bool.and_eq_true _ _).mp hi).1).length_le
  obtain ⟨m', hm', hg⟩ := getItemsS_all (step := s.candStepS v a) (fun m => MInv v.mem m M) f ((byseq S).map Item.seq)
    (by
      intro m hm c hc
      obtain ⟨i, hi, hs, rfl⟩ := hmemS c hc
      rw [hfi i hi]
      exact I.step htest hlen a hcut hi (hct i hi hs) hm (hag i hi hs))
    (by
      intro c hc
      obtain ⟨i, hi, hs, rfl⟩ := hmemS c hc
      rw [hfi i hi]
      exact ⟨by simp, by simp⟩)
    g.cap a.limit (by rw [hSl]; exact hcap) (by rw [hSl]; omega) m0 hM
  refine ⟨m', hm', ?_⟩
  have hpay : payloads f ((byseq S).map Item.seq) = (byseq S).map Item.payload := by
    refine payloads_map fun i hi => ?_
    exact hfi i (List.mem_of_mem_filter ((byseq_perm S).mem_iff.1 hi))
  have hlq : q.topic.length ≠ 0 := by simpa using ht0
  rw [Db.get, if_neg (by simp [I.opened]), if_neg hlq, if_neg (by omega)]
  simp only [hask, hnow]
  have e : (List.map (fun t => (t.hash, t.offset.toInt)) (g.orderTopics (s.trie.lookup (parseTopic a.contract q.topic).1.parts
      (parseTopic a.contract q.topic).1.depth (parseTopic a.contract q.topic).2))) = ts := hts.symm
  rw [e, hlook]
  have hcs : ({ s with mem := m0, store := { s.store with lease := lease }, count := cnt } : Db).candStepS v a = s.candStepS v a := rfl
  simp only [hsort, hcs, hg, hpay, S]

/-- A Get on a database whose trie knows all topics. -/
theorem DbInv.get_other {v : DbEnv} {s : Db} {U D : List Item} {L : Loc} {led : List (UInt64 × List WinEntry)} (I : DbInv v s U D L led)
    (htest : ∀ ks k, k ∈ ks → v.mem.test ks k = true) (hlen : s.store.data.length < 2 ^ 63) (g : GetEnv) (q : Query)
    (ht0 : q.topic ≠ []) (ht1 : q.topic.length ≤ 65536) (hcut : (q.ask v.dur g.now v.q).cutoff ≤ 0)
    (how : ∀ w, (g.orderWin w).Perm w) (hot : ∀ ts, (g.orderTopics ts).Perm ts) (sel : Item → Bool)
    (hlim : (((U ++ D).filter sel).length : Int) ≤ (q.ask v.dur g.now v.q).limit)
    (hsel : ∀ i ∈ U ++ D, i.hash ∈ (s.trie.find (q.ask v.dur g.now v.q).contract q.topic).map TTopic.hash ↔ sel i = true)
    (hct : ∀ i ∈ U ++ D, sel i = true → i.contract = (q.ask v.dur g.now v.q).contract)
    (hfirst : ∀ i ∈ U ++ D, sel i = true → led.head?.map (·.1) ≠ some i.hash)
    (hcap : ((U ++ D).filter fun i => sel i && !i.win.isExpired (toU32 (unixSec g.now))).length ≤ g.cap)
    (m0 : MemDb) (M : UInt64 → Option Bytes) (hM : MInv v.mem m0 M) (hag : ∀ i ∈ U ++ D, sel i = true → M i.seq = memMap U i.seq)
    (lease : Lease) (cnt : UInt64) :
    ∃ m, MInv v.mem m M ∧ ({ s with mem := m0, store := { s.store with lease := lease }, count := cnt } : Db).get v g q [] =
      ({ s with mem := m, store := { s.store with lease := lease }, count := cnt },
      .out (.ok ((byseq ((U ++ D).filter fun i => sel i && !i.win.isExpired (toU32 (unixSec g.now)))).map Item.payload))) :=
  I.serves.get htest hlen g q ht0 ht1 hcut how hot sel hlim hsel hct hfirst hcap m0 M hM hag lease cnt

/-- A Get below its limit returns the payloads of all live messages of the topics it finds, newest sequence first. -/
theorem DbInv.get {v : DbEnv} {s : Db} {U D : List Item} {L : Loc} {led : List (UInt64 × List WinEntry)} (I : DbInv v s U D L led)
    (htest : ∀ ks k, k ∈ ks → v.mem.test ks k = true) (hlen : s.store.data.length < 2 ^ 63) (g : GetEnv) (q : Query)
    (ht0 : q.topic ≠ []) (ht1 : q.topic.length ≤ 65536) (hcut : (q.ask v.dur g.now v.q).cutoff ≤ 0)
    (how : ∀ w, (g.orderWin w).Perm w) (hot : ∀ ts, (g.orderTopics ts).Perm ts) (sel : Item → Bool)
    (hlim : (((U ++ D).filter sel).length : Int) ≤ (q.ask v.dur g.now v.q).limit)
    (hsel : ∀ i ∈ U ++ D, i.hash ∈ (s.trie.find (q.ask v.dur g.now v.q).contract q.topic).map TTopic.hash ↔ sel i = true)
    (hct : ∀ i ∈ U ++ D, sel i = true → i.contract = (q.ask v.dur g.now v.q).contract)
    (hfirst : ∀ i ∈ U ++ D, sel i = true → led.head?.map (·.1) ≠ some i.hash)
    (hcap : ((U ++ D).filter fun i => sel i && !i.win.isExpired (toU32 (unixSec g.now))).length ≤ g.cap) :
    ∃ m, MInv v.mem m (memMap U) ∧ s.get v g q [] = ({ s with mem := m },
      .out (.ok ((byseq ((U ++ D).filter fun i => sel i && !i.win.isExpired (toU32 (unixSec g.now)))).map Item.payload))) :=
  I.get_other htest hlen g q ht0 ht1 hcut how hot sel hlim hsel hct hfirst hcap s.mem (memMap U) I.mem (fun _ _ _ => rfl) s.store.lease s.count

end Verif
