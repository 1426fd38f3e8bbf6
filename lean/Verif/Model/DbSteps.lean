import Verif.Model.DbInv
import Verif.Props.DbPut

/-!
# The invariant of a running database is kept
-/

namespace Verif

/-! ## Put -/

theorem length_encFrom (c : UInt32) : ∀ (ls : List Bytes) (h : UInt32) (w : UInt8), (encFrom c h w ls).length ≤ ls.length + 1
  | [], _, _ => by simp [encFrom]
  | l :: ls, h, w => by
    unfold encFrom
    split
    · have := length_encFrom c ls h (w + 1)
      simp only [List.length_cons]; omega
    · have := length_encFrom c ls (Hash.withSalt l c) 0
      simp only [List.length_cons]; omega

theorem length_encLevels (c : UInt32) (ls : List Bytes) : (encLevels c ls).length ≤ ls.length := by
  cases ls with
  | nil => simp [encLevels]
  | cons l ls => exact length_encFrom c ls _ _

/-- A topic of at most 254 levels fits its fields. -/
theorem parseTopic_fits (c : UInt32) (key : Bytes) (h : Spec.startsWithStar (Spec.topicText key) = false)
    (hl : (Spec.levels (Spec.topicText key)).length ≤ 254) :
    Topic.unmarshal (parseTopic c key).1.marshal = some (parseTopic c key).1 ∧
    1 ≤ (parseTopic c key).1.marshal.length ∧ (parseTopic c key).1.marshal.length ≤ 1300 := by
  have hp : (parseTopic c key).1.parts.length ≤ (parseTopic c key).1.depth.toNat + 1 ∧ (parseTopic c key).1.parts.length ≤ 256 := by
    rw [parseTopic_eq c key h]
    have := length_encLevels c (Spec.levels (Spec.topicText key))
    simp only []
    cases hm : Spec.isMulti (Spec.topicText key)
    · simp only [Bool.false_eq_true, if_false, List.append_nil, List.length_cons, UInt8.toNat_add, UInt8.toNat_ofNat', UInt8.toNat_ofNat]
      omega
    · simp only [if_true, List.length_cons, List.length_append, List.length_nil, UInt8.toNat_add, UInt8.toNat_ofNat', UInt8.toNat_ofNat]
      omega
  refine ⟨C08_topic_roundtrip _ hp.1, by simp [Topic.marshal], ?_⟩
  have : ∀ ps : List Part, (ps.flatMap Part.encode).length = 5 * ps.length := by
    intro ps
    induction ps with
    | nil => rfl
    | cons p ps ih => simp only [List.flatMap_cons, List.length_append, ih, List.length_cons, Part.encode, List.length_nil, length_put32]; omega
  simp only [Topic.marshal, List.length_append, List.length_singleton, this]
  omega

theorem idContract_prefix (id : Bytes) (c : UInt32) (h : id.length = 16) {p : Bytes} (hp : idPrefix (setContract id c) = some p) :
    idContract p = some c := by
  have e : setContract id c = id.take 4 ++ put32 c ++ id.drop 8 := by
    have : (id ++ List.replicate 16 0).take 16 = id := by rw [List.take_append_of_le_length (by omega), List.take_of_length_le (by omega)]
    rw [setContract, this]
    simp only [patch, length_put32]
  have e2 : p = id.take 4 ++ put32 c := by
    rw [e, idPrefix] at hp
    have := slice?_mid [] (id.take 4 ++ put32 c) (id.drop 8) 0 8 rfl (by simp [h])
    simp only [List.nil_append] at this
    rw [this] at hp
    exact (Option.some.inj hp).symm
  rw [e2, idContract]
  have := get32_mid (id.take 4) c [] 4 (by simp [h])
  rwa [List.append_nil] at this

theorem memMap_snoc {U : List Item} {i : Item} (h : ∀ j ∈ U, j.seq ≠ i.seq) :
    memMap (U ++ [i]) = fun k => if k = i.seq then some i.record else memMap U k := by
  funext k
  simp only [memMap, List.find?_append]
  by_cases e : k = i.seq
  · subst e
    have : (U.find? fun j => decide (j.seq = i.seq)) = none := by
      rw [List.find?_eq_none]; intro j hj; simpa using h j hj
    simp [this]
  · simp [e, Ne.symm e]

/-- The trie after a put. -/
theorem addTopic_known {t : Trie} {ops : List TopicOp} (ht : t = Trie.ofTopics ops) (c : UInt32) (key : Bytes)
    (h : (t.getOffset (topicHash c key)).isSome) : t = Trie.ofTopics (ops ++ [.add c key 0]) := by
  have hI := trieInv_run (ops.map TopicOp.toTrie)
  have e : Trie.ofTopics (ops ++ [.add c key 0]) = (Trie.ofTopics ops).add ⟨topicHash c key, 0⟩ (parseTopic c key).1.parts (parseTopic c key).1.depth := by
    simp only [Trie.ofTopics, Trie.run, List.map_append, List.foldl_append, List.map_cons, List.map_nil, List.foldl_cons, List.foldl_nil]
    rfl
  rw [e, ht]
  subst ht
  exact (TrieInv.add_known hI ⟨topicHash c key, 0⟩ _ _ h).symm

theorem addTopic_fresh {t : Trie} {ops : List TopicOp} (ht : t = Trie.ofTopics ops) (c : UInt32) (key : Bytes) :
    t.add ⟨topicHash c key, 0⟩ (parseTopic c key).1.parts (parseTopic c key).1.depth = Trie.ofTopics (ops ++ [.add c key 0]) ∧
    offsOf (t.add ⟨topicHash c key, 0⟩ (parseTopic c key).1.parts (parseTopic c key).1.depth) = offsOf t := by
  have hI := trieInv_run (ops.map TopicOp.toTrie)
  subst ht
  constructor
  · simp only [Trie.ofTopics, Trie.run, List.map_append, List.foldl_append, List.map_cons, List.map_nil, List.foldl_cons, List.foldl_nil]
    rfl
  · funext h
    simp only [offsOf]
    rw [TrieInv.getOffset_add (s := Trie.ofTopics ops) hI]
    split
    · next hc => rw [hc.1, hc.2]; rfl
    · rfl

variable {v : DbEnv} {s : Db} {U D : List Item} {L : Loc} {led : List (UInt64 × List WinEntry)}

/-- The topic an item carries: none if the trie knows it. -/
def Item.Carries (i : Item) (t : Trie) : Prop :=
  i.raw = [] ∧ (t.getOffset i.hash).isSome ∨ i.raw = (parseTopic i.contract i.topic).1.marshal

/-- The item a packed entry is the record of. -/
theorem Db.packed_item (hs : v.mac.cipher.Sound) (hde : ∀ x, v.decode (v.encode x) = some x) {now : Int} {o : Obj} {s s1 : Db} {hd : EntryHdr} {rec : Bytes}
    (h1 : s.packEntry v now (s.parseEntry v now o).1 (s.parseEntry v now o).2 = some (s1, hd, rec)) (blk : Int)
    (hsane : Spec.Sane v o) (hp : o.parsed = false) (hts : o.topicSize = 0)
    (hplain : Spec.startsWithStar (Spec.topicText o.topic) = false) (hlev : (Spec.levels (Spec.topicText o.topic)).length ≤ 254)
    (hseq : s.seq.toNat < 255 * 524287) (hid : ∀ id q, o.id = some id → idSequence id = some q → q.toNat ≤ s.seq.toNat) :
    ∃ (i : Item) (n : UInt64), s1 = { s with seq := n } ∧ s.seq.toNat ≤ n.toNat ∧ n.toNat ≤ 255 * 524287 ∧ i.OK v ∧ hd = i.hdr ∧ rec = i.record ∧
      i.blk = blk ∧ i.contract = Spec.contractOf o ∧ i.topic = o.topic ∧ i.payload = o.payload ∧
      i.exp = storedExpiry v.dur now o.topic o.expiresAt ∧ i.seq.toNat ≤ n.toNat ∧
      (o.id = none ∧ i.seq = s.seq + 1 ∨ ∃ id, o.id = some id ∧ idSequence id = some i.seq) ∧ i.Carries s.trie := by
  obtain ⟨q, id, pre, val, hdr, hq0, hpre, hval, rfl, hrec⟩ := Db.packEntry_some h1
  -- the parsed entry
  let c := Spec.contractOf o
  let T := (parseTopic c o.topic).1
  let known := (s.trie.getOffset (topicHash c o.topic)).isSome
  let raw : Bytes := if known then [] else T.marshal
  obtain ⟨ex, hex⟩ : ∃ ex, ex = storedExpiry v.dur now o.topic o.expiresAt := ⟨_, rfl⟩
  have hpe : (s.parseEntry v now o).1.contract = c ∧ (s.parseEntry v now o).1.payload = o.payload ∧ (s.parseEntry v now o).1.expiresAt = ex ∧
      (s.parseEntry v now o).1.hash = topicHash c o.topic ∧ (s.parseEntry v now o).1.topicSize = UInt16.ofNat raw.length ∧
      (s.parseEntry v now o).1.id = o.id ∧ (s.parseEntry v now o).2 = raw := by
    simp only [Db.parseEntry, hp, Bool.false_eq_true, if_false]
    refine ⟨rfl, trivial, hex.symm, rfl, ?_, trivial, rfl⟩
    show (if known = true then o.topicSize else UInt16.ofNat (if known = true then [] else T.marshal : Bytes).length) = UInt16.ofNat raw.length
    by_cases hk : known = true
    · simp only [hk, if_true, raw, hts]; rfl
    · simp only [if_neg hk, raw]
  obtain ⟨hT1, hT2, hT3⟩ := parseTopic_fits c o.topic hplain hlev
  have hraw : raw.length ≤ 1300 := by
    simp only [raw]; split
    · simp
    · exact hT3
  generalize s.parseEntry v now o = x at *
  obtain ⟨x1, x2⟩ := x
  obtain ⟨e1, e2, e3, e4, e5, e6, e7⟩ := hpe
  simp only at e1 e2 e3 e4 e5 e6 e7 hdr hpre hval hrec h1
  rw [e1] at hpre
  rw [e2] at hval
  rw [e4, e5, e3, e7] at hrec
  simp only [e4, e3, e5]
  generalize hsec : s.secret x1 = sec at *
  have hlen : id.length = 16 := by
    obtain ⟨_, _, hx⟩ := Db.drawId_some hdr
    rcases hx with ⟨hx, _⟩ | ⟨_, _, _, rfl⟩
    · exact hsane.id id (e6 ▸ hx)
    · exact length_newID _ _
  obtain ⟨p', hp1, hp2⟩ := idPrefix_some id c hlen
  rw [hpre] at hp1
  cases hp1
  have hvl := hsane.val _ _ hval
  let i : Item := ⟨c, o.topic, o.payload, ex, q, blk, pre, if sec then 1 else 0, raw, val⟩
  obtain ⟨⟨n, rfl⟩, hiq, hx⟩ := Db.drawId_some hdr
  have hseqs : q.toNat ≤ n.toNat ∧ s.seq.toNat ≤ n.toNat ∧ n.toNat ≤ 255 * 524287 ∧
      (o.id = none ∧ q = s.seq + 1 ∨ ∃ id, o.id = some id ∧ idSequence id = some q) := by
    rcases hx with ⟨hx, he⟩ | ⟨hx, he, rfl, _⟩
    · have hn : n = s.seq := congrArg Db.seq he
      rw [e6] at hx
      have a := hid id q hx hiq
      subst hn
      exact ⟨a, le_refl _, by omega, .inr ⟨id, hx, hiq⟩⟩
    · have hn : n = s.seq + 1 := congrArg Db.seq he
      have hadd : (s.seq + 1).toNat = s.seq.toNat + 1 := by
        rw [UInt64.toNat_add]; simp only [UInt64.toNat_ofNat]; omega
      subst hn
      exact ⟨le_refl _, by omega, by omega, .inl ⟨e6 ▸ hx, rfl⟩⟩
  obtain ⟨hqn, hsn, hnb, hids⟩ := hseqs
  have hok : i.OK v := by
    refine ⟨hp2, idContract_prefix id c hlen hpre, by show raw.length + 9 < 65536; omega, by show 35 + raw.length + val.length + 13 < 2 ^ 32; omega, ?_, ?_, by show q.toNat ≤ _; omega, hplain, hlev⟩
    · show ((if (if sec then (1 : UInt8) else 0) = 1 then (v.mac.decrypt val).1 else some val).bind v.decode) = some o.payload
      cases sec
      · simp only [DbEnv.sealValue, Bool.false_eq_true, if_false, Option.some.injEq] at hval
        rw [if_neg (by decide), ← hval]
        exact hde _
      · simp only [DbEnv.sealValue, if_true] at hval
        rw [if_pos (by decide), (Mac.decrypt_encrypt _ hs _ _ hval).1]
        exact hde _
    · show 1 ≤ q.toNat
      have : q.toNat ≠ 0 := fun hz => hq0 (UInt64.toNat_inj.1 (by simpa using hz))
      omega
  have hreceq : rec = i.record := by
    rw [hrec, packRecord_eq _ _ _ _ _ hp2 (Item.topicSize_toNat hok) (Item.valueSize_toNat hok) (by have := hok.val; show 35 + raw.length + val.length < _; omega)]
    rfl
  refine ⟨i, n, rfl, hsn, hnb, hok, rfl, hreceq, rfl, rfl, rfl, rfl, hex, hqn, hids, ?_⟩
  by_cases hk : known = true
  · exact .inl ⟨by show raw = []; simp only [raw, hk, if_true], hk⟩
  · exact .inr (by show raw = T.marshal; simp only [raw, if_neg hk])

/-- The topic in a record. -/
theorem Item.rawTopic {i : Item} (hok : i.OK v) (hraw : i.raw.length ≤ 1300) : slice? i.record 35 (35 + i.topicSize).toNat = some i.raw := by
  have e1 : i.record = (i.hdr.marshal ++ (i.pre ++ [i.flag])) ++ i.raw ++ i.val := by
    simp only [Item.record, Item.body, List.append_assoc]
  rw [e1]
  have e2 : (i.hdr.marshal ++ (i.pre ++ [i.flag])).length = 35 := by
    simp only [List.length_append, EntryHdr.length_marshal, entrySize, hok.pre, List.length_singleton]
  refine slice?_mid _ i.raw i.val _ _ e2.symm ?_
  rw [UInt16.toNat_add, Item.topicSize_toNat hok]
  simp only [UInt16.toNat_ofNat]
  omega

/-- The trie after an item was put. -/
theorem Item.addTopic {i : Item} (hok : i.OK v) {t t' : Trie} (hc : i.Carries t) (h : addTopic t i.hdr i.record = some t') {ops : List TopicOp}
    (ht : t = Trie.ofTopics ops) : t' = Trie.ofTopics (ops ++ [.add i.contract i.topic 0]) ∧ offsOf t' = offsOf t := by
  obtain ⟨hT1, hT2, hT3⟩ := parseTopic_fits i.contract i.topic hok.plain hok.levels
  rcases hc with ⟨hr0, hk⟩ | hr0
  · have : i.hdr.topicSize = 0 := by
      show UInt16.ofNat i.raw.length = 0
      rw [hr0]; rfl
    simp only [Verif.addTopic, this, if_true, Option.some.injEq] at h
    subst h
    exact ⟨addTopic_known ht i.contract i.topic hk, rfl⟩
  · have hn0 : ¬ i.hdr.topicSize = 0 := by
      intro hz
      have := congrArg UInt16.toNat hz
      rw [show i.hdr.topicSize = i.topicSize from rfl, Item.topicSize_toNat hok, hr0] at this
      simp only [UInt16.toNat_ofNat] at this
      omega
    have hsl' := Item.rawTopic hok (by rw [hr0]; exact hT3)
    simp only [Verif.addTopic, if_neg hn0, Option.bind_eq_bind, Option.bind_eq_some_iff] at h
    obtain ⟨sl, hsl, p, hpu, h3⟩ := h
    rw [show i.hdr.topicSize = i.topicSize from rfl, hsl'] at hsl
    cases hsl
    rw [hr0, hT1] at hpu
    cases hpu
    simp only [pure, Option.some.injEq] at h3
    subst h3
    exact addTopic_fresh ht i.contract i.topic

/-- One more message in memory. -/
theorem DbInv.add (I : DbInv v s U D L led) {i : Item} (hok : i.OK v) (hblk : i.blk = s.mem.cur) (hfreshq : ∀ j ∈ U ++ D, j.seq ≠ i.seq)
    (hle : i.seq.toNat ≤ s.seq.toNat) {m : MemDb} {t : Trie} (h2 : s.mem.put v.mem i.seq i.record = (m, .ok))
    (ht : ∀ ops, s.trie = Trie.ofTopics ops → t = Trie.ofTopics (ops ++ [.add i.contract i.topic 0]) ∧ offsOf t = offsOf s.trie) :
    DbInv v { s with mem := m, win := addWindow s.win s.mem.cur i.hash i.win, trie := t } (U ++ [i]) D L led ∧ m.qblocks = s.mem.qblocks := by
  obtain ⟨ops, htr, hops1, hops2⟩ := I.trie
  have htrie := ht ops htr
  have hmnone : memMap U i.seq = none := by
    rw [memMap, Option.map_eq_none_iff, List.find?_eq_none]
    intro j hj hc
    exact hfreshq j (List.mem_append_left _ hj) (by simpa using hc)
  have h22 : (s.mem.put v.mem i.seq i.record).2 = .ok := by rw [h2]
  have h21 : m = (s.mem.put v.mem i.seq i.record).1 := by rw [h2]
  have hmput := I.mem.put i.seq i.record (by rw [Item.length_record hok]; have := hok.val; omega) hmnone I.ready (by rw [h22]; simp)
  have hwhere := I.mem.where_put i.seq i.record h22
  obtain ⟨hsame1, hsame2, hsame3, _⟩ := s.mem.put_same v.mem i.seq i.record
  refine ⟨?_, by rw [h21, hsame3]⟩
  exact {
    opened := I.opened
    ok := by
      intro j hj
      simp only [List.append_assoc, List.mem_append, List.mem_singleton] at hj
      rcases hj with hj | rfl | hj
      · exact I.ok j (List.mem_append_left _ hj)
      · exact hok
      · exact I.ok j (List.mem_append_right _ hj)
    nodup := by
      have hn := I.nodup
      have hp : (U ++ [i] ++ D).Perm (i :: (U ++ D)) := by
        rw [List.append_assoc]; exact List.perm_middle
      refine ((hp.map Item.seq).nodup_iff).2 ?_
      rw [List.map_cons, List.nodup_cons]
      refine ⟨?_, hn⟩
      intro hin
      obtain ⟨j, hj, e⟩ := List.mem_map.1 hin
      exact hfreshq j hj e
    seqs := by
      intro j hj
      simp only [List.append_assoc, List.mem_append, List.mem_singleton] at hj
      rcases hj with hj | rfl | hj
      · exact I.seqs j (List.mem_append_left _ hj)
      · exact hle
      · exact I.seqs j (List.mem_append_right _ hj)
    mem := by
      show MInv v.mem m _
      rw [memMap_snoc fun j hj => hfreshq j (List.mem_append_left _ hj), h21]
      exact hmput.2
    ready := by
      show (m.blocks.get m.cur).isSome
      rw [h21, hsame1, hsame2]; exact I.ready
    blk := by
      intro t' q'
      show m.Where t' q' ↔ _
      rw [h21, hwhere t' q', I.blk t' q']
      constructor
      · rintro (⟨j, hj, h⟩ | ⟨rfl, rfl⟩)
        · exact ⟨j, List.mem_append_left _ hj, h⟩
        · exact ⟨i, List.mem_append_right _ (List.mem_singleton.2 rfl), hblk, rfl⟩
      · rintro ⟨j, hj, h⟩
        rcases List.mem_append.1 hj with hj | hj
        · exact .inl ⟨j, hj, h⟩
        · rw [List.mem_singleton] at hj
          subst hj
          exact .inr ⟨h.1.symm.trans hblk, h.2.symm⟩
    winNodup := I.winNodup.set _ _
    win := by
      intro t' h'
      simp only [addWindow, AMap.get_set]
      rw [List.filter_append, List.map_append, ← I.win t' h']
      by_cases e : (t', h') = (s.mem.cur, i.hash)
      · simp only [Prod.mk.injEq] at e
        obtain ⟨rfl, rfl⟩ := e
        simp only [if_true, Option.getD_some]
        have : List.filter (fun j : Item => decide (j.blk = s.mem.cur ∧ j.hash = i.hash)) [i] = [i] := by
          rw [List.filter_cons, if_pos]; · rfl
          exact decide_eq_true ⟨hblk, rfl⟩
        rw [this]; rfl
      · rw [if_neg e]
        have : List.filter (fun j : Item => decide (j.blk = t' ∧ j.hash = h')) [i] = [] := by
          rw [List.filter_cons, if_neg]; · rfl
          intro hh
          have hh := of_decide_eq_true hh
          exact e (Prod.ext (hh.1.symm.trans hblk) hh.2.symm)
        rw [this]; simp
    winNe := by
      intro k es hg
      simp only [addWindow, AMap.get_set] at hg
      split at hg
      · simp only [Option.some.injEq] at hg
        rw [← hg]; simp
      · exact I.winNe k es hg
    store := I.store
    stored := I.stored
    count := I.count
    hist := by
      obtain ⟨w, H⟩ := I.hist
      exact ⟨w, by show WinOK ⟨s.winFile, offsOf t, w⟩ led; rw [htrie.2]; exact H⟩
    synced := I.synced
    trie := by
      refine ⟨ops ++ [.add i.contract i.topic 0], htrie.1, ?_, ?_⟩
      · intro j hj _
        simp only [List.append_assoc, List.mem_append, List.mem_singleton] at hj
        rcases hj with hj | rfl | hj
        · obtain ⟨off, h⟩ := hops1 j (List.mem_append_left _ hj) trivial
          exact ⟨off, List.mem_append_left _ h⟩
        · exact ⟨0, List.mem_append_right _ (List.mem_singleton.2 rfl)⟩
        · obtain ⟨off, h⟩ := hops1 j (List.mem_append_right _ hj) trivial
          exact ⟨off, List.mem_append_left _ h⟩
      · intro c' key off hin
        rcases List.mem_append.1 hin with hin | hin
        · obtain ⟨j, hj, h⟩ := hops2 c' key off hin
          refine ⟨j, ?_, h⟩
          simp only [List.append_assoc, List.mem_append, List.mem_singleton] at hj ⊢
          rcases hj with hj | hj
          · exact .inl hj
          · exact .inr (.inr hj)
        · rw [List.mem_singleton] at hin
          cases hin
          exact ⟨i, by simp, rfl, rfl⟩ }

/-! ## The other operations that leave the messages alone -/

/-- Only the sequence grows and the in-memory store changes without changing what it holds. -/
theorem DbInv.frame (I : DbInv v s U D L led) {n : UInt64} (hn : s.seq.toNat ≤ n.toNat) {m : MemDb} (hm : MInv v.mem m (memMap U))
    (hr : (m.blocks.get m.cur).isSome) (hw : ∀ t q, m.Where t q ↔ s.mem.Where t q) :
    DbInv v { s with seq := n, mem := m } U D L led where
  opened := I.opened
  ok := I.ok
  nodup := I.nodup
  seqs := fun i hi => le_trans (I.seqs i hi) hn
  mem := hm
  ready := hr
  blk := fun t q => (hw t q).trans (I.blk t q)
  winNodup := I.winNodup
  win := I.win
  winNe := I.winNe
  store := I.store
  stored := I.stored
  count := I.count
  hist := I.hist
  synced := I.synced
  trie := I.trie

theorem toNat_succ {q : UInt64} (h : q.toNat < 255 * 524287) : (q + 1).toNat = q.toNat + 1 := by
  rw [UInt64.toNat_add]; simp only [UInt64.toNat_ofNat]; omega

/-- A put that succeeds adds one message. -/
theorem DbInv.put (I : DbInv v s U D L led) (hs : v.mac.cipher.Sound) (hde : ∀ x, v.decode (v.encode x) = some x) {now : Int} {o o' : Obj}
    {s' : Db} (hsane : Spec.Sane v o) (hp : o.parsed = false) (hts : o.topicSize = 0)
    (hplain : Spec.startsWithStar (Spec.topicText o.topic) = false) (hlev : (Spec.levels (Spec.topicText o.topic)).length ≤ 254)
    (hseq : s.seq.toNat < 255 * 524287)
    (hid : ∀ id q, o.id = some id → idSequence id = some q → q.toNat ≤ s.seq.toNat ∧ ∀ i ∈ U ++ D, i.seq ≠ q)
    (h : s.putEntry v now o = (s', o', .ok)) :
    ∃ i, DbInv v s' (U ++ [i]) D L led ∧ i.contract = Spec.contractOf o ∧ i.topic = o.topic ∧ i.payload = o.payload ∧
      i.exp = storedExpiry v.dur now o.topic o.expiresAt ∧ i.blk = s.mem.cur ∧
      (o.id = none ∧ i.seq = s.seq + 1 ∨ ∃ id, o.id = some id ∧ idSequence id = some i.seq) ∧
      s'.mem.qblocks = s.mem.qblocks ∧ s'.winFile = s.winFile ∧ s'.store = s.store ∧ i.Carries s.trie ∧
      s.mem.put v.mem i.seq i.record = (s'.mem, .ok) := by
  obtain ⟨hc, hr, n, hd, rec, m, t, h1, h2, h3, rfl, rfl⟩ := Db.putEntry_ok h
  obtain ⟨i, n', e, hsn, hnb, hok, rfl, rfl, hblk, hct, htp, hpl, hex, hqn, hids, hcar⟩ :=
    Db.packed_item hs hde h1 s.mem.cur hsane hp hts hplain hlev hseq fun id q a b => (hid id q a b).1
  have hn : n = n' := congrArg Db.seq e
  subst hn
  obtain ⟨I', hq⟩ := (I.frame hsn I.mem I.ready fun _ _ => Iff.rfl).add hok hblk (by
    intro j hj he
    rcases hids with ⟨_, hi⟩ | ⟨id, h1, h2⟩
    · have := I.seqs j hj
      rw [he, hi, toNat_succ hseq] at this
      omega
    · exact (hid id _ h1 h2).2 j hj he) hqn h2 fun ops ht => Item.addTopic hok hcar h3 ht
  exact ⟨i, I', hct, htp, hpl, hex, hblk, hids, hq, rfl, rfl, hcar, h2⟩

/-- Drawing an id. -/
theorem DbInv.newId (I : DbInv v s U D L led) (hseq : s.seq.toNat < 255 * 524287) (now : Int) : DbInv v (s.newId now).1 U D L led :=
  I.frame (by rw [toNat_succ hseq]; omega) I.mem I.ready fun _ _ => Iff.rfl

/-- A put that is refused. -/
theorem DbInv.putErr (I : DbInv v s U D L led) (hseq : s.seq.toNat < 255 * 524287) {now : Int} {o o' : Obj} {s' : Db} {e : DErr}
    (h : s.putEntry v now o = (s', o', .err e)) : DbInv v s' U D L led ∧ s'.mem = s.mem := by
  simp only [Db.putEntry, I.opened, Bool.false_eq_true, if_false] at h
  split at h
  · simp only [Prod.mk.injEq] at h; obtain ⟨rfl, _⟩ := h; exact ⟨I, rfl⟩
  · split at h
    · simp at h
    · next s1 o1 hd rec hs =>
      simp only [Db.setEntry, Option.map_eq_some_iff, Prod.mk.injEq] at hs
      obtain ⟨⟨s2, hd2, rec2⟩, hs, rfl, rfl, rfl, rfl⟩ := hs
      obtain ⟨q, id, pre, val, hdr, hq, hpre, hval, rfl, rfl⟩ := Db.packEntry_some hs
      obtain ⟨⟨n, rfl⟩, _, hx⟩ := Db.drawId_some hdr
      have hn : s.seq.toNat ≤ n.toNat := by
        rcases hx with ⟨_, he⟩ | ⟨_, he, _⟩
        · have : n = s.seq := congrArg Db.seq he
          rw [this]
        · have : n = s.seq + 1 := congrArg Db.seq he
          rw [this, toNat_succ hseq]; omega
      split at h
      · split at h <;> simp at h
      · next m out hne hm =>
        simp only [Prod.mk.injEq, DOut.err.injEq] at h
        obtain ⟨rfl, _⟩ := h
        have hf := MemDb.put_fail v.mem s.mem q (packRecord _ pre _ _ val) (by rw [hm]; exact hne)
        rw [hm] at hf
        simp only at hf
        subst hf
        exact ⟨I.frame hn I.mem I.ready fun _ _ => Iff.rfl, rfl⟩

theorem getPageS_keeps {σ : Type} {step : σ → UInt64 → σ × Step} {P : σ → Prop} (hP : ∀ s c, P s → P (step s c).1) :
    ∀ (cs : List UInt64) (s : σ) (items : List Bytes) (inv : Nat), P s → P (getPageS step cs s items inv).1
  | [], s, items, inv, h => h
  | c :: cs, s, items, inv, h => by
    have h1 := hP s c h
    unfold getPageS
    split <;> next he => 
      rw [he] at h1
      first | exact getPageS_keeps hP cs _ _ _ h1 | exact h1

theorem getLoopS_keeps {σ : Type} {step : σ → UInt64 → σ × Step} {P : σ → Prop} (hP : ∀ s c, P s → P (step s c).1) (cands : List UInt64) (cap : Nat)
    (q : Int) : ∀ (fuel : Nat) (start limit : Int) (s : σ) (items : List Bytes), P s → P (getLoopS step cands cap q fuel start limit s items).1
  | 0, _, _, s, _, h => h
  | fuel + 1, start, limit, s, items, h => by
    unfold getLoopS
    split
    · exact h
    · have h1 := getPageS_keeps hP (((cands ++ List.replicate (cap - cands.length) 0).take limit.toNat).drop start.toNat) s items 0 h
      split <;> next he =>
        rw [he] at h1
        first
        | exact h1
        | (split
           · exact h1
           · split
             · exact getLoopS_keeps hP cands cap q fuel _ _ _ _ h1
             · exact getLoopS_keeps hP cands cap q fuel _ _ _ _ h1)

/-- A Get changes the query cache only. -/
theorem Db.get_keeps (v : DbEnv) (htest : ∀ ks k, k ∈ ks → v.mem.test ks k = true) (g : GetEnv) (s : Db) (q : Query) (old : List UInt64)
    (M : UInt64 → Option Bytes) (hM : MInv v.mem s.mem M) :
    ∃ m, (s.get v g q old).1 = { s with mem := m } ∧ MInv v.mem m M ∧ s.mem.SameData m := by
  have hrefl : ∃ m, s = { s with mem := m } ∧ MInv v.mem m M ∧ s.mem.SameData m := ⟨s.mem, rfl, hM, .refl _⟩
  simp only [Db.get]
  split
  · exact hrefl
  · split
    · exact hrefl
    · split
      · exact hrefl
      · split
        · exact hrefl
        · next cands _ =>
          refine ⟨_, rfl, ?_⟩
          have hstep : ∀ m c, (MInv v.mem m M ∧ s.mem.SameData m) →
              MInv v.mem (s.candStepS v (q.ask v.dur g.now v.q) m c).1 M ∧ s.mem.SameData (s.candStepS v (q.ask v.dur g.now v.q) m c).1 := by
            intro m c ⟨h1, h2⟩
            unfold Db.candStepS
            split
            · exact ⟨h1, h2⟩
            · have h3 := (MInv.get htest h1 c).1
              have h4 := h2.trans (MemDb.get_data v.mem m c)
              dsimp only
              split <;> exact ⟨h3, h4⟩
          unfold getItemsS
          split
          · exact ⟨hM, .refl _⟩
          · exact getLoopS_keeps (P := fun m => MInv v.mem m M ∧ s.mem.SameData m) hstep _ _ _ _ _ _ _ _ ⟨hM, .refl _⟩

theorem DbInv.getKeeps (I : DbInv v s U D L led) (htest : ∀ ks k, k ∈ ks → v.mem.test ks k = true) (g : GetEnv) (q : Query) (old : List UInt64) :
    DbInv v (s.get v g q old).1 U D L led := by
  obtain ⟨m, h1, h2, h3⟩ := Db.get_keeps v htest g s q old _ I.mem
  rw [h1]
  have hr : (m.blocks.get m.cur).isSome := by
    obtain ⟨_, _, _, rfl⟩ := h3; exact I.ready
  exact I.frame (n := s.seq) (le_refl _) h2 hr fun t q => h3.where_iff t q

theorem DbInv.rotate (I : DbInv v s U D L led) (t : Int) (ht : s.mem.cur ≤ t) : DbInv v { s with mem := s.mem.rotate t } U D L led :=
  I.frame (n := s.seq) (le_refl _) (I.mem.rotate t ht) (s.mem.rotate_ready t) fun t' q => I.mem.where_rotate t t' q

theorem DbInv.write (I : DbInv v s U D L led) (id t : Int) : DbInv v { s with mem := s.mem.write id t false } U D L led := by
  have h := s.mem.write_same id t false
  exact I.frame (n := s.seq) (le_refl _) (I.mem.write id t false) (by rw [h.1, h.2]; exact I.ready) fun t' q => I.mem.where_write id t false t' q

end Verif
