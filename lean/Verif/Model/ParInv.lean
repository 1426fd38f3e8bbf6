import Verif.Model.Par
import Verif.Model.DbRecover
import Verif.Model.DbBatchInv

/-!
# The invariant of a database with puts in progress

The messages in memory are those listed in the time windows, and those whose put has not come so far; the trie knows the topics of
those whose put has returned.
-/

namespace Verif

variable {v : DbEnv} {s : Db} {U D : List Item} {L : Loc} {led : List (UInt64 × List WinEntry)} {K K' : Item → Prop}

/-! ## Changes to what a database knows -/

theorem DbKnown.weaken (I : DbKnown K v s U D L led) (h : ∀ i ∈ U ++ D, K' i → K i) : DbKnown K' v s U D L led where
  opened := I.opened
  ok := I.ok
  nodup := I.nodup
  seqs := I.seqs
  mem := I.mem
  ready := I.ready
  blk := I.blk
  winNodup := I.winNodup
  win := I.win
  winNe := I.winNe
  store := I.store
  stored := I.stored
  count := I.count
  hist := I.hist
  synced := I.synced
  trie := by
    obtain ⟨ops, h1, h2, h3⟩ := I.trie
    exact ⟨ops, h1, fun i hi hk => h2 i hi (h i hi hk), h3⟩

theorem memMap_perm {U U' : List Item} (hp : U.Perm U') (hn : (U.map Item.seq).Nodup) : memMap U = memMap U' := by
  funext q
  have hn' : (U'.map Item.seq).Nodup := ((hp.map _).nodup_iff).1 hn
  simp only [memMap]
  congr 1
  cases hf : U.find? fun i => i.seq = q with
  | none =>
    rw [List.find?_eq_none] at hf
    symm
    rw [List.find?_eq_none]
    exact fun i hi => hf i (hp.mem_iff.2 hi)
  | some i =>
    have h1 := List.mem_of_find?_eq_some hf
    have h2 : i.seq = q := by simpa using List.find?_some hf
    subst h2
    exact (find_seq hn' (hp.mem_iff.1 h1)).symm

/-- The order of the messages in memory does not matter, but to the windows. -/
theorem DbKnown.perm {U' : List Item} (I : DbKnown K v { s with win := winOf U } U D L led) (hp : U.Perm U') :
    DbKnown K v { s with win := winOf U' } U' D L led where
  opened := I.opened
  ok := fun i hi => I.ok i ((hp.append_right D).mem_iff.2 hi)
  nodup := (((hp.append_right D).map Item.seq).nodup_iff).1 I.nodup
  seqs := fun i hi => I.seqs i ((hp.append_right D).mem_iff.2 hi)
  mem := by
    have hU : (U.map Item.seq).Nodup := by
      have := I.nodup; rw [List.map_append] at this; exact (List.nodup_append.1 this).1
    rw [← memMap_perm hp hU]; exact I.mem
  ready := I.ready
  blk := by
    intro t q
    refine (I.blk t q).trans ?_
    constructor
    · rintro ⟨i, hi, h⟩; exact ⟨i, hp.mem_iff.1 hi, h⟩
    · rintro ⟨i, hi, h⟩; exact ⟨i, hp.mem_iff.2 hi, h⟩
  winNodup := (winOf_spec U').1
  win := (winOf_spec U').2.1
  winNe := (winOf_spec U').2.2
  store := I.store
  stored := I.stored
  count := I.count
  hist := I.hist
  synced := I.synced
  trie := by
    obtain ⟨ops, h1, h2, h3⟩ := I.trie
    refine ⟨ops, h1, fun i hi hk => h2 i ((hp.append_right D).mem_iff.2 hi) hk, fun c key off h => ?_⟩
    obtain ⟨i, hi, e⟩ := h3 c key off h
    exact ⟨i, (hp.append_right D).mem_iff.1 hi, e⟩

/-- Other windows with the same content. -/
theorem DbKnown.rewin (I : DbKnown K v { s with win := winOf U } U D L led) (h1 : AMap.Nodup s.win)
    (h2 : ∀ t h, (s.win.get (t, h)).getD [] = (U.filter fun i => i.blk = t ∧ i.hash = h).map Item.win)
    (h3 : ∀ k es, s.win.get k = some es → es ≠ []) : DbKnown K v s U D L led where
  opened := I.opened
  ok := I.ok
  nodup := I.nodup
  seqs := I.seqs
  mem := I.mem
  ready := I.ready
  blk := I.blk
  winNodup := h1
  win := h2
  winNe := h3
  store := I.store
  stored := I.stored
  count := I.count
  hist := I.hist
  synced := I.synced
  trie := I.trie

/-- The sequence grows, the in-memory store changes without changing what it holds. -/
theorem DbKnown.mem_frame (I : DbKnown K v s U D L led) {n : UInt64} (hn : s.seq.toNat ≤ n.toNat) {m : MemDb} (hm : MInv v.mem m (memMap U))
    (hr : (m.blocks.get m.cur).isSome) (hw : ∀ t q, m.Where t q ↔ s.mem.Where t q) :
    DbKnown K v { s with seq := n, mem := m } U D L led where
  opened := I.opened
  ok := I.ok
  nodup := I.nodup
  seqs := fun i hi => le_trans (I.seqs i hi) hn
  mem := hm
  ready := hr
  blk := fun t q => (hw t q).trans (I.blk t q)
  winNodup := I.winNodup
  win := I.win
  winNe := I.winNe
  store := I.store
  stored := I.stored
  count := I.count
  hist := I.hist
  synced := I.synced
  trie := I.trie

/-- One more message in memory, whose topic the trie need not know. -/
theorem DbKnown.addMem (I : DbKnown K v { s with win := winOf U } U D L led) {i : Item} (hok : i.OK v) (hblk : i.blk = s.mem.cur)
    (hfreshq : ∀ j ∈ U ++ D, j.seq ≠ i.seq) (hle : i.seq.toNat ≤ s.seq.toNat) {m : MemDb} (h2 : s.mem.put v.mem i.seq i.record = (m, .ok)) :
    DbKnown (fun j => j.seq ≠ i.seq ∧ K j) v { s with mem := m, win := winOf (U ++ [i]) } (U ++ [i]) D L led := by
  obtain ⟨ops, htr, hops1, hops2⟩ := I.trie
  have hmnone : memMap U i.seq = none := by
    rw [memMap, Option.map_eq_none_iff, List.find?_eq_none]
    intro j hj hc
    exact hfreshq j (List.mem_append_left _ hj) (by simpa using hc)
  have h22 : (s.mem.put v.mem i.seq i.record).2 = .ok := by rw [h2]
  have h21 : m = (s.mem.put v.mem i.seq i.record).1 := by rw [h2]
  have hM : MInv v.mem s.mem (memMap U) := I.mem
  have hready : (s.mem.blocks.get s.mem.cur).isSome := I.ready
  have hmput := hM.put i.seq i.record (by rw [Item.length_record hok]; have := hok.val; omega) hmnone hready (by rw [h22]; simp)
  have hwhere := hM.where_put i.seq i.record h22
  obtain ⟨hsame1, hsame2, hsame3, _⟩ := s.mem.put_same v.mem i.seq i.record
  have hmem : ∀ j, j ∈ U ++ [i] ++ D ↔ j = i ∨ j ∈ U ++ D := by
    intro j
    simp only [List.mem_append, List.mem_singleton]
    tauto
  exact {
    opened := I.opened
    ok := by
      intro j hj
      rcases (hmem j).1 hj with rfl | hj
      · exact hok
      · exact I.ok j hj
    nodup := by
      have hn := I.nodup
      have hp : (U ++ [i] ++ D).Perm (i :: (U ++ D)) := by
        rw [List.append_assoc]; exact List.perm_middle
      refine ((hp.map Item.seq).nodup_iff).2 ?_
      rw [List.map_cons, List.nodup_cons]
      refine ⟨?_, hn⟩
      intro hin
      obtain ⟨j, hj, e⟩ := List.mem_map.1 hin
      exact hfreshq j hj e
    seqs := by
      intro j hj
      rcases (hmem j).1 hj with rfl | hj
      · exact hle
      · exact I.seqs j hj
    mem := by
      show MInv v.mem m _
      rw [memMap_snoc fun j hj => hfreshq j (List.mem_append_left _ hj), h21]
      exact hmput.2
    ready := by
      show (m.blocks.get m.cur).isSome
      rw [h21, hsame1, hsame2]; exact hready
    blk := by
      intro t' q'
      show m.Where t' q' ↔ _
      have hb := I.blk t' q'
      have hb : s.mem.Where t' q' ↔ _ := hb
      rw [h21, hwhere t' q', hb]
      constructor
      · rintro (⟨j, hj, h⟩ | ⟨rfl, rfl⟩)
        · exact ⟨j, List.mem_append_left _ hj, h⟩
        · exact ⟨i, List.mem_append_right _ (List.mem_singleton.2 rfl), hblk, rfl⟩
      · rintro ⟨j, hj, h⟩
        rcases List.mem_append.1 hj with hj | hj
        · exact .inl ⟨j, hj, h⟩
        · rw [List.mem_singleton] at hj
          subst hj
          exact .inr ⟨h.1.symm.trans hblk, h.2.symm⟩
    winNodup := (winOf_spec _).1
    win := (winOf_spec _).2.1
    winNe := (winOf_spec _).2.2
    store := I.store
    stored := I.stored
    count := I.count
    hist := I.hist
    synced := I.synced
    trie := by
      refine ⟨ops, htr, ?_, ?_⟩
      · intro j hj hk
        rcases (hmem j).1 hj with rfl | hj
        · exact absurd rfl hk.1
        · exact hops1 j hj hk.2
      · intro c key off hin
        obtain ⟨j, hj, h⟩ := hops2 c key off hin
        exact ⟨j, (hmem j).2 (.inr hj), h⟩ }

/-- The trie learns the topic of a message. -/
theorem DbKnown.learn (I : DbKnown K v s U D L led) {i : Item} (hi : i ∈ U ++ D) {t : Trie}
    (ht : ∀ ops, s.trie = Trie.ofTopics ops → t = Trie.ofTopics (ops ++ [.add i.contract i.topic 0]) ∧ offsOf t = offsOf s.trie)
    (hK : ∀ j ∈ U ++ D, K' j → j = i ∨ K j) : DbKnown K' v { s with trie := t } U D L led := by
  obtain ⟨ops, htr, hops1, hops2⟩ := I.trie
  have htrie := ht ops htr
  exact {
    opened := I.opened
    ok := I.ok
    nodup := I.nodup
    seqs := I.seqs
    mem := I.mem
    ready := I.ready
    blk := I.blk
    winNodup := I.winNodup
    win := I.win
    winNe := I.winNe
    store := I.store
    stored := I.stored
    count := I.count
    hist := by
      obtain ⟨w, H⟩ := I.hist
      exact ⟨w, by show WinOK ⟨s.winFile, offsOf t, w⟩ led; rw [htrie.2]; exact H⟩
    synced := I.synced
    trie := by
      refine ⟨ops ++ [.add i.contract i.topic 0], htrie.1, ?_, ?_⟩
      · intro j hj hk
        rcases hK j hj hk with rfl | hk
        · exact ⟨0, List.mem_append_right _ (List.mem_singleton.2 rfl)⟩
        · obtain ⟨off, h⟩ := hops1 j hj hk
          exact ⟨off, List.mem_append_left _ h⟩
      · intro c key off hin
        rcases List.mem_append.1 hin with hin | hin
        · exact hops2 c key off hin
        · rw [List.mem_singleton] at hin
          cases hin
          exact ⟨i, hi, rfl, rfl⟩ }

/-- A topic the trie knows stays known. -/
theorem getOffset_mono {ops : List TopicOp} {c : UInt32} {key : Bytes} (h : UInt64) (hs : ((Trie.ofTopics ops).getOffset h).isSome) :
    ((Trie.ofTopics (ops ++ [.add c key 0])).getOffset h).isSome := by
  rw [← (addTopic_fresh rfl c key).1, TrieInv.getOffset_add (s := Trie.ofTopics ops) (trieInv_run (ops.map TopicOp.toTrie))]
  split
  · rfl
  · exact hs

/-! ## Puts in progress -/

/-- What a message is, for its sender. -/
abbrev Tag := UInt32 × Bytes × Bytes × UInt32 × UInt64

def Item.tag (i : Item) : Tag := (i.contract, i.topic, i.payload, i.exp, i.seq)

/-- The sequence of a put whose record is in memory. -/
def Putting.kept (p : Putting) : Option UInt64 :=
  match p.pc with
  | .stored _ h _ _ => some h.seq
  | .listed _ h _ => some h.seq
  | .done _ q _ => q
  | _ => none

def Putting.tag (v : DbEnv) (p : Putting) : Option Tag :=
  p.kept.map fun q => (Spec.contractOf p.o, p.o.topic, p.o.payload, storedExpiry v.dur p.now p.o.topic p.o.expiresAt, q)

/-- The sequence of a put that the windows do not have. -/
def Putting.unlisted (p : Putting) : Option UInt64 :=
  match p.pc with
  | .stored _ h _ _ => some h.seq
  | _ => none

/-- The sequence of a put whose topic may not be in the trie. -/
def Putting.untaught (p : Putting) : Option UInt64 :=
  match p.pc with
  | .stored _ h _ _ => some h.seq
  | .listed _ h _ => some h.seq
  | _ => none

/-- The sequence a put will use. -/
def Putting.claim (p : Putting) : Option UInt64 :=
  match p.pc with
  | .start => p.o.id.bind idSequence
  | .parsed _ _ => p.o.id.bind idSequence
  | .packed _ h _ => some h.seq
  | .timed _ h _ _ => some h.seq
  | .aimed _ h _ _ _ => some h.seq
  | _ => none

/-- An entry not used before. -/
structure Obj.New (v : DbEnv) (o : Obj) : Prop where
  sane : Spec.Sane v o
  parsed : o.parsed = false
  topicSize : o.topicSize = 0
  plain : Spec.startsWithStar (Spec.topicText o.topic) = false
  levels : (Spec.levels (Spec.topicText o.topic)).length ≤ 254

/-- The item a put has packed. -/
structure Putting.Packs (v : DbEnv) (T : Trie) (p : Putting) (h : EntryHdr) (rec : Bytes) (i : Item) : Prop where
  ok : i.OK v
  hdr : h = i.hdr
  record : rec = i.record
  carries : i.Carries T
  tag : i.tag = (Spec.contractOf p.o, p.o.topic, p.o.payload, storedExpiry v.dur p.now p.o.topic p.o.expiresAt, i.seq)

/-- A put in progress. -/
def Putting.At (v : DbEnv) (s : Db) (U : List Item) (p : Putting) : Prop :=
  match p.pc with
  | .start => p.o.New v
  | .parsed o raw => p.o.New v ∧ ∃ T : Trie, (∀ h, (T.getOffset h).isSome → (s.trie.getOffset h).isSome) ∧
      (o, raw) = ({ s with trie := T } : Db).parseEntry v p.now p.o
  | .packed _ h rec => ∃ i, p.Packs v s.trie h rec i
  | .timed _ h rec t => (∃ i, p.Packs v s.trie h rec i) ∧ t = s.mem.cur
  | .aimed _ h rec t a => (∃ i, p.Packs v s.trie h rec i) ∧ t = s.mem.cur ∧ s.mem.blocks.get t = some a
  | .stored _ h rec t => ∃ i ∈ U, p.Packs v s.trie h rec i ∧ i.blk = t
  | .listed _ h rec => ∃ i ∈ U, p.Packs v s.trie h rec i
  | .done _ q out => (q.isSome = true ↔ out = .ok) ∧ (out = .ok ∨ out = .panic ∨ ∃ e, out = .err e ∧ (p.o.refused = some e ∨ e = .full))

theorem Putting.Packs.pc {v : DbEnv} {t : Trie} {p : Putting} {h : EntryHdr} {rec : Bytes} {i : Item} (P : p.Packs v t h rec i) (pc : PutPc) :
    ({ p with pc := pc } : Putting).Packs v t h rec i :=
  ⟨P.ok, P.hdr, P.record, P.carries, P.tag⟩

theorem Putting.Packs.mono {T T' : Trie} (hT : ∀ h, (T.getOffset h).isSome → (T'.getOffset h).isSome) {p : Putting} {h : EntryHdr} {rec : Bytes}
    {i : Item} (H : p.Packs v T h rec i) : p.Packs v T' h rec i :=
  ⟨H.ok, H.hdr, H.record, H.carries.imp (fun x => ⟨x.1, hT _ x.2⟩) id, H.tag⟩

theorem Putting.At.mono {s' : Db} {U' : List Item} {p : Putting} (H : p.At v s U)
    (hT : ∀ h, (s.trie.getOffset h).isSome → (s'.trie.getOffset h).isSome) (hc : s'.mem.cur = s.mem.cur) (hb : s'.mem.blocks = s.mem.blocks)
    (hU : ∀ i ∈ U, i ∈ U') : p.At v s' U' := by
  obtain ⟨now, o, pc⟩ := p
  cases pc with
  | start => exact H
  | parsed o' raw =>
    obtain ⟨h1, T, h2, h3⟩ := H
    exact ⟨h1, T, fun h hh => hT h (h2 h hh), h3⟩
  | packed o' h rec =>
    obtain ⟨i, hi⟩ := H
    exact ⟨i, hi.mono hT⟩
  | timed o' h rec t =>
    obtain ⟨⟨i, hi⟩, ht⟩ := H
    exact ⟨⟨i, hi.mono hT⟩, ht.trans hc.symm⟩
  | aimed o' h rec t a =>
    obtain ⟨⟨i, hi⟩, ht, ha⟩ := H
    exact ⟨⟨i, hi.mono hT⟩, ht.trans hc.symm, by rw [hb]; exact ha⟩
  | stored o' h rec t =>
    obtain ⟨i, hi, h1, h2⟩ := H
    exact ⟨i, hU i hi, h1.mono hT, h2⟩
  | listed o' h rec =>
    obtain ⟨i, hi, h1⟩ := H
    exact ⟨i, hU i hi, h1.mono hT⟩
  | done o' q out => exact H

/-- The topics the trie must know. -/
def taught (ps : List Putting) (i : Item) : Prop := i.seq ∉ ps.filterMap Putting.untaught

/-- The invariant: `U` are the messages in the windows, `W` those in memory but not in the windows, `D` the synced ones; `tags` are the
messages from before. -/
structure ParInv (v : DbEnv) (tags : List Tag) (P : Par) (U W D : List Item) (L : Loc) (led : List (UInt64 × List WinEntry)) : Prop where
  base : DbKnown (taught P.puts) v { P.db with win := winOf (U ++ W) } (U ++ W) D L led
  winNodup : AMap.Nodup P.db.win
  win : ∀ t h, (P.db.win.get (t, h)).getD [] = (U.filter fun i => i.blk = t ∧ i.hash = h).map Item.win
  winNe : ∀ k es, P.db.win.get k = some es → es ≠ []
  unlisted : (W.map Item.seq).Perm (P.puts.filterMap Putting.unlisted)
  claims : (P.puts.filterMap Putting.claim ++ (U ++ W ++ D).map Item.seq).Nodup
  claimLe : ∀ q ∈ P.puts.filterMap Putting.claim, q.toNat ≤ P.db.seq.toNat
  puts : ∀ p ∈ P.puts, p.At v P.db (U ++ W)
  tags : ((U ++ W ++ D).map Item.tag).Perm (tags ++ P.puts.filterMap (Putting.tag v))

theorem filterMap_mid {α β : Type} (f : α → Option β) (l1 l2 : List α) (a : α) :
    (l1 ++ a :: l2).filterMap f = l1.filterMap f ++ ((f a).toList ++ l2.filterMap f) := by
  rw [List.filterMap_append, List.filterMap_cons]
  cases f a <;> rfl

theorem mem_mid {α : Type} {l1 l2 : List α} {a b : α} (h : b ∈ l1 ++ a :: l2) (c : α) : b = a ∨ b ∈ l1 ++ c :: l2 := by
  simp only [List.mem_append, List.mem_cons] at h ⊢
  tauto

variable {tags : List Tag} {W : List Item} {l1 l2 : List Putting} {p p' : Putting} {s' : Db}

/-- A put takes a step that changes neither what is in memory nor the windows. -/
theorem ParInv.swap (H : ParInv v tags ⟨s, l1 ++ p :: l2⟩ U W D L led)
    (hbase : DbKnown (taught (l1 ++ p' :: l2)) v { s' with win := winOf (U ++ W) } (U ++ W) D L led) (hwin : s'.win = s.win)
    (hun : p'.unlisted = p.unlisted) (htag : p'.tag v = p.tag v)
    (hclaims : ((l1 ++ p' :: l2).filterMap Putting.claim ++ (U ++ W ++ D).map Item.seq).Nodup)
    (hle : ∀ q ∈ (l1 ++ p' :: l2).filterMap Putting.claim, q.toNat ≤ s'.seq.toNat)
    (hT : ∀ h, (s.trie.getOffset h).isSome → (s'.trie.getOffset h).isSome) (hc : s'.mem.cur = s.mem.cur) (hb : s'.mem.blocks = s.mem.blocks)
    (hat : p'.At v s' (U ++ W)) : ParInv v tags ⟨s', l1 ++ p' :: l2⟩ U W D L led where
  base := hbase
  winNodup := by show AMap.Nodup s'.win; rw [hwin]; exact H.winNodup
  win := by
    show ∀ t h, (s'.win.get (t, h)).getD [] = _
    rw [hwin]; exact H.win
  winNe := by
    show ∀ k es, s'.win.get k = some es → es ≠ []
    rw [hwin]; exact H.winNe
  unlisted := by
    have := H.unlisted
    rw [filterMap_mid] at this ⊢
    rw [hun]; exact this
  claims := hclaims
  claimLe := hle
  puts := by
    intro r hr
    rcases mem_mid hr p with rfl | hr
    · exact hat
    · exact (H.puts r hr).mono hT hc hb fun i hi => hi
  tags := by
    have := H.tags
    rw [filterMap_mid] at this ⊢
    rw [htag]; exact this

/-- Claims given up or kept. -/
theorem ParInv.claims_keep (H : ParInv v tags ⟨s, l1 ++ p :: l2⟩ U W D L led) (h : p'.claim = p.claim ∨ p'.claim = none) :
    ((l1 ++ p' :: l2).filterMap Putting.claim ++ (U ++ W ++ D).map Item.seq).Nodup ∧
    ∀ q ∈ (l1 ++ p' :: l2).filterMap Putting.claim, q.toNat ≤ s.seq.toNat := by
  have h1 := H.claims
  have h2 := H.claimLe
  rw [filterMap_mid] at h1 h2 ⊢
  rcases h with h | h
  · rw [h]; exact ⟨h1, h2⟩
  · rw [h]
    have hs : (l1.filterMap Putting.claim ++ ((none : Option UInt64).toList ++ l2.filterMap Putting.claim)).Sublist
        (l1.filterMap Putting.claim ++ (p.claim.toList ++ l2.filterMap Putting.claim)) :=
      List.Sublist.append_left (List.Sublist.append_right (List.nil_sublist _) _) _
    exact ⟨h1.sublist (hs.append_right _), fun q hq => h2 q (hs.subset hq)⟩

theorem taught_keep (h : p'.untaught = p.untaught) : taught (l1 ++ p' :: l2) = taught (l1 ++ p :: l2) := by
  funext i
  simp only [taught, filterMap_mid, h]

/-- A step that changes nothing but the place of the put. -/
theorem ParInv.pass (H : ParInv v tags ⟨s, l1 ++ p :: l2⟩ U W D L led) (hun : p'.unlisted = p.unlisted) (hte : p'.untaught = p.untaught)
    (htag : p'.tag v = p.tag v) (hcl : p'.claim = p.claim ∨ p'.claim = none) (hat : p'.At v s (U ++ W)) :
    ParInv v tags ⟨s, l1 ++ p' :: l2⟩ U W D L led :=
  H.swap (by rw [taught_keep hte]; exact H.base) rfl hun htag (H.claims_keep hcl).1 (H.claims_keep hcl).2 (fun _ h => h) rfl rfl hat

/-- An item packed by a put has a topic the trie accepts. -/
theorem Item.addTopic_some {i : Item} (hok : i.OK v) {t : Trie} (hc : i.Carries t) : ∃ t', Verif.addTopic t i.hdr i.record = some t' := by
  obtain ⟨hT1, hT2, hT3⟩ := parseTopic_fits i.contract i.topic hok.plain hok.levels
  rcases hc with ⟨hr0, _⟩ | hr0
  · have : i.hdr.topicSize = 0 := by
      show UInt16.ofNat i.raw.length = 0
      rw [hr0]; rfl
    exact ⟨t, by simp only [Verif.addTopic, this, if_true]⟩
  · have hsl := Item.rawTopic hok (by rw [hr0]; exact hT3)
    simp only [Verif.addTopic]
    split
    · exact ⟨_, rfl⟩
    · rw [show i.hdr.topicSize = i.topicSize from rfl, hsl]
      simp only [Option.bind_eq_bind, Option.bind_some]
      rw [hr0, hT1]
      exact ⟨_, rfl⟩

/-- The steps up to the drawing of a sequence. -/
theorem ParInv.pack (hs : v.mac.cipher.Sound) (hde : ∀ x, v.decode (v.encode x) = some x)
    (H : ParInv v tags ⟨s, l1 ++ p :: l2⟩ U W D L led) (hseq : s.seq.toNat < 255 * 524287) {o : Obj} {raw : Bytes} (hpc : p.pc = .parsed o raw)
    {h : EntryHdr} {rec : Bytes} (hp : s.packEntry v p.now o raw = some (s', h, rec)) :
    ParInv v tags ⟨s', l1 ++ { p with pc := .packed o h rec } :: l2⟩ U W D L led ∧ s'.mem = s.mem ∧ s'.seq.toNat ≤ s.seq.toNat + 1 ∧ s.seq.toNat ≤ s'.seq.toNat := by
  have hat : p.At v s (U ++ W) := H.puts p (by simp)
  simp only [Putting.At, hpc] at hat
  obtain ⟨hnew, T, hT, hpe⟩ := hat
  have hcl : p.claim = p.o.id.bind idSequence := by simp only [Putting.claim, hpc]
  -- as if the sequence were drawn in the state in which the trie was asked
  have hp' : ({ s with trie := T } : Db).packEntry v p.now (({ s with trie := T } : Db).parseEntry v p.now p.o).1
      (({ s with trie := T } : Db).parseEntry v p.now p.o).2 = some ({ s' with trie := T }, h, rec) := by
    rw [← hpe]
    obtain ⟨q, id, pre, val, hdr, hq, hpre, hval, hh, hr⟩ := Db.packEntry_some hp
    have hd' : ({ s with trie := T } : Db).drawId p.now o = some ({ s' with trie := T }, q, id) := by
      simp only [Db.drawId] at hdr ⊢
      split at hdr
      · simp only [Option.map_eq_some_iff, Prod.mk.injEq] at hdr ⊢
        obtain ⟨q', h1, rfl, rfl, rfl⟩ := hdr
        exact ⟨q', h1, rfl, rfl, rfl⟩
      · simp only [Option.some.injEq, Prod.mk.injEq] at hdr ⊢
        obtain ⟨rfl, rfl, rfl⟩ := hdr
        exact ⟨rfl, rfl, rfl⟩
    have hsec : ({ s with trie := T } : Db).secret o = s.secret o := rfl
    simp only [Db.packEntry, hd', Option.bind_some, if_neg hq, hpre, hsec, hval]
    rw [hr, hh]
  have hmine : ∀ id q, p.o.id = some id → idSequence id = some q → q ∈ (l1 ++ p :: l2).filterMap Putting.claim := by
    intro id q h1 h2
    rw [filterMap_mid, hcl, h1]
    simp [h2]
  obtain ⟨i, n, e, hsn, hnb, hok, hh, hrec, hblk, hct, htp, hpl, hex, hqn, hids, hcar⟩ :=
    Db.packed_item hs hde hp' 0 hnew.sane hnew.parsed hnew.topicSize hnew.plain hnew.levels hseq fun id q a b => H.claimLe q (hmine id q a b)
  have hs' : s' = { s with seq := n } := by
    obtain ⟨q, id, pre, val, hdr, _⟩ := Db.packEntry_some hp
    obtain ⟨⟨n', rfl⟩, _⟩ := Db.drawId_some hdr
    have : n' = n := congrArg Db.seq e
    rw [this]
  subst hs'
  have hids : p.o.id = none ∧ i.seq = s.seq + 1 ∨ ∃ id, p.o.id = some id ∧ idSequence id = some i.seq := hids
  have hstep : n.toNat ≤ s.seq.toNat + 1 := by
    obtain ⟨q, id, pre, val, hdr, _⟩ := Db.packEntry_some hp
    obtain ⟨_, _, hx⟩ := Db.drawId_some hdr
    rcases hx with ⟨_, hx⟩ | ⟨_, hx, _⟩
    · have : n = s.seq := congrArg Db.seq hx
      rw [this]; omega
    · have : n = s.seq + 1 := congrArg Db.seq hx
      rw [this, toNat_succ hseq]
  refine ⟨?_, rfl, hstep, hsn⟩
  have hclaim : ({ p with pc := .packed o h rec } : Putting).claim = some i.seq := by
    simp only [Putting.claim, hh]; rfl
  have hboth : ((l1 ++ ({ p with pc := .packed o h rec } : Putting) :: l2).filterMap Putting.claim ++ (U ++ W ++ D).map Item.seq).Nodup ∧
      ∀ q ∈ (l1 ++ ({ p with pc := .packed o h rec } : Putting) :: l2).filterMap Putting.claim, q.toNat ≤ n.toNat := by
    rcases hids with ⟨h1, h2⟩ | ⟨id, h1, h2⟩
    · have c1 := H.claims
      have c2 := H.claimLe
      rw [filterMap_mid, hcl, h1] at c1 c2
      simp only [Option.bind_none, Option.toList_none, List.nil_append] at c1 c2
      rw [filterMap_mid, hclaim]
      have hbig : ∀ q, q.toNat ≤ s.seq.toNat → q ≠ i.seq := by
        intro q hq hc
        rw [hc, h2, toNat_succ hseq] at hq
        omega
      constructor
      · have hp : (l1.filterMap Putting.claim ++ ((some i.seq).toList ++ l2.filterMap Putting.claim) ++ (U ++ W ++ D).map Item.seq).Perm
            (i.seq :: (l1.filterMap Putting.claim ++ l2.filterMap Putting.claim ++ (U ++ W ++ D).map Item.seq)) := by
          rw [Option.toList_some, List.singleton_append, List.append_assoc, List.cons_append]
          refine List.perm_middle.trans (List.Perm.of_eq ?_)
          simp only [List.append_assoc]
        rw [hp.nodup_iff, List.nodup_cons]
        refine ⟨?_, c1⟩
        intro hin
        rcases List.mem_append.1 hin with hin | hin
        · exact hbig _ (c2 _ hin) rfl
        · obtain ⟨j, hj, e⟩ := List.mem_map.1 hin
          exact hbig _ (H.base.seqs j hj) e
      · intro q hq
        simp only [Option.toList_some, List.singleton_append, List.mem_append, List.mem_cons] at hq
        rcases hq with hq | rfl | hq
        · exact le_trans (c2 q (List.mem_append_left _ hq)) hsn
        · exact hqn
        · exact le_trans (c2 q (List.mem_append_right _ hq)) hsn
    · have hsame : ({ p with pc := .packed o h rec } : Putting).claim = p.claim := by
        rw [hclaim, hcl, h1, Option.bind_some, h2]
      obtain ⟨c1, c2⟩ := H.claims_keep (.inl hsame)
      exact ⟨c1, fun q hq => le_trans (c2 q hq) hsn⟩
  refine H.swap ?_ rfl ?_ ?_ hboth.1 hboth.2 (fun _ h => h) rfl rfl ?_
  · have hk : taught (l1 ++ ({ p with pc := .packed o h rec } : Putting) :: l2) = taught (l1 ++ p :: l2) := by
      apply taught_keep; simp only [Putting.untaught, hpc]
    rw [hk]
    exact H.base.mem_frame hsn H.base.mem H.base.ready fun _ _ => Iff.rfl
  · simp only [Putting.unlisted, hpc]
  · simp only [Putting.tag, Putting.kept, hpc]
  · refine ⟨i, hok, hh, hrec, hcar.imp (fun x => ⟨x.1, hT _ x.2⟩) id, ?_⟩
    simp only [Item.tag, hct, htp, hpl, hex]

/-- The record goes into the block. -/
theorem ParInv.store (H : ParInv v tags ⟨s, l1 ++ p :: l2⟩ U W D L led) {o : Obj} {h : EntryHdr} {rec : Bytes} {t : Int} {a : Nat}
    (hpc : p.pc = .aimed o h rec t a) {b : MBlock} (hb : (s.mem.at a).put v.mem.cap ⟨false, h.seq⟩ rec = some b) :
    ∃ W', ParInv v tags ⟨{ s with mem := (s.mem.setAt a b).addTimeFilter v.mem t h.seq }, l1 ++ { p with pc := .stored o h rec t } :: l2⟩ U W' D L led := by
  have hat : p.At v s (U ++ W) := H.puts p (by simp)
  simp only [Putting.At, hpc] at hat
  obtain ⟨⟨i0, P0⟩, ht, ha⟩ := hat
  -- the item in its block
  obtain ⟨i, hi⟩ : ∃ i : Item, i = { i0 with blk := t } := ⟨_, rfl⟩
  have Pi : p.Packs v s.trie h rec i := by
    have h1 := P0.ok
    subst hi
    exact ⟨⟨h1.pre, h1.contract, h1.raw, h1.val, h1.opens, h1.lo, h1.hi, h1.plain, h1.levels⟩, P0.hdr, P0.record, P0.carries, P0.tag⟩
  have hblk : i.blk = t := by rw [hi]
  have hq : h.seq = i.seq := by rw [Pi.hdr]; rfl
  have hcl : p.claim = some i.seq := by simp only [Putting.claim, hpc, hq]
  have c1 := H.claims
  have c2 := H.claimLe
  rw [filterMap_mid, hcl] at c1 c2
  have hfresh : ∀ j ∈ U ++ W ++ D, j.seq ≠ i.seq := by
    intro j hj e
    rw [List.nodup_append] at c1
    exact c1.2.2 i.seq (by simp) j.seq (List.mem_map_of_mem hj) e.symm
  have hmc : s.mem.closed = false := H.base.mem.opened
  have hput : s.mem.put v.mem i.seq i.record = ((s.mem.setAt a b).addTimeFilter v.mem t h.seq, .ok) := by
    rw [hq, Pi.record] at hb
    rw [ht] at ha
    simp only [MemDb.put, MemDb.putAt, hmc, Bool.false_eq_true, if_false, ha, hb, ht, hq]
  have hbase := H.base.addMem Pi.ok (hblk.trans ht) hfresh (c2 i.seq (by simp)) hput
  have hsame := s.mem.put_same v.mem i.seq i.record
  rw [hput] at hsame
  obtain ⟨hs1, hs2, _, _⟩ := hsame
  refine ⟨W ++ [i], ?_⟩
  have hUW : U ++ (W ++ [i]) = U ++ W ++ [i] := (List.append_assoc _ _ _).symm
  have hperm : (U ++ (W ++ [i]) ++ D).Perm (i :: (U ++ W ++ D)) := by
    rw [hUW, List.append_assoc]; exact List.perm_middle
  exact {
    base := by
      rw [hUW]
      refine hbase.weaken fun j _ hk => ?_
      simp only [taught] at hk ⊢
      rw [filterMap_mid] at hk ⊢
      have e1 : ({ p with pc := .stored o h rec t } : Putting).untaught = some i.seq := by simp only [Putting.untaught, hq]
      have e2 : p.untaught = none := by simp only [Putting.untaught, hpc]
      rw [e1] at hk
      rw [e2]
      simp only [Option.toList_some, Option.toList_none, List.mem_append, List.mem_singleton, List.not_mem_nil, not_or, not_false_eq_true, true_and] at hk ⊢
      exact ⟨hk.2.1, hk.1, hk.2.2⟩
    winNodup := H.winNodup
    win := H.win
    winNe := H.winNe
    unlisted := by
      have := H.unlisted
      rw [filterMap_mid] at this ⊢
      have e1 : ({ p with pc := .stored o h rec t } : Putting).unlisted = some i.seq := by simp only [Putting.unlisted, hq]
      have e2 : p.unlisted = none := by simp only [Putting.unlisted, hpc]
      rw [e2] at this
      rw [e1, List.map_append]
      simp only [Option.toList_none, List.nil_append] at this
      simp only [Option.toList_some, List.singleton_append, List.map_cons, List.map_nil]
      refine (List.perm_append_comm).trans ?_
      exact (this.cons i.seq).trans List.perm_middle.symm
    claims := by
      have e1 : ({ p with pc := .stored o h rec t } : Putting).claim = none := rfl
      rw [filterMap_mid, e1]
      simp only [Option.toList_none, List.nil_append]
      refine List.Perm.nodup ?_ c1
      refine List.Perm.trans ?_ ((hperm.map Item.seq).symm.append_left _)
      rw [List.map_cons]
      simp only [Option.toList_some, List.singleton_append]
      refine List.Perm.trans ?_ List.perm_middle.symm
      rw [List.append_assoc, List.cons_append]
      refine List.perm_middle.trans (List.Perm.of_eq ?_)
      simp only [List.append_assoc]
    claimLe := by
      have e1 : ({ p with pc := .stored o h rec t } : Putting).claim = none := rfl
      rw [filterMap_mid, e1]
      simp only [Option.toList_none, List.nil_append]
      intro q hq'
      refine c2 q ?_
      simp only [List.mem_append] at hq' ⊢
      tauto
    puts := by
      intro r hr
      rcases mem_mid hr p with rfl | hr
      · exact ⟨i, by simp, Pi.pc _, hblk⟩
      · refine (H.puts r hr).mono (fun _ h => h) hs1 hs2 fun j hj => ?_
        rw [hUW]; exact List.mem_append_left _ hj
    tags := by
      have := H.tags
      rw [filterMap_mid] at this ⊢
      have e1 : ({ p with pc := .stored o h rec t } : Putting).tag v = some i.tag := by
        have e3 : ({ p with pc := .stored o h rec t } : Putting).kept = some h.seq := rfl
        rw [Putting.tag, e3, Option.map_some, Pi.tag, hq]
      have e2 : p.tag v = none := by simp only [Putting.tag, Putting.kept, hpc, Option.map_none]
      rw [e2] at this
      rw [e1]
      simp only [Option.toList_none, List.nil_append] at this
      simp only [Option.toList_some, List.singleton_append]
      refine (hperm.map Item.tag).trans ?_
      rw [List.map_cons]
      refine (this.cons i.tag).trans ?_
      rw [← List.append_assoc, ← List.append_assoc]
      exact List.perm_middle.symm }

/-- The entry goes into the window. -/
theorem ParInv.list (H : ParInv v tags ⟨s, l1 ++ p :: l2⟩ U W D L led) {o : Obj} {h : EntryHdr} {rec : Bytes} {t : Int}
    (hpc : p.pc = .stored o h rec t) :
    ∃ U' W', ParInv v tags ⟨{ s with win := addWindow s.win t h.topicHash ⟨h.seq, h.expiresAt⟩ }, l1 ++ { p with pc := .listed o h rec } :: l2⟩ U' W' D L led := by
  have hat : p.At v s (U ++ W) := H.puts p (by simp)
  simp only [Putting.At, hpc] at hat
  obtain ⟨i, hi, Pi, hblk⟩ := hat
  have hq : h.seq = i.seq := by rw [Pi.hdr]; rfl
  have hun := H.unlisted
  rw [filterMap_mid] at hun
  have e2 : p.unlisted = some i.seq := by simp only [Putting.unlisted, hpc, hq]
  rw [e2] at hun
  have hUW : ((U ++ W).map Item.seq).Nodup := by
    have := H.base.nodup; rw [List.map_append] at this; exact (List.nodup_append.1 this).1
  have hiW : i ∈ W := by
    have : i.seq ∈ W.map Item.seq := hun.mem_iff.2 (by simp)
    obtain ⟨j, hj, e⟩ := List.mem_map.1 this
    rwa [seq_inj hUW (List.mem_append_right _ hj) hi e] at hj
  obtain ⟨w1, w2, rfl⟩ := List.append_of_mem hiW
  have hperm : (U ++ (w1 ++ i :: w2)).Perm (U ++ [i] ++ (w1 ++ w2)) := by
    rw [List.append_assoc]
    exact List.Perm.append_left _ (by rw [List.singleton_append]; exact List.perm_middle)
  refine ⟨U ++ [i], w1 ++ w2, ?_⟩
  have hpD := hperm.append_right D
  have eh : h.topicHash = i.hash := by rw [Pi.hdr]; rfl
  have ew : (⟨h.seq, h.expiresAt⟩ : WinEntry) = i.win := by rw [Pi.hdr]; rfl
  exact {
    base := by
      have hk : taught (l1 ++ ({ p with pc := .listed o h rec } : Putting) :: l2) = taught (l1 ++ p :: l2) := by
        apply taught_keep; simp only [Putting.untaught, hpc]
      rw [hk]
      exact H.base.perm hperm
    winNodup := H.winNodup.set _ _
    win := by
      intro t' h'
      simp only [addWindow, AMap.get_set]
      have hw := H.win t' h'
      have hw : (s.win.get (t', h')).getD [] = _ := hw
      rw [List.filter_append, List.map_append, ← hw, eh, ew]
      by_cases e : (t', h') = (t, i.hash)
      · simp only [Prod.mk.injEq] at e
        obtain ⟨rfl, rfl⟩ := e
        simp only [if_true, Option.getD_some]
        have : List.filter (fun j : Item => decide (j.blk = t' ∧ j.hash = i.hash)) [i] = [i] := by
          rw [List.filter_cons, if_pos]; · rfl
          exact decide_eq_true ⟨hblk, rfl⟩
        rw [this]; rfl
      · rw [if_neg e]
        have : List.filter (fun j : Item => decide (j.blk = t' ∧ j.hash = h')) [i] = [] := by
          rw [List.filter_cons, if_neg]; · rfl
          intro hh
          have hh := of_decide_eq_true hh
          exact e (Prod.ext (hh.1.symm.trans hblk) hh.2.symm)
        rw [this]; simp
    winNe := by
      intro k es hg
      simp only [addWindow, AMap.get_set] at hg
      split at hg
      · simp only [Option.some.injEq] at hg
        rw [← hg]; simp
      · exact H.winNe k es hg
    unlisted := by
      rw [filterMap_mid]
      have e1 : ({ p with pc := .listed o h rec } : Putting).unlisted = none := rfl
      rw [e1]
      simp only [Option.toList_none, List.nil_append]
      simp only [Option.toList_some, List.singleton_append, List.map_append, List.map_cons] at hun
      rw [List.map_append]
      exact (List.perm_middle.symm.trans (hun.trans List.perm_middle)).cons_inv
    claims := by
      have hc := H.claims
      have e1 : ({ p with pc := .listed o h rec } : Putting).claim = p.claim := by simp only [Putting.claim, hpc]
      rw [filterMap_mid] at hc ⊢
      rw [e1]
      exact ((hpD.map Item.seq).append_left _).nodup hc
    claimLe := by
      have hc := H.claimLe
      have e1 : ({ p with pc := .listed o h rec } : Putting).claim = p.claim := by simp only [Putting.claim, hpc]
      rw [filterMap_mid] at hc ⊢
      rw [e1]
      exact hc
    puts := by
      intro r hr
      rcases mem_mid hr p with rfl | hr
      · exact ⟨i, hperm.mem_iff.1 hi, Pi.pc _⟩
      · exact (H.puts r hr).mono (fun _ h => h) rfl rfl fun j hj => hperm.mem_iff.1 hj
    tags := by
      have ht := H.tags
      have e1 : ({ p with pc := .listed o h rec } : Putting).tag v = p.tag v := by simp only [Putting.tag, Putting.kept, hpc]
      rw [filterMap_mid] at ht ⊢
      rw [e1]
      exact ((hpD.map Item.tag).symm).trans ht }

/-- The topic goes into the trie, and the put returns. -/
theorem ParInv.finish (H : ParInv v tags ⟨s, l1 ++ p :: l2⟩ U W D L led) {o : Obj} {h : EntryHdr} {rec : Bytes} (hpc : p.pc = .listed o h rec) :
    ∃ t, addTopic s.trie h rec = some t ∧
      ParInv v tags ⟨{ s with trie := t }, l1 ++ { p with pc := .done o.reset (some h.seq) .ok } :: l2⟩ U W D L led := by
  have hat : p.At v s (U ++ W) := H.puts p (by simp)
  simp only [Putting.At, hpc] at hat
  obtain ⟨i, hi, Pi⟩ := hat
  have hq : h.seq = i.seq := by rw [Pi.hdr]; rfl
  obtain ⟨t, ht⟩ := Item.addTopic_some Pi.ok Pi.carries
  have ht' : addTopic s.trie h rec = some t := by rw [Pi.hdr, Pi.record]; exact ht
  refine ⟨t, ht', ?_⟩
  have hadd := fun ops (hx : s.trie = Trie.ofTopics ops) => Item.addTopic Pi.ok Pi.carries ht hx
  have hcl := H.claims_keep (p' := { p with pc := .done o.reset (some h.seq) .ok }) (.inl (by simp only [Putting.claim, hpc]))
  refine H.swap ?_ rfl ?_ ?_ hcl.1 hcl.2 ?_ rfl rfl ?_
  · refine H.base.learn (List.mem_append_left D hi) (fun ops hx => hadd ops hx) ?_
    intro j hj hk
    by_cases e : j = i
    · exact .inl e
    · right
      have hne : j.seq ≠ i.seq := fun hs => e (seq_inj H.base.nodup hj (List.mem_append_left D hi) hs)
      simp only [taught] at hk ⊢
      rw [filterMap_mid] at hk ⊢
      have e1 : ({ p with pc := .done o.reset (some h.seq) .ok } : Putting).untaught = none := rfl
      have e2 : p.untaught = some i.seq := by simp only [Putting.untaught, hpc, hq]
      rw [e1] at hk
      rw [e2]
      simp only [Option.toList_some, Option.toList_none, List.mem_append, List.mem_singleton, List.not_mem_nil, not_or, not_false_eq_true, true_and] at hk ⊢
      exact ⟨hk.1, hne, hk.2⟩
  · simp only [Putting.unlisted, hpc]
  · simp only [Putting.tag, Putting.kept, hpc]
  · intro h' hs'
    obtain ⟨ops, hx, _⟩ := H.base.trie
    have hx : s.trie = Trie.ofTopics ops := hx
    show (t.getOffset h').isSome
    rw [(hadd ops hx).1]
    rw [hx] at hs'
    exact getOffset_mono h' hs'
  · simp [Putting.At]

theorem getElem?_split {α : Type} {l : List α} {j : Nat} {a : α} (h : l[j]? = some a) (b : α) : ∃ l1 l2, l = l1 ++ a :: l2 ∧ l.set j b = l1 ++ b :: l2 := by
  have hj : j < l.length := by
    rcases Nat.lt_or_ge j l.length with h' | h'
    · exact h'
    · rw [List.getElem?_eq_none h'] at h; simp at h
  refine ⟨l.take j, l.drop (j + 1), ?_, ?_⟩
  · rw [List.getElem?_eq_getElem hj, Option.some.injEq] at h
    rw [← h]; simp
  · rw [List.set_eq_take_append_cons_drop, if_pos hj]

/-- Every step of a put keeps the invariant. -/
theorem ParInv.go (hs : v.mac.cipher.Sound) (hde : ∀ x, v.decode (v.encode x) = some x) {P : Par} (H : ParInv v tags P U W D L led)
    (hseq : P.db.seq.toNat < 255 * 524287) (j : Nat) :
    ∃ U' W', ParInv v tags (P.go v j) U' W' D L led ∧ (P.go v j).db.seq.toNat ≤ P.db.seq.toNat + 1 ∧ (P.go v j).db.mem.qblocks = P.db.mem.qblocks ∧
      (P.go v j).db.mem.mark = P.db.mem.mark := by
  obtain ⟨s, ps⟩ := P
  rw [Par.go]
  cases hj : ps[j]? with
  | none => exact ⟨U, W, H, Nat.le_succ _, rfl, rfl⟩
  | some p =>
    obtain ⟨l1, l2, rfl, hset⟩ := getElem?_split hj (p.step v s).2
    simp only [hset]
    have hat : p.At v s (U ++ W) := H.puts p (by simp)
    obtain ⟨pc, hpc⟩ : ∃ pc, pc = p.pc := ⟨_, rfl⟩
    have hco : s.closed = false := H.base.opened
    have hmo : s.mem.closed = false := H.base.mem.opened
    cases pc with
    | start =>
      have hst : p.o.New v := by simpa only [Putting.At, ← hpc] using hat
      simp only [Putting.step, ← hpc, hco, Bool.false_eq_true, if_false]
      split
      · next e he =>
        refine ⟨U, W, H.pass ?_ ?_ ?_ (.inr rfl) ?_, Nat.le_succ _, rfl, rfl⟩
        · simp only [Putting.unlisted, ← hpc]
        · simp only [Putting.untaught, ← hpc]
        · simp only [Putting.tag, Putting.kept, ← hpc]
        · simp [Putting.At, he]
      · refine ⟨U, W, H.pass ?_ ?_ ?_ (.inl ?_) ?_, Nat.le_succ _, rfl, rfl⟩
        · simp only [Putting.unlisted, ← hpc]
        · simp only [Putting.untaught, ← hpc]
        · simp only [Putting.tag, Putting.kept, ← hpc]
        · simp only [Putting.claim, ← hpc]
        · exact ⟨hst, s.trie, fun _ h => h, rfl⟩
    | parsed o raw =>
      simp only [Putting.step, ← hpc]
      cases hp : s.packEntry v p.now o raw with
      | none =>
        refine ⟨U, W, H.pass ?_ ?_ ?_ (.inr rfl) ?_, Nat.le_succ _, rfl, rfl⟩
        · simp only [Putting.unlisted, ← hpc]
        · simp only [Putting.untaught, ← hpc]
        · simp only [Putting.tag, Putting.kept, ← hpc]
        · simp [Putting.At]
      | some x =>
        obtain ⟨s', h, rec⟩ := x
        obtain ⟨H', h1, h2, _⟩ := H.pack hs hde hseq hpc.symm hp
        exact ⟨U, W, H', h2, by simp only [h1], by simp only [h1]⟩
    | packed o h rec =>
      have hst : ∃ i, p.Packs v s.trie h rec i := by simpa only [Putting.At, ← hpc] using hat
      simp only [Putting.step, ← hpc, hmo, Bool.false_eq_true, if_false]
      refine ⟨U, W, H.pass ?_ ?_ ?_ (.inl ?_) ⟨hst.imp fun _ h => h.pc _, rfl⟩, Nat.le_succ _, by trivial, by trivial⟩
      · simp only [Putting.unlisted, ← hpc]
      · simp only [Putting.untaught, ← hpc]
      · simp only [Putting.tag, Putting.kept, ← hpc]
      · simp only [Putting.claim, ← hpc]
    | timed o h rec t =>
      have hst : (∃ i, p.Packs v s.trie h rec i) ∧ t = s.mem.cur := by simpa only [Putting.At, ← hpc] using hat
      simp only [Putting.step, ← hpc]
      split
      · next hn =>
        have hr : (s.mem.blocks.get s.mem.cur).isSome := H.base.ready
        rw [← hst.2, hn] at hr
        cases hr
      · next a ha =>
        refine ⟨U, W, H.pass ?_ ?_ ?_ (.inl ?_) ⟨hst.1.imp fun _ h => h.pc _, hst.2, ha⟩, Nat.le_succ _, rfl, rfl⟩
        · simp only [Putting.unlisted, ← hpc]
        · simp only [Putting.untaught, ← hpc]
        · simp only [Putting.tag, Putting.kept, ← hpc]
        · simp only [Putting.claim, ← hpc]
    | aimed o h rec t a =>
      simp only [Putting.step, ← hpc]
      split
      · refine ⟨U, W, H.pass ?_ ?_ ?_ (.inr rfl) ?_, Nat.le_succ _, rfl, rfl⟩
        · simp only [Putting.unlisted, ← hpc]
        · simp only [Putting.untaught, ← hpc]
        · simp only [Putting.tag, Putting.kept, ← hpc]
        · simp [Putting.At]
      · next b hb =>
        obtain ⟨W', H'⟩ := H.store hpc.symm hb
        exact ⟨U, W', H', Nat.le_succ _, by trivial, by trivial⟩
    | stored o h rec t =>
      simp only [Putting.step, ← hpc]
      obtain ⟨U', W', H'⟩ := H.list hpc.symm
      exact ⟨U', W', H', Nat.le_succ _, by trivial, by trivial⟩
    | listed o h rec =>
      simp only [Putting.step, ← hpc]
      obtain ⟨t, ht, H'⟩ := H.finish hpc.symm
      simp only [ht]
      exact ⟨U, W, H', Nat.le_succ _, by trivial, by trivial⟩
    | done o q out =>
      simp only [Putting.step, ← hpc]
      exact ⟨U, W, H, Nat.le_succ _, by trivial, by trivial⟩

/-- What the in-memory store holds stays. -/
theorem ParInv.mem_frame {P : Par} (H : ParInv v tags P U W D L led) {n : UInt64} (hn : P.db.seq.toNat ≤ n.toNat) {m : MemDb}
    (hm : ∀ M, MInv v.mem P.db.mem M → MInv v.mem m M) (hc : m.cur = P.db.mem.cur) (hb : m.blocks = P.db.mem.blocks)
    (hw : ∀ t q, m.Where t q ↔ P.db.mem.Where t q) :
    ParInv v tags ⟨{ P.db with seq := n, mem := m }, P.puts⟩ U W D L led where
  base := H.base.mem_frame hn (hm _ H.base.mem) (by rw [hc, hb]; exact H.base.ready) hw
  winNodup := H.winNodup
  win := H.win
  winNe := H.winNe
  unlisted := H.unlisted
  claims := H.claims
  claimLe := fun q hq => le_trans (H.claimLe q hq) hn
  puts := fun r hr => (H.puts r hr).mono (fun _ h => h) hc hb fun _ h => h
  tags := H.tags

theorem MemDb.write_mark (m : MemDb) (id t : Int) : (m.write id t false).mark = m.mark.release t := by
  simp only [MemDb.write, Bool.false_eq_true, if_false]
  repeat' split
  all_goals rfl

def ParOp.isGet : ParOp → Bool
  | .get _ _ _ => true
  | _ => false

theorem ParInv.step (hs : v.mac.cipher.Sound) (hde : ∀ x, v.decode (v.encode x) = some x) (htest : ∀ ks k, k ∈ ks → v.mem.test ks k = true)
    {P : Par} (H : ParInv v tags P U W D L led) (hseq : P.db.seq.toNat < 255 * 524287) (hm : Marked P.db.mem) (op : ParOp) :
    ∃ U' W', ParInv v tags (P.step v op) U' W' D L led ∧ (P.step v op).db.seq.toNat ≤ P.db.seq.toNat + 1 ∧
      (op.isGet = false → (P.step v op).db.mem.qblocks = P.db.mem.qblocks) ∧ Marked (P.step v op).db.mem := by
  cases op with
  | go j =>
    obtain ⟨U', W', H', h1, h2, h3⟩ := H.go hs hde hseq j
    exact ⟨U', W', H', h1, fun _ => h2, by rw [Marked, Par.step, h3]; exact hm⟩
  | write id t =>
    have h := P.db.mem.write_same id t false
    refine ⟨U, W, H.mem_frame (n := P.db.seq) (le_refl _) (fun M hM => hM.write id t false) h.1 h.2 fun t' q => H.base.mem.where_write id t false t' q,
      Nat.le_succ _, fun _ => MemDb.write_qblocks .., ?_⟩
    intro p hp
    exact TimeMark.marked_release hm t p (by rw [← MemDb.write_mark]; exact hp)
  | get g q old =>
    obtain ⟨m, h1, h2, h3⟩ := Db.get_keeps v htest g P.db q old _ H.base.mem
    have e : P.step v (.get g q old) = ⟨{ P.db with seq := P.db.seq, mem := m }, P.puts⟩ := by rw [Par.step, h1]
    rw [e]
    refine ⟨U, W, H.mem_frame (n := P.db.seq) (le_refl _) ?_ ?_ ?_ fun t q => h3.where_iff t q, Nat.le_succ _, fun hx => (by cases hx), ?_⟩
    · intro M hM
      obtain ⟨m', h1', h2', _⟩ := Db.get_keeps v htest g P.db q old M hM
      rw [h1] at h1'
      have : m = m' := congrArg Db.mem h1'
      rw [this]; exact h2'
    · obtain ⟨_, _, _, rfl⟩ := h3; rfl
    · obtain ⟨_, _, _, rfl⟩ := h3; rfl
    · obtain ⟨_, _, _, rfl⟩ := h3; exact hm
  | newId now =>
    have e : (P.db.seq + 1).toNat = P.db.seq.toNat + 1 := toNat_succ hseq
    refine ⟨U, W, H.mem_frame (n := P.db.seq + 1) (m := P.db.mem) (by rw [e]; omega) (fun M hM => hM) rfl rfl fun t q => Iff.rfl, ?_, fun _ => rfl, hm⟩
    show (P.db.seq + 1).toNat ≤ _
    rw [e]

/-- The invariant holds through every schedule. -/
theorem ParInv.run (hs : v.mac.cipher.Sound) (hde : ∀ x, v.decode (v.encode x) = some x) (htest : ∀ ks k, k ∈ ks → v.mem.test ks k = true)
    (sched : List ParOp) : ∀ {P : Par} {U W : List Item}, ParInv v tags P U W D L led → P.db.seq.toNat + sched.length ≤ 255 * 524287 → Marked P.db.mem →
    ∃ U' W', ParInv v tags (P.run v sched) U' W' D L led ∧ (sched.all (! ·.isGet) = true → (P.run v sched).db.mem.qblocks = P.db.mem.qblocks) ∧
      Marked (P.run v sched).db.mem := by
  induction sched with
  | nil => intro P U W H _ hm; exact ⟨U, W, H, fun _ => rfl, hm⟩
  | cons op sched ih =>
    intro P U W H hl hm
    rw [List.length_cons] at hl
    obtain ⟨U1, W1, H1, h1, h2, h3⟩ := H.step hs hde htest (by omega) hm op
    obtain ⟨U', W', H', h4, h5⟩ := ih H1 (by omega) h3
    refine ⟨U', W', H', ?_, h5⟩
    intro ha
    rw [List.all_cons, Bool.and_eq_true] at ha
    exact (h4 ha.2).trans (h2 (by simpa using ha.1))

/-- Puts that have not begun. -/
theorem ParInv.init (I : DbInv v s U D L led) {ps : List Putting} (hnew : ∀ p ∈ ps, p.pc = .start ∧ p.o.New v)
    (hid : (ps.filterMap (fun p => p.o.id.bind idSequence)).Nodup)
    (hfree : ∀ q ∈ ps.filterMap (fun p => p.o.id.bind idSequence), q.toNat ≤ s.seq.toNat ∧ ∀ i ∈ U ++ D, i.seq ≠ q) :
    ParInv v ((U ++ D).map Item.tag) ⟨s, ps⟩ U [] D L led := by
  have hc : ps.filterMap Putting.claim = ps.filterMap (fun p => p.o.id.bind idSequence) :=
    List.filterMap_congr fun p hp => by simp only [Putting.claim, (hnew p hp).1]
  have hn : ∀ {β} (f : Putting → Option β), (∀ p, p.pc = .start → f p = none) → ps.filterMap f = [] := by
    intro β f hf
    rw [List.filterMap_eq_nil_iff]
    exact fun p hp => hf p (hnew p hp).1
  have e : U ++ ([] : List Item) = U := List.append_nil U
  exact {
    base := by
      rw [e]
      have h := I.weaken (K' := taught ps) (fun _ _ _ => trivial)
      exact h.setWin
    winNodup := I.winNodup
    win := I.win
    winNe := I.winNe
    unlisted := by
      rw [hn Putting.unlisted fun p hp => by simp only [Putting.unlisted, hp]]
      exact List.Perm.refl _
    claims := by
      rw [hc, e, List.nodup_append]
      refine ⟨hid, I.nodup, ?_⟩
      intro a ha b hb h
      obtain ⟨i, hi, rfl⟩ := List.mem_map.1 hb
      exact (hfree a ha).2 i hi h.symm
    claimLe := by
      rw [hc]
      exact fun q hq => (hfree q hq).1
    puts := by
      intro p hp
      simp only [Putting.At, (hnew p hp).1]
      exact (hnew p hp).2
    tags := by
      rw [hn (Putting.tag v) fun p hp => by simp only [Putting.tag, Putting.kept, hp, Option.map_none], e, List.append_nil] }

/-- All puts have returned. -/
theorem ParInv.over {P : Par} (H : ParInv v tags P U W D L led) (ho : P.over = true) : W = [] ∧ DbInv v P.db U D L led := by
  have hn : ∀ {β} (f : Putting → Option β), (∀ p o q out, p.pc = .done o q out → f p = none) → P.puts.filterMap f = [] := by
    intro β f hf
    rw [List.filterMap_eq_nil_iff]
    intro p hp
    have := List.all_eq_true.1 ho p hp
    obtain ⟨pc, hpc⟩ : ∃ pc, pc = p.pc := ⟨_, rfl⟩
    cases pc with
    | done o q out => exact hf p o q out hpc.symm
    | _ => rw [← hpc] at this; simp at this
  have hw : W = [] := by
    have := H.unlisted
    rw [hn Putting.unlisted fun p o q out hp => by simp only [Putting.unlisted, hp]] at this
    simpa using this.eq_nil
  refine ⟨hw, ?_⟩
  subst hw
  have hb := H.base
  rw [List.append_nil] at hb
  refine (hb.rewin H.winNodup H.win H.winNe).weaken fun j _ _ => ?_
  simp only [taught]
  rw [hn Putting.untaught fun p o q out hp => by simp only [Putting.untaught, hp]]
  simp

end Verif
