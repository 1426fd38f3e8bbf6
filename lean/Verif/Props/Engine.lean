import Verif.Model.EngineSync

/-!
# C28, C29, C30: records on disk

Histories of syncs, expiries and reopenings; what was stored stays readable byte for byte, once per sequence, without overlap.
-/

namespace Verif

/-- What can happen to the files: a sync of time blocks of records, the expiry of one entry, close and reopen. -/
inductive EngineOp where
  | sync (rounds : List (List Rec))
  | expire (seq : UInt64)
  | reopen

namespace Spec

/-- A record a put can produce: 9 bytes of id, the topic and the payload, with the sizes that say so, and a sequence the index can
address. The largest topic is the one whose end `readMessage` can compute in 16 bits. -/
structure Storable (r : Rec) : Prop where
  lo : 1 ≤ r.seq.toNat
  hi : r.seq.toNat ≤ 255 * 524287
  sized : r.cache.length = 9 + r.topicSize.toNat + r.valueSize.toNat
  small : r.cache.length < 2 ^ 32
  topic : r.topicSize.toNat ≤ 65526

/-- What a client knows: the records stored, in order, and the sequences whose space was given back. -/
structure Ledger where
  stored : List Rec
  freed : List UInt64

/-- The records of a sync that a sequence-keyed table would take: those whose sequence is not in it yet. -/
def firsts (t : List Rec) : List Rec → List Rec
  | [] => t
  | r :: rs => if ∃ x ∈ t, x.seq = r.seq then firsts t rs else firsts (t ++ [r]) rs

/-- All histories that start from empty files with minimum free size `m`: any syncs of storable records, as long as the data file stays below 2^63 bytes; expiry of a stored entry,
once per entry; reopening when the free list has nothing to merge. The two restrictions are violated in the code
(`C30_double_expiry_violated`, `C31_violated`). -/
inductive History (m : Int) : List EngineOp → Store → Ledger → Prop
  | init : History m [] ⟨[], [], Lease.new m⟩ ⟨[], []⟩
  | sync {ops s g} (rounds s') : History m ops s g → (∀ rs ∈ rounds, ∀ r ∈ rs, Storable r) → syncAll s rounds = some s' →
      s'.data.length < 2 ^ 63 → History m (ops ++ [.sync rounds]) s' ⟨firsts g.stored rounds.flatten, g.freed⟩
  | expire {ops s g} (q s') : History m ops s g → (∃ r ∈ g.stored, r.seq = q) → q ∉ g.freed → expireOne s q = some s' →
      History m (ops ++ [.expire q]) s' ⟨g.stored, q :: g.freed⟩
  | reopen {ops s g} (l') : History m ops s g → noNeighbours s.lease → s.lease.all.length < 357913941 →
      (Lease.new m).read s.lease.defrag.write = some l' → History m (ops ++ [.reopen]) { s with lease := l' } g

end Spec

theorem Spec.Storable.ok {r : Rec} (h : Spec.Storable r) : r.OK := ⟨h.lo, h.hi, by have := h.sized; omega, h.small⟩

theorem firsts_eq (rs : List Rec) : ∀ t : List Rec, Spec.firsts t rs = t ++ newRecs (t.map (·.seq)) rs := by
  induction rs with
  | nil => intro t; simp [Spec.firsts, newRecs]
  | cons r rs ih =>
    intro t
    have he : (∃ x ∈ t, x.seq = r.seq) ↔ r.seq ∈ t.map (·.seq) := by simp
    rw [Spec.firsts, newRecs]
    by_cases h : r.seq ∈ t.map (·.seq)
    · rw [if_pos h, if_pos (he.2 h), ih]
    · rw [if_neg h, if_neg (fun hc => h (he.1 hc)), ih]; simp

theorem find_mkBlock {k : Nat} {L : Loc} (hloc : LocOK L) {p : Rec × Nat} (hp : p ∈ L) (hk : blockIndex p.1.seq.toNat = k) :
    (absBlock L k).entries.find? (fun e => e.seq == p.1.seq) = some (toEntry p) := by
  have hmem : toEntry p ∈ blockEs L k :=
    List.mem_map.2 ⟨p, List.mem_filter.2 ⟨hp, by simpa using hk⟩, rfl⟩
  have g := hloc.goodEs k
  rw [absBlock, mkBlock, List.find?_append]
  have : (blockEs L k).find? (fun e => e.seq == p.1.seq) = some (toEntry p) := by
    cases hf : (blockEs L k).find? (fun e => e.seq == p.1.seq) with
    | none =>
      rw [List.find?_eq_none] at hf
      have := hf _ hmem
      simp [toEntry] at this
    | some e =>
      have h1 := List.find?_some hf
      have h2 := List.mem_of_find?_eq_some hf
      have h3 : e.seq = (toEntry p).seq := by simpa [toEntry] using h1
      rw [List.inj_on_of_nodup_map g.nodup h2 hmem h3]
  rw [this]; rfl

theorem find_mkBlock_none {k : Nat} {L : Loc} {q : UInt64} (h0 : q ≠ 0) (hq : q ∉ L.map (·.1.seq)) :
    (absBlock L k).entries.find? (fun e => e.seq == q) = none := by
  rw [List.find?_eq_none]
  intro e he
  rw [absBlock, mkBlock, List.mem_append] at he
  rcases he with he | he
  · simp only [blockEs, List.mem_map, List.mem_filter] at he
    obtain ⟨p, ⟨hp, _⟩, rfl⟩ := he
    simp only [toEntry, beq_iff_eq]
    rintro rfl
    exact hq (List.mem_map.2 ⟨p, hp, rfl⟩)
  · rw [(List.mem_replicate.1 he).2]
    simpa [IndexEntry.zero] using h0.symm

theorem SInv.readEntry {s : Store} {L : Loc} {freed : List UInt64} (h : SInv s L freed) {p : Rec × Nat} (hp : p ∈ L)
    (ho : p.2 < 2 ^ 63) : readEntry s.index p.1.seq = .ok (toEntry p) := by
  obtain ⟨n, f⟩ := h.file
  have hk : blockIndex p.1.seq.toNat < n := by
    by_contra hc
    have h1 := f.beyond (blockIndex p.1.seq.toNat) (by omega)
    have h2 := find_mkBlock h.loc hp rfl
    rw [h1] at h2
    have h3 := List.mem_of_find?_eq_some h2
    rw [mkBlock, List.nil_append] at h3
    have h4 := (List.mem_replicate.1 h3).2
    have h5 : p.1.seq = 0 := congrArg IndexEntry.seq h4
    have := h.loc.range p hp
    rw [h5] at this; simp at this
  have e1 : (Int64.ofInt (p.2 : Int)).toInt = p.2 := Int64.toInt_ofInt_of_le (by omega) (by omega)
  simp only [Verif.readEntry, f.read hk, find_mkBlock h.loc hp rfl]
  rw [if_neg]
  intro hc
  have : (Int64.ofInt (p.2 : Int)).toInt = (-1 : Int64).toInt := congrArg Int64.toInt hc
  rw [e1, show (-1 : Int64).toInt = -1 by decide] at this
  omega

theorem mSize_eq {r : Rec} (h : Spec.Storable r) (o : Nat) : (toEntry (r, o)).mSize.toNat = r.cache.length := by
  have h1 := h.sized
  have h2 := h.small
  simp only [IndexEntry.mSize, toEntry, UInt32.toNat_add, UInt16.toNat_toUInt32]
  have : UInt32.toNat 9 = 9 := rfl
  omega

/-- Every history is described by a placement of its records. -/
theorem history_inv {m : Int} {ops : List EngineOp} {s : Store} {g : Spec.Ledger} (h : Spec.History m ops s g) :
    ∃ L : Loc, SInv s L g.freed ∧ L.map (·.1) = g.stored ∧ (∀ r ∈ g.stored, Spec.Storable r) ∧ s.data.length < 2 ^ 63 := by
  induction h with
  | init =>
    obtain ⟨g0, e0⟩ := Lease.good_new m
    refine ⟨[], ⟨⟨0, ?_⟩, ⟨rfl, g0, ?_, ?_, by simp⟩, ⟨by simp, by simp⟩, by simp⟩, rfl, by simp, by simp⟩
    · have : absBlock [] = fun _ => mkBlock [] := by funext k; rfl
      rw [this]; exact fileOK_empty
    · refine ⟨?_, ?_, g0.size⟩ <;> rw [e0] <;> simp [usedOf]
    · rw [e0]; simp
  | @sync ops s g rounds s' hh hst hrun hlen ih =>
    obtain ⟨L, hS, hL, hOK, _⟩ := ih
    obtain ⟨s2, L', h1, h2, h3, _⟩ := syncAll_spec hS rounds (fun rs hrs r hr => (hst rs hrs r hr).ok)
    rw [hrun] at h1
    cases h1
    have hseq : L.map (·.1.seq) = g.stored.map (·.seq) := by rw [← hL, List.map_map]; rfl
    refine ⟨L ++ L', h2, ?_, ?_, hlen⟩
    · rw [List.map_append, hL, h3, hseq]; exact (firsts_eq _ _).symm
    · intro r hr
      rw [firsts_eq, List.mem_append] at hr
      rcases hr with hr | hr
      · exact hOK r hr
      · have : ∀ (xs : List Rec) (kn : List UInt64), r ∈ newRecs kn xs → r ∈ xs := by
          intro xs
          induction xs with
          | nil => intro kn h; simp [newRecs] at h
          | cons x xs ih2 =>
            intro kn h
            rw [newRecs] at h
            split at h
            · exact List.mem_cons_of_mem _ (ih2 _ h)
            · rcases List.mem_cons.1 h with rfl | h
              · simp
              · exact List.mem_cons_of_mem _ (ih2 _ h)
        obtain ⟨rs, hrs, hr⟩ := List.mem_flatten.1 (this _ _ hr)
        exact hst rs hrs r hr
  | @expire ops s g q s' hh hq hqf hrun ih =>
    obtain ⟨L, hS, hL, hOK, hlen⟩ := ih
    obtain ⟨r, hr, rfl⟩ := hq
    rw [← hL, List.mem_map] at hr
    obtain ⟨p, hp, rfl⟩ := hr
    have hst := hOK p.1 (by rw [← hL]; exact List.mem_map.2 ⟨p, hp, rfl⟩)
    have hle := slice?_le (hS.data.bytes p hp hqf)
    have hsz := hst.sized
    simp only [List.append_nil] at hle
    have ho : p.2 < 2 ^ 63 := by omega
    have e1 : (Int64.ofInt (p.2 : Int)).toInt = p.2 := Int64.toInt_ofInt_of_le (by omega) (by omega)
    have hmem : (⟨p.2, p.1.cache.length⟩ : FB) ∈ usedOf L g.freed := mem_usedOf.2 ⟨p, hp, hqf, rfl⟩
    obtain ⟨g', hs'⟩ := sound_step_free hS.data.good hS.data.sound hmem
    have hap := (Lease.pairwise_perm ((List.perm_cons_erase hmem).append_right s.lease.all)).1 hS.data.sound.apart
    rw [List.cons_append, List.pairwise_cons] at hap
    obtain ⟨_, hperm, _⟩ := Lease.good_free hS.data.good p.2 p.1.cache.length (by omega)
      (fun x hx => hap.1 x (List.mem_append_right _ hx)) (fun x hx => (hS.data.sound.pos x (List.mem_append_right _ hx)).1)
    have e2 := mSize_eq hst p.2
    have hrun' : s' = { s with lease := s.lease.freeBlock p.2 p.1.cache.length } := by
      simp only [expireOne, hS.readEntry hp ho, Lease.free] at hrun
      rw [show toEntry p = toEntry (p.1, p.2) from rfl, e2] at hrun
      rw [if_neg (by omega)] at hrun
      simp only [toEntry, e1, Option.map_some, Option.some.injEq] at hrun
      exact hrun.symm
    subst hrun'
    have hused : (usedOf L g.freed).Perm (⟨p.2, p.1.cache.length⟩ :: usedOf L (p.1.seq :: g.freed)) := by
      have : ∀ M : Loc, (M.map (·.1.seq)).Nodup → p ∈ M →
          (usedOf M g.freed).Perm (⟨p.2, p.1.cache.length⟩ :: usedOf M (p.1.seq :: g.freed)) := by
        intro M
        induction M with
        | nil => intro _ h; simp at h
        | cons x M ihM =>
          intro hnd hm
          rw [List.map_cons, List.nodup_cons] at hnd
          by_cases hx : x = p
          · subst hx
            have e : usedOf M (x.1.seq :: g.freed) = usedOf M g.freed := by
              unfold usedOf
              congr 1
              apply List.filter_congr
              intro y hy
              have : y.1.seq ≠ x.1.seq := fun hc => hnd.1 (List.mem_map.2 ⟨y, hy, hc⟩)
              simp [this]
            have e3 : usedOf (x :: M) g.freed = ⟨x.2, x.1.cache.length⟩ :: usedOf M g.freed := by
              simp [usedOf, hqf]
            have e4 : usedOf (x :: M) (x.1.seq :: g.freed) = usedOf M (x.1.seq :: g.freed) := by
              simp [usedOf]
            rw [e3, e4, e]
          · have hm' : p ∈ M := by
              rcases List.mem_cons.1 hm with h | h
              · exact absurd h.symm hx
              · exact h
            have hne : x.1.seq ≠ p.1.seq := fun hc => hnd.1 (hc ▸ List.mem_map.2 ⟨p, hm', rfl⟩)
            have := ihM hnd.2 hm'
            by_cases hxf : x.1.seq ∈ g.freed
            · have e3 : usedOf (x :: M) g.freed = usedOf M g.freed := by simp [usedOf, hxf]
              have e4 : usedOf (x :: M) (p.1.seq :: g.freed) = usedOf M (p.1.seq :: g.freed) := by simp [usedOf, hxf]
              rw [e3, e4]; exact this
            · have e3 : usedOf (x :: M) g.freed = ⟨x.2, x.1.cache.length⟩ :: usedOf M g.freed := by simp [usedOf, hxf]
              have e4 : usedOf (x :: M) (p.1.seq :: g.freed) = ⟨x.2, x.1.cache.length⟩ :: usedOf M (p.1.seq :: g.freed) := by
                simp [usedOf, hxf, hne]
              rw [e3, e4]
              exact (this.cons _).trans (List.Perm.swap _ _ _)
      exact this L hS.loc.nodup hp
    refine ⟨L, ⟨hS.file, ⟨by simp, g', ?_, ?_, ?_⟩, hS.loc, ?_⟩, hL, hOK, hlen⟩
    · refine sound_perm ?_ hs'
      have := (List.perm_cons_erase hmem).symm.trans hused
      exact List.Perm.cons_inv this
    · intro b hb
      rcases List.mem_cons.1 (hperm.subset hb) with rfl | hb
      · exact ⟨by simp only; omega, hst.small⟩
      · exact hS.data.freeIn b hb
    · intro x hx hxf
      exact hS.data.bytes x hx (fun hc => hxf (List.mem_cons_of_mem _ hc))
    · intro x hx
      rcases List.mem_cons.1 hx with rfl | hx
      · exact List.mem_map.2 ⟨p, hp, rfl⟩
      · exact hS.sub x hx
  | @reopen ops s g l' hh hn hl hrun ih =>
    obtain ⟨L, hS, hL, hOK, hlen⟩ := ih
    obtain ⟨g1, hp1, _⟩ := Lease.good_defrag hS.data.good hn
    have hap : s.lease.defrag.all.Pairwise Lease.Apart := by
      rw [Lease.pairwise_perm hp1]
      exact (List.pairwise_append.1 hS.data.sound.apart).2.1
    have hpos : ∀ b ∈ s.lease.defrag.all, 0 < b.size ∧ 0 ≤ b.offset := fun b hb =>
      hS.data.sound.pos b (List.mem_append_right _ (hp1.subset hb))
    have hfi : ∀ b ∈ s.lease.defrag.all, b.offset + b.size ≤ s.data.length ∧ b.size < 2 ^ 32 := fun b hb =>
      hS.data.freeIn b (hp1.subset hb)
    rw [read_write _ m (by rw [hp1.length_eq]; exact hl) (fun b hb => by
      have := hpos b hb; have := hfi b hb; omega)] at hrun
    cases hrun
    obtain ⟨g0, e0⟩ := Lease.good_new m
    obtain ⟨g2, hp2⟩ := freeAll_perm (s.lease.defrag.all.filter (·.offset ≠ 0)) (Lease.new m) g0
      (by rw [e0, List.append_nil]; exact hap.filter _)
      (by rw [e0, List.append_nil]; intro b hb; exact (hpos b (List.mem_of_mem_filter hb)).1)
    rw [e0, List.append_nil] at hp2
    have hsub : (usedOf L g.freed ++ s.lease.defrag.all.filter (·.offset ≠ 0)).Sublist (usedOf L g.freed ++ s.lease.defrag.all) :=
      List.filter_sublist.append_left _
    refine ⟨L, ⟨hS.file, ⟨by simp, g2, ⟨?_, ?_, g2.size⟩, ?_, hS.data.bytes⟩, hS.loc, hS.sub⟩, hL, hOK, hlen⟩
    · rw [Lease.pairwise_perm (hp2.append_left _)]
      exact ((Lease.pairwise_perm (hp1.append_left _)).2 hS.data.sound.apart).sublist hsub
    · intro b hb
      have := hsub.subset ((hp2.append_left _).subset hb)
      exact hS.data.sound.pos b ((hp1.append_left _).subset this)
    · intro b hb
      exact hfi b (List.mem_of_mem_filter (hp2.subset hb))

/-! ## C28 -/

/-- C28. In every history, each stored record whose space was not given back reads back byte for byte: its index entry is found
with its sizes, and the data file yields its id, topic and payload. Partial: for topics of at most 65526 bytes
(`C28_long_topic_violated`), 255·524287 sequences and data files below 2^63 bytes. -/
theorem C28_synced_readable_partial (m : Int) (ops : List EngineOp) (s : Store) (g : Spec.Ledger) (h : Spec.History m ops s g)
    (r : Rec) (hr : r ∈ g.stored) (hf : r.seq ∉ g.freed) (id topic payload : Bytes) (hid : id.length = 9)
    (ht : topic.length = r.topicSize.toNat) (hc : r.cache = id ++ topic ++ payload) :
    ∃ e, readEntry s.index r.seq = .ok e ∧ e.topicSize = r.topicSize ∧ e.valueSize = r.valueSize ∧
      readMessage s.data e = some (id, payload) ∧ readTopic s.data e = some topic := by
  obtain ⟨L, hS, hL, hOK, hlen⟩ := history_inv h
  have hst := hOK r hr
  rw [← hL, List.mem_map] at hr
  obtain ⟨p, hp, rfl⟩ := hr
  have hb := hS.data.bytes p hp hf
  simp only [List.append_nil] at hb
  have hle := slice?_le hb
  have hsz := hst.sized
  have htl := hst.topic
  have hsm := hst.small
  have e1 : (Int64.ofInt (p.2 : Int)).toInt = p.2 := Int64.toInt_ofInt_of_le (by omega) (by omega)
  have e2 := mSize_eq hst p.2
  have e3 : (p.1.topicSize + 9).toNat = p.1.topicSize.toNat + 9 := by
    rw [UInt16.toNat_add]
    have : UInt16.toNat 9 = 9 := rfl
    omega
  refine ⟨toEntry p, hS.readEntry hp (by omega), rfl, rfl, ?_, ?_⟩
  · have e4 : readAt s.data (toEntry p).msgOffset.toInt (toEntry p).mSize.toNat = some p.1.cache := by
      rw [show toEntry p = toEntry (p.1, p.2) from rfl, e2]
      simp only [toEntry, e1, readAt]
      rw [if_pos (by omega)]
      exact hb
    have e5 : slice? p.1.cache 0 9 = some id := by
      rw [hc, List.append_assoc]; exact slice?_append_left _ _ _ hid.symm
    have e6 : slice? p.1.cache (p.1.topicSize + 9).toNat p.1.cache.length = some payload := by
      rw [e3, hc]
      have := slice?_mid (id ++ topic) payload [] (p.1.topicSize.toNat + 9) (id ++ topic ++ payload).length
        (by simp; omega) (by simp; omega)
      rw [List.append_nil] at this
      exact this
    simp only [readMessage, e4, Option.bind_eq_bind, Option.bind_some, e5]
    rw [show (toEntry p).topicSize = p.1.topicSize from rfl, e6]
    rfl
  · simp only [readTopic, toEntry, e1, readAt]
    rw [if_pos (by omega)]
    have e7 : ((p.2 : Int) + 9).toNat = p.2 + 9 := by omega
    rw [e7, Nat.add_assoc, slice?_slice? hb (by omega), hc]
    exact slice?_mid id topic payload _ _ hid.symm (by rw [ht, hid])

/-- C28: no sync of storable records fails. -/
theorem C28_sync_succeeds (m : Int) (ops : List EngineOp) (s : Store) (g : Spec.Ledger) (h : Spec.History m ops s g)
    (rounds : List (List Rec)) (hr : ∀ rs ∈ rounds, ∀ r ∈ rs, Spec.Storable r) : ∃ s', syncAll s rounds = some s' := by
  obtain ⟨L, hS, _⟩ := history_inv h
  obtain ⟨s', _, h1, _⟩ := syncAll_spec hS rounds (fun rs hrs r hr' => (hr rs hrs r hr').ok)
  exact ⟨s', h1⟩

/-- C28: a sequence that was never stored is not found. -/
theorem C28_absent_not_found (m : Int) (ops : List EngineOp) (s : Store) (g : Spec.Ledger) (h : Spec.History m ops s g)
    (q : UInt64) (h0 : 1 ≤ q.toNat) (h1 : q.toNat ≤ 255 * 524287) (hq : ∀ r ∈ g.stored, r.seq ≠ q) :
    readEntry s.index q = .error .invalid ∨ readEntry s.index q = .error .io := by
  obtain ⟨L, hS, hL, _, _⟩ := history_inv h
  obtain ⟨n, f⟩ := hS.file
  have hne : q ≠ 0 := by rintro rfl; simp at h0
  have hnm : q ∉ L.map (·.1.seq) := by
    intro hc
    obtain ⟨p, hp, rfl⟩ := List.mem_map.1 hc
    exact hq p.1 (by rw [← hL]; exact List.mem_map.2 ⟨p, hp, rfl⟩) rfl
  by_cases hk : blockIndex q.toNat < n
  · left; simp only [readEntry, f.read hk, find_mkBlock_none hne hnm]
  · right; simp only [readEntry, f.read_none (Nat.le_of_not_lt hk) (blockIndex_lt h1 h0)]

/-- The limit on topics is real: for a stored topic of more than 65526 bytes the payload that is read starts inside the topic or
the id. The record is one the database stores (only the topic limit of `Storable` fails). -/
theorem C28_long_topic_violated (data : Bytes) (o : Nat) (r : Rec) (ho : o < 2 ^ 63) (ht : 65526 < r.topicSize.toNat)
    (hsz : r.cache.length = 9 + r.topicSize.toNat + r.valueSize.toNat) (hsm : r.cache.length < 2 ^ 32)
    (hb : slice? data o (o + r.cache.length) = some r.cache) :
    readMessage data (toEntry (r, o)) = some (r.cache.take 9, r.cache.drop (r.topicSize.toNat + 9 - 65536)) := by
  have hle := slice?_le hb
  have hlt := r.topicSize.toNat_lt
  have e1 : (Int64.ofInt (o : Int)).toInt = o := Int64.toInt_ofInt_of_le (by omega) (by omega)
  have e2 : (toEntry (r, o)).mSize.toNat = r.cache.length := by
    simp only [IndexEntry.mSize, toEntry, UInt32.toNat_add, UInt16.toNat_toUInt32]
    have : UInt32.toNat 9 = 9 := rfl
    omega
  have e3 : (r.topicSize + 9).toNat = r.topicSize.toNat + 9 - 65536 := by
    rw [UInt16.toNat_add]
    have : UInt16.toNat 9 = 9 := rfl
    omega
  have e4 : readAt data (toEntry (r, o)).msgOffset.toInt (toEntry (r, o)).mSize.toNat = some r.cache := by
    rw [e2]
    simp only [toEntry, e1, readAt]
    rw [if_pos (by omega)]
    exact hb
  have e5 : slice? r.cache 0 9 = some (r.cache.take 9) := by
    unfold slice?; rw [if_pos (by omega)]; simp
  have e6 : slice? r.cache (r.topicSize + 9).toNat r.cache.length = some (r.cache.drop (r.topicSize.toNat + 9 - 65536)) := by
    unfold slice?; rw [e3, if_pos (by omega), List.take_of_length_le (by simp)]
  simp only [readMessage, e4, Option.bind_eq_bind, Option.bind_some, e5]
  rw [show (toEntry (r, o)).topicSize = r.topicSize from rfl, e6]
  rfl

/-! ## C29 -/

/-- All sequences in the slots of the index file. -/
def indexSlots (index : Bytes) : List UInt64 :=
  (List.range (index.length / 4096)).flatMap fun k =>
    match readIndexBlock index k with
    | none => []
    | some b => (b.entries.map (·.seq)).filter (· ≠ 0)

theorem perm_by_block (L : Loc) (n : Nat) (h : ∀ p ∈ L, blockIndex p.1.seq.toNat < n) :
    ((List.range n).flatMap fun k => L.filter fun p => blockIndex p.1.seq.toNat = k).Perm L := by
  induction L with
  | nil => simp
  | cons p L ih =>
    have e : (fun k => (p :: L).filter fun p => decide (blockIndex p.1.seq.toNat = k)) =
        fun k => (if blockIndex p.1.seq.toNat = k then [p] else []) ++ L.filter fun p => decide (blockIndex p.1.seq.toNat = k) := by
      funext k
      rw [List.filter_cons]
      by_cases hk : blockIndex p.1.seq.toNat = k <;> simp [hk]
    rw [e]
    refine (List.flatMap_append_perm _ _ _).symm.trans ?_
    have e2 : ∀ n, blockIndex p.1.seq.toNat < n →
        ((List.range n).flatMap fun k => if blockIndex p.1.seq.toNat = k then [p] else []) = [p] := by
      intro n
      induction n with
      | zero => intro h; omega
      | succ n ihn =>
        intro h
        rw [List.range_succ, List.flatMap_append]
        by_cases hc : blockIndex p.1.seq.toNat = n
        · have : ((List.range n).flatMap fun k => if blockIndex p.1.seq.toNat = k then [p] else []) = [] := by
            rw [List.flatMap_eq_nil_iff]
            intro k hk
            rw [if_neg]
            have := List.mem_range.1 hk
            omega
          rw [this]; simp [hc]
        · rw [ihn (by omega)]; simp [hc]
    rw [e2 n (h p (by simp))]
    exact (ih fun q hq => h q (List.mem_cons_of_mem _ hq)).cons p

theorem block_lt {index : Bytes} {n : Nat} {L : Loc} (hL : LocOK L) (f : FileOK index n (absBlock L)) {p : Rec × Nat} (hp : p ∈ L) :
    blockIndex p.1.seq.toNat < n := by
  by_contra hc
  have h1 := f.beyond (blockIndex p.1.seq.toNat) (by omega)
  have h2 := List.mem_of_find?_eq_some (find_mkBlock hL hp rfl)
  rw [h1, mkBlock, List.nil_append] at h2
  have h5 : p.1.seq = 0 := congrArg IndexEntry.seq (List.mem_replicate.1 h2).2
  have := hL.range p hp
  rw [h5] at this; simp at this

/-- C29. In every history the index holds each stored sequence in exactly one slot, and no other sequence. -/
theorem C29_each_once (m : Int) (ops : List EngineOp) (s : Store) (g : Spec.Ledger) (h : Spec.History m ops s g) :
    (indexSlots s.index).Perm (g.stored.map (·.seq)) ∧ (g.stored.map (·.seq)).Nodup := by
  obtain ⟨L, hS, hL, _, _⟩ := history_inv h
  obtain ⟨n, f⟩ := hS.file
  have hseq : g.stored.map (·.seq) = L.map (·.1.seq) := by rw [← hL, List.map_map]; rfl
  rw [hseq]
  refine ⟨?_, hS.loc.nodup⟩
  have hlt : ∀ p ∈ L, blockIndex p.1.seq.toNat < n := fun p hp => block_lt hS.loc f hp
  have e : indexSlots s.index = (List.range n).flatMap fun k => (L.filter fun p => blockIndex p.1.seq.toNat = k).map (·.1.seq) := by
    unfold indexSlots
    have : s.index.length / 4096 = n := by rw [f.len]; omega
    rw [this]
    have hc : ∀ k ∈ List.range n, (match readIndexBlock s.index k with
        | none => []
        | some b => (b.entries.map (·.seq)).filter (· ≠ 0)) = (L.filter fun p => blockIndex p.1.seq.toNat = k).map (·.1.seq) := by
      intro k hk
      rw [f.read (List.mem_range.1 hk)]
      simp only [absBlock, mkBlock, List.map_append, List.filter_append, List.map_replicate]
      have z : (List.replicate (255 - (blockEs L k).length) IndexEntry.zero.seq).filter (fun x => decide (x ≠ 0)) = [] := by
        rw [List.filter_eq_nil_iff]
        intro a ha
        rw [(List.mem_replicate.1 ha).2]; simp [IndexEntry.zero]
      rw [z, List.append_nil, List.filter_eq_self.2]
      · simp [blockEs, toEntry, Function.comp_def]
      · intro a ha
        obtain ⟨e, he, rfl⟩ := List.mem_map.1 ha
        have := (hS.loc.goodEs k).range e he
        simp only [ne_eq, decide_eq_true_eq]
        intro hz; rw [hz] at this; simp at this
    rw [List.flatMap_congr hc]
  rw [e]
  have := (perm_by_block L n hlt).map (·.1.seq)
  rwa [List.map_flatMap] at this

theorem appendAll_exist {s : Store} {w : Writer} {L : Loc} {freed : List UInt64} (h : EInv s w L freed) :
    ∀ rs : List Rec, (∀ r ∈ rs, r.OK ∧ r.seq ∈ L.map (·.1.seq)) → appendAll s w rs = some (s, w)
  | [], _ => rfl
  | r :: rs, hr => by
    rw [appendAll, append_exist h (hr r (by simp)).1 (hr r (by simp)).2]
    exact appendAll_exist h rs fun x hx => hr x (List.mem_cons_of_mem _ hx)

theorem upperSeq_mem (rs : List Rec) : ∀ m : UInt64,
    (rs.foldl (fun m (r : Rec) => if m < r.seq then r.seq else m) m = m ∨
      ∃ r ∈ rs, rs.foldl (fun m (r : Rec) => if m < r.seq then r.seq else m) m = r.seq) := by
  induction rs with
  | nil => intro m; exact .inl rfl
  | cons r rs ih =>
    intro m
    rw [List.foldl_cons]
    rcases ih (if m < r.seq then r.seq else m) with h1 | ⟨x, hx, h1⟩
    · rw [h1]
      by_cases hc : m < r.seq
      · right; exact ⟨r, by simp, if_pos hc⟩
      · left; exact if_neg hc
    · right; exact ⟨x, List.mem_cons_of_mem _ hx, h1⟩

theorem extendIndex_known {index : Bytes} {n : Nat} {L : Loc} (hL : LocOK L) (f : FileOK index n (absBlock L)) {q : UInt64}
    (hq : q = 0 ∨ q ∈ L.map (·.1.seq)) : extendIndex index q = index := by
  have hk : blockIndex q.toNat = 0 ∨ blockIndex q.toNat < n := by
    rcases hq with rfl | hq
    · left; rfl
    · right
      obtain ⟨p, hp, rfl⟩ := List.mem_map.1 hq
      exact block_lt hL f hp
  have hb := f.bound
  have hlt : blockIndex q.toNat < 524287 := by omega
  unfold extendIndex
  rw [blockOff_eq _ hlt]
  refine if_pos ?_
  rw [f.len]
  omega

theorem write_clean {s : Store} {w : Writer} (hb : w.buffer = []) (hd : ∀ p ∈ w.blocks, p.2.dirty = false) :
    w.write s = some (s, w) := by
  have e1 : (w.blocks.filter fun p => p.2.leased && p.2.dirty) = [] := by
    rw [List.filter_eq_nil_iff]; intro p hp; simp [hd p hp]
  have e2 : (w.blocks.filter fun p => !p.2.leased && p.2.dirty) = [] := by
    rw [List.filter_eq_nil_iff]; intro p hp; simp [hd p hp]
  obtain ⟨bi, bl, bf, o⟩ := w
  simp only at hb e1 e2
  subst hb
  have e3 : writeAt s.data s.data.length [] = s.data := by rw [writeAt_end]; simp
  simp [Writer.write, e1, e2, e3, blockRange]

theorem newBlockWriter_clean {s : Store} {w : Writer} (h : newBlockWriter s = some w) : ∀ p ∈ w.blocks, p.2.dirty = false := by
  unfold newBlockWriter at h
  split at h
  · dsimp only at h
    split at h
    · simp only [Option.bind_eq_bind, Option.bind_eq_some_iff] at h
      obtain ⟨b, _, h⟩ := h
      cases h
      simp
    · cases h; simp
  · cases h; simp

theorem resync_rounds {freed : List UInt64} {s : Store} {L : Loc} (hf : ∃ n, FileOK s.index n (absBlock L))
    (rounds : List (List Rec)) (hr : ∀ rs ∈ rounds, ∀ r ∈ rs, r.OK ∧ r.seq ∈ L.map (·.1.seq)) :
    ∀ {w : Writer}, EInv s w L freed → w.buffer = [] → (∀ p ∈ w.blocks, p.2.dirty = false) →
      ∃ w', rounds.foldlM (fun (s, w) rs => syncRound s w rs) (s, w) = some (s, w') := by
  induction rounds with
  | nil => intro w _ _ _; exact ⟨w, rfl⟩
  | cons rs rounds ih =>
    intro w h hb hd
    have h0 := hr rs (by simp)
    obtain ⟨n, f⟩ := hf
    have e1 : syncRound s w rs = some (s, w.reset s) := by
      simp only [syncRound, appendAll_exist h rs h0, Option.bind_eq_bind, Option.bind_some]
      rw [extendIndex_known h.loc f]
      · simp only [write_clean hb hd, Option.bind_some]; rfl
      · rcases upperSeq_mem rs 0 with h1 | ⟨r, h1, h2⟩
        · exact .inl h1
        · right; unfold upperSeq; rw [h2]; exact (h0 r h1).2
    obtain ⟨s', w', L', g1, g2, g3, g4, _, _⟩ := syncRound_spec h rs (fun r hr => (h0 r hr).1)
    rw [e1] at g1
    cases g1
    have hn : ∀ (rs : List Rec), (∀ r ∈ rs, r.seq ∈ L.map (·.1.seq)) → newRecs (L.map (·.1.seq)) rs = [] := by
      intro rs
      induction rs with
      | nil => intro _; rfl
      | cons r rs ih => intro h; rw [newRecs, if_pos (h r (by simp))]; exact ih fun x hx => h x (List.mem_cons_of_mem _ hx)
    rw [hn rs (fun r hr => (h0 r hr).2), List.map_eq_nil_iff] at g4
    subst g4
    obtain ⟨w2, h2⟩ := ih (w := w.reset s) (fun x hx => hr x (List.mem_cons_of_mem _ hx)) (by simpa using g2) rfl hd
    refine ⟨w2, ?_⟩
    rw [List.foldlM_cons]
    simp only [e1, Option.bind_eq_bind, Option.bind_some]
    exact h2

/-- C29: a sync of records whose sequences are all stored already changes neither the files nor the free list. -/
theorem C29_resync_changes_nothing (m : Int) (ops : List EngineOp) (s : Store) (g : Spec.Ledger) (h : Spec.History m ops s g)
    (rounds : List (List Rec)) (hr : ∀ rs ∈ rounds, ∀ r ∈ rs, Spec.Storable r ∧ ∃ x ∈ g.stored, x.seq = r.seq) :
    syncAll s rounds = some s := by
  obtain ⟨L, hS, hL, _, _⟩ := history_inv h
  obtain ⟨w, h1, h2, h3⟩ := newBlockWriter_spec hS
  obtain ⟨w', h4⟩ := resync_rounds hS.file rounds (fun rs hrs r hr' => by
    obtain ⟨a, x, hx, hxr⟩ := hr rs hrs r hr'
    refine ⟨a.ok, ?_⟩
    rw [← hL, List.mem_map] at hx
    obtain ⟨p, hp, rfl⟩ := hx
    exact List.mem_map.2 ⟨p, hp, hxr⟩) h2 h3 (newBlockWriter_clean h1)
  simp only [syncAll, h1, Option.bind_eq_bind, Option.bind_some]
  rw [h4]; rfl

/-! ## C30 -/

/-- C30. In every history the byte ranges of any two different stored records whose space was not given back lie inside the data
file and do not overlap, and no free block overlaps a stored record. Partial: histories expire an entry at most once and reopen
only when the free list has nothing to merge. -/
theorem C30_no_overlap_partial (m : Int) (ops : List EngineOp) (s : Store) (g : Spec.Ledger) (h : Spec.History m ops s g)
    (r1 r2 : Rec) (h1 : r1 ∈ g.stored) (h2 : r2 ∈ g.stored) (f1 : r1.seq ∉ g.freed) (f2 : r2.seq ∉ g.freed) :
    ∃ e1 e2, readEntry s.index r1.seq = .ok e1 ∧ readEntry s.index r2.seq = .ok e2 ∧
      0 ≤ e1.msgOffset.toInt ∧ 0 < e1.mSize.toNat ∧ e1.msgOffset.toInt + e1.mSize.toNat ≤ s.data.length ∧
      (r1.seq ≠ r2.seq → e1.msgOffset.toInt + e1.mSize.toNat ≤ e2.msgOffset.toInt ∨
        e2.msgOffset.toInt + e2.mSize.toNat ≤ e1.msgOffset.toInt) ∧
      ∀ b ∈ s.lease.all, e1.msgOffset.toInt + e1.mSize.toNat ≤ b.offset ∨ b.offset + b.size ≤ e1.msgOffset.toInt := by
  obtain ⟨L, hS, hL, hOK, hlen⟩ := history_inv h
  have hs1 := hOK r1 h1
  have hs2 := hOK r2 h2
  rw [← hL, List.mem_map] at h1 h2
  obtain ⟨p, hp, rfl⟩ := h1
  obtain ⟨q, hq, rfl⟩ := h2
  have bp := slice?_le (hS.data.bytes p hp f1)
  have bq := slice?_le (hS.data.bytes q hq f2)
  simp only [List.append_nil] at bp bq
  have ep : (toEntry p).msgOffset.toInt = p.2 := Int64.toInt_ofInt_of_le (by omega) (by omega)
  have eq : (toEntry q).msgOffset.toInt = q.2 := Int64.toInt_ofInt_of_le (by omega) (by omega)
  have mp : (toEntry p).mSize.toNat = p.1.cache.length := mSize_eq hs1 p.2
  have mq : (toEntry q).mSize.toNat = q.1.cache.length := mSize_eq hs2 q.2
  have up : (⟨p.2, p.1.cache.length⟩ : FB) ∈ usedOf L g.freed := mem_usedOf.2 ⟨p, hp, f1, rfl⟩
  have hsz := hs1.sized
  refine ⟨_, _, hS.readEntry hp (by omega), hS.readEntry hq (by omega), ?_, ?_, ?_, ?_, ?_⟩
  · omega
  · omega
  · omega
  · intro hne
    have hpw : (L.filter fun p => p.1.seq ∉ g.freed).Pairwise fun a b =>
        Lease.Apart ⟨a.2, a.1.cache.length⟩ ⟨b.2, b.1.cache.length⟩ := by
      have := (List.pairwise_append.1 hS.data.sound.apart).1
      rw [usedOf, List.pairwise_map] at this
      exact this
    have mem : ∀ x ∈ L, x.1.seq ∉ g.freed → x ∈ L.filter fun p => p.1.seq ∉ g.freed := fun x hx hf =>
      List.mem_filter.2 ⟨hx, by simpa using hf⟩
    have sy : Std.Symm fun a b : Rec × Nat => Lease.Apart ⟨a.2, a.1.cache.length⟩ ⟨b.2, b.1.cache.length⟩ :=
      ⟨fun _ _ h => Lease.Apart.symm h⟩
    have := hpw.forall (mem p hp f1) (mem q hq f2) (fun hc => hne (by rw [hc]))
    simp only [Lease.Apart] at this
    rw [ep, mp, eq, mq]; omega
  · intro b hb
    have := (List.pairwise_append.1 hS.data.sound.apart).2.2 _ up _ hb
    simp only [Lease.Apart] at this
    rw [ep, mp]; omega

/-- Records for the examples: nine bytes of id, one of topic and five of payload. -/
def sample (q : UInt64) (x : UInt8) : Rec := ⟨q, 1, 5, [x, 2, 3, 4, 5, 6, 7, 8, 9, 40, x, x, x, x, x]⟩

theorem sample_storable (q : UInt64) (x : UInt8) (h0 : 1 ≤ q.toNat) (h1 : q.toNat ≤ 255 * 524287) : Spec.Storable (sample q x) :=
  ⟨h0, h1, rfl, by simp [sample], by simp [sample]⟩

/-- C30 without the restriction is violated. An entry expires, its space is used by the next record, and the entry, which is still
in the index and in the window, is collected a second time: the next record is written over the bytes of the second, and reading
the second returns the payload of the third. -/
theorem C30_double_expiry_violated : (do
    let s ← syncAll ⟨[], [], Lease.new 0⟩ [[sample 1 1]]
    let s ← expireOne s 1
    let s ← syncAll s [[sample 2 2]]
    let s ← expireOne s 1
    let s ← syncAll s [[sample 3 3]]
    let e2 ← (readEntry s.index 2).toOption
    let e3 ← (readEntry s.index 3).toOption
    pure (e2.msgOffset, e3.msgOffset, readMessage s.data e2)) = some (0, 0, some ([3, 2, 3, 4, 5, 6, 7, 8, 9], [3, 3, 3, 3, 3])) := by
  decide +kernel

/-- A history with a sync, an expiry and a sync that reuses the space: the hypotheses of the theorems of this file hold of it. -/
example : ∃ s g, Spec.History 0 [.sync [[sample 1 1, sample 300 7], []], .expire 1, .sync [[sample 2 2], [sample 300 9]]] s g ∧
    g.stored = [sample 1 1, sample 300 7, sample 2 2] ∧ g.freed = [1] ∧ s.data.length = 30 := by
  have h0 : Spec.History 0 [] ⟨[], [], Lease.new 0⟩ ⟨[], []⟩ := .init
  have e1 : (syncAll ⟨[], [], Lease.new 0⟩ [[sample 1 1, sample 300 7], []]).isSome := by decide +kernel
  obtain ⟨s1, e1'⟩ := Option.isSome_iff_exists.1 e1
  have e2 : ((syncAll ⟨[], [], Lease.new 0⟩ [[sample 1 1, sample 300 7], []]).map fun s => s.data.length) = some 30 := by decide +kernel
  have h1 := Spec.History.sync _ s1 h0 (by
    intro rs hrs r hr
    simp only [List.mem_cons, List.not_mem_nil, or_false] at hrs
    rcases hrs with rfl | rfl
    · simp only [List.mem_cons, List.not_mem_nil, or_false] at hr
      rcases hr with rfl | rfl <;> exact sample_storable _ _ (by decide) (by decide)
    · simp at hr) e1' (by rw [e1', Option.map_some, Option.some.injEq] at e2; omega)
  have e3 : (syncAll ⟨[], [], Lease.new 0⟩ [[sample 1 1, sample 300 7], []]).bind (fun s => expireOne s 1) |>.isSome := by decide +kernel
  rw [e1', Option.bind_some] at e3
  obtain ⟨s2, e3'⟩ := Option.isSome_iff_exists.1 e3
  have h2 := Spec.History.expire 1 s2 h1 ⟨sample 1 1, by decide, rfl⟩ (by simp) e3'
  have e4 : ((syncAll ⟨[], [], Lease.new 0⟩ [[sample 1 1, sample 300 7], []]).bind (fun s => expireOne s 1)).bind
      (fun s => syncAll s [[sample 2 2], [sample 300 9]]) |>.isSome := by decide +kernel
  have e5 : (((syncAll ⟨[], [], Lease.new 0⟩ [[sample 1 1, sample 300 7], []]).bind (fun s => expireOne s 1)).bind
      (fun s => syncAll s [[sample 2 2], [sample 300 9]])).map (fun s => s.data.length) = some 30 := by decide +kernel
  rw [e1', Option.bind_some, e3', Option.bind_some] at e4 e5
  obtain ⟨s3, e4'⟩ := Option.isSome_iff_exists.1 e4
  rw [e4'] at e5
  simp only [Option.map_some, Option.some.injEq] at e5
  have h3 := Spec.History.sync _ s3 h2 (by
    intro rs hrs r hr
    simp only [List.mem_cons, List.not_mem_nil, or_false] at hrs
    rcases hrs with rfl | rfl <;> simp only [List.mem_cons, List.not_mem_nil, or_false] at hr <;>
      subst hr <;> exact sample_storable _ _ (by decide) (by decide)) e4' (by omega)
  exact ⟨s3, _, h3, by decide +kernel, rfl, e5⟩

end Verif
