import Mathlib.Data.List.Sort
import Verif.Model.DbSyncStep
import Verif.Model.DbSteps
import Verif.Model.WindowDates
import Verif.Props.Message

/-!
# A Get with a cutoff, and the dates of the blocks through a sync
-/

namespace Verif

/-! ## Lookups with a cutoff -/

/-- The entries a lookup reads, newest first: it stops after a block with a time before the cutoff. -/
def readChain (B : Nat → WinBlock) (cutoff : Int) : List Nat → List WinEntry
  | [] => []
  | k :: r => (used (B k)).reverse ++ if (B k).cutoff cutoff then [] else readChain B cutoff r

/-- The entries it does not read. -/
def unreadChain (B : Nat → WinBlock) (cutoff : Int) : List Nat → List WinEntry
  | [] => []
  | k :: r => if (B k).cutoff cutoff then (content B r).reverse else unreadChain B cutoff r

theorem read_unread (B : Nat → WinBlock) (cutoff : Int) (ks : List Nat) : (content B ks).reverse = readChain B cutoff ks ++ unreadChain B cutoff ks := by
  induction ks with
  | nil => rfl
  | cons k r ih =>
    rw [content_cons, List.reverse_append, readChain, unreadChain]
    cases (B k).cutoff cutoff
    · simp only [Bool.false_eq_true, if_false]
      rw [ih, List.append_assoc]
    · simp

theorem WinBlock.cutoff_iff {b : WinBlock} {cutoff : Int} : b.cutoff cutoff = true ↔ b.cutoffTime ≠ 0 ∧ b.cutoffTime.toInt < cutoff := by
  simp [WinBlock.cutoff]

/-- What is not read was put before the cutoff. -/
theorem unread_old {T : UInt64 → Int} {B : Nat → WinBlock} (hd : Dated T B) (hg : ∀ k, BlockOK (B k)) {h : UInt64} {cutoff : Int} (ks : List Nat) :
    IsChain B h ks → ∀ e ∈ unreadChain B cutoff ks, T e.seq < cutoff ∧ 0 < cutoff := by
  induction ks with
  | nil => intro _ e he; cases he
  | cons k r ih =>
    intro c e he
    rw [unreadChain] at he
    cases hk : (B k).cutoff cutoff
    · rw [hk] at he
      simp only [Bool.false_eq_true, if_false] at he
      exact ih c.tail e he
    · rw [hk] at he
      simp only [if_true, List.mem_reverse, content, List.mem_flatMap] at he
      obtain ⟨j, hj, he⟩ := he
      obtain ⟨h1, h2⟩ := WinBlock.cutoff_iff.1 hk
      have h3 := (hg k).2.1
      have h4 := hd k j (Nat.le_of_lt (c.lt j hj).2) h1 (((c.mem j (List.mem_cons_of_mem _ hj)).1).trans (c.mem k List.mem_cons_self).1.symm) e he
      omega

/-- One block, below the limit. -/
theorem lookupBlock_since {now : UInt32} {hash : UInt64} {cutoff : Int} {b : WinBlock} (hb : BlockOK b) (hh : b.topicHash = hash)
    {acc : List WinEntry} {limit : Int} (ha : (acc.length : Int) + (used b).length ≤ limit) :
    lookupBlock now hash cutoff b acc limit =
      if b.cutoff cutoff then .stop (acc ++ live now (used b).reverse) else .next (acc ++ live now (used b).reverse) limit := by
  obtain ⟨h1, h2, h3⟩ := hb
  have h335 : entriesPerWindowBlock = 335 := rfl
  have hlen : (used b).length = b.entryIdx.toNat := by rw [used, List.length_take, h1]; omega
  unfold lookupBlock
  simp only [hh, ne_eq, not_true_eq_false, if_false]
  rw [if_neg (by omega), if_neg (by omega)]
  rfl

/-- Following a chain, below the limit. -/
theorem lookupChain_since {sf : Prop} {now : UInt32} {file : Bytes} {led : List (UInt64 × List WinEntry)} {offs : UInt64 → Int} {n : Nat}
    {B : Nat → WinBlock} {ks : UInt64 → List Nat} (d : OnDisk sf file led offs n B ks) {hash : UInt64} {cutoff : Int}
    (r : List Nat) : ∀ (k : Nat) (fuel : Nat) (acc : List WinEntry) (limit : Int), IsChain B hash (k :: r) → (∀ j ∈ k :: r, j < n) →
      r.length < fuel → (acc.length : Int) + (content B (k :: r)).length ≤ limit →
      lookupChain now file hash cutoff fuel (4096 * k) acc limit = .some (acc ++ live now (readChain B cutoff (k :: r))) := by
  induction r with
  | nil =>
    intro k fuel acc limit c hk hf ha
    obtain ⟨fuel, rfl⟩ : ∃ m, fuel = m + 1 := ⟨fuel - 1, by simp at hf; omega⟩
    have hcont : content B [k] = used (B k) := by simp [content]
    have hr : readChain B cutoff [k] = (used (B k)).reverse := by
      rw [readChain, readChain]; split <;> simp
    rw [hcont] at ha
    rw [hr, lookupChain, d.read k (hk k (by simp))]
    dsimp only
    rw [lookupBlock_since (d.good k) c.1 ha]
    cases (B k).cutoff cutoff
    · simp only [Bool.false_eq_true, if_false]
      rw [if_pos c.2.2]
    · rfl
  | cons j r ih =>
    intro k fuel acc limit c hk hf ha
    obtain ⟨fuel, rfl⟩ : ∃ m, fuel = m + 1 := ⟨fuel - 1, by simp at hf; omega⟩
    have hcont : content B (k :: j :: r) = content B (j :: r) ++ used (B k) := content_cons _ _ _
    rw [hcont] at ha
    rw [List.length_append] at ha
    rw [lookupChain, d.read k (hk k (by simp))]
    dsimp only
    rw [lookupBlock_since (d.good k) c.1 (by omega)]
    have hj : j < n := hk j (by simp)
    have hjn := d.bound
    have hnext : (B k).next = Int64.ofInt (4096 * j) := c.2.2.2.1
    have hjp : 0 < j := c.2.2.2.2.1
    have hval : (B k).next.toInt = 4096 * j := by
      rw [hnext, Int64.toInt_ofInt_of_le (by omega) (by omega)]
    rw [readChain]
    cases (B k).cutoff cutoff
    · simp only [Bool.false_eq_true, if_false]
      have hne : (B k).next ≠ 0 := by
        intro h0
        rw [h0] at hval
        have : (0 : Int64).toInt = 0 := rfl
        omega
      have hll := length_live_le now (used (B k)).reverse
      rw [List.length_reverse] at hll
      rw [if_neg hne, hval, ih j fuel _ limit c.tail (fun i hi => hk i (List.mem_cons_of_mem _ hi)) (by simp at hf ⊢; omega) (by
          simp only [List.length_append]; omega)]
      rw [live_append, List.append_assoc]
    · simp

/-- The lookup of one topic, below the limit: all its live entries but some put before the cutoff. -/
theorem windowLookup_since {T : UInt64 → Int} {s : WinState} {led : List (UInt64 × List WinEntry)} (H : WinOK s led) (hT : Dated T (fileBlocks s.file))
    (h : UInt64) (hf : led.head?.map (·.1) ≠ some h) (cutoff : Int) :
    ∃ A Z, (syncedFor led h).reverse = A ++ Z ∧ (∀ e ∈ Z, T e.seq < cutoff ∧ 0 < cutoff) ∧ ∀ (now : UInt32) (lists : List (List WinEntry)) (limit : Int),
      ((lists.map List.length).sum : Int) + (syncedFor led h).length ≤ limit →
      windowLookup now lists s.file h (s.offs h) cutoff limit = some ((lists.flatMap fun es => live now es.reverse) ++ live now A) := by
  obtain ⟨n, B, ks, d⟩ := H.onDisk
  have hB : ∀ k, k < n → fileBlocks s.file k = B k := by
    intro k hk
    rw [fileBlocks, d.read k hk]; rfl
  have hall := d.all h hf
  cases hk : ks h with
  | nil =>
    have hs : syncedFor led h = [] := by
      by_contra hne
      exact d.has h hne hk
    refine ⟨[], [], by rw [hs]; rfl, by simp, ?_⟩
    intro now lists limit hl
    have hacc := length_live_flat now lists
    have hil : ilookup now lists limit = lists.flatMap fun es => live now es.reverse := by
      rw [ilookup]; exact ilookupLoop_all now limit lists 0 (by omega) (by omega)
    rw [windowLookup]
    simp only [hil]
    have hl0 : live now ([] : List WinEntry) = [] := rfl
    rw [hl0, List.append_nil]
    split
    · rfl
    · rw [d.offs h, hk]
      simp only [headOff]
      rw [lookupChain]
      cases hr : readWindowBlock s.file 0 with
      | none => rfl
      | some b =>
        dsimp only
        have hb : b.topicHash ≠ h := by
          by_cases hled : led = []
          · have h0 := d.empty hled
            have hlen := d.len
            rw [h0] at hlen
            have : s.file = [] := List.length_eq_zero_iff.mp (by omega)
            rw [this] at hr
            simp [readWindowBlock, readAt, slice?, blockSize] at hr
          · obtain ⟨p, hp⟩ : ∃ p, led.head? = some p := by
              cases led with
              | nil => exact absurd rfl hled
              | cons p l => exact ⟨p, rfl⟩
            have hz := d.zero p hp
            by_cases hn : 0 < n
            · have := d.read 0 hn
              have hr' : readWindowBlock s.file (4096 * (0 : Nat)) = some b := by simpa using hr
              rw [hr'] at this
              simp only [Option.some.injEq] at this
              rw [this, hz]
              rw [hp] at hf
              simpa using hf
            · have hlen := d.len
              have : s.file = [] := List.length_eq_zero_iff.mp (by omega)
              rw [this] at hr
              simp [readWindowBlock, readAt, slice?, blockSize] at hr
        rw [lookupBlock, if_pos hb]
  | cons k r =>
    have hch := d.chain h
    have hkn := d.known h
    rw [hk] at hch hkn
    have hcont := hall.2
    rw [hk] at hcont
    have hlr := hch.length_le
    have hkk := hkn k (by simp)
    have hlen := d.len
    have hbs : blockSize = 4096 := rfl
    refine ⟨readChain B cutoff (k :: r), unreadChain B cutoff (k :: r), by rw [← hcont]; exact read_unread _ _ _, ?_, ?_⟩
    · -- blocks beyond the file are not in the chain
      intro e he
      have hlt : ∀ l : List Nat, (∀ j ∈ l, j < n) → unreadChain B cutoff l = unreadChain (fileBlocks s.file) cutoff l ∧ content B l = content (fileBlocks s.file) l := by
        intro l
        induction l with
        | nil => intro _; exact ⟨rfl, rfl⟩
        | cons j l ih =>
          intro hl
          obtain ⟨i1, i2⟩ := ih fun x hx => hl x (List.mem_cons_of_mem _ hx)
          refine ⟨?_, ?_⟩
          · rw [unreadChain, unreadChain, hB j (hl j List.mem_cons_self), i1, i2]
          · rw [content_cons, content_cons, hB j (hl j List.mem_cons_self), i2]
      have hg : ∀ j, BlockOK (fileBlocks s.file j) := by
        intro j
        by_cases hj : j < n
        · rw [hB j hj]; exact d.good j
        · rw [fileBlocks, readWindowBlock_beyond hlen (by omega)]; exact blockOK_zero
      rw [(hlt _ hkn).1] at he
      refine unread_old hT hg (h := h) (k :: r) ?_ e he
      refine hch.congr ?_
      intro j hj
      rw [hB j (hkn j hj)]
    · intro now lists limit hl
      have hacc := length_live_flat now lists
      have hil : ilookup now lists limit = lists.flatMap fun es => live now es.reverse := by
        rw [ilookup]; exact ilookupLoop_all now limit lists 0 (by omega) (by omega)
      rw [windowLookup]
      simp only [hil]
      by_cases hge : ((lists.flatMap fun es => live now es.reverse).length : Int) ≥ limit
      · rw [if_pos hge]
        have hnil : syncedFor led h = [] := List.length_eq_zero_iff.mp (by omega)
        have h2 := read_unread B cutoff (k :: r)
        rw [hcont, hnil] at h2
        have h3 : readChain B cutoff (k :: r) = [] := (List.append_eq_nil_iff.1 h2.symm).1
        rw [h3]; simp [live]
      · rw [if_neg hge, d.offs h, hk]
        simp only [headOff]
        rw [lookupChain_since d r k _ _ limit hch hkn (by rw [hlen, hbs]; omega) (by rw [hcont]; omega)]

/-- The second in which a message was put, as its identifier tells (uid/uid.go 47-50). -/
def Item.time (i : Item) : Int := (uidTime i.pre).getD 0

/-- A message put at or after the cutoff; no cutoff takes all. -/
def Item.since (i : Item) (cutoff : Int) : Bool := decide (cutoff ≤ 0) || decide (cutoff ≤ i.time)

/-- Reading an item that is in memory, or whose record the files hold. -/
theorem Item.candStep_since {v : DbEnv} {i : Item} (h : i.OK v) {vw : View} (hd : ∀ x, vw.decrypt x = (v.mac.decrypt x).1) (hc : vw.decode = v.decode)
    (hf : fetch vw i.seq = .ok (i.pre ++ [i.flag]) i.val) (contract : UInt32) (hct : contract = i.contract) (cutoff : Int) :
    Verif.candStep vw contract cutoff i.seq = if i.since cutoff then .item i.payload else .invalid := by
  have h0 : i.seq ≠ 0 := by
    intro hz; have := h.lo; rw [hz] at this; simp at this
  have hco : idContract (i.pre ++ [i.flag]) = some i.contract := by
    have hpre := h.pre
    have := h.contract
    simp only [idContract, get32, Option.map_eq_some_iff] at this ⊢
    obtain ⟨x, hx, he⟩ := this
    refine ⟨x, ?_, he⟩
    simp only [slice?] at hx ⊢
    split at hx
    · next hl =>
      rw [if_pos (by simp only [List.length_append, List.length_singleton]; omega)]
      rw [← hx]
      rw [List.drop_append_of_le_length (by omega), List.take_append_of_le_length (by rw [List.length_drop]; omega)]
    · simp at hx
  have hti : uidTime (i.pre ++ [i.flag]) = some i.time := by
    have hpre := h.pre
    simp only [uidTime, get32, Item.time, slice?]
    rw [if_pos (by simp only [List.length_append, List.length_singleton]; omega), if_pos (by omega)]
    rw [List.drop_append_of_le_length (by omega), List.take_append_of_le_length (by rw [List.length_drop]; omega)]
    rfl
  have hev : evalPrefix (i.pre ++ [i.flag]) contract cutoff = some (i.since cutoff) := by
    simp only [evalPrefix, hco, Option.bind_eq_bind, Option.bind_some, hti, hct, Item.since]
    by_cases hc : cutoff > 0
    · rw [if_pos hc]
      have : ¬ cutoff ≤ 0 := by omega
      simp [this]
    · rw [if_neg hc]
      have : cutoff ≤ 0 := by omega
      simp [this]
  have h8 : (i.pre ++ [i.flag])[8]? = some i.flag := by
    rw [List.getElem?_append_right (by rw [h.pre]), h.pre]; rfl
  have hop := h.opens
  rw [Option.bind_eq_some_iff] at hop
  obtain ⟨y, hy1, hy2⟩ := hop
  have hy : (if i.flag = 1 then vw.decrypt i.val else some i.val) = some y := by rw [hd]; exact hy1
  rw [Verif.candStep, if_neg h0, hf]
  simp only [hev]
  cases i.since cutoff
  · rfl
  · simp only [h8, Option.some.injEq, hy, hc, hy2, if_true]

theorem Db.candStepS_eq {v : DbEnv} {s : Db} {a : Ask} {m : MemDb} {c : UInt64} (h0 : c ≠ 0) (hnp : (m.get v.mem c).2 ≠ .panic) :
    s.candStepS v a m c = ((m.get v.mem c).1, candStep (s.view v fun _ => memData v (m.get v.mem c).2) a.contract a.cutoff c) := by
  rw [Db.candStepS, if_neg h0]
  generalize m.get v.mem c = r at hnp ⊢
  obtain ⟨m', o⟩ := r
  cases o <;> first | rfl | exact absurd rfl hnp

/-- Reading one message of the database, if the in-memory store answers for the messages in memory only. -/
theorem DbServes.step_since {v : DbEnv} {s : Db} {U D X : List Item} {L : Loc} {led : List (UInt64 × List WinEntry)} (I : DbServes v s U D X L led)
    (hlen : s.store.data.length < 2 ^ 63) (a : Ask)
    {i : Item} (hi : i ∈ U ++ D) (hct : i.contract = a.contract) {m : MemDb} (hnp : (m.get v.mem i.seq).2 ≠ .panic)
    (hmd : memData v (m.get v.mem i.seq).2 = memMap U i.seq) :
    (s.candStepS v a m i.seq).1 = (m.get v.mem i.seq).1 ∧ (s.candStepS v a m i.seq).2 = if i.since a.cutoff then .item i.payload else .invalid := by
  have hok := I.ok i (I.sub i hi)
  have h0 : i.seq ≠ 0 := by
    intro hz; have := hok.lo; rw [hz] at this; simp at this
  rw [Db.candStepS_eq h0 hnp]
  have hn := I.nodup
  rw [List.map_append, List.nodup_append] at hn
  rcases List.mem_append.1 hi with hU | hD
  · have hmm : memMap U i.seq = some i.record := by rw [memMap, find_seq hn.1 hU]; rfl
    rw [hmm] at hmd
    refine ⟨rfl, i.candStep_since hok (fun _ => rfl) rfl ?_ _ hct.symm _⟩
    have hu : EntryHdr.unmarshal i.record = some i.hdr := C06_entry_header_roundtrip i.hdr _
    have hd : i.record.drop entrySize = i.body := by
      rw [Item.record, List.drop_left' (by rw [EntryHdr.length_marshal])]
    simp only [fetch, Db.view, hmd]
    rw [hu]
    simp only [hd]
    exact Item.split hok
  · have hmm : memMap U i.seq = none := by
      rw [memMap, Option.map_eq_none_iff, List.find?_eq_none]
      intro j hj hc
      exact hn.2.2 _ (List.mem_map_of_mem hj) _ (List.mem_map_of_mem hD) (by simpa using hc)
    rw [hmm] at hmd
    refine ⟨rfl, i.candStep_since hok (fun _ => rfl) rfl ?_ _ hct.symm _⟩
    have hin : i.stored ∈ L.map (·.1) := by rw [I.stored]; exact List.mem_map_of_mem hD
    obtain ⟨p, hp, he⟩ := List.mem_map.1 hin
    have hst := Item.storable hok
    have hb := I.store.data.bytes p hp (by simp)
    simp only [List.append_nil] at hb
    have hle := slice?_le hb
    have hpo : p.2 < 2 ^ 63 := by
      have hpos : 0 < p.1.cache.length := by
        have := hst.sized
        rw [← he] at this; omega
      omega
    have e1 : (Int64.ofInt (p.2 : Int)).toInt = p.2 := Int64.toInt_ofInt_of_le (by omega) (by omega)
    have hre := I.store.readEntry hp hpo
    have e2 : (toEntry p).mSize.toNat = p.1.cache.length := mSize_eq (r := p.1) (by rw [he]; exact hst) p.2
    have e4 : readAt s.store.data (toEntry p).msgOffset.toInt (toEntry p).mSize.toNat = some p.1.cache := by
      rw [e2]
      simp only [toEntry, e1, readAt]
      rw [if_pos (by omega)]
      exact hb
    have hseq : i.seq = p.1.seq := by rw [he]; rfl
    simp only [fetch, Db.view, hmd]
    rw [hseq, hre]
    simp only [e4]
    have : (toEntry p).topicSize = i.topicSize := by
      show p.1.topicSize = _
      rw [he]; rfl
    rw [this, he]
    exact Item.split hok


/-- Highest sequence first, of some messages only. -/
theorem byseq_filter {l : List Item} (hn : (l.map Item.seq).Nodup) (p : Item → Bool) : (byseq l).filter p = byseq (l.filter p) := by
  have hp : ((byseq l).filter p).Perm (byseq (l.filter p)) := ((byseq_perm l).filter p).trans (byseq_perm _).symm
  refine List.Perm.eq_of_pairwise ?_ ((byseq_sorted l).filter p) (byseq_sorted _) hp
  intro a b ha hb hab hba
  have he := UInt64.le_antisymm hba hab
  have ha' : a ∈ l := (byseq_perm l).mem_iff.1 (List.mem_of_mem_filter ha)
  have hb' : b ∈ l := List.mem_of_mem_filter ((byseq_perm _).mem_iff.1 hb)
  have h1 := find_seq hn ha'
  have h2 := find_seq hn hb'
  rw [he] at h1
  exact Option.some.inj (h1.symm.trans h2)

theorem payloads_since {f : UInt64 → Step} {cutoff : Int} {l : List Item}
    (h : ∀ i ∈ l, f i.seq = if i.since cutoff then .item i.payload else .invalid) :
    payloads f (l.map Item.seq) = (l.filter fun i => i.since cutoff).map Item.payload := by
  induction l with
  | nil => rfl
  | cons i l ih =>
    have := ih fun j hj => h j (List.mem_cons_of_mem _ hj)
    simp only [payloads, List.map_cons, List.filterMap_cons, h i List.mem_cons_self] at this ⊢
    cases e : i.since cutoff
    · simp only [Bool.false_eq_true, if_false, this, List.filter_cons, e]
    · simp only [if_true, this, List.filter_cons, e, List.map_cons]

/-- A Get below its limit returns the payloads of all live messages of the topics it finds, newest sequence first, of those put at or
after the cutoff. The in-memory store `m0` may have changed otherwise, as long as it answers for these messages. -/
theorem DbServes.get_since {v : DbEnv} {s : Db} {U D X : List Item} {L : Loc} {led : List (UInt64 × List WinEntry)} (I : DbServes v s U D X L led)
    (hlen : s.store.data.length < 2 ^ 63) (g : GetEnv) (q : Query)
    (ht0 : q.topic ≠ []) (ht1 : q.topic.length ≤ 65536) {T : UInt64 → Int}
    (hT : Dated T (fileBlocks s.winFile)) (hTi : ∀ i ∈ U ++ D, T i.seq = i.time)
    (how : ∀ w, (g.orderWin w).Perm w) (hot : ∀ ts, (g.orderTopics ts).Perm ts) (sel : Item → Bool)
    (hlim : (((U ++ D).filter sel).length : Int) ≤ (q.ask v.dur g.now v.q).limit)
    (hsel : ∀ i ∈ X, i.hash ∈ (s.trie.find (q.ask v.dur g.now v.q).contract q.topic).map TTopic.hash ↔ sel i = true)
    (hct : ∀ i ∈ U ++ D, sel i = true → i.contract = (q.ask v.dur g.now v.q).contract)
    (hfirst : ∀ i ∈ X, sel i = true → led.head?.map (·.1) ≠ some i.hash)
    (hcap : ((U ++ D).filter fun i => sel i && !i.win.isExpired (toU32 (unixSec g.now))).length ≤ g.cap)
    (m0 : MemDb) (P : MemDb → Prop) (hP : P m0) (hstep : ∀ m, P m → ∀ i ∈ U ++ D, sel i = true →
      P (m.get v.mem i.seq).1 ∧ (m.get v.mem i.seq).2 ≠ .panic ∧ memData v (m.get v.mem i.seq).2 = memMap U i.seq) (lease : Lease) (cnt : UInt64) :
    ∃ m, P m ∧ ({ s with mem := m0, store := { s.store with lease := lease }, count := cnt } : Db).get v g q [] =
      ({ s with mem := m, store := { s.store with lease := lease }, count := cnt },
      .out (.ok ((byseq ((U ++ D).filter fun i => (sel i && !i.win.isExpired (toU32 (unixSec g.now))) && i.since (q.ask v.dur g.now v.q).cutoff)).map Item.payload))) := by
  generalize hask : q.ask v.dur g.now v.q = a at *
  generalize hnow : toU32 (unixSec g.now) = now at *
  obtain ⟨ops, htr, hops2⟩ := I.trie
  obtain ⟨w, H⟩ := I.hist
  have hdep := depth_consistent ops (by
    intro c key off hin
    obtain ⟨i, hi, _, rfl⟩ := hops2 c key off hin
    exact (I.ok i hi).plain)
  -- the topics found
  let find := s.trie.find a.contract q.topic
  obtain ⟨ts, hts⟩ : ∃ ts, ts = (g.orderTopics find).map fun t => (t.hash, t.offset.toInt) := ⟨_, rfl⟩
  have htsperm : (ts.map (·.1)).Perm (find.map TTopic.hash) := by
    have : ts.map (·.1) = (g.orderTopics find).map TTopic.hash := by simp [hts]
    rw [this]; exact (hot find).map _
  have hhs : (ts.map (·.1)).Nodup := htsperm.nodup_iff.2 (Trie.nodup_lookup _ _ _ _)
  have htopic : ∀ t ∈ ts, t.2 = offsOf s.trie t.1 ∧ led.head?.map (·.1) ≠ some t.1 := by
    intro t htm
    rw [hts] at htm
    obtain ⟨x, hx, rfl⟩ := List.mem_map.1 htm
    have hx' : x ∈ find := (hot find).mem_iff.1 hx
    have hxf : x ∈ (Trie.ofTopics ops).find a.contract q.topic := by rw [← htr]; exact hx'
    obtain ⟨h1, c', key, off, h2, h3⟩ := offset_of_find depthOf hdep hxf
    refine ⟨by simp only [offsOf, htr, h1, Option.getD_some], ?_⟩
    obtain ⟨i, hi, rfl, rfl⟩ := hops2 c' key off h2
    have hih : i.hash = x.hash := h3
    have : sel i = true := (hsel i hi).1 (by rw [hih]; exact List.mem_map_of_mem hx')
    rw [← hih]
    exact hfirst i hi this
  -- what the window file yields of one topic
  have hwin : ∀ h, led.head?.map (·.1) ≠ some h → ∃ A : List WinEntry, (∃ Z, (syncedFor led h).reverse = A ++ Z ∧ (∀ e ∈ Z, T e.seq < a.cutoff ∧ 0 < a.cutoff)) ∧
      ∀ (now : UInt32) (lists : List (List WinEntry)) (limit : Int), ((lists.map List.length).sum : Int) + (syncedFor led h).length ≤ limit →
        windowLookup now lists s.winFile h (offsOf s.trie h) a.cutoff limit = some ((lists.flatMap fun es => live now es.reverse) ++ live now A) := by
    intro h hf
    obtain ⟨A, Z, e1, e2, e3⟩ := windowLookup_since H hT h hf a.cutoff
    exact ⟨A, ⟨Z, e1, e2⟩, e3⟩
  have hwin' : ∀ h, ∃ A : List WinEntry, led.head?.map (·.1) ≠ some h → (∃ Z, (syncedFor led h).reverse = A ++ Z ∧ (∀ e ∈ Z, T e.seq < a.cutoff ∧ 0 < a.cutoff)) ∧
      ∀ (now : UInt32) (lists : List (List WinEntry)) (limit : Int), ((lists.map List.length).sum : Int) + (syncedFor led h).length ≤ limit →
        windowLookup now lists s.winFile h (offsOf s.trie h) a.cutoff limit = some ((lists.flatMap fun es => live now es.reverse) ++ live now A) := by
    intro h
    by_cases hf : led.head?.map (·.1) ≠ some h
    · obtain ⟨A, hA⟩ := hwin h hf
      exact ⟨A, fun _ => hA⟩
    · exact ⟨[], fun hc => absurd hc hf⟩
  choose A hA using hwin'
  -- one topic
  let R' : UInt64 × Int → List WinEntry := fun t =>
    ((winLists g.orderWin s.win t.1).flatMap fun es => live now es.reverse) ++ live now (A t.1)
  let R : UInt64 × Int → List WinEntry := fun t =>
    ((winLists g.orderWin s.win t.1).flatMap fun es => live now es.reverse) ++ live now (syncedFor led t.1).reverse
  let N : UInt64 × Int → Nat := fun t => ((U ++ D).filter fun i => i.hash = t.1).length
  have hsum : ∀ h, ((winLists g.orderWin s.win h).map List.length).sum + (syncedFor led h).length = ((U ++ D).filter fun i => i.hash = h).length := by
    intro h
    have := (I.lists_perm g.orderWin (how _) h).length_eq
    rw [List.length_flatten] at this
    rw [this, I.synced h, List.filter_append]
    simp
  have hRp : ∀ t : UInt64 × Int, ((R t).map (·.seq)).Perm (((U ++ D).filter fun i => i.hash = t.1 ∧ i.win.isExpired now = false).map Item.seq) := by
    intro t
    have h1 : (R t).Perm (live now (((U ++ D).filter fun i => i.hash = t.1).map Item.win)) := by
      simp only [R]
      rw [List.filter_append, List.map_append, live_append, ← I.synced]
      refine List.Perm.append ?_ ((List.reverse_perm _).filter _)
      exact (live_flat_perm now _).trans ((I.lists_perm g.orderWin (how _) t.1).filter _)
    refine (h1.map _).trans ?_
    rw [live, List.filter_map, List.map_map, List.filter_filter]
    have e : ((U ++ D).filter fun i => decide (i.hash = t.1 ∧ i.win.isExpired now = false)) =
        (U ++ D).filter fun a => ((fun e : WinEntry => !e.isExpired now) ∘ Item.win) a && decide (a.hash = t.1) := by
      apply List.filter_congr
      intro i _
      by_cases e1 : i.hash = t.1 <;> cases e2 : i.win.isExpired now <;> simp [e1, e2]
    rw [e]
    exact List.Perm.refl _
  have hlook : dbLookup now (winLists g.orderWin s.win) s.winFile a.cutoff a.limit ts [] =
      some ([] ++ ts.flatMap fun t => (R' t).map (·.seq)) := by
    refine dbLookup_all R' N ts ?_ [] ?_
    · intro t htm
      obtain ⟨hto, htf⟩ := htopic t htm
      have hs := hsum t.1
      constructor
      · simp only [R', N, List.length_append]
        have h1 := length_live_flat now (winLists g.orderWin s.win t.1)
        have h2 := length_live_le now (A t.1)
        obtain ⟨⟨Z, e1, _⟩, _⟩ := hA t.1 htf
        have h3 := congrArg List.length e1
        rw [List.length_reverse, List.length_append] at h3
        omega
      · intro lim hl
        have hl' : ((((U ++ D).filter fun i => i.hash = t.1).length : Nat) : Int) ≤ lim := hl
        have := (hA t.1 htf).2 now (winLists g.orderWin s.win t.1) lim (by omega)
        rw [hto, this]
    · have h1 : (ts.map N).sum = (ts.map (·.1)|>.flatMap fun h => (U ++ D).filter fun i => i.hash = h).length := by
        rw [List.length_flatMap, List.map_map]; rfl
      have h2 := (filter_hashes Item.hash (U ++ D) (ts.map (·.1)) hhs).length_eq
      have h3 : ((U ++ D).filter fun i : Item => decide (i.hash ∈ ts.map (·.1))) = (U ++ D).filter sel := by
        apply List.filter_congr
        intro i hi
        have h4 : i.hash ∈ ts.map (·.1) ↔ sel i = true := htsperm.mem_iff.trans (hsel i (I.sub i hi))
        by_cases e1 : sel i = true
        · simp [h4.2 e1, e1]
        · have : ¬ i.hash ∈ ts.map (·.1) := fun hc => e1 (h4.1 hc)
          simp [this, e1]
      rw [h3] at h2
      simp only [List.length_nil]
      omega
  rw [List.nil_append] at hlook
  -- all candidates
  let S := (U ++ D).filter fun i => sel i && !i.win.isExpired now
  have hcands : (ts.flatMap fun t => (R t).map (·.seq)).Perm (S.map Item.seq) := by
    have h1 : (ts.flatMap fun t => (R t).map (·.seq)).Perm
        (ts.flatMap fun t => ((U ++ D).filter fun i => i.hash = t.1 ∧ i.win.isExpired now = false).map Item.seq) :=
      List.Perm.flatMap_left ts fun t _ => hRp t
    refine h1.trans ?_
    have h2 : (ts.flatMap fun t => ((U ++ D).filter fun i => i.hash = t.1 ∧ i.win.isExpired now = false).map Item.seq) =
        (((ts.map (·.1)).flatMap fun h => ((U ++ D).filter fun i => i.win.isExpired now = false).filter fun i => i.hash = h)).map Item.seq := by
      rw [List.map_flatMap, List.flatMap_map]
      congr 1
      funext t
      rw [List.filter_filter]
      congr 1
      apply List.filter_congr
      intro i _
      by_cases e1 : i.hash = t.1 <;> cases e2 : i.win.isExpired now <;> simp [e1]
    rw [h2]
    refine (List.Perm.map _ (filter_hashes Item.hash _ _ hhs)).trans ?_
    rw [List.filter_filter]
    apply List.Perm.of_eq
    congr 1
    apply List.filter_congr
    intro i hi
    have h3 : i.hash ∈ ts.map (·.1) ↔ sel i = true := htsperm.mem_iff.trans (hsel i (I.sub i hi))
    by_cases e1 : sel i = true
    · simp [h3.2 e1, e1]
    · have : ¬ i.hash ∈ ts.map (·.1) := fun hc => e1 (h3.1 hc)
      simp [this, e1]
  have hSn : (S.map Item.seq).Nodup := List.Nodup.sublist (List.Sublist.map _ List.filter_sublist) I.nodup
  -- the candidates found, and those left out
  let C := ts.flatMap fun t => (R' t).map (·.seq)
  let C' := ts.flatMap fun t => ((R t).drop (R' t).length).map (·.seq)
  have hRR : ∀ t ∈ ts, R t = R' t ++ (R t).drop (R' t).length ∧ ∀ e ∈ (R t).drop (R' t).length, T e.seq < a.cutoff ∧ 0 < a.cutoff := by
    intro t htm
    obtain ⟨⟨Z, e1, e2⟩, _⟩ := hA t.1 (htopic t htm).2
    have e3 : R t = R' t ++ live now Z := by
      simp only [R, R', e1, live_append, List.append_assoc]
    rw [e3, List.drop_left]
    refine ⟨rfl, ?_⟩
    intro e he
    exact e2 e (List.mem_of_mem_filter he)
  have hCC : (C ++ C').Perm (S.map Item.seq) := by
    refine List.Perm.trans ?_ hcands
    have : ∀ l : List (UInt64 × Int), (∀ t ∈ l, t ∈ ts) →
        ((l.flatMap fun t => (R' t).map (·.seq)) ++ (l.flatMap fun t => ((R t).drop (R' t).length).map (·.seq))).Perm (l.flatMap fun t => (R t).map (·.seq)) := by
      intro l
      induction l with
      | nil => intro _; exact List.Perm.refl _
      | cons t l ih =>
        intro hl
        have e := (hRR t (hl t List.mem_cons_self)).1
        have i1 := ih fun x hx => hl x (List.mem_cons_of_mem _ hx)
        simp only [List.flatMap_cons]
        have e4 : (R t).map (·.seq) = (R' t).map (·.seq) ++ ((R t).drop (R' t).length).map (·.seq) := by
          rw [← List.map_append, ← e]
        rw [e4, List.append_assoc, List.append_assoc]
        refine List.Perm.append_left _ ?_
        refine List.Perm.trans ?_ (List.Perm.append_left _ i1)
        rw [← List.append_assoc, ← List.append_assoc]
        exact List.Perm.append_right _ List.perm_append_comm
    exact this ts fun t h => h
  have hold : ∀ c ∈ C', T c < a.cutoff ∧ 0 < a.cutoff := by
    intro c hc
    obtain ⟨t, htm, hc⟩ := List.mem_flatMap.1 hc
    obtain ⟨e, he, rfl⟩ := List.mem_map.1 hc
    exact (hRR t htm).2 e he
  let S' := S.filter fun i => decide (i.seq ∈ C)
  have hS'n : (S'.map Item.seq).Nodup := List.Nodup.sublist (List.Sublist.map _ List.filter_sublist) hSn
  have hC : C.Perm (S'.map Item.seq) := by
    have hn : (C ++ C').Nodup := hCC.nodup_iff.2 hSn
    rw [List.perm_ext_iff_of_nodup (List.nodup_append.1 hn).1 hS'n]
    intro c
    constructor
    · intro hc
      have : c ∈ S.map Item.seq := hCC.mem_iff.1 (List.mem_append_left _ hc)
      obtain ⟨i, hi, rfl⟩ := List.mem_map.1 this
      exact List.mem_map_of_mem (List.mem_filter.2 ⟨hi, by simpa using hc⟩)
    · intro hc
      obtain ⟨i, hi, rfl⟩ := List.mem_map.1 hc
      simpa using (List.mem_filter.1 hi).2
  have hS' : ∀ i ∈ S', i ∈ U ++ D ∧ sel i = true := by
    intro i hi
    have := List.mem_of_mem_filter hi
    rw [List.mem_filter, Bool.and_eq_true] at this
    exact ⟨this.1, this.2.1⟩
  have hrec : S'.filter (fun i => i.since a.cutoff) = S.filter fun i => i.since a.cutoff := by
    rw [List.filter_filter]
    apply List.filter_congr
    intro i hi
    by_cases hc : i.seq ∈ C
    · simp [hc]
    · have hm : i.seq ∈ C ++ C' := hCC.mem_iff.2 (List.mem_map_of_mem hi)
      obtain ⟨o1, o2⟩ := hold i.seq ((List.mem_append.1 hm).resolve_left hc)
      rw [hTi i (List.mem_of_mem_filter hi)] at o1
      have e1 : ¬ a.cutoff ≤ 0 := by omega
      have e2 : ¬ a.cutoff ≤ i.time := by omega
      simp [Item.since, e1, e2]
  have hsort := sortDesc_byseq hC
  let f : UInt64 → Step := fun c => match (U ++ D).find? (fun i => i.seq = c) with
    | some i => if i.since a.cutoff then .item i.payload else .invalid | none => .skip
  have hmemS : ∀ c ∈ (byseq S').map Item.seq, ∃ i ∈ U ++ D, sel i = true ∧ i.seq = c := by
    intro c hc
    obtain ⟨i, hi, rfl⟩ := List.mem_map.1 hc
    obtain ⟨h1, h2⟩ := hS' i ((byseq_perm S').mem_iff.1 hi)
    exact ⟨i, h1, h2, rfl⟩
  have hfi : ∀ i ∈ U ++ D, f i.seq = if i.since a.cutoff then .item i.payload else .invalid := by
    intro i hi
    simp only [f, find_seq I.nodup hi]
  have hSl : ((byseq S').map Item.seq).length = S'.length := by rw [List.length_map, (byseq_perm S').length_eq]
  have hS'le : S'.length ≤ S.length := List.length_filter_le _ _
  have hSle : S.length ≤ ((U ++ D).filter sel).length :=
    (List.monotone_filter_right (U ++ D) fun i hi => ((Bool.and_eq_true _ _).mp hi).1).length_le
  have hScap : S.length ≤ g.cap := hcap
  obtain ⟨m', hm', hg⟩ := getItemsS_all (step := s.candStepS v a) P f ((byseq S').map Item.seq)
    (by
      intro m hm c hc
      obtain ⟨i, hi, hs, rfl⟩ := hmemS c hc
      rw [hfi i hi]
      obtain ⟨p1, p2, p3⟩ := hstep m hm i hi hs
      obtain ⟨q1, q2⟩ := I.step_since hlen a hi (hct i hi hs) p2 p3
      exact ⟨by rw [q1]; exact p1, q2⟩)
    (by
      intro c hc
      obtain ⟨i, hi, hs, rfl⟩ := hmemS c hc
      rw [hfi i hi]
      cases i.since a.cutoff <;> exact ⟨by simp, by simp⟩)
    g.cap a.limit (by rw [hSl]; omega) (by rw [hSl]; omega) m0 hP
  refine ⟨m', hm', ?_⟩
  have hpay : payloads f ((byseq S').map Item.seq) = (byseq ((U ++ D).filter fun i => (sel i && !i.win.isExpired now) && i.since a.cutoff)).map Item.payload := by
    rw [payloads_since (cutoff := a.cutoff) (fun i hi => hfi i (hS' i ((byseq_perm S').mem_iff.1 hi)).1), byseq_filter hS'n, hrec, List.filter_filter]
    congr 2
    apply List.filter_congr
    intro i _
    exact Bool.and_comm _ _
  have hlq : q.topic.length ≠ 0 := by simpa using ht0
  rw [Db.get, if_neg (by simp [I.opened]), if_neg hlq, if_neg (by omega)]
  simp only [hask, hnow]
  have e : (List.map (fun t => (t.hash, t.offset.toInt)) (g.orderTopics (s.trie.lookup (parseTopic a.contract q.topic).1.parts
      (parseTopic a.contract q.topic).1.depth (parseTopic a.contract q.topic).2))) = ts := hts.symm
  rw [e, hlook]
  have hcs : ({ s with mem := m0, store := { s.store with lease := lease }, count := cnt } : Db).candStepS v a = s.candStepS v a := rfl
  have hsort' : sortDesc (ts.flatMap fun t => (R' t).map (·.seq)) = (byseq S').map Item.seq := hsort
  simp only [hsort', hcs, hg, hpay]

variable {v : DbEnv} {s : Db} {U D : List Item} {L : Loc} {led : List (UInt64 × List WinEntry)}

/-- Storing a time block, with what it does to the window file. -/
theorem DbKnown.syncBlock_round {K : Item → Prop} (I : DbKnown K v s U D L led) {h : Handle} (S : Syncing s h L led) {e : SyncEnv} (hnow : 0 ≤ e.now.toInt)
    (hord : ∀ m, (e.order m).Perm m) {t : Int} (ht : t ≠ s.mem.cur) (hK : ∀ i ∈ itemsOf U t, K i)
    (hroom : h.ww.windowIdx + 2 * ((itemsOf U t).length : Nat) ≤ 524286) :
    ∃ s' h' L' b, s.syncBlock e h t = some (s', h') ∧ DbKnown K v s' (U.filter fun i => i.blk ≠ t) (D ++ itemsOf U t) (L ++ L') (led ++ b) ∧
      Syncing s' h' (L ++ L') (led ++ b) ∧ s'.mem.cur = s.mem.cur ∧ h'.ww.windowIdx ≤ h.ww.windowIdx + 2 * ((itemsOf U t).length : Nat) ∧
      s'.mem.mark.released ⊆ s.mem.mark.released ∧ s'.seq = s.seq ∧
      (s' = s ∧ h' = h ∧ b = [] ∨ (∀ p ∈ b, p.2 ≠ [] ∧ ∀ x ∈ p.2, x.seq ≠ 0) ∧
        (WinState.mk s.winFile (offsOf s.trie) h.ww).round e.now b = some ⟨s'.winFile, offsOf s'.trie, h'.ww⟩) := by
  have hrecs := I.recs t
  rcases hits : itemsOf U t with _ | ⟨i0, rest⟩
  · -- nothing to do
    rw [hits] at hrecs
    refine ⟨s, h, [], [], ?_, ?_, ?_, rfl, by simp, List.Subset.refl _, rfl, .inl ⟨rfl, rfl, rfl⟩⟩
    · simp only [Db.syncBlock, hrecs, List.map_nil, Option.bind_eq_bind, Option.bind_some, if_true]; rfl
    · have hU' : (U.filter fun i => i.blk ≠ t) = U := by
        rw [List.filter_eq_self]
        intro i hi
        have : i ∉ itemsOf U t := by rw [hits]; simp
        rw [mem_itemsOf] at this
        simpa using fun hc => this ⟨hi, hc⟩
      rw [hU']
      simpa using I
    · simpa using S
  rw [← hits]
  have hi0 : i0 ∈ U ∧ i0.blk = t := mem_itemsOf.1 (by rw [hits]; exact List.mem_cons_self)
  have hne : (itemsOf U t).map (fun i => (i.hdr, i.stored)) ≠ [] := by rw [hits]; simp
  generalize hits' : itemsOf U t = its at *
  have hmem : ∀ i ∈ its, i ∈ U ∧ i.blk = t := fun i hi => mem_itemsOf.1 (hits' ▸ hi)
  have hok : ∀ i ∈ its, i.OK v := fun i hi => I.ok i (List.mem_append_left _ (hmem i hi).1)
  have hperm := split_perm U D t
  rw [hits'] at hperm
  have hnod : (((U.filter fun i => i.blk ≠ t) ++ (D ++ its)).map Item.seq).Nodup := ((hperm.map _).nodup_iff).2 I.nodup
  have hnodD : ((D ++ its).map Item.seq).Nodup := by
    rw [List.map_append] at hnod; exact (List.nodup_append.1 hnod).2.1
  have hLseq : L.map (·.1.seq) = D.map Item.seq := by
    have := congrArg (List.map Rec.seq) I.stored
    simpa [List.map_map, Function.comp_def, Item.stored] using this
  have hnodI : (its.map Item.seq).Nodup := by
    rw [List.map_append] at hnodD; exact (List.nodup_append.1 hnodD).2.1
  have hdisj : ∀ i ∈ its, i.seq ∉ L.map (·.1.seq) := by
    intro i hi hc
    rw [hLseq] at hc
    rw [List.map_append] at hnodD
    exact (List.nodup_append.1 hnodD).2.2 _ hc _ (List.mem_map_of_mem hi) rfl
  -- the data and index files
  obtain ⟨rs, hrs⟩ : ∃ rs, rs = its.map fun i => (i.hdr, i.stored) := ⟨_, rfl⟩
  rw [← hrs] at hrecs hne
  have hrs2 : rs.map (·.2) = its.map Item.stored := by rw [hrs, List.map_map]; rfl
  have hrsok : ∀ r ∈ rs, r.2.OK := by
    intro r hr
    rw [hrs, List.mem_map] at hr
    obtain ⟨i, hi, rfl⟩ := hr
    exact (Item.storable (hok i hi)).ok
  have hrseq : rs.map (·.2.seq) = its.map Item.seq := by rw [hrs, List.map_map]; rfl
  have hrsnew : ∀ r ∈ rs, r.2.seq ∉ L.map (·.1.seq) := by
    intro r hr
    rw [hrs, List.mem_map] at hr
    obtain ⟨i, hi, rfl⟩ := hr
    exact hdisj i hi
  obtain ⟨st1, w1, ha1, ha2⟩ := appendNew_new rs hrsok S.writer (hrseq ▸ hnodI) hrsnew
  obtain ⟨st2, w2, L', hb1, hb2, hb3, hb4, ⟨nf, hb5⟩, _⟩ := syncRound_spec S.writer (rs.map (·.2)) (by
    intro r hr
    rw [List.mem_map] at hr
    obtain ⟨x, hx, rfl⟩ := hr
    exact hrsok x hx)
  rw [newRecs_new (rs.map (·.2)) _ (by rw [List.map_map]; exact hrseq ▸ hnodI) (by
    intro r hr
    rw [List.mem_map] at hr
    obtain ⟨x, hx, rfl⟩ := hr
    exact hrsnew x hx), hrs2] at hb4
  -- the window file
  obtain ⟨b, hbd⟩ : ∃ b, b = e.order (groupWin rs) := ⟨_, rfl⟩
  have hbp : b.Perm (groupWin rs) := hbd ▸ hord _
  obtain ⟨gn, gg, gne⟩ := groupWin_spec rs
  have hget : ∀ x, ((groupWin rs).get x).getD [] = (its.filter fun i => i.hash = x).map Item.win := by
    intro x
    rw [gg x, hrs, List.filter_map, List.map_map]
    rfl
  have hbmem : ∀ p ∈ b, p.2 ≠ [] ∧ p.2 = (its.filter fun i => i.hash = p.1).map Item.win := by
    intro p hp
    have h1 := gn.get_of_mem (k := p.1) (v := p.2) (hbp.mem_iff.1 hp)
    refine ⟨gne _ _ h1, ?_⟩
    have := hget p.1
    rw [h1] at this
    exact this
  have hblen := groupWin_room rs hbp
  have hrl : rs.length = its.length := by rw [hrs, List.length_map]
  have hbcond : ∀ p ∈ b, p.2 ≠ [] ∧ ∀ x ∈ p.2, x.seq ≠ 0 := by
    intro p hp
    refine ⟨(hbmem p hp).1, ?_⟩
    intro x hx hz
    rw [(hbmem p hp).2, List.mem_map] at hx
    obtain ⟨i, hi, rfl⟩ := hx
    have := (hok i (List.mem_filter.1 hi).1).lo
    have hz' : i.seq = 0 := hz
    rw [hz'] at this
    simp at this
  obtain ⟨ws, hw1, hw2, hw3, hw4⟩ := WinOK.more S.windows hnow b hbcond (by simp only; omega)
  have hw0 := hw1
  obtain ⟨ops, ho1, ho2, ho3⟩ := I.trie
  rw [WinState.round] at hw1
  simp only [Option.bind_eq_bind, Option.bind_eq_some_iff] at hw1
  obtain ⟨ws1, hx1, ⟨file2, ww2⟩, hx2, hx3⟩ := hw1
  simp only [pure, Option.some.injEq] at hx3
  have hS := S.windows
  rw [ho1] at hx1
  have hknown : ∀ p ∈ b, ((Trie.ofTopics ops).getOffset p.1).isSome := by
    intro p hp
    obtain ⟨q1, q2⟩ := hbmem p hp
    rw [q2] at q1
    obtain ⟨i, hi⟩ := List.exists_mem_of_ne_nil _ (show (its.filter fun i => decide (i.hash = p.1)) ≠ [] from fun hc => q1 (by rw [hc]; rfl))
    rw [List.mem_filter] at hi
    have h4 : i.hash = p.1 := by simpa using hi.2
    obtain ⟨off, h5⟩ := ho2 i (List.mem_append_left _ (hmem i hi.1).1) (hK i hi.1)
    rw [← h4]
    exact known_isSome ops h5
  obtain ⟨ts, hy1, hy2⟩ := appendWins_eq e.now s.winFile b ops h.ww ws1 hknown hx1
  obtain ⟨T', hT'⟩ : ∃ T', T' = Trie.ofTopics (ops ++ ts.map TopicOp.setOffset) := ⟨_, rfl⟩
  rw [← hT'] at hy1 hy2
  have hws : ws = ⟨file2, offsOf T', ww2⟩ := by rw [← hx3, hy2]
  have hx2' : ws1.w.write s.winFile = some (file2, ww2) := by rw [hy2] at hx2; exact hx2
  simp only [syncRound, ha2, Option.bind_eq_bind, Option.bind_some, Option.bind_eq_some_iff] at hb1
  obtain ⟨⟨st3, w3⟩, hz1, hz2⟩ := hb1
  simp only [pure, Option.some.injEq, Prod.mk.injEq] at hz2
  obtain ⟨rfl, rfl⟩ := hz2
  have hwin0 : ∃ es, s.win.get (t, i0.hash) = some es := by
    have := I.win t i0.hash
    cases hg : s.win.get (t, i0.hash) with
    | some es => exact ⟨es, rfl⟩
    | none =>
      rw [hg, Option.getD_none] at this
      have hin : i0.win ∈ (U.filter fun i => i.blk = t ∧ i.hash = i0.hash).map Item.win :=
        List.mem_map_of_mem (List.mem_filter.2 ⟨hi0.1, by simp [hi0.2]⟩)
      rw [← this] at hin
      cases hin
  have hrel : releaseWindow s.win t = some (s.win.filter fun p => p.1.1 ≠ t) := by
    obtain ⟨es, hes⟩ := hwin0
    rw [releaseWindow, if_pos]
    rw [List.any_eq_true]
    exact ⟨_, AMap.mem_of_get _ hes, by simp⟩
  have hstep : ∃ inf ls, s.syncBlock e h t = some ({ s with store := st3, trie := T', winFile := file2, count := s.count + UInt64.ofNat its.length, lastSync := ls, info := inf, win := s.win.filter fun p => p.1.1 ≠ t, mem := (s.mem.release t).1 }, ⟨w3.reset st3, ww2⟩) := by
    simp only [Db.syncBlock, hrecs, Option.bind_eq_bind, Option.bind_some, if_neg hne, ha1, ← hbd, ho1, hy1, Db.flush, hx2', hz1, hrel, pure, hrl]
    exact ⟨_, _, rfl⟩
  obtain ⟨inf, ls, hstep⟩ := hstep
  have hU : (U.map Item.seq).Nodup := by
    have := I.nodup; rw [List.map_append] at this; exact (List.nodup_append.1 this).1
  obtain ⟨a, hta, hha⟩ := (I.blk t i0.seq).2 ⟨i0, hi0.1, hi0.2, rfl⟩
  have hW : ∀ q, s.mem.Where t q ↔ s.mem.holds a q := by
    intro q
    simp only [MemDb.Where, hta, Option.some.injEq, exists_eq_left']
  have hmem' := I.mem.release hta (memMap (U.filter fun i => i.blk ≠ t)) (by rw [S.unread]; intro hc; cases hc)
    (fun key hk => (I.memMap_release t key).1 ((hW key).2 hk)) (fun key hk => (I.memMap_release t key).2 fun hc => hk ((hW key).1 hc))
  have hsame := s.mem.release_same t
  have hd := hb2.data
  have hin : ∀ i, i ∈ (U.filter fun i => i.blk ≠ t) ++ (D ++ its) ↔ i ∈ U ++ D := fun i => hperm.mem_iff
  have hsync : ∀ x, syncedFor b x = (its.filter fun i => i.hash = x).map Item.win := by
    intro x
    have hbn : AMap.Nodup b := ((hbp.map fun p : UInt64 × List WinEntry => p.1).nodup_iff).2 gn
    rw [syncedFor_map b hbn x, perm_get hbp gn x, hget x]
  rw [hws] at hw0 hw2 hw3 hw4
  refine ⟨_, _, L', b, hstep, ?_, ?_, hsame.1, ?_, ?_, rfl, .inr ⟨hbcond, hw0⟩⟩
  · exact {
      opened := I.opened
      ok := fun i hi => I.ok i ((hin i).1 hi)
      nodup := hnod
      seqs := fun i hi => I.seqs i ((hin i).1 hi)
      mem := hmem'.2
      ready := by
        show ((s.mem.release t).1.blocks.get (s.mem.release t).1.cur).isSome
        rw [hsame.1, hsame.2 _ (Ne.symm ht)]
        exact I.ready
      blk := by
        intro t' q
        rw [MemDb.where_release, I.blk t' q]
        constructor
        · rintro ⟨h1, i, h2, h3, h4⟩
          exact ⟨i, List.mem_filter.2 ⟨h2, by simpa [h3] using h1⟩, h3, h4⟩
        · rintro ⟨i, h2, h3, h4⟩
          rw [List.mem_filter] at h2
          exact ⟨by have := h2.2; rw [h3] at this; simpa using this, i, h2.1, h3, h4⟩
      winNodup := by
        have := I.winNodup
        simp only [AMap.Nodup, AMap.keys] at this ⊢
        exact List.Nodup.sublist (List.Sublist.map _ List.filter_sublist) this
      win := by
        intro t' x
        simp only
        rw [get_releaseWindow]
        by_cases e1 : t' = t
        · rw [if_pos e1, Option.getD_none, List.filter_filter]
          symm
          rw [List.map_eq_nil_iff, List.filter_eq_nil_iff]
          intro i _ hc
          simp only [ne_eq, Bool.and_eq_true, decide_eq_true_eq] at hc
          exact hc.2 (hc.1.1.trans e1)
        · rw [if_neg e1, I.win t' x, List.filter_filter]
          congr 1
          apply List.filter_congr
          intro i _
          by_cases e2 : i.blk = t'
          · simp [e2, e1]
          · simp [e2]
      winNe := by
        intro k es hk
        obtain ⟨t', x⟩ := k
        simp only at hk
        rw [get_releaseWindow] at hk
        split at hk
        · cases hk
        · exact I.winNe _ _ hk
      store := ⟨⟨nf, hb5⟩, ⟨by simp, hd.good, hd.sound, hd.freeIn, by
        intro p hp hpf
        have := hd.bytes p hp hpf
        rw [hb3] at this
        exact this⟩, hb2.loc, hb2.sub⟩
      stored := by rw [List.map_append, I.stored, hb4, List.map_append]
      count := by
        simp only [I.count, List.length_append, UInt64.ofNat_add]
      hist := ⟨ww2, hw2⟩
      synced := by
        intro x
        rw [syncedFor_append_list, I.synced, hsync, List.filter_append, List.map_append]
      trie := by
        refine ⟨ops ++ ts.map TopicOp.setOffset, hT', ?_, ?_⟩
        · intro i hi hk
          obtain ⟨off, ho⟩ := ho2 i ((hin i).1 hi) hk
          exact ⟨off, List.mem_append_left _ ho⟩
        · intro c key off ho
          rcases List.mem_append.1 ho with ho | ho
          · obtain ⟨i, h1, h2⟩ := ho3 c key off ho
            exact ⟨i, (hin i).2 h1, h2⟩
          · rw [List.mem_map] at ho
            obtain ⟨x, _, hx⟩ := ho
            cases hx }
  · exact ⟨hb2, hb3, hw2, by show (s.mem.release t).1.qblocks = []; rw [MemDb.release_qblocks, S.unread]⟩
  · simp only at hw3 ⊢; omega
  · show (s.mem.release t).1.mark.released ⊆ _
    simp only [MemDb.release, hta, TimeMark.unref, AMap.del]
    exact List.filter_subset_self _


/-- The entries of the window file are those of stored messages. -/
theorem DbKnown.synced_mem {K : Item → Prop} (I : DbKnown K v s U D L led) {p : UInt64 × List WinEntry} (hp : p ∈ led) {e : WinEntry} (he : e ∈ p.2) :
    ∃ i ∈ D, i.seq = e.seq := by
  have h1 : e ∈ syncedFor led p.1 := by
    simp only [syncedFor, List.mem_flatMap, List.mem_filter]
    exact ⟨p, ⟨hp, by simp⟩, he⟩
  rw [I.synced] at h1
  obtain ⟨i, hi, rfl⟩ := List.mem_map.1 h1
  exact ⟨i, (List.mem_filter.1 hi).1, rfl⟩

/-- The dates of the blocks of the window file, between two syncs. -/
def DbDates (T : UInt64 → Int) (s : Db) : Prop := Dates T ⟨s.winFile, offsOf s.trie, newWindowWriter s.winFile⟩ (fileBlocks s.winFile)

theorem DbDates.dated {T : UInt64 → Int} (d : DbDates T s) : Dated T (fileBlocks s.winFile) := by
  have := Dates.dated d
  have hcur : cur (newWindowWriter s.winFile) (fileBlocks s.winFile) = fileBlocks s.winFile := by funext k; simp [cur, newWindowWriter]
  rw [← hcur]; exact this

theorem DbInv.syncBlocks_dated {T : UInt64 → Int} {e : SyncEnv} (hnow : 0 ≤ e.now.toInt) (hord : ∀ m, (e.order m).Perm m) (ts : List Int) :
    ∀ {s : Db} {h : Handle} {U D : List Item} {L : Loc} {led : List (UInt64 × List WinEntry)}, DbInv v s U D L led → Syncing s h L led →
    (∀ t ∈ ts, t ≠ s.mem.cur) → h.ww.windowIdx + 2 * (U.length : Nat) ≤ 524286 → (∀ i ∈ U ++ D, T i.seq ≤ e.now.toInt) →
    Dates T ⟨s.winFile, offsOf s.trie, h.ww⟩ (fileBlocks s.winFile) →
    ∃ s' h' L' led', s.syncBlocks e ts h = some (s', h') ∧ Syncing s' h' L' led' ∧ Dates T ⟨s'.winFile, offsOf s'.trie, h'.ww⟩ (fileBlocks s'.winFile) := by
  induction ts with
  | nil =>
    intro s h U D L led I S _ _ _ d
    exact ⟨s, h, L, led, rfl, S, d⟩
  | cons t ts ih =>
    intro s h U D L led I S hts hroom hT d
    have hlen : (itemsOf U t).length + (U.filter fun i => i.blk ≠ t).length = U.length := by
      have h1 := (split_perm U [] t).length_eq
      simp only [List.nil_append, List.append_nil, List.length_append] at h1
      omega
    obtain ⟨s1, h1, L1, b1, a1, a2, a3, a4, a5, a6, a7, a8⟩ := DbKnown.syncBlock_round I S hnow hord (hts t List.mem_cons_self) (fun _ _ => trivial) (by omega)
    have hT1 : ∀ i ∈ (U.filter fun i => i.blk ≠ t) ++ (D ++ itemsOf U t), T i.seq ≤ e.now.toInt := fun i hi => hT i ((split_perm U D t).mem_iff.1 hi)
    have d1 : Dates T ⟨s1.winFile, offsOf s1.trie, h1.ww⟩ (fileBlocks s1.winFile) := by
      rcases a8 with ⟨rfl, rfl, _⟩ | ⟨hb, hr⟩
      · exact d
      · refine WinOK.round_dated S.windows d hnow hb ?_ hr (by simp only; omega)
        intro p hp x hx
        obtain ⟨i, hi, he⟩ := a2.synced_mem hp hx
        rw [← he]
        exact hT1 i (List.mem_append_right _ hi)
    obtain ⟨s2, h2, L2, led2, c1, c2, c3⟩ := ih a2 a3 (by rw [a4]; exact fun t' ht' => hts t' (List.mem_cons_of_mem _ ht')) (by omega) hT1 d1
    refine ⟨s2, h2, L2, led2, ?_, c2, c3⟩
    simp only [Db.syncBlocks, a1, Option.bind_some, c1]

/-- A sync not earlier than the messages keeps the dates of the blocks right. -/
theorem DbInv.sync_dated {T : UInt64 → Int} (I : DbInv v s U D L led) (hq : s.mem.qblocks = []) {e : SyncEnv} (hnow : 0 ≤ e.now.toInt)
    (hord : ∀ m, (e.order m).Perm m) (hmark : ∀ p ∈ s.mem.mark.released, p.2 = p.1)
    (hroom : s.winFile.length + 8192 * s.pending + 8192 ≤ 2 ^ 31) (hT : ∀ i ∈ U ++ D, T i.seq ≤ e.now.toInt) (d : DbDates T s)
    {s' : Db} {r : DOut} (hs' : s.sync e = some (s', r)) : DbDates T s' := by
  simp only [Db.sync, I.opened, Bool.false_eq_true, if_false] at hs'
  by_cases hs : s.lastSync = s.seq
  · rw [if_pos hs] at hs'
    simp only [Option.some.injEq, Prod.mk.injEq] at hs'
    rw [← hs'.1]; exact d
  · rw [if_neg hs] at hs'
    obtain ⟨w, w1, w2, w3⟩ := newBlockWriter_spec I.store
    obtain ⟨ww, hW⟩ := I.hist
    have hidx : (newWindowWriter s.winFile).windowIdx + 2 * (U.length : Nat) ≤ 524286 := by
      rw [I.pending] at hroom
      simp only [newWindowWriter, blockSize]
      split <;> omega
    obtain ⟨s2, h2, L2, led2, c1, c2, c3⟩ := I.syncBlocks_dated (T := T) (h := ⟨w, newWindowWriter s.winFile⟩) hnow hord
      (s.mem.mark.timeRefs s.mem.cur) ⟨w2, w3, WinOK.start hW, hq⟩ (by
        intro t ht
        simp only [TimeMark.timeRefs, List.mem_insertionSort, AMap.keys, List.mem_map, List.mem_filter, decide_eq_true_eq] at ht
        obtain ⟨p, ⟨hp, _, h2⟩, rfl⟩ := ht
        rw [hmark p hp] at h2
        omega) hidx hT d
    simp only [w1, Option.bind_eq_bind, Option.bind_some, c1, pure, Option.some.injEq, Prod.mk.injEq] at hs'
    rw [← hs'.1]
    exact WinOK.start_dated c2.windows c3

theorem uidTime_prefix (id : Bytes) (c : UInt32) (h : id.length = 16) {p : Bytes} (hp : idPrefix (setContract id c) = some p) : uidTime p = uidTime id := by
  obtain ⟨h1, _, _, h2⟩ := C07_set_contract id c h
  rw [← h2]
  generalize setContract id c = x at *
  simp only [idPrefix, slice?] at hp
  rw [if_pos (by omega)] at hp
  simp only [Option.some.injEq] at hp
  subst hp
  simp only [uidTime, get32, slice?]
  rw [if_pos (by simp; omega), if_pos (by omega)]
  simp [List.take_take]

variable {v : DbEnv} {s : Db} {U D : List Item} {L : Loc} {led : List (UInt64 × List WinEntry)}

/-- The item a packed entry is the record of, and the time in its id. -/
theorem Db.packed_item_at (hs : v.mac.cipher.Sound) (hde : ∀ x, v.decode (v.encode x) = some x) {now : Int} {o : Obj} {s s1 : Db} {hd : EntryHdr} {rec : Bytes}
    (h1 : s.packEntry v now (s.parseEntry v now o).1 (s.parseEntry v now o).2 = some (s1, hd, rec)) (blk : Int)
    (hsane : Spec.Sane v o) (hp : o.parsed = false) (hts : o.topicSize = 0)
    (hplain : Spec.startsWithStar (Spec.topicText o.topic) = false) (hlev : (Spec.levels (Spec.topicText o.topic)).length ≤ 254)
    (hseq : s.seq.toNat < 255 * 524287) (hid : ∀ id q, o.id = some id → idSequence id = some q → q.toNat ≤ s.seq.toNat) :
    ∃ (i : Item) (n : UInt64), s1 = { s with seq := n } ∧ s.seq.toNat ≤ n.toNat ∧ n.toNat ≤ 255 * 524287 ∧ i.OK v ∧ hd = i.hdr ∧ rec = i.record ∧
      i.blk = blk ∧ i.contract = Spec.contractOf o ∧ i.topic = o.topic ∧ i.payload = o.payload ∧
      i.exp = storedExpiry v.dur now o.topic o.expiresAt ∧ i.seq.toNat ≤ n.toNat ∧
      (o.id = none ∧ i.seq = s.seq + 1 ∨ ∃ id, o.id = some id ∧ idSequence id = some i.seq) ∧ i.Carries s.trie ∧
      uidTime i.pre = uidTime (o.id.getD (newID (unixSec now) (s.seq + 1))) := by
  obtain ⟨q, id, pre, val, hdr, hq0, hpre, hval, rfl, hrec⟩ := Db.packEntry_some h1
  -- the parsed entry
  let c := Spec.contractOf o
  let T := (parseTopic c o.topic).1
  let known := (s.trie.getOffset (topicHash c o.topic)).isSome
  let raw : Bytes := if known then [] else T.marshal
  obtain ⟨ex, hex⟩ : ∃ ex, ex = storedExpiry v.dur now o.topic o.expiresAt := ⟨_, rfl⟩
  have hpe : (s.parseEntry v now o).1.contract = c ∧ (s.parseEntry v now o).1.payload = o.payload ∧ (s.parseEntry v now o).1.expiresAt = ex ∧
      (s.parseEntry v now o).1.hash = topicHash c o.topic ∧ (s.parseEntry v now o).1.topicSize = UInt16.ofNat raw.length ∧
      (s.parseEntry v now o).1.id = o.id ∧ (s.parseEntry v now o).2 = raw := by
    simp only [Db.parseEntry, hp, Bool.false_eq_true, if_false]
    refine ⟨rfl, trivial, hex.symm, rfl, ?_, trivial, rfl⟩
    show (if known = true then o.topicSize else UInt16.ofNat (if known = true then [] else T.marshal : Bytes).length) = UInt16.ofNat raw.length
    by_cases hk : known = true
    · simp only [hk, if_true, raw, hts]; rfl
    · simp only [if_neg hk, raw]
  obtain ⟨hT1, hT2, hT3⟩ := parseTopic_fits c o.topic hplain hlev
  have hraw : raw.length ≤ 1300 := by
    simp only [raw]; split
    · simp
    · exact hT3
  generalize s.parseEntry v now o = x at *
  obtain ⟨x1, x2⟩ := x
  obtain ⟨e1, e2, e3, e4, e5, e6, e7⟩ := hpe
  simp only at e1 e2 e3 e4 e5 e6 e7 hdr hpre hval hrec h1
  rw [e1] at hpre
  rw [e2] at hval
  rw [e4, e5, e3, e7] at hrec
  simp only [e4, e3, e5]
  generalize hsec : s.secret x1 = sec at *
  have hlen : id.length = 16 := by
    obtain ⟨_, _, hx⟩ := Db.drawId_some hdr
    rcases hx with ⟨hx, _⟩ | ⟨_, _, _, rfl⟩
    · exact hsane.id id (e6 ▸ hx)
    · exact length_newID _ _
  obtain ⟨p', hp1, hp2⟩ := idPrefix_some id c hlen
  rw [hpre] at hp1
  cases hp1
  have hvl := hsane.val _ _ hval
  let i : Item := ⟨c, o.topic, o.payload, ex, q, blk, pre, if sec then 1 else 0, raw, val⟩
  obtain ⟨⟨n, rfl⟩, hiq, hx⟩ := Db.drawId_some hdr
  have hseqs : q.toNat ≤ n.toNat ∧ s.seq.toNat ≤ n.toNat ∧ n.toNat ≤ 255 * 524287 ∧
      (o.id = none ∧ q = s.seq + 1 ∨ ∃ id, o.id = some id ∧ idSequence id = some q) := by
    rcases hx with ⟨hx, he⟩ | ⟨hx, he, rfl, _⟩
    · have hn : n = s.seq := congrArg Db.seq he
      rw [e6] at hx
      have a := hid id q hx hiq
      subst hn
      exact ⟨a, le_refl _, by omega, .inr ⟨id, hx, hiq⟩⟩
    · have hn : n = s.seq + 1 := congrArg Db.seq he
      have hadd : (s.seq + 1).toNat = s.seq.toNat + 1 := by
        rw [UInt64.toNat_add]; simp only [UInt64.toNat_ofNat]; omega
      subst hn
      exact ⟨le_refl _, by omega, by omega, .inl ⟨e6 ▸ hx, rfl⟩⟩
  obtain ⟨hqn, hsn, hnb, hids⟩ := hseqs
  have htime : uidTime pre = uidTime (o.id.getD (newID (unixSec now) (s.seq + 1))) := by
    rw [uidTime_prefix id c hlen hpre]
    rcases hx with ⟨hx, _⟩ | ⟨hx, _, _, rfl⟩
    · rw [e6] at hx; rw [hx]; rfl
    · rw [e6] at hx; rw [hx]; rfl
  have hok : i.OK v := by
    refine ⟨hp2, idContract_prefix id c hlen hpre, by show raw.length + 9 < 65536; omega, by show 35 + raw.length + val.length + 13 < 2 ^ 32; omega, ?_, ?_, by show q.toNat ≤ _; omega, hplain, hlev⟩
    · show ((if (if sec then (1 : UInt8) else 0) = 1 then (v.mac.decrypt val).1 else some val).bind v.decode) = some o.payload
      cases sec
      · simp only [DbEnv.sealValue, Bool.false_eq_true, if_false, Option.some.injEq] at hval
        rw [if_neg (by decide), ← hval]
        exact hde _
      · simp only [DbEnv.sealValue, if_true] at hval
        rw [if_pos (by decide), (Mac.decrypt_encrypt _ hs _ _ hval).1]
        exact hde _
    · show 1 ≤ q.toNat
      have : q.toNat ≠ 0 := fun hz => hq0 (UInt64.toNat_inj.1 (by simpa using hz))
      omega
  have hreceq : rec = i.record := by
    rw [hrec, packRecord_eq _ _ _ _ _ hp2 (Item.topicSize_toNat hok) (Item.valueSize_toNat hok) (by have := hok.val; show 35 + raw.length + val.length < _; omega)]
    rfl
  refine ⟨i, n, rfl, hsn, hnb, hok, rfl, hreceq, rfl, rfl, rfl, rfl, hex, hqn, hids, ?_, htime⟩
  by_cases hk : known = true
  · exact .inl ⟨by show raw = []; simp only [raw, hk, if_true], hk⟩
  · exact .inr (by show raw = T.marshal; simp only [raw, if_neg hk])

/-- A put that succeeds adds one message, with its time, and leaves the places in the window file alone. -/
theorem DbInv.put_at (I : DbInv v s U D L led) (hs : v.mac.cipher.Sound) (hde : ∀ x, v.decode (v.encode x) = some x) {now : Int} {o o' : Obj}
    {s' : Db} (hsane : Spec.Sane v o) (hp : o.parsed = false) (hts : o.topicSize = 0)
    (hplain : Spec.startsWithStar (Spec.topicText o.topic) = false) (hlev : (Spec.levels (Spec.topicText o.topic)).length ≤ 254)
    (hseq : s.seq.toNat < 255 * 524287)
    (hid : ∀ id q, o.id = some id → idSequence id = some q → q.toNat ≤ s.seq.toNat ∧ ∀ i ∈ U ++ D, i.seq ≠ q)
    (h : s.putEntry v now o = (s', o', .ok)) :
    ∃ i, DbInv v s' (U ++ [i]) D L led ∧ i.contract = Spec.contractOf o ∧ i.topic = o.topic ∧ i.payload = o.payload ∧
      i.exp = storedExpiry v.dur now o.topic o.expiresAt ∧ i.blk = s.mem.cur ∧
      (o.id = none ∧ i.seq = s.seq + 1 ∨ ∃ id, o.id = some id ∧ idSequence id = some i.seq) ∧
      s'.mem.qblocks = s.mem.qblocks ∧ s'.winFile = s.winFile ∧ s'.store = s.store ∧ i.Carries s.trie ∧
      s.mem.put v.mem i.seq i.record = (s'.mem, .ok) ∧
      uidTime i.pre = uidTime (o.id.getD (newID (unixSec now) (s.seq + 1))) ∧ offsOf s'.trie = offsOf s.trie := by
  obtain ⟨hc, hr, n, hd, rec, m, t, h1, h2, h3, rfl, rfl⟩ := Db.putEntry_ok h
  obtain ⟨i, n', e, hsn, hnb, hok, rfl, rfl, hblk, hct, htp, hpl, hex, hqn, hids, hcar, htm⟩ :=
    Db.packed_item_at hs hde h1 s.mem.cur hsane hp hts hplain hlev hseq fun id q a b => (hid id q a b).1
  have hn : n = n' := congrArg Db.seq e
  subst hn
  obtain ⟨I', hq⟩ := (I.frame hsn I.mem I.ready fun _ _ => Iff.rfl).add hok hblk (by
    intro j hj he
    rcases hids with ⟨_, hi⟩ | ⟨id, h1, h2⟩
    · have := I.seqs j hj
      rw [he, hi, toNat_succ hseq] at this
      omega
    · exact (hid id _ h1 h2).2 j hj he) hqn h2 fun ops ht => Item.addTopic hok hcar h3 ht
  refine ⟨i, I', hct, htp, hpl, hex, hblk, hids, hq, rfl, rfl, hcar, h2, htm, ?_⟩
  obtain ⟨ops, htr, _⟩ := I.trie
  exact (Item.addTopic hok hcar h3 htr).2

end Verif
