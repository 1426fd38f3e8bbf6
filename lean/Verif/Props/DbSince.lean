import Verif.Model.DbSince
import Verif.Props.DbGet
import Verif.Props.QueryLast

/-!
# C96: a Get with a cutoff returns the messages put since

Histories with the second of every message.
-/

namespace Verif

/-- The era in which the ids of messages tell the time: 2019 to 2155. -/
def Spec.Era (t : Int) : Prop := 1555770000 ≤ t ∧ t < 1555770000 + 2 ^ 32

/-- The second a put gives its message: that of the put, or that in which the id given with it was drawn by `NewID`. -/
def Spec.PutAt (now : Int) (o : Obj) (t : Int) : Prop :=
  o.id = none ∧ t = unixSec now ∨ ∃ q, o.id = some (newID t q)

/-- Histories with the second of each message. Every Sync comes at or after the seconds of the messages: the clock is not set back
behind a message. -/
inductive Spec.Diary (v : DbEnv) : Db → List (Spec.Message × Int) → Bool → Prop
  | opened {o r e now s} : (v.mem.cap : Int) ≤ now → r.orderDel [] = [] → openDb v o r e now {} = .ok s → Spec.Diary v s [] true
  | newId {s ms quiet} (now) : Spec.Diary v s ms quiet → s.seq.toNat < 255 * 524287 → Spec.Diary v (s.newId now).1 ms quiet
  | put {s ms quiet} (now o t) : Spec.Diary v s ms quiet → s.seq.toNat < 255 * 524287 → Spec.Fresh v s (ms.map (·.1)) o → Spec.PutAt now o t →
      Spec.Era t → (s.putEntry v now o).2.2 = .ok → Spec.Diary v (s.putEntry v now o).1 (ms ++ [(Spec.messageOf v now s o, t)]) quiet
  | refused {s ms quiet} (now o) (e) : Spec.Diary v s ms quiet → s.seq.toNat < 255 * 524287 → (s.putEntry v now o).2.2 = .err e →
      Spec.Diary v (s.putEntry v now o).1 ms quiet
  | get {s ms quiet} (g q old) : Spec.Diary v s ms quiet → Spec.Diary v (s.get v g q old).1 ms false
  | rotate {s ms quiet} (t) : Spec.Diary v s ms quiet → s.mem.cur ≤ t → Spec.Diary v { s with mem := s.mem.rotate t } ms quiet
  | write {s ms quiet} (id t) : Spec.Diary v s ms quiet → Spec.Diary v { s with mem := s.mem.write id t false } ms quiet
  | sync {s s' ms r} (e : SyncEnv) : Spec.Diary v s ms true → 0 ≤ e.now.toInt → (∀ m ∈ ms, m.2 ≤ e.now.toInt) → (∀ m, (e.order m).Perm m) →
      s.winFile.length + 8192 * s.pending + 8192 ≤ 2 ^ 31 → s.sync e = some (s', r) → Spec.Diary v s' ms true

/-- The messages a query with a cutoff asks for: those of the topic, alive, and put at or after the cutoff. Without a cutoff all. -/
def Spec.addressedSince (ms : List (Spec.Message × Int)) (contract : UInt32) (topic : Bytes) (now : UInt32) (cutoff : Int) : List (Spec.Message × Int) :=
  ms.filter fun m => (m.1.contract = contract && Spec.covers (Spec.topicText m.1.topic) (Spec.topicText topic) && m.1.alive now) &&
    (decide (cutoff ≤ 0) || decide (cutoff ≤ m.2))

/-- A history with times is a history. -/
theorem diary_story {v : DbEnv} {s : Db} {ms : List (Spec.Message × Int)} {quiet : Bool} (H : Spec.Diary v s ms quiet) :
    Spec.Story v s (ms.map (·.1)) quiet := by
  induction H with
  | opened a b c => exact .opened a b c
  | newId now _ h ih => exact .newId now ih h
  | put now o t _ a b _ _ c ih => rw [List.map_append]; exact .put now o ih a b c
  | refused now o e _ a b ih => exact .refused now o e ih a b
  | get g q old _ ih => exact .get g q old ih
  | rotate t _ h ih => exact .rotate t ih h
  | write id t _ ih => exact .write id t ih
  | sync e _ a _ b c d ih => exact .sync e ih a b c d

def Item.dated (i : Item) : Spec.Message × Int := (i.msg, i.time)

theorem Db.putEntry_err_seq {v : DbEnv} {s s' : Db} {now : Int} {o o' : Obj} {e : DErr}
    (h : s.putEntry v now o = (s', o', .err e)) : s'.winFile = s.winFile ∧ s'.trie = s.trie := by
  simp only [Db.putEntry] at h
  split at h
  · simp only [Prod.mk.injEq] at h; obtain ⟨rfl, _⟩ := h; exact ⟨rfl, rfl⟩
  · split at h
    · simp only [Prod.mk.injEq] at h; obtain ⟨rfl, _⟩ := h; exact ⟨rfl, rfl⟩
    · split at h
      · simp at h
      · next s1 o1 hd rec hs =>
        simp only [Db.setEntry, Option.map_eq_some_iff, Prod.mk.injEq] at hs
        obtain ⟨⟨s2, hd2, rec2⟩, hs, rfl, rfl, rfl, rfl⟩ := hs
        obtain ⟨q, id, pre, val, hdr, hq, hpre, hval, rfl, rfl⟩ := Db.packEntry_some hs
        obtain ⟨⟨n, rfl⟩, _, hx⟩ := Db.drawId_some hdr
        split at h
        · split at h <;> simp at h
        · next m out hne hm =>
          simp only [Prod.mk.injEq, DOut.err.injEq] at h
          obtain ⟨rfl, _⟩ := h
          exact ⟨rfl, rfl⟩

theorem putAt_time {now : Int} {o : Obj} {t : Int} {q : UInt64} (h : Spec.PutAt now o t) (he : Spec.Era t) :
    uidTime (o.id.getD (newID (unixSec now) q)) = some t := by
  rcases h with ⟨h, rfl⟩ | ⟨q', h⟩
  · rw [h]; exact (C07_id_fields _ _ he.1 he.2).2.2.2
  · rw [h]; exact (C07_id_fields _ _ he.1 he.2).2.2.2

/-- Every history with times keeps the invariant and the dates of the blocks. -/
theorem diary_inv {v : DbEnv} (hs : v.mac.cipher.Sound) (hde : ∀ x, v.decode (v.encode x) = some x)
    (htest : ∀ ks k, k ∈ ks → v.mem.test ks k = true) {s : Db} {ms : List (Spec.Message × Int)} {quiet : Bool} (H : Spec.Diary v s ms quiet) :
    ∃ U D L led, DbInv v s U D L led ∧ ((U ++ D).map Item.dated).Perm ms ∧ (quiet = true → s.mem.qblocks = []) ∧ Marked s.mem ∧
      ∀ T : UInt64 → Int, (∀ i ∈ U ++ D, T i.seq = i.time) → DbDates T s := by
  induction H with
  | opened hc hr h =>
    obtain ⟨I, hq, hm⟩ := DbInv.init hc hr h
    refine ⟨[], [], [], [], I, List.Perm.refl _, fun _ => hq, hm, ?_⟩
    intro T _
    obtain ⟨w, HW⟩ := I.hist
    obtain ⟨n, B, ks, d⟩ := HW.onDisk
    have h0 := d.empty rfl
    have hlen := d.len
    rw [h0] at hlen
    simp only at hlen
    rw [DbDates, List.length_eq_zero_iff.mp hlen]
    exact dates_fresh T _
  | newId now _ hq ih =>
    obtain ⟨U, D, L, led, I, hp, hb, hm, hd⟩ := ih
    exact ⟨U, D, L, led, I.newId hq now, hp, hb, hm, hd⟩
  | @put s ms quiet now o t _ hq hf hat hera hok ih =>
    obtain ⟨U, D, L, led, I, hp, hb, hm, hd⟩ := ih
    obtain ⟨i, I', h1, h2, h3, h4, _, h5, h6, hwf, _, _, _, htm, hoff⟩ := I.put_at hs hde (o' := (s.putEntry v now o).2.1) (s' := (s.putEntry v now o).1) hf.sane hf.parsed
      hf.topicSize hf.plain hf.levels hq (by
        intro id q h1 h2
        obtain ⟨h3, h4⟩ := hf.id id q h1 h2
        refine ⟨h3, fun i hi hc => ?_⟩
        refine h4 i.msg ?_ hc
        exact List.mem_map.2 ⟨i.dated, hp.mem_iff.1 (List.mem_map_of_mem hi), rfl⟩) (by rw [← hok])
    refine ⟨U ++ [i], D, L, led, I', ?_, fun hx => h6.trans (hb hx), by rw [Marked, Db.putEntry_mark]; exact hm, ?_⟩
    · have e : i.dated = (Spec.messageOf v now s o, t) := by
        have et : i.time = t := by rw [Item.time, htm, putAt_time hat hera]; rfl
        simp only [Item.dated, Item.msg, Spec.messageOf, h1, h2, h3, h4, seqOf_item h5, et]
      rw [← e, List.append_assoc]
      refine (List.Perm.map Item.dated (List.perm_middle (l₁ := U) (l₂ := D) (a := i))).trans ?_
      rw [List.map_cons]
      exact (hp.cons i.dated).trans (List.perm_append_comm (l₁ := [i.dated]))
    · intro T hT
      have := hd T (by
        intro j hj
        refine hT j ?_
        simp only [List.mem_append] at hj ⊢
        rcases hj with hj | hj
        · exact .inl (.inl hj)
        · exact .inr hj)
      rw [DbDates, hwf, hoff]; exact this
  | @refused s ms quiet now o e _ hq hr ih =>
    obtain ⟨U, D, L, led, I, hp, hb, hm, hd⟩ := ih
    obtain ⟨I', h1⟩ := I.putErr (o' := (s.putEntry v now o).2.1) (s' := (s.putEntry v now o).1) hq (by rw [← hr])
    obtain ⟨h2, h3⟩ := Db.putEntry_err_seq (o' := (s.putEntry v now o).2.1) (s' := (s.putEntry v now o).1) (by rw [← hr])
    exact ⟨U, D, L, led, I', hp, fun hx => by rw [h1]; exact hb hx, by rw [h1]; exact hm, fun T hT => by rw [DbDates, h2, h3]; exact hd T hT⟩
  | @get s ms quiet g q old _ ih =>
    obtain ⟨U, D, L, led, I, hp, hb, hm, hd⟩ := ih
    obtain ⟨m, h1, h2, h3⟩ := Db.get_keeps v htest g s q old _ I.mem
    refine ⟨U, D, L, led, I.getKeeps htest g q old, hp, fun hx => (by cases hx), ?_, ?_⟩
    · rw [h1]
      obtain ⟨_, _, _, rfl⟩ := h3
      exact hm
    · intro T hT
      rw [h1]; exact hd T hT
  | @rotate s ms quiet t _ ht ih =>
    obtain ⟨U, D, L, led, I, hp, hb, hm, hd⟩ := ih
    refine ⟨U, D, L, led, I.rotate t ht, hp, fun hx => ?_, ?_, hd⟩
    · show (s.mem.rotate t).qblocks = []
      rw [← hb hx]; simp only [MemDb.rotate, MemDb.addTimeBlock]; split <;> rfl
    · have : (s.mem.rotate t).mark.released = s.mem.mark.released := by
        simp only [MemDb.rotate, MemDb.addTimeBlock]; split <;> rfl
      intro p hp'
      exact hm p (by rw [← this]; exact hp')
  | @write s ms quiet id t _ ih =>
    obtain ⟨U, D, L, led, I, hp, hb, hm, hd⟩ := ih
    refine ⟨U, D, L, led, I.write id t, hp, fun hx => ?_, ?_, hd⟩
    · show (s.mem.write id t false).qblocks = []
      rw [MemDb.write_qblocks]; exact hb hx
    · have : (s.mem.write id t false).mark = s.mem.mark.release t := by
        simp only [MemDb.write, Bool.false_eq_true, if_false]
        repeat' split
        all_goals rfl
      intro p hp'
      exact TimeMark.marked_release hm t p (by rw [← this]; exact hp')
  | @sync s s' ms r e _ hnow hclock hord hroom hsy ih =>
    obtain ⟨U, D, L, led, I, hp, hb, hm, hd⟩ := ih
    obtain ⟨s2, U', D', L', led', h1, I', h2, h3, h4, h5, _⟩ := I.sync (hb rfl) hnow hord hm hroom
    have hsy0 := hsy
    rw [h1] at hsy
    simp only [Option.some.injEq, Prod.mk.injEq] at hsy
    obtain ⟨rfl, _⟩ := hsy
    refine ⟨U', D', L', led', I', (h2.map _).trans hp, fun _ => h3, fun p hp' => hm p (h5 hp'), ?_⟩
    intro T hT
    have hT' : ∀ i ∈ U ++ D, T i.seq = i.time := fun i hi => hT i (h2.mem_iff.2 hi)
    refine I.sync_dated (hb rfl) hnow hord hm hroom ?_ (hd T hT') hsy0
    intro i hi
    rw [hT' i hi]
    exact hclock i.dated (hp.mem_iff.1 (List.mem_map_of_mem hi))

/-- A Get with a cutoff, after a history with times. Its in-memory store `m0` may differ, if it answers for the messages asked for as that of
the history would. -/
theorem diary_get_from (v : DbEnv) (hs : v.mac.cipher.Sound) (hde : ∀ x, v.decode (v.encode x) = some x)
    (htest : ∀ ks k, k ∈ ks → v.mem.test ks k = true) (s : Db) (ms : List (Spec.Message × Int)) (quiet : Bool) (H : Spec.Diary v s ms quiet)
    (g : GetEnv) (q : Query) (hlen : s.store.data.length < 2 ^ 63) (ht0 : q.topic ≠ []) (ht1 : q.topic.length ≤ 65536)
    (hlim : ((Spec.addressedSince ms (q.ask v.dur g.now v.q).contract q.topic 0 0).length : Int) ≤ (q.ask v.dur g.now v.q).limit)
    (how : ∀ w, (g.orderWin w).Perm w) (hot : ∀ ts, (g.orderTopics ts).Perm ts)
    (hst : Spec.isStatic (Spec.topicText q.topic) = true) (hlq : (Spec.levels (Spec.topicText q.topic)).length ≤ 255)
    (hown : ∀ m ∈ ms, ∀ m' ∈ ms, topicHash m.1.contract m.1.topic = topicHash m'.1.contract m'.1.topic →
      (parseTopic m.1.contract m.1.topic).1.parts = (parseTopic m'.1.contract m'.1.topic).1.parts)
    (hcw : ∀ m ∈ ms, m.1.contract ≠ wildcardHash)
    (hh : ∀ m ∈ ms, ∀ p ∈ Spec.levels (Spec.topicText m.1.topic), Spec.isStar p = false → Hash.withSalt p m.1.contract ≠ wildcardHash ∧
      ∀ t ∈ Spec.levels (Spec.topicText q.topic), Hash.withSalt p m.1.contract = Hash.withSalt t m.1.contract → p = t)
    (hfirst : ∀ m ∈ Spec.addressedSince ms (q.ask v.dur g.now v.q).contract q.topic 0 0,
      (readWindowBlock s.winFile 0).map (·.topicHash) ≠ some (topicHash m.1.contract m.1.topic))
    (hcap : (Spec.addressedSince ms (q.ask v.dur g.now v.q).contract q.topic (toU32 (unixSec g.now)) 0).length ≤ g.cap)
    (m0 : MemDb) (hM : ∀ M, MInv v.mem s.mem M → ∃ P : MemDb → Prop, P m0 ∧
      ∀ m, P m → ∀ x ∈ Spec.addressedSince ms (q.ask v.dur g.now v.q).contract q.topic 0 0,
        P (m.get v.mem x.1.seq).1 ∧ (m.get v.mem x.1.seq).2 ≠ .panic ∧ memData v (m.get v.mem x.1.seq).2 = M x.1.seq) :
    ∃ out : List (Spec.Message × Int), (({ s with mem := m0 } : Db).get v g q []).2 = .out (.ok (out.map (·.1.payload))) ∧
      out.Perm (Spec.addressedSince ms (q.ask v.dur g.now v.q).contract q.topic (toU32 (unixSec g.now)) (q.ask v.dur g.now v.q).cutoff) ∧
      out.Pairwise (fun a b => a.1.seq > b.1.seq) := by
  obtain ⟨c, hcd⟩ : ∃ c, c = (q.ask v.dur g.now v.q).contract := ⟨_, rfl⟩
  obtain ⟨now, hnow⟩ : ∃ n, n = toU32 (unixSec g.now) := ⟨_, rfl⟩
  obtain ⟨cut, hcutd⟩ : ∃ x, x = (q.ask v.dur g.now v.q).cutoff := ⟨_, rfl⟩
  obtain ⟨U, D, L, led, I, hp, _, _, hd⟩ := diary_inv hs hde htest H
  obtain ⟨ops, htr, hops1, hops2⟩ := I.trie
  obtain ⟨w, HW⟩ := I.hist
  have hmem : ∀ i ∈ U ++ D, i.dated ∈ ms := fun i hi => hp.mem_iff.1 (List.mem_map_of_mem hi)
  obtain ⟨sel, hseld⟩ : ∃ sel : Item → Bool, sel = fun i => decide (i.contract = c) && Spec.covers (Spec.topicText i.topic) (Spec.topicText q.topic) := ⟨_, rfl⟩
  have hsel : ∀ i ∈ U ++ D, i.hash ∈ (s.trie.find c q.topic).map TTopic.hash ↔ sel i = true := by
    intro i hi
    obtain ⟨off, hadd⟩ := hops1 i hi trivial
    rw [htr, hseld]
    simp only [Bool.and_eq_true, decide_eq_true_eq]
    refine C16_covers_exact_partial ops i.contract i.topic off hadd ?_ ?_ c q.topic hst (I.ok i hi).levels hlq (hcw _ (hmem i hi)) (hh _ (hmem i hi))
    · intro c' key' off' h'
      obtain ⟨j, hj, rfl, rfl⟩ := hops2 c' key' off' h'
      exact (I.ok j hj).plain
    · intro c' key' off' h' he
      obtain ⟨j, hj, rfl, rfl⟩ := hops2 c' key' off' h'
      exact hown _ (hmem j hj) _ (hmem i hi) he
  have hexp : ∀ i : Item, (!i.win.isExpired now) = i.msg.alive now := by
    intro i
    simp only [WinEntry.isExpired, Item.win, Spec.Message.alive, Item.msg]
    by_cases e0 : i.exp = 0
    · simp [e0]
    · by_cases e1 : i.exp ≤ now
      · have : ¬ now < i.exp := UInt32.not_lt.2 e1
        simp [e0, e1, this]
      · have : now < i.exp := UInt32.not_le.1 e1
        simp [e0, e1, this]
  have hwant : ∀ k, ((U ++ D).filter fun i => (sel i && !i.win.isExpired now) && i.since k).map Item.dated =
      Spec.addressedSince ((U ++ D).map Item.dated) c q.topic now k := by
    intro k
    rw [Spec.addressedSince, List.filter_map]
    congr 1
    apply List.filter_congr
    intro i _
    rw [hexp, hseld]
    rfl
  have hwp : ∀ k, (Spec.addressedSince ((U ++ D).map Item.dated) c q.topic now k).Perm (Spec.addressedSince ms c q.topic now k) := fun k => hp.filter _
  have hs0 : ∀ i : Item, i.since 0 = true := fun i => by simp [Item.since]
  have hlen2 : ((U ++ D).filter fun i => sel i && !i.win.isExpired now).length = (Spec.addressedSince ms c q.topic now 0).length := by
    rw [← (hwp 0).length_eq, ← hwant 0, List.length_map]
    congr 1
    apply List.filter_congr
    intro i _
    rw [hs0, Bool.and_true]
  have hin : ∀ i ∈ U ++ D, sel i = true → i.dated ∈ Spec.addressedSince ms (q.ask v.dur g.now v.q).contract q.topic 0 0 := by
    intro i hi hsi
    rw [Spec.addressedSince, List.mem_filter]
    refine ⟨hmem i hi, ?_⟩
    rw [hseld] at hsi
    simp only [Bool.and_eq_true, decide_eq_true_eq] at hsi
    rw [alive_zero, ← hcd]
    simp [Item.msg, Item.dated, hsi.1, hsi.2]
  let T : UInt64 → Int := fun k => (((U ++ D).find? fun i => i.seq = k).map Item.time).getD 0
  have hT : ∀ i ∈ U ++ D, T i.seq = i.time := by
    intro i hi
    simp only [T, find_seq I.nodup hi, Option.map_some, Option.getD_some]
  obtain ⟨P, hP, hstep⟩ := hM _ I.mem
  have hall : ((U ++ D).filter sel).length ≤ (Spec.addressedSince ms (q.ask v.dur g.now v.q).contract q.topic 0 0).length := by
    rw [Spec.addressedSince, ← (hp.filter _).length_eq, List.filter_map, List.length_map, ← hcd]
    refine Nat.le_of_eq (congrArg List.length (List.filter_congr fun i _ => ?_))
    simp only [hseld, Function.comp, alive_zero, Bool.and_true]
    simp [Item.dated, Item.msg]
    rfl
  obtain ⟨m, _, hget⟩ := I.serves.get_since hlen g q ht0 ht1 (T := T) (hd T hT).dated hT how hot sel (by omega) (by rw [← hcd]; exact hsel) (by
      intro i _ hi
      rw [hseld] at hi
      simp only [Bool.and_eq_true, decide_eq_true_eq] at hi
      rw [← hcd]; exact hi.1) (by
      intro i hi hsi hc
      have h1 := firstBlock HW hc
      exact hfirst i.dated (hin i hi hsi) h1) (by
      rw [← hnow, hlen2, hnow, hcd]; exact hcap) m0 P hP (fun m hm i hi hsi => hstep m hm i.dated (hin i hi hsi)) s.store.lease s.count
  rw [← hnow, ← hcutd] at hget
  refine ⟨(byseq ((U ++ D).filter fun i => (sel i && !i.win.isExpired now) && i.since cut)).map Item.dated, ?_, ?_, ?_⟩
  · have hget' : (({ s with mem := m0 } : Db).get v g q []).2 = _ := congrArg Prod.snd hget
    rw [hget', List.map_map]; rfl
  · rw [← hcd, ← hnow, ← hcutd]
    exact ((byseq_perm _).map _).trans (hwant cut ▸ hwp cut)
  · rw [List.pairwise_map]
    have hnd : ((byseq ((U ++ D).filter fun i => (sel i && !i.win.isExpired now) && i.since cut)).map Item.seq).Nodup :=
      (((byseq_perm _).map _).nodup_iff).2 (List.Nodup.sublist (List.Sublist.map _ List.filter_sublist) I.nodup)
    rw [List.Nodup, List.pairwise_map] at hnd
    refine ((byseq_sorted _).and hnd).imp ?_
    intro a b h
    exact UInt64.lt_of_le_of_ne h.1 (Ne.symm h.2)

/-- A Get with a cutoff, after a history with times. -/
theorem diary_get (v : DbEnv) (hs : v.mac.cipher.Sound) (hde : ∀ x, v.decode (v.encode x) = some x)
    (htest : ∀ ks k, k ∈ ks → v.mem.test ks k = true) (s : Db) (ms : List (Spec.Message × Int)) (quiet : Bool) (H : Spec.Diary v s ms quiet)
    (g : GetEnv) (q : Query) (hlen : s.store.data.length < 2 ^ 63) (ht0 : q.topic ≠ []) (ht1 : q.topic.length ≤ 65536)
    (hlim : ((Spec.addressedSince ms (q.ask v.dur g.now v.q).contract q.topic 0 0).length : Int) ≤ (q.ask v.dur g.now v.q).limit)
    (how : ∀ w, (g.orderWin w).Perm w) (hot : ∀ ts, (g.orderTopics ts).Perm ts)
    (hst : Spec.isStatic (Spec.topicText q.topic) = true) (hlq : (Spec.levels (Spec.topicText q.topic)).length ≤ 255)
    (hown : ∀ m ∈ ms, ∀ m' ∈ ms, topicHash m.1.contract m.1.topic = topicHash m'.1.contract m'.1.topic →
      (parseTopic m.1.contract m.1.topic).1.parts = (parseTopic m'.1.contract m'.1.topic).1.parts)
    (hcw : ∀ m ∈ ms, m.1.contract ≠ wildcardHash)
    (hh : ∀ m ∈ ms, ∀ p ∈ Spec.levels (Spec.topicText m.1.topic), Spec.isStar p = false → Hash.withSalt p m.1.contract ≠ wildcardHash ∧
      ∀ t ∈ Spec.levels (Spec.topicText q.topic), Hash.withSalt p m.1.contract = Hash.withSalt t m.1.contract → p = t)
    (hfirst : ∀ m ∈ Spec.addressedSince ms (q.ask v.dur g.now v.q).contract q.topic 0 0,
      (readWindowBlock s.winFile 0).map (·.topicHash) ≠ some (topicHash m.1.contract m.1.topic))
    (hcap : (Spec.addressedSince ms (q.ask v.dur g.now v.q).contract q.topic (toU32 (unixSec g.now)) 0).length ≤ g.cap) :
    ∃ out : List (Spec.Message × Int), (s.get v g q []).2 = .out (.ok (out.map (·.1.payload))) ∧
      out.Perm (Spec.addressedSince ms (q.ask v.dur g.now v.q).contract q.topic (toU32 (unixSec g.now)) (q.ask v.dur g.now v.q).cutoff) ∧
      out.Pairwise (fun a b => a.1.seq > b.1.seq) := by
  refine diary_get_from v hs hde htest s ms quiet H g q hlen ht0 ht1 hlim how hot hst hlq hown hcw hh hfirst hcap s.mem fun M hM => ⟨fun m => MInv v.mem m M, hM, ?_⟩
  intro m hm x _
  obtain ⟨g1, g2⟩ := MInv.get htest hm x.1.seq
  refine ⟨g1, ?_⟩
  rw [g2]
  cases M x.1.seq <;> exact ⟨by simp, rfl⟩

theorem topicText_withOption {key name value : Bytes} (hk : key ≠ []) (hq : 63 ∉ key) (hn : Spec.Plain name) (hv : Spec.Plain value) :
    Spec.topicText (Spec.withOption key name value) = key := by
  rw [← parseKey_topic, (parse_withOption hk hq hn hv).1]

/-- C96 (partial as `C68_put_get_partial`: without batches, deletes and restarts, no Sync after a Get, the whole result fits the limit, no
hash collisions, not for the topic that was synced first; and no Sync happens with a clock behind the second of a message). A Get of
`key?last=d` returns the payloads of exactly the messages put for that contract, whose topic covers the key, which have not expired
and which were put (or whose id was drawn) not longer than `d` before the Get: each once, the one with the highest sequence first. -/
theorem C96_put_get_last_partial (v : DbEnv) (hs : v.mac.cipher.Sound) (hde : ∀ x, v.decode (v.encode x) = some x)
    (htest : ∀ ks k, k ∈ ks → v.mem.test ks k = true) (s : Db) (ms : List (Spec.Message × Int)) (quiet : Bool) (H : Spec.Diary v s ms quiet)
    (g : GetEnv) (q : Query) (hlen : s.store.data.length < 2 ^ 63) (key d : Bytes) (hk : key ≠ []) (hkq : 63 ∉ key) (hd : Spec.Plain d)
    (hdi : parseInt d = none) (hqt : q.topic = Spec.withOption key kLast d) (ht1 : q.topic.length ≤ 65536)
    (hcut : 0 < unixSec (g.now - v.dur d)) (hmax : 0 < v.q.max) (hl0 : 0 ≤ q.limit)
    (hlim : ((ms.filter fun m => decide (m.1.contract = (q.ask v.dur g.now v.q).contract) && Spec.covers (Spec.topicText m.1.topic) key).length : Int) ≤ if q.limit = 0 then v.q.default else min v.q.max q.limit)
    (how : ∀ w, (g.orderWin w).Perm w) (hot : ∀ ts, (g.orderTopics ts).Perm ts)
    (hst : Spec.isStatic key = true) (hlq : (Spec.levels key).length ≤ 255)
    (hown : ∀ m ∈ ms, ∀ m' ∈ ms, topicHash m.1.contract m.1.topic = topicHash m'.1.contract m'.1.topic →
      (parseTopic m.1.contract m.1.topic).1.parts = (parseTopic m'.1.contract m'.1.topic).1.parts)
    (hcw : ∀ m ∈ ms, m.1.contract ≠ wildcardHash)
    (hh : ∀ m ∈ ms, ∀ p ∈ Spec.levels (Spec.topicText m.1.topic), Spec.isStar p = false → Hash.withSalt p m.1.contract ≠ wildcardHash ∧
      ∀ t ∈ Spec.levels key, Hash.withSalt p m.1.contract = Hash.withSalt t m.1.contract → p = t)
    (hfirst : ∀ m ∈ ms, m.1.contract = (q.ask v.dur g.now v.q).contract → Spec.covers (Spec.topicText m.1.topic) key = true →
      (readWindowBlock s.winFile 0).map (·.topicHash) ≠ some (topicHash m.1.contract m.1.topic))
    (hcap : (ms.filter fun m => decide (m.1.contract = (q.ask v.dur g.now v.q).contract) && Spec.covers (Spec.topicText m.1.topic) key).length ≤ g.cap) :
    ∃ out : List (Spec.Message × Int), (s.get v g q []).2 = .out (.ok (out.map (·.1.payload))) ∧
      out.Perm (ms.filter fun m => decide (m.1.contract = (q.ask v.dur g.now v.q).contract) && Spec.covers (Spec.topicText m.1.topic) key &&
        m.1.alive (toU32 (unixSec g.now)) && decide (unixSec (g.now - v.dur d) ≤ m.2)) ∧
      out.Pairwise (fun a b => a.1.seq > b.1.seq) := by
  obtain ⟨e1, e2⟩ := C24_last_duration v.dur g.now v.q q key d hk hkq hd hdi hmax hl0 hqt
  have ett : Spec.topicText q.topic = key := by rw [hqt]; exact topicText_withOption hk hkq (by decide) hd
  have hall : Spec.addressedSince ms (q.ask v.dur g.now v.q).contract q.topic 0 0 =
      ms.filter fun m => decide (m.1.contract = (q.ask v.dur g.now v.q).contract) && Spec.covers (Spec.topicText m.1.topic) key := by
    rw [Spec.addressedSince, ett]
    apply List.filter_congr
    intro m _
    simp [alive_zero]
  have hcap' : (Spec.addressedSince ms (q.ask v.dur g.now v.q).contract q.topic (toU32 (unixSec g.now)) 0).length ≤ g.cap := by
    refine Nat.le_trans (List.Sublist.length_le ?_) hcap
    rw [Spec.addressedSince, ett]
    refine List.monotone_filter_right ms fun m hm => ?_
    simp only [Bool.and_eq_true] at hm ⊢
    exact hm.1.1
  obtain ⟨out, h1, h2, h3⟩ := diary_get v hs hde htest s ms quiet H g q hlen (by rw [hqt]; simp [Spec.withOption]) ht1 (by rw [e2, hall]; exact hlim) how hot
    (by rw [ett]; exact hst) (by rw [ett]; exact hlq) hown hcw (by rw [ett]; exact hh) (by
      intro m hm
      simp only [Spec.addressedSince, List.mem_filter, ett, Bool.and_eq_true, decide_eq_true_eq] at hm
      exact hfirst m hm.1 hm.2.1.1.1 hm.2.1.1.2) hcap'
  refine ⟨out, h1, ?_, h3⟩
  refine h2.trans (List.Perm.of_eq ?_)
  rw [Spec.addressedSince, ett, e1]
  apply List.filter_congr
  intro m _
  have : ¬ unixSec (g.now - v.dur d) ≤ 0 := by omega
  simp [this]

/-! ## A concrete history -/

/-- Histories with times in the toy environment, checked step by step. -/
def toyNote : List DbOp → Db → List (Spec.Message × Int) → Bool → Option (Db × List (Spec.Message × Int) × Bool)
  | [], s, ms, quiet => some (s, ms, quiet)
  | op :: ops, s, ms, quiet =>
    match op with
    | .put now o =>
      if s.seq.toNat < 255 * 524287 ∧ o.id = none ∧ o.parsed = false ∧ o.topicSize = 0 ∧ o.payload.length ≤ 100 ∧
          Spec.startsWithStar (Spec.topicText o.topic) = false ∧ (Spec.levels (Spec.topicText o.topic)).length ≤ 254 ∧
          1555770000 ≤ unixSec now ∧ unixSec now < 1555770000 + 2 ^ 32 ∧ (s.putEntry .toy now o).2.2 = .ok
      then toyNote ops (s.putEntry .toy now o).1 (ms ++ [(Spec.messageOf .toy now s o, unixSec now)]) quiet else none
    | .get g q old => toyNote ops (s.get .toy g q old).1 ms false
    | .rotate t => if s.mem.cur ≤ t then toyNote ops { s with mem := s.mem.rotate t } ms quiet else none
    | .write id t => toyNote ops { s with mem := s.mem.write id t false } ms quiet
    | .sync _ =>
      if quiet = true ∧ (∀ m ∈ ms, m.2 ≤ 1600000000) ∧ s.winFile.length + 8192 * s.pending + 8192 ≤ 2 ^ 31 then
        (s.sync .toy).bind fun x => toyNote ops x.1 ms true
      else none
    | _ => none

theorem toyNote_diary (ops : List DbOp) : ∀ (s s' : Db) (ms ms' : List (Spec.Message × Int)) (quiet quiet' : Bool), Spec.Diary .toy s ms quiet →
    toyNote ops s ms quiet = some (s', ms', quiet') → Spec.Diary .toy s' ms' quiet' := by
  induction ops with
  | nil =>
    intro s s' ms ms' quiet quiet' H h
    simp only [toyNote, Option.some.injEq, Prod.mk.injEq] at h
    obtain ⟨rfl, rfl, rfl⟩ := h
    exact H
  | cons op ops ih =>
    intro s s' ms ms' quiet quiet' H h
    cases op with
    | put now o =>
      simp only [toyNote] at h
      split at h
      · next hc =>
        obtain ⟨h1, h2, h3, h4, h5, h6, h7, h8, h9, h10⟩ := hc
        refine ih _ _ _ _ _ _ (.put now o _ H h1 ⟨saneToy o (by rw [h2]; intro b hb; cases hb) (by omega), h3, h4, h6, h7, ?_⟩ (.inl ⟨h2, rfl⟩) ⟨h8, h9⟩ h10) h
        intro id q hi
        rw [h2] at hi; cases hi
      · cases h
    | get g q old => exact ih _ _ _ _ _ _ (.get g q old H) h
    | rotate t =>
      simp only [toyNote] at h
      split at h
      · next hc => exact ih _ _ _ _ _ _ (.rotate t H hc) h
      · cases h
    | write id t => exact ih _ _ _ _ _ _ (.write id t H) h
    | sync e =>
      simp only [toyNote] at h
      split at h
      · next hc =>
        obtain ⟨rfl, hc2, hr⟩ := hc
        rw [Option.bind_eq_some_iff] at h
        obtain ⟨x, h1, h2⟩ := h
        exact ih _ _ _ _ _ _ (.sync .toy H (by decide) (fun m hm => le_trans (hc2 m hm) (by decide)) (fun m => List.Perm.refl _) hr h1) h2
      · cases h
    | newId now => cases h
    | delete o => cases h
    | close id => cases h

/-- A history with times of the toy environment from an empty disk. -/
def toyDiary (ops : List DbOp) : Option (Db × List (Spec.Message × Int) × Bool) := (toyOpen {} 5000 {}).bind fun s => toyNote ops s [] true

theorem toyDiary_diary {ops : List DbOp} {x : Db × List (Spec.Message × Int) × Bool} (h : toyDiary ops = some x) : Spec.Diary .toy x.1 x.2.1 x.2.2 := by
  simp only [toyDiary, Option.bind_eq_some_iff] at h
  obtain ⟨s, h1, h2⟩ := h
  exact toyNote_diary ops s x.1 [] x.2.1 true x.2.2 (.opened (by decide) rfl (OpenOut.db?_some h1)) h2

/-- A put `ago` seconds before `toyNow`. -/
def toyPutAgo (ago : Int) (topic : Bytes) (x : UInt8) : DbOp := .put (toyNow - ago * 1000000000) { topic := topic, payload := [x, x, x, x] }

/-- Messages of topic `b.c` put 10 seconds ago and now, a sync, and two more, 5 seconds ago and now. -/
def toyCutDays : List DbOp :=
  [toyPutAgo 10 [98, 46, 99] 2, toyPutAgo 0 [98, 46, 99] 3, toyPutAgo 10 [97] 1, .write 5001 5000, .rotate 6000, .sync .toy,
    toyPutAgo 5 [98, 46, 99] 4, toyPutAgo 0 [98, 46, 99] 5]

/-- The query `b.c?last=1h`; in the toy environment every duration is 0. -/
def toyLast : Query := newQuery (Spec.withOption [98, 46, 99] kLast [49, 104])

example : (toyDiary toyCutDays).map (fun x => ((x.1.get .toy .toy toyLast []).2, x.2.1.length)) =
    some (.out (.ok [[5, 5, 5, 5], [3, 3, 3, 3]]), 5) := by decide +kernel

/-- What `C96_put_get_last_partial` asks of the messages, for the query of the toy environment. -/
def toyAskLast (s : Db) (ms : List (Spec.Message × Int)) : Prop :=
  s.store.data.length < 2 ^ 63 ∧ toyLast.topic.length ≤ 65536 ∧ 0 < unixSec (GetEnv.toy.now - DbEnv.toy.dur [49, 104]) ∧ 0 ≤ toyLast.limit ∧
  (((ms.filter fun m => decide (m.1.contract = (toyLast.ask DbEnv.toy.dur GetEnv.toy.now DbEnv.toy.q).contract) && Spec.covers (Spec.topicText m.1.topic) [98, 46, 99]).length : Int) ≤ if toyLast.limit = 0 then DbEnv.toy.q.default else min DbEnv.toy.q.max toyLast.limit) ∧
  (∀ m ∈ ms, ∀ m' ∈ ms, topicHash m.1.contract m.1.topic = topicHash m'.1.contract m'.1.topic →
      (parseTopic m.1.contract m.1.topic).1.parts = (parseTopic m'.1.contract m'.1.topic).1.parts) ∧
  (∀ m ∈ ms, m.1.contract ≠ wildcardHash) ∧
  (∀ m ∈ ms, ∀ p ∈ Spec.levels (Spec.topicText m.1.topic), Spec.isStar p = false → Hash.withSalt p m.1.contract ≠ wildcardHash ∧
      ∀ t ∈ Spec.levels [98, 46, 99], Hash.withSalt p m.1.contract = Hash.withSalt t m.1.contract → p = t) ∧
  (∀ m ∈ ms, m.1.contract = (toyLast.ask DbEnv.toy.dur GetEnv.toy.now DbEnv.toy.q).contract → Spec.covers (Spec.topicText m.1.topic) [98, 46, 99] = true →
      (readWindowBlock s.winFile 0).map (·.topicHash) ≠ some (topicHash m.1.contract m.1.topic)) ∧
  (ms.filter fun m => decide (m.1.contract = (toyLast.ask DbEnv.toy.dur GetEnv.toy.now DbEnv.toy.q).contract) && Spec.covers (Spec.topicText m.1.topic) [98, 46, 99]).length ≤ GetEnv.toy.cap

instance (s : Db) (ms : List (Spec.Message × Int)) : Decidable (toyAskLast s ms) := by
  unfold toyAskLast; infer_instance

/-- All hypotheses of `C96_put_get_last_partial` hold of that history of five messages and the query `b.c?last=1h`. -/
example : ∃ (s : Db) (ms : List (Spec.Message × Int)) (quiet : Bool), DbEnv.toy.mac.cipher.Sound ∧ (∀ x, DbEnv.toy.decode (DbEnv.toy.encode x) = some x) ∧
    (∀ ks k, k ∈ ks → DbEnv.toy.mem.test ks k = true) ∧ Spec.Diary .toy s ms quiet ∧ toyAskLast s ms ∧ Spec.Plain [49, 104] ∧
    parseInt [49, 104] = none ∧ Spec.isStatic [98, 46, 99] = true ∧ ms.length = 5 := by
  have h : ((toyDiary toyCutDays).map fun x => decide (toyAskLast x.1 x.2.1 ∧ x.2.1.length = 5)) = some true := by decide +kernel
  rw [Option.map_eq_some_iff] at h
  obtain ⟨x, h1, h2⟩ := h
  obtain ⟨h3, h4⟩ := of_decide_eq_true h2
  exact ⟨x.1, x.2.1, x.2.2, toyAead_sound, fun _ => rfl, fun ks k hk => by simpa [DbEnv.toy, MEnv.one] using hk, toyDiary_diary h1, h3,
    by decide, by decide, by decide +kernel, h4⟩

end Verif
