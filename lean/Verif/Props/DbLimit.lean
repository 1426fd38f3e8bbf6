import Verif.Props.DbGet
import Verif.Model.DbLimit

/-!
# C21: a limit keeps the newest messages

Histories whose messages get their sequences in the order of the puts: no put brings an id of its own, and a sync happens when all but
the current tiny log are written.
-/

namespace Verif

/-- Histories, with the messages in the order of their puts; the flag as in `Spec.Story`. -/
inductive Spec.Line (v : DbEnv) : Db → List Spec.Message → Bool → Prop
  | opened {o r e now s} : (v.mem.cap : Int) ≤ now → r.orderDel [] = [] → openDb v o r e now {} = .ok s → Spec.Line v s [] true
  | newId {s ms quiet} (now) : Spec.Line v s ms quiet → s.seq.toNat < 255 * 524287 → Spec.Line v (s.newId now).1 ms quiet
  | put {s ms quiet} (now o) : Spec.Line v s ms quiet → s.seq.toNat < 255 * 524287 → Spec.Fresh v s ms o → o.id = none →
      (s.putEntry v now o).2.2 = .ok → Spec.Line v (s.putEntry v now o).1 (ms ++ [Spec.messageOf v now s o]) quiet
  | refused {s ms quiet} (now o) (e) : Spec.Line v s ms quiet → s.seq.toNat < 255 * 524287 → (s.putEntry v now o).2.2 = .err e →
      Spec.Line v (s.putEntry v now o).1 ms quiet
  | get {s ms quiet} (g q old) : Spec.Line v s ms quiet → Spec.Line v (s.get v g q old).1 ms false
  | rotate {s ms quiet} (t) : Spec.Line v s ms quiet → s.mem.cur ≤ t → Spec.Line v { s with mem := s.mem.rotate t } ms quiet
  | write {s ms quiet} (id t) : Spec.Line v s ms quiet → Spec.Line v { s with mem := s.mem.write id t false } ms quiet
  | sync {s s' ms r} (e : SyncEnv) : Spec.Line v s ms true → 0 ≤ e.now.toInt → (∀ m, (e.order m).Perm m) →
      s.winFile.length + 8192 * s.pending + 8192 ≤ 2 ^ 31 →
      (∀ p ∈ s.win, p.1.1 ≠ s.mem.cur → p.1.1 ∈ s.mem.mark.timeRefs s.mem.cur) → s.sync e = some (s', r) → Spec.Line v s' ms true

/-- They are among the histories of C68. -/
theorem Spec.Line.story {v : DbEnv} {s : Db} {ms : List Spec.Message} {quiet : Bool} (H : Spec.Line v s ms quiet) : Spec.Story v s ms quiet := by
  induction H with
  | opened h1 h2 h3 => exact .opened h1 h2 h3
  | newId now _ h1 ih => exact .newId now ih h1
  | put now o _ h1 h2 _ h3 ih => exact .put now o ih h1 h2 h3
  | refused now o e _ h1 h2 ih => exact .refused now o e ih h1 h2
  | get g q old _ ih => exact .get g q old ih
  | rotate t _ h1 ih => exact .rotate t ih h1
  | write id t _ ih => exact .write id t ih
  | sync e _ h1 h2 h3 _ h4 ih => exact .sync e ih h1 h2 h3 h4

/-- The messages of one block after the other are in the order of their sequences. -/
theorem syncItems_sorted (ts : List Int) : ∀ U : List Item, ts.Pairwise (· ≤ ·) → (∀ i ∈ U, ∀ j ∈ U, i.blk < j.blk → i.seq < j.seq) →
    (U.map Item.seq).Nodup → (syncItems U ts).Pairwise (fun i j => i.seq < j.seq) ∧ ∀ i ∈ syncItems U ts, i ∈ U ∧ i.blk ∈ ts := by
  induction ts with
  | nil => intro U _ _ _; simp [syncItems]
  | cons t ts ih =>
    intro U hs hb hn
    rw [List.pairwise_cons] at hs
    have hsub : ∀ i ∈ U.filter (fun i => decide (i.blk ≠ t)), i ∈ U := fun i hi => List.mem_of_mem_filter hi
    obtain ⟨h1, h2⟩ := ih (U.filter fun i => i.blk ≠ t) hs.2 (fun i hi j hj => hb i (hsub i hi) j (hsub j hj))
      (List.Nodup.sublist (List.Sublist.map _ List.filter_sublist) hn)
    have hits : ((itemsOf U t).map Item.seq).Nodup :=
      (((itemsOf_perm U t).map _).nodup_iff).2 (List.Nodup.sublist (List.Sublist.map _ List.filter_sublist) hn)
    have h3 : (itemsOf U t).Pairwise fun i j => i.seq < j.seq := by
      have ht : Std.Total (fun a b : Item => a.seq ≤ b.seq) := ⟨fun a b => UInt64.le_total a.seq b.seq⟩
      have hr : IsTrans Item (fun a b : Item => a.seq ≤ b.seq) := ⟨fun a b c h1 h2 => UInt64.le_trans h1 h2⟩
      rw [List.Nodup, List.pairwise_map] at hits
      have := List.pairwise_insertionSort (fun a b : Item => a.seq ≤ b.seq) (U.filter fun i => i.blk = t)
      exact (this.and hits).imp fun h => UInt64.lt_of_le_of_ne h.1 h.2
    rw [syncItems]
    refine ⟨List.pairwise_append.2 ⟨h3, h1, ?_⟩, ?_⟩
    · intro i hi j hj
      obtain ⟨a1, a2⟩ := mem_itemsOf.1 hi
      obtain ⟨b1, b2⟩ := h2 j hj
      rw [List.mem_filter, decide_eq_true_eq] at b1
      refine hb i a1 j b1.1 ?_
      have := hs.1 _ b2
      have := b1.2
      omega
    · intro i hi
      rcases List.mem_append.1 hi with hi | hi
      · obtain ⟨a1, a2⟩ := mem_itemsOf.1 hi
        exact ⟨a1, by rw [a2]; exact List.mem_cons_self⟩
      · obtain ⟨b1, b2⟩ := h2 i hi
        exact ⟨hsub i b1, List.mem_cons_of_mem _ b2⟩

/-- Such histories keep the messages in the order of their sequences. -/
theorem line_inv {v : DbEnv} (hs : v.mac.cipher.Sound) (hde : ∀ x, v.decode (v.encode x) = some x)
    (htest : ∀ ks k, k ∈ ks → v.mem.test ks k = true) {s : Db} {ms : List Spec.Message} {quiet : Bool} (H : Spec.Line v s ms quiet) :
    ∃ U D L led, DbInv v s U D L led ∧ (D ++ U).map Item.msg = ms ∧ (quiet = true → s.mem.qblocks = []) ∧ Marked s.mem ∧
      (D ++ U).Pairwise (fun i j => i.seq < j.seq) ∧ U.Pairwise (fun i j => i.blk ≤ j.blk) ∧ ∀ i ∈ U, i.blk ≤ s.mem.cur := by
  induction H with
  | opened hc hr h =>
    obtain ⟨I, hq, hm⟩ := DbInv.init hc hr h
    exact ⟨[], [], [], [], I, rfl, fun _ => hq, hm, by simp, by simp, by simp⟩
  | newId now _ hq ih =>
    obtain ⟨U, D, L, led, I, hp, hb, hm, h1, h2, h3⟩ := ih
    exact ⟨U, D, L, led, I.newId hq now, hp, hb, hm, h1, h2, h3⟩
  | @put s ms quiet now o _ hq hf hid hok ih =>
    obtain ⟨U, D, L, led, I, hp, hb, hm, o1, o2, o3⟩ := ih
    obtain ⟨i, I', h1, h2, h3, h4, h8, h5, h6, _, _, _, hput⟩ := I.put hs hde (o' := (s.putEntry v now o).2.1) (s' := (s.putEntry v now o).1) hf.sane hf.parsed
      hf.topicSize hf.plain hf.levels hq (by
        intro id q h1 h2
        rw [hid] at h1; cases h1) (by rw [← hok])
    have hseq : i.seq = s.seq + 1 := by
      rcases h5 with h | ⟨id, h, _⟩
      · exact h.2
      · rw [hid] at h; cases h
    have hcur : (s.putEntry v now o).1.mem.cur = s.mem.cur := by
      have := MemDb.putAt_cur v.mem s.mem s.mem.cur i.seq i.record
      rw [show s.mem.putAt v.mem s.mem.cur i.seq i.record = s.mem.put v.mem i.seq i.record from rfl, hput] at this
      exact this
    refine ⟨U ++ [i], D, L, led, I', ?_, fun hx => h6.trans (hb hx), by rw [Marked, Db.putEntry_mark]; exact hm, ?_, ?_, ?_⟩
    · have e : i.msg = Spec.messageOf v now s o := by
        simp only [Item.msg, Spec.messageOf, h1, h2, h3, h4, seqOf_item h5]
      rw [← e, ← hp, ← List.append_assoc, List.map_append]
      rfl
    · rw [← List.append_assoc]
      refine List.pairwise_append.2 ⟨o1, by simp, ?_⟩
      intro j hj i' hi'
      rw [List.mem_singleton] at hi'
      subst hi'
      have := I.seqs j (List.mem_append.2 (List.mem_append.1 hj).symm)
      rw [hseq, UInt64.lt_iff_toNat_lt, UInt64.toNat_add]
      have e1 : (1 : UInt64).toNat = 1 := rfl
      rw [e1, Nat.mod_eq_of_lt (by omega)]
      exact Nat.lt_succ_of_le this
    · refine List.pairwise_append.2 ⟨o2, by simp, ?_⟩
      intro j hj i' hi'
      rw [List.mem_singleton] at hi'
      subst hi'
      rw [h8]; exact o3 j hj
    · intro j hj
      rw [hcur]
      rcases List.mem_append.1 hj with hj | hj
      · exact o3 j hj
      · rw [List.mem_singleton] at hj
        rw [hj, h8]
  | @refused s ms quiet now o e _ hq hr ih =>
    obtain ⟨U, D, L, led, I, hp, hb, hm, o1, o2, o3⟩ := ih
    obtain ⟨I', h1⟩ := I.putErr (o' := (s.putEntry v now o).2.1) (s' := (s.putEntry v now o).1) hq (by rw [← hr])
    exact ⟨U, D, L, led, I', hp, fun hx => by rw [h1]; exact hb hx, by rw [h1]; exact hm, o1, o2, by rw [h1]; exact o3⟩
  | @get s ms quiet g q old _ ih =>
    obtain ⟨U, D, L, led, I, hp, hb, hm, o1, o2, o3⟩ := ih
    obtain ⟨m, h1, h2, h3⟩ := Db.get_keeps v htest g s q old _ I.mem
    refine ⟨U, D, L, led, I.getKeeps htest g q old, hp, fun hx => (by cases hx), ?_, o1, o2, ?_⟩
    · rw [h1]
      obtain ⟨_, _, _, rfl⟩ := h3
      exact hm
    · rw [h1]
      obtain ⟨_, _, _, rfl⟩ := h3
      exact o3
  | @rotate s ms quiet t _ ht ih =>
    obtain ⟨U, D, L, led, I, hp, hb, hm, o1, o2, o3⟩ := ih
    refine ⟨U, D, L, led, I.rotate t ht, hp, fun hx => ?_, ?_, o1, o2, fun i hi => ?_⟩
    · show (s.mem.rotate t).qblocks = []
      rw [← hb hx]; simp only [MemDb.rotate, MemDb.addTimeBlock]; split <;> rfl
    · have : (s.mem.rotate t).mark.released = s.mem.mark.released := by
        simp only [MemDb.rotate, MemDb.addTimeBlock]; split <;> rfl
      intro p hp'
      exact hm p (by rw [← this]; exact hp')
    · have : (s.mem.rotate t).cur = t := rfl
      show i.blk ≤ (s.mem.rotate t).cur
      rw [this]
      exact Int.le_trans (o3 i hi) ht
  | @write s ms quiet id t _ ih =>
    obtain ⟨U, D, L, led, I, hp, hb, hm, o1, o2, o3⟩ := ih
    refine ⟨U, D, L, led, I.write id t, hp, fun hx => ?_, ?_, o1, o2, fun i hi => ?_⟩
    · show (s.mem.write id t false).qblocks = []
      rw [MemDb.write_qblocks]; exact hb hx
    · have : (s.mem.write id t false).mark = s.mem.mark.release t := by
        simp only [MemDb.write, Bool.false_eq_true, if_false]
        repeat' split
        all_goals rfl
      intro p hp'
      exact TimeMark.marked_release hm t p (by rw [← this]; exact hp')
    · show i.blk ≤ (s.mem.write id t false).cur
      rw [(MemDb.write_same s.mem id t false).1]
      exact o3 i hi
  | @sync s s' ms r e _ hnow hord hroom hdone hsy ih =>
    obtain ⟨U, D, L, led, I, hp, hb, hm, o1, o2, o3⟩ := ih
    obtain ⟨s2, U', D', L', led', h1, I', h2, h3, h4, h5, _, h6, h7⟩ := I.sync (hb rfl) hnow hord hm hroom
    rw [h1] at hsy
    simp only [Option.some.injEq, Prod.mk.injEq] at hsy
    obtain ⟨rfl, _⟩ := hsy
    refine ⟨U', D', L', led', I', ?_, fun _ => h3, fun p hp' => hm p (h5 hp'), ?_⟩
    all_goals
      by_cases hl : s.lastSync = s.seq
      · obtain ⟨rfl, rfl, rfl⟩ := h7 hl
        first | exact hp | exact ⟨o1, o2, o3⟩
      obtain ⟨eU, eD⟩ := h6 hl
      have hsort : (D' ++ U').Pairwise fun i j => i.seq < j.seq := by
        obtain ⟨oD, oU, oDU⟩ := List.pairwise_append.1 o1
        have hblk : ∀ i ∈ U, ∀ j ∈ U, i.blk < j.blk → i.seq < j.seq := by
          have hall : U.Pairwise fun i j => i.seq < j.seq ∧ i.blk ≤ j.blk := oU.and o2
          clear h1 h2 h3 h4 h5 h6 h7 I I' oDU hb hp o1 o2 o3 eU eD
          intro i hi j hj hij
          obtain ⟨a, ha, rfl⟩ := List.mem_iff_getElem.1 hi
          obtain ⟨b, hb, rfl⟩ := List.mem_iff_getElem.1 hj
          rw [List.pairwise_iff_getElem] at hall
          rcases Nat.lt_trichotomy a b with h | h | h
          · exact (hall a b ha hb h).1
          · subst h; omega
          · have := (hall b a hb ha h).2; omega
        have hnU : (U.map Item.seq).Nodup := by
          have := I.nodup; rw [List.map_append] at this; exact (List.nodup_append.1 this).1
        have hts : (s.mem.mark.timeRefs s.mem.cur).Pairwise (· ≤ ·) := by
          have ht : Std.Total (fun a b : Int => a ≤ b) := ⟨Int.le_total⟩
          have hr : IsTrans Int (fun a b => a ≤ b) := ⟨fun a b c h1 h2 => Int.le_trans h1 h2⟩
          exact List.pairwise_insertionSort _ _
        obtain ⟨k1, k2⟩ := syncItems_sorted _ U hts hblk hnU
        have hUc : ∀ i ∈ U', i ∈ U ∧ i.blk = s.mem.cur := by
          intro i hi
          rw [eU, List.mem_filter, decide_eq_true_eq] at hi
          refine ⟨hi.1, ?_⟩
          by_contra hc
          refine hi.2 ?_
          have hw := I.win i.blk i.hash
          have hin : i.win ∈ (U.filter fun j => j.blk = i.blk ∧ j.hash = i.hash).map Item.win :=
            List.mem_map.2 ⟨i, List.mem_filter.2 ⟨hi.1, by simp⟩, rfl⟩
          rw [← hw] at hin
          cases hg : s.win.get (i.blk, i.hash) with
          | none => rw [hg] at hin; simp at hin
          | some es => exact hdone ((i.blk, i.hash), es) (AMap.mem_of_get _ hg) hc
        rw [eD]
        refine List.pairwise_append.2 ⟨List.pairwise_append.2 ⟨oD, k1, fun i hi j hj => oDU i hi j (k2 j hj).1⟩, ?_, ?_⟩
        · rw [eU]; exact oU.filter _
        · intro i hi j hj
          obtain ⟨j1, j2⟩ := hUc j hj
          rcases List.mem_append.1 hi with hi | hi
          · exact oDU i hi j j1
          · obtain ⟨i1, i2⟩ := k2 i hi
            refine hblk i i1 j j1 ?_
            have : i.blk ≤ s.mem.cur := o3 i i1
            have hne : i.blk ≠ s.mem.cur := by
              intro hc
              rw [hc] at i2
              simp only [TimeMark.timeRefs, List.mem_insertionSort, AMap.keys, List.mem_map, List.mem_filter, decide_eq_true_eq] at i2
              obtain ⟨p, ⟨hp, _, h2⟩, h3⟩ := i2
              rw [hm p hp] at h2
              omega
            omega
      first
      | have hperm : (D' ++ U').Perm (D ++ U) := (List.perm_append_comm.trans h2).trans List.perm_append_comm
        have : D' ++ U' = D ++ U := by
          refine List.Perm.eq_of_pairwise ?_ hsort o1 hperm
          intro a b _ _ hab hba
          exact absurd hab (UInt64.not_lt.2 (UInt64.le_of_lt hba))
        rw [this]
        exact hp
      | refine ⟨hsort, ?_, ?_⟩
        · rw [eU]; exact o2.filter _
        · intro i hi
          rw [eU] at hi
          rw [h4]
          exact o3 i (List.mem_of_mem_filter hi)

/-- C21 (partial: one topic, none of its messages expired, its unsynced messages in one time block; the topic is not the one synced
first; no `last` duration). A Get with a limit returns the payloads of the newest messages of its topic, newest first, as many as the
limit allows. -/
theorem C21_limit_partial (v : DbEnv) (hs : v.mac.cipher.Sound) (hde : ∀ x, v.decode (v.encode x) = some x)
    (htest : ∀ ks k, k ∈ ks → v.mem.test ks k = true) (s : Db) (ms : List Spec.Message) (quiet : Bool) (H : Spec.Line v s ms quiet)
    (g : GetEnv) (q : Query) (hlen : s.store.data.length < 2 ^ 63) (ht0 : q.topic ≠ []) (ht1 : q.topic.length ≤ 65536)
    (hcut : (q.ask v.dur g.now v.q).cutoff ≤ 0) (hlim : 0 ≤ (q.ask v.dur g.now v.q).limit)
    (how : ∀ w, (g.orderWin w).Perm w) (hot : ∀ ts, (g.orderTopics ts).Perm ts)
    (hst : Spec.isStatic (Spec.topicText q.topic) = true) (hlq : (Spec.levels (Spec.topicText q.topic)).length ≤ 255)
    (hown : ∀ m ∈ ms, ∀ m' ∈ ms, topicHash m.contract m.topic = topicHash m'.contract m'.topic →
      (parseTopic m.contract m.topic).1.parts = (parseTopic m'.contract m'.topic).1.parts)
    (hcw : ∀ m ∈ ms, m.contract ≠ wildcardHash)
    (hh : ∀ m ∈ ms, ∀ p ∈ Spec.levels (Spec.topicText m.topic), Spec.isStar p = false → Hash.withSalt p m.contract ≠ wildcardHash ∧
      ∀ t ∈ Spec.levels (Spec.topicText q.topic), Hash.withSalt p m.contract = Hash.withSalt t m.contract → p = t)
    (topic : Bytes) (hone : ∀ m ∈ Spec.addressed ms (q.ask v.dur g.now v.q).contract q.topic 0, m.topic = topic)
    (hlive : ∀ m ∈ Spec.addressed ms (q.ask v.dur g.now v.q).contract q.topic 0, m.alive (toU32 (unixSec g.now)) = true)
    (hfirst : (readWindowBlock s.winFile 0).map (·.topicHash) ≠ some (topicHash (q.ask v.dur g.now v.q).contract topic))
    (hblk : ∀ p ∈ s.win, ∀ p' ∈ s.win, p.1.2 = topicHash (q.ask v.dur g.now v.q).contract topic →
      p'.1.2 = topicHash (q.ask v.dur g.now v.q).contract topic → p.1.1 = p'.1.1)
    (hcap : (q.ask v.dur g.now v.q).limit ≤ g.cap) :
    (s.get v g q []).2 = .out (.ok (((Spec.addressed ms (q.ask v.dur g.now v.q).contract q.topic 0).reverse.take
      (q.ask v.dur g.now v.q).limit.toNat).map (·.payload))) := by
  obtain ⟨U, D, L, led, I, rfl, _, _, hord, _, _⟩ := line_inv hs hde htest H
  obtain ⟨c, hcd⟩ : ∃ c, c = (q.ask v.dur g.now v.q).contract := ⟨_, rfl⟩
  obtain ⟨now, hnow⟩ : ∃ n, n = toU32 (unixSec g.now) := ⟨_, rfl⟩
  rw [← hcd] at hone hlive hfirst hblk ⊢
  rw [← hnow] at hlive
  obtain ⟨ops, htr, hops1, hops2⟩ := I.trie
  obtain ⟨w, HW⟩ := I.hist
  have hswap : ∀ i, i ∈ U ++ D ↔ i ∈ D ++ U := fun i => by rw [List.mem_append, List.mem_append, or_comm]
  have hmem : ∀ i ∈ U ++ D, i.msg ∈ (D ++ U).map Item.msg := fun i hi => List.mem_map_of_mem ((hswap i).1 hi)
  obtain ⟨sel, hseld⟩ : ∃ sel : Item → Bool, sel = fun i => decide (i.contract = c) && Spec.covers (Spec.topicText i.topic) (Spec.topicText q.topic) := ⟨_, rfl⟩
  have hsel : ∀ i ∈ U ++ D, i.hash ∈ (s.trie.find c q.topic).map TTopic.hash ↔ sel i = true := by
    intro i hi
    obtain ⟨off, hadd⟩ := hops1 i hi trivial
    rw [htr, hseld]
    simp only [Bool.and_eq_true, decide_eq_true_eq]
    refine C16_covers_exact_partial ops i.contract i.topic off hadd ?_ ?_ c q.topic hst (I.ok i hi).levels hlq (hcw _ (hmem i hi)) (hh _ (hmem i hi))
    · intro c' key' off' h'
      obtain ⟨j, hj, rfl, rfl⟩ := hops2 c' key' off' h'
      exact (I.ok j hj).plain
    · intro c' key' off' h' he
      obtain ⟨j, hj, rfl, rfl⟩ := hops2 c' key' off' h'
      exact hown _ (hmem j hj) _ (hmem i hi) he
  have hexp : ∀ i : Item, (!i.win.isExpired now) = i.msg.alive now := by
    intro i
    simp only [WinEntry.isExpired, Item.win, Spec.Message.alive, Item.msg]
    by_cases e0 : i.exp = 0
    · simp [e0]
    · by_cases e1 : i.exp ≤ now
      · have : ¬ now < i.exp := UInt32.not_lt.2 e1
        simp [e0, e1, this]
      · have : now < i.exp := UInt32.not_le.1 e1
        simp [e0, e1, this]
  have hal0 : ∀ m : Spec.Message, m.alive 0 = true := by
    intro m
    by_cases e0 : m.expiry = 0
    · simp [Spec.Message.alive, e0]
    · have : 0 < m.expiry := UInt32.pos_iff_ne_zero.2 e0
      simp [Spec.Message.alive, this]
  have hwant : Spec.addressed ((D ++ U).map Item.msg) c q.topic 0 = ((D ++ U).filter sel).map Item.msg := by
    rw [Spec.addressed, List.filter_map]
    congr 1
    apply List.filter_congr
    intro i _
    simp only [Function.comp_apply, hal0, Bool.and_true, hseld]
    rfl
  have hin : ∀ i ∈ U ++ D, sel i = true → i.msg ∈ Spec.addressed ((D ++ U).map Item.msg) c q.topic 0 := by
    intro i hi hsi
    rw [hwant]
    exact List.mem_map_of_mem (List.mem_filter.2 ⟨(hswap i).1 hi, hsi⟩)
  have hcon : ∀ i, sel i = true → i.contract = c := by
    intro i hi
    rw [hseld] at hi
    simp only [Bool.and_eq_true, decide_eq_true_eq] at hi
    exact hi.1
  have hhash : ∀ i ∈ U ++ D, sel i = true → i.hash = topicHash c topic := by
    intro i hi hsi
    have h1 : i.topic = topic := hone _ (hin i hi hsi)
    rw [← h1, ← hcon i hsi]
    rfl
  obtain ⟨m, _, hget⟩ := I.get_newest htest hlen g q ht0 ht1 hcut hlim how hot sel (topicHash c topic) (by rw [← hcd]; exact hsel)
    (fun i _ hi => by rw [← hcd]; exact hcon i hi) hhash (fun hc => hfirst (firstBlock HW hc)) (by
      intro i hi j hj hsi hsj
      have hkey : ∀ i ∈ U, ∃ es, ((i.blk, i.hash), es) ∈ s.win := by
        intro i hi
        have hw := I.win i.blk i.hash
        have hin : i.win ∈ (U.filter fun j => j.blk = i.blk ∧ j.hash = i.hash).map Item.win :=
          List.mem_map.2 ⟨i, List.mem_filter.2 ⟨hi, by simp⟩, rfl⟩
        rw [← hw] at hin
        cases hg : s.win.get (i.blk, i.hash) with
        | none => rw [hg] at hin; simp at hin
        | some es => exact ⟨es, AMap.mem_of_get _ hg⟩
      obtain ⟨es, h1⟩ := hkey i hi
      obtain ⟨es', h2⟩ := hkey j hj
      exact hblk _ h1 _ h2 (hhash i (List.mem_append_left _ hi) hsi) (hhash j (List.mem_append_left _ hj) hsj)) (by
      intro i hi hsi
      have := hlive _ (hin i hi hsi)
      rw [← hnow]
      rw [← hexp] at this
      simpa using this) hord (by
      rw [List.length_take]
      omega)
  rw [hget, hwant, ← List.map_reverse, ← List.map_take, List.map_map]
  rfl

/-! ## Concrete histories -/

/-- Such histories in the toy environment, checked step by step. -/
def toyTrail : List DbOp → Db → List Spec.Message → Bool → Option (Db × List Spec.Message × Bool)
  | [], s, ms, quiet => some (s, ms, quiet)
  | op :: ops, s, ms, quiet =>
    match op with
    | .put now o =>
      if s.seq.toNat < 255 * 524287 ∧ o.id = none ∧ o.parsed = false ∧ o.topicSize = 0 ∧ o.payload.length ≤ 100 ∧
          Spec.startsWithStar (Spec.topicText o.topic) = false ∧ (Spec.levels (Spec.topicText o.topic)).length ≤ 254 ∧
          (s.putEntry .toy now o).2.2 = .ok
      then toyTrail ops (s.putEntry .toy now o).1 (ms ++ [Spec.messageOf .toy now s o]) quiet else none
    | .rotate t => if s.mem.cur ≤ t then toyTrail ops { s with mem := s.mem.rotate t } ms quiet else none
    | .write id t => toyTrail ops { s with mem := s.mem.write id t false } ms quiet
    | .sync _ =>
      if quiet = true ∧ s.winFile.length + 8192 * s.pending + 8192 ≤ 2 ^ 31 ∧
          ∀ p ∈ s.win, p.1.1 ≠ s.mem.cur → p.1.1 ∈ s.mem.mark.timeRefs s.mem.cur then
        (s.sync .toy).bind fun x => toyTrail ops x.1 ms true
      else none
    | _ => none

theorem toyTrail_line (ops : List DbOp) : ∀ (s s' : Db) (ms ms' : List Spec.Message) (quiet quiet' : Bool), Spec.Line .toy s ms quiet →
    toyTrail ops s ms quiet = some (s', ms', quiet') → Spec.Line .toy s' ms' quiet' := by
  induction ops with
  | nil =>
    intro s s' ms ms' quiet quiet' H h
    simp only [toyTrail, Option.some.injEq, Prod.mk.injEq] at h
    obtain ⟨rfl, rfl, rfl⟩ := h
    exact H
  | cons op ops ih =>
    intro s s' ms ms' quiet quiet' H h
    cases op with
    | put now o =>
      simp only [toyTrail] at h
      split at h
      · next hc =>
        obtain ⟨h1, h2, h3, h4, h5, h6, h7, h8⟩ := hc
        refine ih _ _ _ _ _ _ (.put now o H h1 ⟨saneToy o (by rw [h2]; intro b hb; cases hb) (by omega), h3, h4, h6, h7, ?_⟩ h2 h8) h
        intro id q hi
        rw [h2] at hi; cases hi
      · cases h
    | get g q old => cases h
    | rotate t =>
      simp only [toyTrail] at h
      split at h
      · next hc => exact ih _ _ _ _ _ _ (.rotate t H hc) h
      · cases h
    | write id t => exact ih _ _ _ _ _ _ (.write id t H) h
    | sync e =>
      simp only [toyTrail] at h
      split at h
      · next hc =>
        obtain ⟨rfl, hr, hd⟩ := hc
        rw [Option.bind_eq_some_iff] at h
        obtain ⟨x, h1, h2⟩ := h
        exact ih _ _ _ _ _ _ (.sync .toy H (by decide) (fun m => List.Perm.refl _) hr hd h1) h2
      · cases h
    | newId now => cases h
    | delete o => cases h
    | close id => cases h

/-- Two messages for `b` and one for `a` are synced, two more for `b` are not. -/
def toyQueue : List DbOp :=
  [toyPut [98] 1, toyPut [98] 2, toyPut [97] 3, .write 5001 5000, .rotate 6000, .sync .toy, toyPut [98] 4, toyPut [98] 5]

/-- What `C21_limit_partial` asks of a query for topic `b` in the toy environment. -/
def toyTop (s : Db) (ms : List Spec.Message) (g : GetEnv) (q : Query) : Prop :=
  s.store.data.length < 2 ^ 63 ∧ q.topic ≠ [] ∧ q.topic.length ≤ 65536 ∧ (q.ask DbEnv.toy.dur g.now DbEnv.toy.q).cutoff ≤ 0 ∧
  0 ≤ (q.ask DbEnv.toy.dur g.now DbEnv.toy.q).limit ∧ Spec.isStatic (Spec.topicText q.topic) = true ∧
  (Spec.levels (Spec.topicText q.topic)).length ≤ 255 ∧
  (∀ m ∈ ms, ∀ m' ∈ ms, topicHash m.contract m.topic = topicHash m'.contract m'.topic →
      (parseTopic m.contract m.topic).1.parts = (parseTopic m'.contract m'.topic).1.parts) ∧
  (∀ m ∈ ms, m.contract ≠ wildcardHash) ∧
  (∀ m ∈ ms, ∀ p ∈ Spec.levels (Spec.topicText m.topic), Spec.isStar p = false → Hash.withSalt p m.contract ≠ wildcardHash ∧
      ∀ t ∈ Spec.levels (Spec.topicText q.topic), Hash.withSalt p m.contract = Hash.withSalt t m.contract → p = t) ∧
  (∀ m ∈ Spec.addressed ms (q.ask DbEnv.toy.dur g.now DbEnv.toy.q).contract q.topic 0, m.topic = [98]) ∧
  (∀ m ∈ Spec.addressed ms (q.ask DbEnv.toy.dur g.now DbEnv.toy.q).contract q.topic 0, m.alive (toU32 (unixSec g.now)) = true) ∧
  (readWindowBlock s.winFile 0).map (·.topicHash) ≠ some (topicHash (q.ask DbEnv.toy.dur g.now DbEnv.toy.q).contract [98]) ∧
  (∀ p ∈ s.win, ∀ p' ∈ s.win, p.1.2 = topicHash (q.ask DbEnv.toy.dur g.now DbEnv.toy.q).contract [98] →
      p'.1.2 = topicHash (q.ask DbEnv.toy.dur g.now DbEnv.toy.q).contract [98] → p.1.1 = p'.1.1) ∧
  (q.ask DbEnv.toy.dur g.now DbEnv.toy.q).limit ≤ g.cap

instance (s : Db) (ms : List Spec.Message) (g : GetEnv) (q : Query) : Decidable (toyTop s ms g q) := by
  unfold toyTop; infer_instance

/-- All hypotheses of `C21_limit_partial` hold of that history and a query for topic `b` with limit 3, which four messages match. -/
example : ∃ (s : Db) (ms : List Spec.Message) (quiet : Bool), DbEnv.toy.mac.cipher.Sound ∧ (∀ x, DbEnv.toy.decode (DbEnv.toy.encode x) = some x) ∧
    (∀ ks k, k ∈ ks → DbEnv.toy.mem.test ks k = true) ∧ Spec.Line .toy s ms quiet ∧ toyTop s ms .toy ((newQuery [98]).withLimit 3) ∧
    (∀ w, (GetEnv.toy.orderWin w).Perm w) ∧ (∀ ts, (GetEnv.toy.orderTopics ts).Perm ts) ∧
    (Spec.addressed ms 3376684800 [98] 0).length = 4 ∧
    (s.get .toy .toy ((newQuery [98]).withLimit 3) []).2 = .out (.ok [[5, 5, 5, 5], [4, 4, 4, 4], [2, 2, 2, 2]]) := by
  have h : ((toyOpen {} 5000 {}).bind fun s => (toyTrail toyQueue s [] true).map fun x => decide (toyTop x.1 x.2.1 .toy ((newQuery [98]).withLimit 3) ∧
      (Spec.addressed x.2.1 3376684800 [98] 0).length = 4 ∧
      (x.1.get .toy .toy ((newQuery [98]).withLimit 3) []).2 = .out (.ok [[5, 5, 5, 5], [4, 4, 4, 4], [2, 2, 2, 2]]))) = some true := by decide +kernel
  rw [Option.bind_eq_some_iff] at h
  obtain ⟨s, h0, h⟩ := h
  rw [Option.map_eq_some_iff] at h
  obtain ⟨x, h1, h2⟩ := h
  obtain ⟨h3, h4⟩ := of_decide_eq_true h2
  exact ⟨x.1, x.2.1, x.2.2, toyAead_sound, fun _ => rfl, fun ks k hk => by simpa [DbEnv.toy, MEnv.one] using hk,
    toyTrail_line _ s x.1 [] x.2.1 true x.2.2 (.opened (by decide) rfl (OpenOut.db?_some h0)) h1, h3,
    fun _ => List.Perm.refl _, fun _ => List.Perm.refl _, h4⟩

/-- C21 is violated if the unsynced messages of a topic are in two time blocks: the blocks are taken in the order of a map iteration.
Message 2 is the newest; with limit 1 one order gives message 2, the other message 1. -/
theorem C21_two_blocks_violated : (toyRun [toyPut [97] 1, .rotate 6000, toyPut [97] 2]).map (fun x =>
      ((x.1.get .toy { GetEnv.toy with orderWin := List.reverse } ((newQuery [97]).withLimit 1) []).2,
        (x.1.get .toy { GetEnv.toy with orderWin := id } ((newQuery [97]).withLimit 1) []).2)) =
    some (.out (.ok [[1, 1, 1, 1]]), .out (.ok [[2, 2, 2, 2]])) := by decide +kernel

/-- C21 is violated for a query that matches several topics: they are taken by the offset of their window blocks, the largest first
(db_internal.go:219-221), and the first one uses the limit up. The query for `a.b` matches message 1, synced under `a.b`, and message 2,
not yet synced under `a.*`; with limit 1 the older one is returned. -/
theorem C21_topics_violated :
    (toyRun [toyPut [97, 46, 98] 1, toyPut [97] 9, .write 5001 5000, .rotate 6000, .sync .toy, toyPut [97, 46, 42] 2]).map (fun x =>
      [(newQuery [97, 46, 98]).withLimit 1, (newQuery [97, 46, 98]).withLimit 2].map fun q =>
        (x.1.get .toy { GetEnv.toy with orderTopics := List.insertionSort fun a b => b.offset ≤ a.offset } q []).2) =
    some [.out (.ok [[1, 1, 1, 1]]), .out (.ok [[2, 2, 2, 2], [1, 1, 1, 1]])] := by decide +kernel

end Verif
