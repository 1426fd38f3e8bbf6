import Verif.Props.DbGet
import Verif.Model.Consistent

/-!
# C79: messages put at the same time
-/

namespace Verif

/-! ## The puts of a burst -/

/-- A put alone is `PutEntry`, unless that panics. -/
theorem Putting.alone (v : DbEnv) (now : Int) (s : Db) (o : Obj) (h : (s.putEntry v now o).2.2 ≠ .panic) :
    (Par.run v ⟨s, [{ now := now, o := o }]⟩ (List.replicate 7 (.go 0))).db = (s.putEntry v now o).1 ∧
    ∃ q, (Par.run v ⟨s, [{ now := now, o := o }]⟩ (List.replicate 7 (.go 0))).puts =
      [{ now := now, o := o, pc := .done (s.putEntry v now o).2.1 q (s.putEntry v now o).2.2 }] := by
  have hdone : ∀ (n : Nat) (s : Db) (p : Putting) o q out, p.pc = .done o q out → Par.run v ⟨s, [p]⟩ (List.replicate n (.go 0)) = ⟨s, [p]⟩ := by
    intro n s p o q out hp
    induction n with
    | zero => rfl
    | succ n ih =>
      rw [List.replicate_succ, Par.run, List.foldl_cons]
      have : Par.step v ⟨s, [p]⟩ (.go 0) = ⟨s, [p]⟩ := by
        simp [Par.step, Par.go, Putting.step, hp]
      rw [this]; exact ih
  have hstep : ∀ (n : Nat) (s : Db) (p : Putting), Par.run v ⟨s, [p]⟩ (List.replicate (n + 1) (.go 0)) =
      Par.run v ⟨(p.step v s).1, [(p.step v s).2]⟩ (List.replicate n (.go 0)) := by
    intro n s p
    rw [List.replicate_succ, Par.run, List.foldl_cons]
    rfl
  have hput := h
  simp only [Db.putEntry] at hput ⊢
  rw [hstep]
  by_cases hc : s.closed
  · simp only [Putting.step, hc, if_true] at hput ⊢
    rw [hdone 6 _ _ _ _ _ rfl]
    exact ⟨rfl, _, rfl⟩
  · simp only [Putting.step, hc] at hput ⊢
    cases hr : o.refused with
    | some e =>
      simp only [Bool.false_eq_true, if_false]
      rw [hdone 6 _ _ _ _ _ rfl]
      exact ⟨rfl, _, rfl⟩
    | none =>
      simp only [hr, Bool.false_eq_true, if_false, Db.setEntry] at hput ⊢
      rw [hstep]
      simp only [Putting.step]
      cases hp : s.packEntry v now (s.parseEntry v now o).1 (s.parseEntry v now o).2 with
      | none => simp [hp] at hput
      | some x =>
        obtain ⟨s1, hd, rec⟩ := x
        simp only [hp, Option.map_some] at hput ⊢
        rw [hstep]
        by_cases hm : s1.mem.closed
        · simp only [Putting.step, hm, if_true, MemDb.put, MemDb.putAt]
          rw [hdone 4 _ _ _ _ _ rfl]
          exact ⟨rfl, _, rfl⟩
        · simp only [Putting.step, hm, Bool.false_eq_true, if_false, MemDb.put, MemDb.putAt] at hput ⊢
          rw [hstep]
          cases hb : s1.mem.blocks.get s1.mem.cur with
          | none =>
            simp only [Putting.step, hb]
            rw [hdone 3 _ _ _ _ _ rfl]
            exact ⟨rfl, _, rfl⟩
          | some a =>
            simp only [Putting.step, hb] at hput ⊢
            rw [hstep]
            cases hbp : (s1.mem.at a).put v.mem.cap ⟨false, hd.seq⟩ rec with
            | none =>
              simp only [Putting.step, hbp]
              rw [hdone 2 _ _ _ _ _ rfl]
              exact ⟨rfl, _, rfl⟩
            | some b =>
              simp only [Putting.step, hbp] at hput ⊢
              rw [hstep]
              simp only [Putting.step]
              rw [hstep]
              cases ht : addTopic s1.trie hd rec with
              | none => simp [ht] at hput
              | some t =>
                simp only [Putting.step, ht]
                rw [hdone 0 _ _ _ _ _ rfl]
                exact ⟨rfl, _, rfl⟩

/-- No step changes the arguments of a put. -/
theorem Par.run_args (v : DbEnv) (sched : List ParOp) : ∀ P : Par, ((P.run v sched).puts.map fun p => (p.now, p.o)) = P.puts.map fun p => (p.now, p.o) := by
  have hp : ∀ (s : Db) (p : Putting), ((p.step v s).2.now, (p.step v s).2.o) = (p.now, p.o) := by
    intro s p
    simp only [Putting.step]
    repeat' split
    all_goals rfl
  induction sched with
  | nil => intro P; rfl
  | cons op sched ih =>
    intro P
    rw [Par.run, List.foldl_cons]
    refine (ih _).trans ?_
    cases op with
    | go i =>
      simp only [Par.step, Par.go]
      split
      · rfl
      · next p hi =>
        obtain ⟨l1, l2, h1, h2⟩ := getElem?_split hi (p.step v P.db).2
        rw [h2, h1]
        simp [hp]
    | _ => rfl

/-! ## A Get meanwhile -/

theorem filterMap_inj {α β : Type} {f : α → Option β} {l : List α} (h : (l.filterMap f).Nodup) {a b : α} (ha : a ∈ l) (hb : b ∈ l) {x : β}
    (ea : f a = some x) (eb : f b = some x) : a = b := by
  induction l with
  | nil => cases ha
  | cons c l ih =>
    rw [List.filterMap_cons] at h
    have hin : ∀ d ∈ l, f d = some x → x ∈ l.filterMap f := fun d hd e => List.mem_filterMap.2 ⟨d, hd, e⟩
    rcases List.mem_cons.1 ha with rfl | ha' <;> rcases List.mem_cons.1 hb with rfl | hb'
    · rfl
    · rw [ea] at h
      exact absurd (hin b hb' eb) (List.nodup_cons.1 h).1
    · rw [eb] at h
      exact absurd (hin a ha' ea) (List.nodup_cons.1 h).1
    · refine ih ?_ ha' hb'
      cases hc : f c with
      | none => rw [hc] at h; exact h
      | some y => rw [hc] at h; exact (List.nodup_cons.1 h).2

/-- Every sequence is used once. -/
theorem ParInv.kept_nodup {v : DbEnv} {tags : List Tag} {P : Par} {U W D : List Item} {L : Loc} {led : List (UInt64 × List WinEntry)}
    (H : ParInv v tags P U W D L led) : (tags.map (fun t => t.2.2.2.2) ++ P.puts.filterMap Putting.kept).Nodup := by
  have h := (H.tags.map fun t => t.2.2.2.2)
  rw [List.map_map, List.map_append (l₁ := tags), List.map_filterMap] at h
  have e : (P.puts.filterMap fun p => (p.tag v).map fun t : Tag => t.2.2.2.2) = P.puts.filterMap Putting.kept := by
    refine List.filterMap_congr fun p _ => ?_
    simp only [Putting.tag, Option.map_map]
    exact Option.map_id'
  rw [e] at h
  exact h.nodup H.base.nodup

/-- A Get during a burst. -/
theorem ParInv.get {v : DbEnv} (htest : ∀ ks k, k ∈ ks → v.mem.test ks k = true) {tags : List Tag} {P : Par} {U W D : List Item} {L : Loc}
    {led : List (UInt64 × List WinEntry)} (H : ParInv v tags P U W D L led) (g : GetEnv) (q : Query)
    (hlen : P.db.store.data.length < 2 ^ 63) (ht0 : q.topic ≠ []) (ht1 : q.topic.length ≤ 65536) (hcut : (q.ask v.dur g.now v.q).cutoff ≤ 0)
    (hlim : (tags.length + P.puts.length : Int) ≤ (q.ask v.dur g.now v.q).limit) (how : ∀ w, (g.orderWin w).Perm w) (hot : ∀ ts, (g.orderTopics ts).Perm ts)
    (hst : Spec.isStatic (Spec.topicText q.topic) = true) (hlq : (Spec.levels (Spec.topicText q.topic)).length ≤ 255)
    (hown : ∀ i ∈ U ++ W ++ D, ∀ j ∈ U ++ W ++ D, i.hash = j.hash → (parseTopic i.contract i.topic).1.parts = (parseTopic j.contract j.topic).1.parts)
    (hcw : ∀ i ∈ U ++ W ++ D, i.contract ≠ wildcardHash)
    (hh : ∀ i ∈ U ++ W ++ D, ∀ p ∈ Spec.levels (Spec.topicText i.topic), Spec.isStar p = false → Hash.withSalt p i.contract ≠ wildcardHash ∧
      ∀ t ∈ Spec.levels (Spec.topicText q.topic), Hash.withSalt p i.contract = Hash.withSalt t i.contract → p = t)
    (hfirst : ∀ i ∈ U ++ W ++ D, i.contract = (q.ask v.dur g.now v.q).contract → Spec.covers (Spec.topicText i.topic) (Spec.topicText q.topic) = true →
      (readWindowBlock P.db.winFile 0).map (·.topicHash) ≠ some i.hash)
    (hcap : tags.length + P.puts.length ≤ g.cap) :
    ∃ sel : Item → Bool, (∀ i ∈ U ++ W ++ D, sel i = true → i.contract = (q.ask v.dur g.now v.q).contract ∧
        Spec.covers (Spec.topicText i.topic) (Spec.topicText q.topic) = true) ∧
      (∀ i ∈ U ++ D, taught P.puts i → i.contract = (q.ask v.dur g.now v.q).contract →
        Spec.covers (Spec.topicText i.topic) (Spec.topicText q.topic) = true → sel i = true) ∧
      (P.db.get v g q []).2 = .out (.ok ((byseq ((U ++ D).filter fun i => sel i && !i.win.isExpired (toU32 (unixSec g.now)))).map Item.payload)) := by
  obtain ⟨ops, htr, hops1, hops2⟩ := H.base.trie
  have htr : P.db.trie = Trie.ofTopics ops := htr
  have hUD : ∀ i ∈ U ++ D, i ∈ U ++ W ++ D := by
    intro i hi
    simp only [List.mem_append] at hi ⊢
    tauto
  have hsubl : (U ++ D).Sublist (U ++ W ++ D) := (List.sublist_append_left U W).append_right D
  have hS : DbServes v P.db U D (U ++ W ++ D) L led := {
    opened := H.base.opened
    sub := hUD
    ok := H.base.ok
    nodup := H.base.nodup.sublist (hsubl.map _)
    winNodup := H.winNodup
    win := H.win
    store := H.base.store
    stored := H.base.stored
    hist := H.base.hist
    synced := H.base.synced
    trie := ⟨ops, htr, hops2⟩ }
  have hC := fun (ops' : List TopicOp) (i : Item) (hi : i ∈ U ++ W ++ D) (off) (hin : TopicOp.add i.contract i.topic off ∈ ops')
      (hsub : ∀ c key off, TopicOp.add c key off ∈ ops' → ∃ i ∈ U ++ W ++ D, i.contract = c ∧ i.topic = key) =>
    C16_covers_exact_partial ops' i.contract i.topic off hin (by
      intro c' key' off' h'
      obtain ⟨j, hj, rfl, rfl⟩ := hsub c' key' off' h'
      exact (H.base.ok j hj).plain) (by
      intro c' key' off' h' he
      obtain ⟨j, hj, rfl, rfl⟩ := hsub c' key' off' h'
      exact hown j hj i hi he) (q.ask v.dur g.now v.q).contract q.topic hst (H.base.ok i hi).levels hlq (hcw i hi) (hh i hi)
  have hdep := depth_consistent ops (by
    intro c key off hin
    obtain ⟨i, hi, _, rfl⟩ := hops2 c key off hin
    exact (H.base.ok i hi).plain)
  have hA : ∀ i ∈ U ++ W ++ D, i.hash ∈ (P.db.trie.find (q.ask v.dur g.now v.q).contract q.topic).map TTopic.hash →
      i.contract = (q.ask v.dur g.now v.q).contract ∧ Spec.covers (Spec.topicText i.topic) (Spec.topicText q.topic) = true := by
    intro i hi hf
    rw [htr] at hf
    refine (hC (ops ++ [.add i.contract i.topic 0]) i hi 0 (by simp) ?_).1 ?_
    · intro c key off hin
      rcases List.mem_append.1 hin with hin | hin
      · exact hops2 c key off hin
      · rw [List.mem_singleton] at hin
        cases hin
        exact ⟨i, hi, rfl, rfl⟩
    · rw [← (addTopic_fresh rfl i.contract i.topic).1]
      obtain ⟨x, hx, e⟩ := List.mem_map.1 hf
      have ho := (offset_of_find depthOf hdep hx).1
      have : (Trie.ofTopics ops).add ⟨topicHash i.contract i.topic, 0⟩ (parseTopic i.contract i.topic).1.parts (parseTopic i.contract i.topic).1.depth = Trie.ofTopics ops := by
        rw [e] at ho
        simp only [Trie.getOffset] at ho
        rw [Trie.add]
        show (match (Trie.ofTopics ops).summary.lookup i.hash with | some _ => _ | none => _) = _
        split
        · rfl
        · next hn => rw [hn] at ho; simp at ho
      rw [this]
      exact hf
  obtain ⟨sel, hsel⟩ : ∃ sel : Item → Bool, sel = fun i => decide (i.hash ∈ (P.db.trie.find (q.ask v.dur g.now v.q).contract q.topic).map TTopic.hash) := ⟨_, rfl⟩
  have hsl : ∀ i, i.hash ∈ (P.db.trie.find (q.ask v.dur g.now v.q).contract q.topic).map TTopic.hash ↔ sel i = true := by
    intro i; rw [hsel]; exact decide_eq_true_iff.symm
  have hlenX : (U ++ D).length ≤ tags.length + P.puts.length := by
    have h1 := H.tags.length_eq
    rw [List.length_map, List.length_append (as := tags)] at h1
    have h2 := List.length_filterMap_le (Putting.tag v) P.puts
    have h3 := hsubl.length_le
    omega
  refine ⟨sel, fun i hi hs => hA i hi ((hsl i).2 hs), ?_, ?_⟩
  · intro i hi hk hc hcov
    obtain ⟨off, hadd⟩ := hops1 i (hUD i hi) hk
    rw [← hsl i, htr]
    exact (hC ops i (hUD i hi) off hadd hops2).2 ⟨hc, hcov⟩
  · obtain ⟨w, HW⟩ := H.base.hist
    have hn := H.base.nodup
    rw [List.map_append, List.map_append, List.nodup_append, List.nodup_append] at hn
    obtain ⟨m, _, hg⟩ := hS.get htest hlen g q ht0 ht1 hcut how hot sel (by
        have := List.length_filter_le sel (U ++ D)
        omega) (fun i _ => hsl i) (fun i hi hs => (hA i (hUD i hi) ((hsl i).2 hs)).1) (by
        intro i hi hs hc
        obtain ⟨h1, h2⟩ := hA i hi ((hsl i).2 hs)
        exact hfirst i hi h1 h2 (firstBlock HW hc)) (by
        refine le_trans (List.length_filter_le _ _) ?_
        omega) P.db.mem (memMap (U ++ W)) H.base.mem (by
        intro i hi _
        have : (W.find? fun j => j.seq = i.seq) = none := by
          rw [List.find?_eq_none]
          intro j hj hc
          have hc : j.seq = i.seq := of_decide_eq_true hc
          rcases List.mem_append.1 hi with hi | hi
          · exact hn.1.2.2 i.seq (List.mem_map_of_mem hi) j.seq (List.mem_map_of_mem hj) hc.symm
          · exact hn.2.2 j.seq (List.mem_append_right _ (List.mem_map_of_mem hj)) i.seq (List.mem_map_of_mem hi) hc
        rw [memMap, memMap, List.find?_append, this, Option.or_none]) P.db.store.lease P.db.count
    exact congrArg Prod.snd hg

/-! ## C79 -/

/-- A message that a query asks for. -/
def Spec.asked (contract : UInt32) (topic : Bytes) (now : UInt32) (m : Spec.Message) : Bool :=
  m.contract = contract && Spec.covers (Spec.topicText m.topic) (Spec.topicText topic) && m.alive now

/-- The message of a put, without its sequence. -/
def Spec.IsOf (v : DbEnv) (m : Spec.Message) (p : Putting) : Prop :=
  m.contract = Spec.contractOf p.o ∧ m.topic = p.o.topic ∧ m.payload = p.o.payload ∧ m.expiry = storedExpiry v.dur p.now p.o.topic p.o.expiresAt

/-- Contract and topic of the messages put before and of those being put. -/
def Spec.topicsOf (ms : List Spec.Message) (ps : List Putting) : List (UInt32 × Bytes) :=
  (ms.map fun m => (m.contract, m.topic)) ++ ps.map fun p => (Spec.contractOf p.o, p.o.topic)

/-- C79 (partial: no rotation of the tiny log and no sync during the puts, see `C79_unseen_violated` and `C79_lost_violated`; otherwise as in
C68). While puts run at the same time, at whatever point each of them is, a Get returns every message asked for whose put has
returned, and apart from those put before only messages of puts that have begun; each once, the one with the highest sequence first. -/
theorem C79_meanwhile_partial (v : DbEnv) (hs : v.mac.cipher.Sound) (hde : ∀ x, v.decode (v.encode x) = some x)
    (htest : ∀ ks k, k ∈ ks → v.mem.test ks k = true) (s : Db) (ms : List Spec.Message) (quiet : Bool) (H : Spec.Story v s ms quiet)
    (ps : List Putting) (sched : List ParOp) (hl : s.seq.toNat + sched.length ≤ 255 * 524287)
    (hf : ∀ p ∈ ps, p.pc = .start ∧ Spec.Fresh v s ms p.o) (hid : (ps.filterMap fun p => p.o.id.bind idSequence).Nodup)
    (P : Par) (hP : P = Par.run v ⟨s, ps⟩ sched)
    (g : GetEnv) (q : Query) (hlen : P.db.store.data.length < 2 ^ 63) (ht0 : q.topic ≠ []) (ht1 : q.topic.length ≤ 65536)
    (hcut : (q.ask v.dur g.now v.q).cutoff ≤ 0) (hlim : (ms.length + ps.length : Int) ≤ (q.ask v.dur g.now v.q).limit)
    (how : ∀ w, (g.orderWin w).Perm w) (hot : ∀ ts, (g.orderTopics ts).Perm ts)
    (hst : Spec.isStatic (Spec.topicText q.topic) = true) (hlq : (Spec.levels (Spec.topicText q.topic)).length ≤ 255)
    (hown : ∀ t ∈ Spec.topicsOf ms ps, ∀ t' ∈ Spec.topicsOf ms ps, topicHash t.1 t.2 = topicHash t'.1 t'.2 →
      (parseTopic t.1 t.2).1.parts = (parseTopic t'.1 t'.2).1.parts)
    (hcw : ∀ t ∈ Spec.topicsOf ms ps, t.1 ≠ wildcardHash)
    (hh : ∀ t ∈ Spec.topicsOf ms ps, ∀ p ∈ Spec.levels (Spec.topicText t.2), Spec.isStar p = false → Hash.withSalt p t.1 ≠ wildcardHash ∧
      ∀ l ∈ Spec.levels (Spec.topicText q.topic), Hash.withSalt p t.1 = Hash.withSalt l t.1 → p = l)
    (hfirst : ∀ t ∈ Spec.topicsOf ms ps, t.1 = (q.ask v.dur g.now v.q).contract → Spec.covers (Spec.topicText t.2) (Spec.topicText q.topic) = true →
      (readWindowBlock P.db.winFile 0).map (·.topicHash) ≠ some (topicHash t.1 t.2))
    (hcap : ms.length + ps.length ≤ g.cap) :
    ∃ out : List Spec.Message, (P.db.get v g q []).2 = .out (.ok (out.map (·.payload))) ∧ out.Pairwise (fun a b => a.seq > b.seq) ∧
      (∀ m ∈ ms ++ P.puts.filterMap (Spec.returned v), Spec.asked (q.ask v.dur g.now v.q).contract q.topic (toU32 (unixSec g.now)) m = true → m ∈ out) ∧
      ∀ m ∈ out, Spec.asked (q.ask v.dur g.now v.q).contract q.topic (toU32 (unixSec g.now)) m = true ∧
        (m ∈ ms ∨ ∃ p ∈ P.puts, p.pc ≠ .start ∧ Spec.IsOf v m p) := by
  obtain ⟨U0, D, L, led, I, hp, _, hm⟩ := story_inv hs hde htest H
  have H0 := ParInv.init I (ps := ps) (fun p h => ⟨(hf p h).1, (hf p h).2.sane, (hf p h).2.parsed, (hf p h).2.topicSize, (hf p h).2.plain, (hf p h).2.levels⟩)
    hid (by
      intro q hq
      obtain ⟨p, h1, h2⟩ := List.mem_filterMap.1 hq
      obtain ⟨id, h3, h4⟩ := Option.bind_eq_some_iff.1 h2
      obtain ⟨h5, h6⟩ := (hf p h1).2.id id q h3 h4
      exact ⟨h5, fun i hi => h6 i.msg (hp.mem_iff.1 (List.mem_map_of_mem hi))⟩)
  obtain ⟨U, W, HP, _, _⟩ := H0.run hs hde htest sched hl hm
  have hargs := Par.run_args v sched ⟨s, ps⟩
  rw [← hP] at HP hargs
  have hlp : P.puts.length = ps.length := by simpa using congrArg List.length hargs
  have htl : ((U0 ++ D).map Item.tag).length = ms.length := by
    rw [List.length_map, ← hp.length_eq, List.length_map]
  -- where the items come from
  have hfrom : ∀ i ∈ U ++ W ++ D, i.msg ∈ ms ∨ ∃ p ∈ P.puts, p.kept = some i.seq ∧ Spec.IsOf v i.msg p := by
    intro i hi
    have : i.tag ∈ (U0 ++ D).map Item.tag ++ P.puts.filterMap (Putting.tag v) := HP.tags.mem_iff.1 (List.mem_map_of_mem hi)
    rcases List.mem_append.1 this with h | h
    · left
      obtain ⟨j, hj, e⟩ := List.mem_map.1 h
      have : j.msg = i.msg := congrArg Tag.msg e
      rw [← this]
      exact hp.mem_iff.1 (List.mem_map_of_mem hj)
    · right
      obtain ⟨p, hpm, e⟩ := List.mem_filterMap.1 h
      refine ⟨p, hpm, ?_⟩
      simp only [Putting.tag, Option.map_eq_some_iff, Item.tag, Prod.mk.injEq] at e
      obtain ⟨q, h1, h2, h3, h4, h5, h6⟩ := e
      exact ⟨by rw [h1, h6], h2.symm, h3.symm, h4.symm, h5.symm⟩
  have htopics : ∀ i ∈ U ++ W ++ D, (i.contract, i.topic) ∈ Spec.topicsOf ms ps := by
    intro i hi
    rcases hfrom i hi with h | ⟨p, hpm, _, h1, h2, _⟩
    · exact List.mem_append_left _ (List.mem_map.2 ⟨i.msg, h, rfl⟩)
    · refine List.mem_append_right _ ?_
      have : (p.now, p.o) ∈ ps.map fun p => (p.now, p.o) := by rw [← hargs]; exact List.mem_map.2 ⟨p, hpm, rfl⟩
      obtain ⟨p', hp', e⟩ := List.mem_map.1 this
      simp only [Prod.mk.injEq] at e
      refine List.mem_map.2 ⟨p', hp', ?_⟩
      rw [e.2]
      exact Prod.ext h1.symm h2.symm
  obtain ⟨sel, h1, h2, hget⟩ := HP.get htest g q hlen ht0 ht1 hcut (by rw [htl, hlp]; exact hlim) how hot hst hlq
    (fun i hi j hj => hown _ (htopics i hi) _ (htopics j hj)) (fun i hi => hcw _ (htopics i hi)) (fun i hi => hh _ (htopics i hi))
    (fun i hi => hfirst _ (htopics i hi)) (by rw [htl, hlp]; exact hcap)
  generalize hc : (q.ask v.dur g.now v.q).contract = c at *
  generalize hnow : toU32 (unixSec g.now) = now at *
  have hexp : ∀ i : Item, (!i.win.isExpired now) = i.msg.alive now := by
    intro i
    simp only [WinEntry.isExpired, Item.win, Spec.Message.alive, Item.msg]
    by_cases e0 : i.exp = 0
    · simp [e0]
    · by_cases e1 : i.exp ≤ now
      · have : ¬ now < i.exp := UInt32.not_lt.2 e1
        simp [e0, e1, this]
      · have : now < i.exp := UInt32.not_le.1 e1
        simp [e0, e1, this]
  have hasked : ∀ i : Item, Spec.asked c q.topic now i.msg = true ↔
      i.contract = c ∧ Spec.covers (Spec.topicText i.topic) (Spec.topicText q.topic) = true ∧ (!i.win.isExpired now) = true := by
    intro i
    rw [hexp, Spec.asked]
    simp only [Bool.and_eq_true, decide_eq_true_eq]
    exact and_assoc
  have hUD : ∀ i ∈ U ++ D, i ∈ U ++ W ++ D := by
    intro i hi
    simp only [List.mem_append] at hi ⊢
    tauto
  have hnd := HP.kept_nodup
  have hndk : (P.puts.filterMap Putting.kept).Nodup := (List.nodup_append.1 hnd).2.1
  -- a sequence whose put is over
  have hover : ∀ q : UInt64, (q ∈ ((U0 ++ D).map Item.tag).map (fun t => t.2.2.2.2) ∨ ∃ p ∈ P.puts, ∃ o out, p.pc = .done o (some q) out) →
      q ∉ P.puts.filterMap Putting.untaught ∧ q ∉ P.puts.filterMap Putting.unlisted := by
    intro q hq
    have hno : ∀ p ∈ P.puts, p.kept = some q → (∃ o out, p.pc = .done o (some q) out) := by
      intro p hpm hk
      rcases hq with hq | ⟨p', hp', o, out, hpc⟩
      · exact absurd rfl ((List.nodup_append.1 hnd).2.2 q hq q (List.mem_filterMap.2 ⟨p, hpm, hk⟩))
      · have : p = p' := filterMap_inj hndk hpm hp' hk (by simp only [Putting.kept, hpc])
        rw [this]
        exact ⟨o, out, hpc⟩
    constructor
    · intro hin
      obtain ⟨p, hpm, e⟩ := List.mem_filterMap.1 hin
      have hk : p.kept = some q := by
        simp only [Putting.untaught] at e
        simp only [Putting.kept]
        split at e
        · next hpc => simp only [hpc]; exact e
        · next hpc => simp only [hpc]; exact e
        · cases e
      obtain ⟨o, out, hpc⟩ := hno p hpm hk
      simp [Putting.untaught, hpc] at e
    · intro hin
      obtain ⟨p, hpm, e⟩ := List.mem_filterMap.1 hin
      have hk : p.kept = some q := by
        simp only [Putting.unlisted] at e
        simp only [Putting.kept]
        split at e
        · next hpc => simp only [hpc]; exact e
        · cases e
      obtain ⟨o, out, hpc⟩ := hno p hpm hk
      simp [Putting.unlisted, hpc] at e
  refine ⟨(byseq ((U ++ D).filter fun i => sel i && !i.win.isExpired now)).map Item.msg, ?_, ?_, ?_, ?_⟩
  · rw [hget, List.map_map]; rfl
  · rw [List.pairwise_map]
    have hn : ((byseq ((U ++ D).filter fun i => sel i && !i.win.isExpired now)).map Item.seq).Nodup :=
      (((byseq_perm _).map _).nodup_iff).2 (HP.base.nodup.sublist
        (List.Sublist.map _ (List.filter_sublist.trans ((List.sublist_append_left U W).append_right D))))
    rw [List.Nodup, List.pairwise_map] at hn
    refine ((byseq_sorted _).and hn).imp ?_
    intro a b h
    exact UInt64.lt_of_le_of_ne h.1 (Ne.symm h.2)
  · intro m hm' ha
    -- the item
    have hitem : ∃ i ∈ U ++ W ++ D, i.msg = m ∧ (m.seq ∈ ((U0 ++ D).map Item.tag).map (fun t => t.2.2.2.2) ∨
        ∃ p ∈ P.puts, ∃ o out, p.pc = .done o (some m.seq) out) := by
      rcases List.mem_append.1 hm' with h | h
      · obtain ⟨j, hj, rfl⟩ := List.mem_map.1 (hp.mem_iff.2 h)
        have : j.tag ∈ (U ++ W ++ D).map Item.tag := HP.tags.mem_iff.2 (List.mem_append_left _ (List.mem_map_of_mem hj))
        obtain ⟨i, hi, e⟩ := List.mem_map.1 this
        refine ⟨i, hi, congrArg Tag.msg e, .inl ?_⟩
        exact List.mem_map.2 ⟨j.tag, List.mem_map_of_mem hj, rfl⟩
      · obtain ⟨p, hpm, e⟩ := List.mem_filterMap.1 h
        simp only [Spec.returned] at e
        split at e
        · next o q' hpc =>
          simp only [Option.some.injEq] at e
          have ht : p.tag v = some (Spec.contractOf p.o, p.o.topic, p.o.payload, storedExpiry v.dur p.now p.o.topic p.o.expiresAt, q') := by
            simp only [Putting.tag, Putting.kept, hpc, Option.map_some]
          have : (Spec.contractOf p.o, p.o.topic, p.o.payload, storedExpiry v.dur p.now p.o.topic p.o.expiresAt, q') ∈ (U ++ W ++ D).map Item.tag :=
            HP.tags.mem_iff.2 (List.mem_append_right _ (List.mem_filterMap.2 ⟨p, hpm, ht⟩))
          obtain ⟨i, hi, e'⟩ := List.mem_map.1 this
          refine ⟨i, hi, (congrArg Tag.msg e').trans e, .inr ⟨p, hpm, o, .ok, ?_⟩⟩
          rw [hpc, ← e]
        · cases e
    obtain ⟨i, hi, rfl, hq⟩ := hitem
    obtain ⟨hq1, hq2⟩ := hover i.seq hq
    have hiUD : i ∈ U ++ D := by
      simp only [List.mem_append] at hi ⊢
      rcases hi with (hi | hi) | hi
      · exact .inl hi
      · exact absurd (HP.unlisted.mem_iff.1 (List.mem_map_of_mem hi)) hq2
      · exact .inr hi
    obtain ⟨a1, a2, a3⟩ := (hasked i).1 ha
    refine List.mem_map_of_mem ((byseq_perm _).mem_iff.2 (List.mem_filter.2 ⟨hiUD, ?_⟩))
    rw [Bool.and_eq_true]
    exact ⟨h2 i hiUD hq1 a1 a2, a3⟩
  · intro m hm'
    obtain ⟨i, hi, rfl⟩ := List.mem_map.1 hm'
    have hi := (byseq_perm _).mem_iff.1 hi
    rw [List.mem_filter, Bool.and_eq_true] at hi
    obtain ⟨hi, hsl, hal⟩ := hi
    obtain ⟨a1, a2⟩ := h1 i (hUD i hi) hsl
    refine ⟨(hasked i).2 ⟨a1, a2, hal⟩, (hfrom i (hUD i hi)).imp id ?_⟩
    rintro ⟨p, hpm, hk, hof⟩
    refine ⟨p, hpm, ?_, hof⟩
    intro hpc
    simp [Putting.kept, hpc] at hk

/-- C79 (partial: no rotation of the tiny log and no sync during the puts). Of puts that run at the same time each returns what it may: the
message is put, or it was refused for its sizes, or the block is full. Every message put has a sequence of its own. -/
theorem C79_returns_partial (v : DbEnv) (hs : v.mac.cipher.Sound) (hde : ∀ x, v.decode (v.encode x) = some x)
    (htest : ∀ ks k, k ∈ ks → v.mem.test ks k = true) (s : Db) (ms : List Spec.Message) (quiet : Bool) (H : Spec.Story v s ms quiet)
    (ps : List Putting) (sched : List ParOp) (hl : s.seq.toNat + sched.length ≤ 255 * 524287)
    (hf : ∀ p ∈ ps, p.pc = .start ∧ Spec.Fresh v s ms p.o) (hid : (ps.filterMap fun p => p.o.id.bind idSequence).Nodup)
    (P : Par) (hP : P = Par.run v ⟨s, ps⟩ sched) (ho : P.over = true) :
    (∀ p ∈ P.puts, (∃ m, Spec.returned v p = some m ∧ Spec.IsOf v m p) ∨ ∃ o e, p.pc = .done o none (.err e) ∧ (p.o.refused = some e ∨ e = .full)) ∧
    (P.puts.map fun p => (p.now, p.o)) = (ps.map fun p => (p.now, p.o)) ∧
    ((ms ++ P.puts.filterMap (Spec.returned v)).map (·.seq)).Nodup := by
  obtain ⟨U0, D, L, led, I, hp, _, hm⟩ := story_inv hs hde htest H
  have H0 := ParInv.init I (ps := ps) (fun p h => ⟨(hf p h).1, (hf p h).2.sane, (hf p h).2.parsed, (hf p h).2.topicSize, (hf p h).2.plain, (hf p h).2.levels⟩)
    hid (by
      intro q hq
      obtain ⟨p, h1, h2⟩ := List.mem_filterMap.1 hq
      obtain ⟨id, h3, h4⟩ := Option.bind_eq_some_iff.1 h2
      obtain ⟨h5, h6⟩ := (hf p h1).2.id id q h3 h4
      exact ⟨h5, fun i hi => h6 i.msg (hp.mem_iff.1 (List.mem_map_of_mem hi))⟩)
  obtain ⟨U, W, HP, _, _⟩ := H0.run hs hde htest sched hl hm
  have hargs := Par.run_args v sched ⟨s, ps⟩
  rw [← hP] at HP hargs
  obtain ⟨U', I', h1, _, _⟩ := burst_inv hs hde htest I hp hm ps sched hl hf hid (by rw [← hP]; exact ho)
  rw [← hP] at h1 I'
  refine ⟨?_, hargs, ?_⟩
  · intro p hpm
    have hat := HP.puts p hpm
    have hov := List.all_eq_true.1 ho p hpm
    obtain ⟨pc, hpc⟩ : ∃ pc, pc = p.pc := ⟨_, rfl⟩
    simp only [Putting.At, ← hpc] at hat
    rw [← hpc] at hov
    cases pc with
    | done o q out =>
      simp only at hat hov
      cases out with
      | ok =>
        have hq : q.isSome = true := hat.1.2 rfl
        obtain ⟨q, rfl⟩ := Option.isSome_iff_exists.1 hq
        left
        exact ⟨⟨Spec.contractOf p.o, p.o.topic, p.o.payload, storedExpiry v.dur p.now p.o.topic p.o.expiresAt, q⟩, by simp only [Spec.returned, ← hpc],
          rfl, rfl, rfl, rfl⟩
      | err e =>
        right
        have hq : q = none := by
          cases q with
          | none => rfl
          | some q => have := hat.1.1 rfl; cases this
        subst hq
        have he : p.o.refused = some e ∨ e = .full := by simpa using hat.2
        exact ⟨o, e, hpc.symm, he⟩
      | hang => simp at hat
      | panic => cases hov
    | _ => cases hov
  · have h2 := h1.map (·.seq)
    rw [List.map_map] at h2
    exact h2.nodup I'.nodup

/-- C79 (partial, as C68, and no rotation of the tiny log and no sync during the puts). After puts that ran at the same time a Get returns
exactly what was put before and what they put. -/
theorem C79_afterwards_partial (v : DbEnv) (hs : v.mac.cipher.Sound) (hde : ∀ x, v.decode (v.encode x) = some x)
    (htest : ∀ ks k, k ∈ ks → v.mem.test ks k = true) (s : Db) (ms : List Spec.Message) (quiet : Bool) (H : Spec.Story v s ms quiet)
    (ps : List Putting) (sched : List ParOp) (hl : s.seq.toNat + sched.length ≤ 255 * 524287)
    (hf : ∀ p ∈ ps, p.pc = .start ∧ Spec.Fresh v s ms p.o) (hid : (ps.filterMap fun p => p.o.id.bind idSequence).Nodup)
    (P : Par) (hP : P = Par.run v ⟨s, ps⟩ sched) (ho : P.over = true) (ms' : List Spec.Message) (hms : ms' = ms ++ P.puts.filterMap (Spec.returned v))
    (g : GetEnv) (q : Query) (hlen : P.db.store.data.length < 2 ^ 63) (ht0 : q.topic ≠ []) (ht1 : q.topic.length ≤ 65536)
    (hcut : (q.ask v.dur g.now v.q).cutoff ≤ 0) (hlim : ((Spec.addressed ms' (q.ask v.dur g.now v.q).contract q.topic 0).length : Int) ≤ (q.ask v.dur g.now v.q).limit)
    (how : ∀ w, (g.orderWin w).Perm w) (hot : ∀ ts, (g.orderTopics ts).Perm ts)
    (hst : Spec.isStatic (Spec.topicText q.topic) = true) (hlq : (Spec.levels (Spec.topicText q.topic)).length ≤ 255)
    (hown : ∀ m ∈ ms', ∀ m' ∈ ms', topicHash m.contract m.topic = topicHash m'.contract m'.topic →
      (parseTopic m.contract m.topic).1.parts = (parseTopic m'.contract m'.topic).1.parts)
    (hcw : ∀ m ∈ ms', m.contract ≠ wildcardHash)
    (hh : ∀ m ∈ ms', ∀ p ∈ Spec.levels (Spec.topicText m.topic), Spec.isStar p = false → Hash.withSalt p m.contract ≠ wildcardHash ∧
      ∀ t ∈ Spec.levels (Spec.topicText q.topic), Hash.withSalt p m.contract = Hash.withSalt t m.contract → p = t)
    (hfirst : ∀ m ∈ Spec.addressed ms' (q.ask v.dur g.now v.q).contract q.topic 0,
      (readWindowBlock P.db.winFile 0).map (·.topicHash) ≠ some (topicHash m.contract m.topic))
    (hcap : (Spec.addressed ms' (q.ask v.dur g.now v.q).contract q.topic (toU32 (unixSec g.now))).length ≤ g.cap) :
    ∃ out : List Spec.Message, (P.db.get v g q []).2 = .out (.ok (out.map (·.payload))) ∧
      out.Perm (Spec.addressed ms' (q.ask v.dur g.now v.q).contract q.topic (toU32 (unixSec g.now))) ∧ out.Pairwise (fun a b => a.seq > b.seq) := by
  subst hP hms
  exact C68_put_get_partial v hs hde htest _ _ _ (.burst ps sched H hl hf hid ho) g q hlen ht0 ht1 hcut hlim how hot hst hlq hown hcw hh hfirst hcap

/-! ## A concrete burst -/

def toyPutting (topic : Bytes) (x : UInt8) : Putting := { now := toyNow, o := { topic := topic, payload := [x, x, x, x] } }

/-- Two puts in topics `b.c` and `b.*` and one that is refused, with a write to the log and a Get between their steps. -/
def toyPuts : List Putting := [toyPutting [98, 46, 99] 8, toyPutting [98, 46, 42] 9, { now := toyNow, o := { topic := [], payload := [1, 1, 1, 1] } }]

def toySched : List ParOp :=
  [.go 0, .go 1, .go 1, .go 0, .write 5001 5000, .go 1, .go 1, .go 0, .go 2, .get .toy (newQuery [98, 46, 99]) [], .go 1, .go 1, .go 1, .go 0, .go 0, .newId toyNow,
    .go 0, .go 0]

/-- The second of the puts has returned, the first has stored its message. -/
def toyHalf : List ParOp := toySched.take 15

/-- The history before: two messages, one of them synced. -/
def toyBefore : List DbOp := [toyPut [98, 46, 99] 1, toyPut [97] 3, .write 5001 5000, .rotate 6000, .sync .toy, toyPut [98, 46, 99] 4]

theorem toyPuts_fresh (s : Db) (ms : List Spec.Message) : ∀ p ∈ toyPuts, p.pc = .start ∧ Spec.Fresh .toy s ms p.o := by
  intro p hp
  have h : ∀ p ∈ toyPuts, p.pc = .start ∧ p.o.id = none ∧ p.o.parsed = false ∧ p.o.topicSize = 0 ∧ p.o.payload.length ≤ 100 ∧
      Spec.startsWithStar (Spec.topicText p.o.topic) = false ∧ (Spec.levels (Spec.topicText p.o.topic)).length ≤ 254 := by decide +kernel
  obtain ⟨h1, h2, h3, h4, h5, h6, h7⟩ := h p hp
  refine ⟨h1, saneToy p.o (by rw [h2]; intro b hb; cases hb) (by omega), h3, h4, h6, h7, ?_⟩
  intro id q hi
  rw [h2] at hi; cases hi

/-- The hypotheses of `C79_afterwards_partial` and `C79_returns_partial` hold of that burst: four messages for `b.c`. -/
example : ∃ (s : Db) (ms : List Spec.Message) (quiet : Bool) (P : Par), Spec.Story .toy s ms quiet ∧ P = Par.run .toy ⟨s, toyPuts⟩ toySched ∧
    s.seq.toNat + toySched.length ≤ 255 * 524287 ∧ (∀ p ∈ toyPuts, p.pc = .start ∧ Spec.Fresh .toy s ms p.o) ∧
    (toyPuts.filterMap fun p => p.o.id.bind idSequence).Nodup ∧ P.over = true ∧
    toyAsk P.db (ms ++ P.puts.filterMap (Spec.returned .toy)) .toy (newQuery [98, 46, 99]) ∧
    (Spec.addressed (ms ++ P.puts.filterMap (Spec.returned .toy)) 3376684800 [98, 46, 99] 1600000000).length = 4 ∧
    (P.db.get .toy .toy (newQuery [98, 46, 99]) []).2 = .out (.ok [[8, 8, 8, 8], [9, 9, 9, 9], [4, 4, 4, 4], [1, 1, 1, 1]]) := by
  have h : ((toyStory toyBefore).map fun x =>
      let P := Par.run .toy ⟨x.1, toyPuts⟩ toySched
      decide (x.1.seq.toNat + toySched.length ≤ 255 * 524287 ∧ P.over = true ∧
        toyAsk P.db (x.2.1 ++ P.puts.filterMap (Spec.returned .toy)) .toy (newQuery [98, 46, 99]) ∧
        (Spec.addressed (x.2.1 ++ P.puts.filterMap (Spec.returned .toy)) 3376684800 [98, 46, 99] 1600000000).length = 4 ∧
        (P.db.get .toy .toy (newQuery [98, 46, 99]) []).2 = .out (.ok [[8, 8, 8, 8], [9, 9, 9, 9], [4, 4, 4, 4], [1, 1, 1, 1]]))) = some true := by decide +kernel
  rw [Option.map_eq_some_iff] at h
  obtain ⟨x, h1, h2⟩ := h
  obtain ⟨h3, h4, h5, h6, h7⟩ := of_decide_eq_true h2
  exact ⟨x.1, x.2.1, x.2.2, _, toyStory_story h1, rfl, h3, toyPuts_fresh _ _, by decide +kernel, h4, h5, h6, h7⟩

/-- The hypotheses of `C79_meanwhile_partial` about a query, in the toy environment. -/
def toyAskMeanwhile (P : Par) (ms : List Spec.Message) (ps : List Putting) (g : GetEnv) (q : Query) : Prop :=
  P.db.store.data.length < 2 ^ 63 ∧ q.topic ≠ [] ∧ q.topic.length ≤ 65536 ∧ (q.ask DbEnv.toy.dur g.now DbEnv.toy.q).cutoff ≤ 0 ∧
  (ms.length + ps.length : Int) ≤ (q.ask DbEnv.toy.dur g.now DbEnv.toy.q).limit ∧ Spec.isStatic (Spec.topicText q.topic) = true ∧
  (Spec.levels (Spec.topicText q.topic)).length ≤ 255 ∧
  (∀ t ∈ Spec.topicsOf ms ps, ∀ t' ∈ Spec.topicsOf ms ps, topicHash t.1 t.2 = topicHash t'.1 t'.2 →
      (parseTopic t.1 t.2).1.parts = (parseTopic t'.1 t'.2).1.parts) ∧
  (∀ t ∈ Spec.topicsOf ms ps, t.1 ≠ wildcardHash) ∧
  (∀ t ∈ Spec.topicsOf ms ps, ∀ p ∈ Spec.levels (Spec.topicText t.2), Spec.isStar p = false → Hash.withSalt p t.1 ≠ wildcardHash ∧
      ∀ l ∈ Spec.levels (Spec.topicText q.topic), Hash.withSalt p t.1 = Hash.withSalt l t.1 → p = l) ∧
  (∀ t ∈ Spec.topicsOf ms ps, t.1 = (q.ask DbEnv.toy.dur g.now DbEnv.toy.q).contract → Spec.covers (Spec.topicText t.2) (Spec.topicText q.topic) = true →
      (readWindowBlock P.db.winFile 0).map (·.topicHash) ≠ some (topicHash t.1 t.2)) ∧
  ms.length + ps.length ≤ g.cap

instance (P : Par) (ms : List Spec.Message) (ps : List Putting) (g : GetEnv) (q : Query) : Decidable (toyAskMeanwhile P ms ps g q) := by
  unfold toyAskMeanwhile; infer_instance

/-- The hypotheses of `C79_meanwhile_partial` hold in the middle of that burst. The message of the put that has returned is found, as are those
put before; the other put has stored its message, but it is not found yet. -/
example : ∃ (s : Db) (ms : List Spec.Message) (quiet : Bool) (P : Par), Spec.Story .toy s ms quiet ∧ P = Par.run .toy ⟨s, toyPuts⟩ toyHalf ∧
    s.seq.toNat + toyHalf.length ≤ 255 * 524287 ∧ (∀ p ∈ toyPuts, p.pc = .start ∧ Spec.Fresh .toy s ms p.o) ∧
    (toyPuts.filterMap fun p => p.o.id.bind idSequence).Nodup ∧ toyAskMeanwhile P ms toyPuts .toy (newQuery [98, 46, 99]) ∧
    (ms ++ P.puts.filterMap (Spec.returned .toy)).length = 4 ∧
    (P.db.get .toy .toy (newQuery [98, 46, 99]) []).2 = .out (.ok [[9, 9, 9, 9], [4, 4, 4, 4], [1, 1, 1, 1]]) := by
  have h : ((toyStory toyBefore).map fun x =>
      let P := Par.run .toy ⟨x.1, toyPuts⟩ toyHalf
      decide (x.1.seq.toNat + toyHalf.length ≤ 255 * 524287 ∧ toyAskMeanwhile P x.2.1 toyPuts .toy (newQuery [98, 46, 99]) ∧
        (x.2.1 ++ P.puts.filterMap (Spec.returned .toy)).length = 4 ∧
        (P.db.get .toy .toy (newQuery [98, 46, 99]) []).2 = .out (.ok [[9, 9, 9, 9], [4, 4, 4, 4], [1, 1, 1, 1]]))) = some true := by decide +kernel
  rw [Option.map_eq_some_iff] at h
  obtain ⟨x, h1, h2⟩ := h
  obtain ⟨h3, h4, h5, h6⟩ := of_decide_eq_true h2
  exact ⟨x.1, x.2.1, x.2.2, _, toyStory_story h1, rfl, h3, toyPuts_fresh _ _, by decide +kernel, h4, h5, h6⟩

/-! ## With a sync or a rotation meanwhile -/

/-- A step of a put, or any other call or background work. -/
inductive ParAct where
  | go (i : Nat)
  | call (op : DbOp)

def Par.act (v : DbEnv) (P : Par) : ParAct → Option (Par × List DbRes)
  | .go i => some (P.go v i, [])
  | .call op => (P.db.step v op).map fun x => (⟨x.1, P.puts⟩, [x.2])

def Par.acts (v : DbEnv) : Par → List ParAct → Option (Par × List DbRes)
  | P, [] => some (P, [])
  | P, a :: as => (P.act v a).bind fun x => (Par.acts v x.1 as).map fun y => (y.1, x.2 ++ y.2)

/-- Two puts on a new database. -/
def toyActs (v : DbEnv) (ps : List Putting) (as : List ParAct) : Option (Par × List DbRes) :=
  (openDb v {} .toy .toy 5000 {}).db?.bind fun s => Par.acts v ⟨s, ps⟩ as

def Par.allOk (P : Par) : Bool := P.puts.all fun p => match p.pc with | .done _ _ .ok => true | _ => false

def stepsOf (i n : Nat) : List ParAct := List.replicate n (.go i)
def toyGet (topic : Bytes) : ParAct := .call (.get .toy (newQuery topic) [])

/-- The first put returns. The second has looked up its block when the block is written to the log and synced, which gives the block
back; the put then writes its message into it and returns without an error. -/
def toyLost : List ParAct :=
  stepsOf 0 7 ++ stepsOf 1 4 ++ [.call (.write 5001 5000), .call (.rotate 6000), .call (.sync .toy)] ++ stepsOf 1 3

/-- C79 with a sync meanwhile is false. Both puts, into the same topic, have returned without an error. The message of the second is
lost: Gets of the topic fail from then on and return nothing, also the message that was put before, and also after the next sync. After
closing and reopening only the other message is there. -/
theorem C79_lost_violated :
    ((toyActs .toy [toyPutting [97] 1, toyPutting [97] 2] (toyLost ++ [toyGet [97], .call (.write 6001 6000), .call (.rotate 7000), .call (.sync .toy), toyGet [97]])).map
      fun x => (x.1.allOk, x.2.drop 3)) =
      some (true, [.got (.out (.err [])), .done, .done, .out .ok, .got (.out (.err []))]) ∧
    ((toyActs .toy [toyPutting [97] 1, toyPutting [97] 2] (toyLost ++ [.call (.write 6001 6000), .call (.rotate 7000), .call (.sync .toy), .call (.close 7001)])).bind
      fun x => (toyOpen {} 8000 x.1.db.disk).bind fun s => (s.run .toy [.get .toy (newQuery [97]) []]).map fun y => (x.1.allOk, y.1.count, y.2)) =
      some (true, 1, [.got (.out (.ok [[1, 1, 1, 1]]))]) := by
  decide +kernel

/-- The shards of the in-memory store as memdb/db_internal.go:39 and 125 have them. -/
def DbEnv.toy27 : DbEnv := { DbEnv.toy with mem := { DbEnv.toy.mem with shard := fun k => (Flea.init k).pick 27 } }

/-- The first put has read the time id when the tiny log is rotated. The second put begins and returns, then the first goes on. -/
def toyUnseen : List ParAct := stepsOf 0 3 ++ [.call (.rotate 6000)] ++ stepsOf 1 7 ++ stepsOf 0 4

/-- C79 with a rotation meanwhile is false. Both puts have returned without an error and their sequences, 1 and 2, fall into the same of the 27
shards. The Get for the first message fails: the filter of the newer block was made before the message was put and the search stops
there. Once the blocks are synced, the message is found. -/
theorem C79_unseen_violated :
    ((toyActs .toy27 [toyPutting [97] 1, toyPutting [98] 2] (toyUnseen ++ [toyGet [97], toyGet [98], .call (.write 5001 5000), .call (.write 6001 6000),
      .call (.rotate 7000), .call (.sync .toy), toyGet [97]])).map fun x => (x.1.allOk, x.2.drop 1)) =
      some (true, [.got (.out (.err [])), .got (.out (.ok [[2, 2, 2, 2]])), .done, .done, .done, .out .ok, .got (.out (.ok [[1, 1, 1, 1]]))]) := by
  decide +kernel

end Verif
